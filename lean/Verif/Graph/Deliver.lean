import Verif.Graph.DeliverSpec
import Verif.Graph.DivideSpec
import Verif.Graph.ExtractSpec
import Verif.Graph.MergeBelts
import Verif.Graph.GrowExpand
/-!
# Networks that are partly expanded
-/

namespace Satis.Graph
open Satis Satis.Cost

/-- The splitters from which belts lead back into a node of value `v` after an expansion. -/
def backs (v : ℚ) : Expand ℚ → List (ℕ × ℕ)
  | .divide d => match findNML d with
    | .ok (n, m, l, _) => Spec.places n m [] (gsel n m l l)
    | .error _ => []
  | .extract c => match findNML (v.num.toNat / Nat.gcd v.num.toNat c.num.toNat) with
    | .ok (n, m, l, _) => Spec.places n m [] (gsel n m l l)
    | .error _ => []
  | _ => []

/-- The splitters from which belts lead from a node of value `v` to its child of value `w` after the extraction of `c`. -/
def forth (v c w : ℚ) : List (ℕ × ℕ) :=
  let g := Nat.gcd v.num.toNat c.num.toNat
  let d := v.num.toNat / g
  let e := c.num.toNat / g
  match findNML d with
  | .ok (n, m, l, _) =>
    if w = c then Spec.places n m (gsel n m l l) (gsel n m e e) else Spec.places n m (gsel n m l l ++ gsel n m e e) (gsel n m (d - e) (d - e))
  | .error _ => []

/-- The splitters from which belts will lead back into the node. -/
def loops (h : Heap ℚ) (a : Addr) : List (ℕ × ℕ) := (h.get a).expands.flatMap (backs (h.get a).value)

/-- Belts that may enter a node. -/
def cap (roots : List Addr) (a : Addr) : Nat := if a ∈ roots then 2 else 3

/-- No belt gets lost when belts from `xs` and those that will lead back into the node are merged. -/
def Lodges {α : Type} (t : Nat) (h : Heap ℚ) (a : Addr) (xs : List α) : Prop := Parted t (xs.map Sum.inl ++ (loops h a).map Sum.inr)

/-- What a node does with the flow that passes through it, and what is still to be done for that. `Z` are nodes where belts may be merged that come
from machines with other belts. -/
inductive Outlet (Z : Addr → Prop) (speeds : List Nat) (roots : List Addr) (h : Heap ℚ) (T : Addr → ℚ) (f : Addr → Addr → ℚ) (a : Addr) :
    List (Expand ℚ) → Prop
  | leaf : (h.get a).children = [] → T a = (h.get a).value → Outlet Z speeds roots h T f a []
  | share : (h.get a).children ≠ [] → (h.get a).children.length ≤ 3 → (∀ c ∈ (h.get a).children, f a c = T a / (h.get a).children.length) →
      Outlet Z speeds roots h T f a []
  | belt (x y : Addr) : (h.get a).children = [x, y] → x ≠ y → f a x + f a y = T a → (∃ s ∈ speeds, f a x = (s : ℚ) ∨ f a y = (s : ℚ)) →
      Outlet Z speeds roots h T f a []
  | divide (d : Nat) : DivideInput h a d → T a = (h.get a).value → (a ∈ roots ↔ (h.get a).parents = []) →
      (∀ c ∈ (h.get a).children, f a c = (h.get c).value ∧ (h.get c).parents = [a] ∧ c ∉ roots ∧ Lodges 3 h c [()]) →
      Outlet Z speeds roots h T f a [.divide d]
  | extract (v c : Nat) (x y : Addr) : ExtractInput h a x y v c → T a = (h.get a).value → (a ∈ roots ↔ (h.get a).parents = []) →
      (∀ z ∈ (h.get a).children, f a z = (h.get z).value ∧ (h.get z).parents = [a] ∧ z ∉ roots ∧ Lodges 3 h z (forth v c (h.get z).value) ∧
        (Z z ∨ (forth v c (h.get z).value).length + (loops h z).length ≤ 3 ∨ (forth v c (h.get z).value).length ≤ 1)) →
      Outlet Z speeds roots h T f a [.extract c]

/-- A merge is pending for the node, of belts that lead nowhere else. -/
structure Gathers (roots : List Addr) (h : Heap ℚ) (a : Addr) : Prop where
  many : 3 < (h.get a).parents.length
  nodup : (h.get a).parents.Nodup
  only : ∀ p ∈ (h.get a).parents, p ≠ a ∧ (h.get p).children = [a] ∧ 0 < (h.get p).value
  inner : a ∉ roots

/-- The node does not share evenly. -/
def Skewed (h : Heap ℚ) (T : Addr → ℚ) (f : Addr → Addr → ℚ) (a : Addr) : Prop :=
  ∃ c ∈ (h.get a).children, f a c ≠ T a / (h.get a).children.length

/-- A pending division or extraction of `b` that has `a` below it. -/
def Below (h : Heap ℚ) (b a : Addr) : Prop := a ∈ (h.get b).children ∧ ∃ e ∈ (h.get b).expands, ∀ t, e ≠ .merge t

/-- A node that has a pending division or extraction above it. -/
def Above (h : Heap ℚ) (U : Addr → Prop) (a : Addr) : Prop := ∃ b, U b ∧ Below h b a

/-- If belts are merged at the node then none of them comes from a machine that has other belts. -/
def Easy (roots : List Addr) (h : Heap ℚ) (a : Addr) : Prop :=
  (h.get a).parents.length + (loops h a).length ≤ cap roots a ∨ (h.get a).parents.length ≤ 1 ∨ ∀ p ∈ (h.get a).parents, (h.get p).children = [a]

/-- A division or an extraction is pending for the node. -/
def Pends (h : Heap ℚ) (a : Addr) : Prop := ∃ e ∈ (h.get a).expands, ∀ t, e ≠ .merge t

/-- What passes through a node of value `v` once the division or the extraction pending for it is carried out: its value and what is led back. -/
def charge (v : ℚ) : Expand ℚ → ℚ
  | .divide d => match findNML d with
    | .ok (_, _, l, _) => v + l * v / d
    | .error _ => v
  | .extract c => match findNML (v.num.toNat / Nat.gcd v.num.toNat c.num.toNat) with
    | .ok (_, _, l, _) => v + l * (Nat.gcd v.num.toNat c.num.toNat : ℕ)
    | .error _ => v
  | _ => v

/-- Nodes carry what they are labelled with; `y` are the nodes with divisions and extractions and what they carry after these. -/
structure Labelled (y : Addr → Option ℚ) (roots : List Addr) (h : Heap ℚ) (U : Addr → Prop) (T : Addr → ℚ) (f : Addr → Addr → ℚ) : Prop where
  label : ∀ a, U a → T a = (h.get a).value ∧ (y a ≠ none → Pends h a) ∨ ¬ Pends h a ∧ y a = some (T a)
  owed : ∀ a, U a → ∀ e ∈ (h.get a).expands, (∀ t, e ≠ .merge t) → y a = some (charge (h.get a).value e)
  fresh : ∀ a, h.next ≤ a → y a = none
  /-- a belt that carries something else than the label of the machine tells is the first that enters a node, and will not be merged -/
  front : ∀ a, U a → ∀ p ∈ (h.get a).parents, (y p ≠ none ∨ Skewed h T f p) → a ∉ roots ∧ (h.get a).parents.head? = some p
  tidy : ∀ a, U a → Above h U a ∨ Together ((h.get a).parents.map Sum.inl ++ (loops h a).map Sum.inr)
  tidyOut : ∀ a, U a → ∀ c, .extract c ∈ (h.get a).expands → ∀ z ∈ (h.get a).children,
    Together ((forth (h.get a).value c (h.get z).value).map Sum.inl ++ (loops h z).map Sum.inr)
  tidyDiv : ∀ a, U a → ∀ d, .divide d ∈ (h.get a).expands → ∀ z ∈ (h.get a).children, Together (loops h z)

/-- What is known about the flows of a network that is expanded: bounds, and which nodes carry something else than their labels tell. -/
structure Terms where
  bound : ℚ → Prop
  book : Option (Addr → Option ℚ)

/-- The nodes `U` form a network of which some parts are expanded and some are not. -/
structure Mixed (Z : Addr → Prop) (Q : Terms) (speeds : List Nat) (roots : List Addr) (supply : Addr → ℚ) (h : Heap ℚ) (U : Addr → Prop)
    (T : Addr → ℚ) (f : Addr → Addr → ℚ) : Prop where
  region : Region h U
  levels : ∀ a, U a → (h.get a).level ≠ none
  nonneg : ∀ a, U a → 0 ≤ (h.get a).value
  apart : ∀ a, U a → a ∉ (h.get a).parents
  top : ∀ r ∈ roots, U r
  dry : ∀ a, a ∉ roots → supply a = 0
  count : ∀ a b, U a → U b → (h.get a).children.count b = (h.get b).parents.count a
  intake : ∀ a, U a → T a = supply a + ((h.get a).parents.map fun p => f p a).sum
  jobs : ∀ a, U a → ∃ mg es post, (h.get a).expands = mg ++ es ++ post ∧ Outlet Z speeds roots h T f a es ∧
    (mg = [.merge 3] ∧ Gathers roots h a ∧ post = [] ∨ mg = [] ∧ (∀ e ∈ post, e = .merge (cap roots a)) ∧
      ((h.get a).parents.length ≤ cap roots a ∨ post ≠ []) ∧ (Z a ∨ post = []))
  fits : ∀ a, U a → Above h U a ∨ Lodges (cap roots a) h a (h.get a).parents
  easy : ∀ a, U a → Z a ∨ Easy roots h a
  paid : ∀ r ∈ roots, 0 < supply r
  pos : ∀ a, U a → ∀ c ∈ (h.get a).children, 0 < f a c
  under : ∀ b, Q.bound b → ∀ a, U a → T a ≤ b
  /-- nodes that do not share evenly are not in loops -/
  rank : ∃ ρ : Addr → ℤ, ∀ a, U a → ∀ c ∈ (h.get a).children, ρ a ≤ ρ c ∧ (Skewed h T f a → ρ a < ρ c)
  labels : ∀ y, Q.book = some y → Labelled y roots h U T f

theorem untouched_le {t n : Nat} (h : t < n) : untouched t n ≤ t - 1 := by
  unfold untouched
  rw [if_neg (by omega)]
  omega

theorem untouched_pos {n : Nat} (h : 3 < n) : 1 ≤ untouched 3 n := by
  unfold untouched
  rw [if_neg (by omega)]
  omega

theorem parted_few {α : Type} {t : Nat} {l : List α} (h : l.length ≤ t) : Parted t l := by
  unfold Parted untouched
  rw [if_pos h, List.drop_length]
  simp

theorem Parted.map {α β : Type} {t : Nat} {l : List α} (P : Parted t l) (g : α → β) (hg : ∀ x ∈ l, ∀ y ∈ l, g x = g y → x = y) :
    Parted t (l.map g) := by
  unfold Parted at P ⊢
  rw [List.length_map, ← List.map_take, ← List.map_drop]
  intro b h1 h2
  obtain ⟨x, hx, rfl⟩ := List.mem_map.1 h1
  obtain ⟨y, hy, e⟩ := List.mem_map.1 h2
  have := hg y (List.mem_of_mem_drop hy) x (List.mem_of_mem_take hx) e
  subst this
  exact P hx hy

/-- Belts from different machines, of which those that stay are some. -/
theorem parted_nodup {α β : Type} {t : Nat} {xs : List α} {ls : List β} (hx : xs.Nodup) (h : t - 1 ≤ xs.length) :
    Parted t (xs.map Sum.inl ++ ls.map (Sum.inr : β → α ⊕ β)) := by
  by_cases q : (xs.map Sum.inl ++ ls.map (Sum.inr : β → α ⊕ β)).length ≤ t
  · exact parted_few q
  · have hk := untouched_le (Nat.lt_of_not_le q)
    unfold Parted
    generalize untouched t _ = k at hk ⊢
    rw [List.take_append_of_le_length (by simp; omega), List.drop_append_of_le_length (by simp; omega)]
    intro b h1 h2
    rw [← List.map_take] at h1
    obtain ⟨x, hx', rfl⟩ := List.mem_map.1 h1
    rcases List.mem_append.1 h2 with w | w
    · rw [← List.map_drop] at w
      obtain ⟨y, hy, e⟩ := List.mem_map.1 w
      cases e
      exact (List.disjoint_take_drop hx le_rfl) hx' hy
    · simp at w

theorem Lodges.map {α β : Type} {t : Nat} {h : Heap ℚ} {a : Addr} {xs : List α} (L : Lodges t h a xs) (g : α → β)
    (hg : ∀ x ∈ xs, ∀ y ∈ xs, g x = g y → x = y) : Lodges t h a (xs.map g) := by
  have := Parted.map L (Sum.map g id) (fun x hx y hy e => by
    rcases x with x | x <;> rcases y with y | y <;> simp at hx hy e ⊢
    · exact hg x hx y hy e
    · exact e)
  unfold Lodges
  simpa [List.map_append, Function.comp_def] using this

theorem Lodges.congr {α : Type} {t : Nat} {h h' : Heap ℚ} {a : Addr} {xs : List α} (L : Lodges t h a xs) (hl : loops h' a = loops h a) :
    Lodges t h' a xs := by
  unfold Lodges
  rw [hl]
  exact L

theorem loops_congr {h h' : Heap ℚ} {a : Addr} (hv : (h'.get a).value = (h.get a).value) {tag : List (Expand ℚ)}
    (he : (h'.get a).expands = (h.get a).expands ++ tag) (ht : ∀ e ∈ tag, ∃ t, e = .merge t) : loops h' a = loops h a := by
  unfold loops
  rw [he, hv, List.flatMap_append]
  have : tag.flatMap (backs (h.get a).value) = [] := by
    rw [List.flatMap_eq_nil_iff]
    intro e hx
    obtain ⟨t, rfl⟩ := ht e hx
    rfl
  rw [this, List.append_nil]

theorem loops_merges {h : Heap ℚ} {a : Addr} (ht : ∀ e ∈ (h.get a).expands, ∃ t, e = .merge t) : loops h a = [] := by
  unfold loops
  rw [List.flatMap_eq_nil_iff]
  intro e hx
  obtain ⟨t, rfl⟩ := ht e hx
  rfl

theorem loops_nil {h : Heap ℚ} {a : Addr} (ht : (h.get a).expands = []) : loops h a = [] := loops_merges (by rw [ht]; simp)

theorem cap_ne {roots : List Addr} {a : Addr} (h : a ∉ roots) : cap roots a = 3 := if_neg h

theorem cap_bounds (roots : List Addr) (a : Addr) : 2 ≤ cap roots a ∧ cap roots a ≤ 3 := by
  unfold cap
  split <;> omega

/-- What is pending besides merges. -/
theorem Outlet.below {Z : Addr → Prop} {speeds : List Nat} {roots : List Addr} {h : Heap ℚ} {T : Addr → ℚ} {f : Addr → Addr → ℚ} {a : Addr}
    {es : List (Expand ℚ)} (O : Outlet Z speeds roots h T f a es) (he : es ≠ []) :
    (∃ e, es = [e] ∧ ∀ t, e ≠ .merge t) ∧ 2 ≤ (h.get a).children.length ∧ ∀ c ∈ (h.get a).children, c ≠ a ∧ (h.get c).parents = [a] ∧ c ∉ roots := by
  cases O with
  | leaf => exact absurd rfl he
  | share => exact absurd rfl he
  | belt => exact absurd rfl he
  | divide d q1 q2 q3 q4 =>
    exact ⟨⟨_, rfl, by simp⟩, by rw [q1.count]; exact q1.two, fun c hc => ⟨q1.ne c hc, (q4 c hc).2.1, (q4 c hc).2.2.1⟩⟩
  | extract v c x y q1 q2 q3 q4 =>
    refine ⟨⟨_, rfl, by simp⟩, by rw [q1.children]; simp, fun c hc => ⟨?_, (q4 c hc).2.1, (q4 c hc).2.2.1⟩⟩
    rw [q1.children] at hc
    simp only [List.mem_cons, List.not_mem_nil, or_false] at hc
    rcases hc with rfl | rfl
    · exact q1.left.2
    · exact q1.right.2

theorem sum_by_count {S l : List Addr} (hS : S.Nodup) (hl : ∀ x ∈ l, x ∈ S) (g : Addr → ℚ) :
    (l.map g).sum = (S.map fun a => (l.count a : ℚ) * g a).sum := by
  induction l with
  | nil => simp
  | cons x l ih =>
    have hx := hl x (by simp)
    have h1 := ih fun y hy => hl y (by simp [hy])
    have h2 := sum_ite_eq hS hx g
    rw [List.map_cons, List.sum_cons, h1, ← h2, ← List.sum_map_add]
    congr 1
    apply List.map_congr_left
    intro a _
    rw [List.count_cons]
    by_cases q : a = x
    · subst q
      simp
      ring
    · have q' : x ≠ a := fun e => q e.symm
      simp [q, q']

theorem length_by_count {h : Heap ℚ} {S l : List Addr} {x : Addr} (hS : S.Nodup) (hl : ∀ p ∈ l, p ∈ S)
    (hc : ∀ a ∈ S, (h.get a).children.count x = l.count a) : l.length = belts h S x := by
  have h1 := sum_by_count hS hl fun _ => 1
  have h2 : ((belts h S x : ℕ) : ℚ) = (S.map fun a => (l.count a : ℚ) * 1).sum := by
    unfold belts
    rw [Nat.cast_list_sum, List.map_map]
    congr 1
    apply List.map_congr_left
    intro a ha
    simp [hc a ha]
  rw [← h2] at h1
  simp at h1
  exact_mod_cast h1

/-- The same node after changes elsewhere. -/
theorem Outlet.keep {Z Z' : Addr → Prop} {speeds : List Nat} {roots : List Addr} {h h' : Heap ℚ} {T T' : Addr → ℚ} {f f' : Addr → Addr → ℚ} {a : Addr}
    {es : List (Expand ℚ)} (O : Outlet Z speeds roots h T f a es) (hn : h.next ≤ h'.next) (hc : (h'.get a).children = (h.get a).children)
    (hv : (h'.get a).value = (h.get a).value) (hT : T' a = T a) (hf : ∀ c ∈ (h.get a).children, f' a c = f a c)
    (hp : es ≠ [] → ((h.get a).parents = [] ↔ (h'.get a).parents = []) ∧ ∀ c ∈ (h.get a).children, (h'.get c).value = (h.get c).value ∧
      (h'.get c).parents = (h.get c).parents ∧ (h'.get c).expands = (h.get c).expands ∧ (Z c → Z' c)) :
    Outlet Z' speeds roots h' T' f' a es := by
  have hloops : es ≠ [] → ∀ c ∈ (h.get a).children, loops h' c = loops h c := fun q c hc => by
    unfold loops
    rw [((hp q).2 c hc).1, ((hp q).2 c hc).2.2.1]
  cases O with
  | leaf q1 q2 => exact .leaf (by rw [hc]; exact q1) (by rw [hT, hv]; exact q2)
  | share q1 q2 q3 =>
    refine .share (by rw [hc]; exact q1) (by rw [hc]; exact q2) (fun c q => ?_)
    rw [hc] at q ⊢
    rw [hf c q, hT]
    exact q3 c q
  | belt x y q1 q2 q3 q4 =>
    have hx := hf x (by rw [q1]; simp)
    have hy := hf y (by rw [q1]; simp)
    exact .belt x y (by rw [hc]; exact q1) q2 (by rw [hx, hy, hT]; exact q3) (by rw [hx, hy]; exact q4)
  | divide d q1 q2 q3 q4 =>
    obtain ⟨w1, w2⟩ := hp (by simp)
    refine .divide d ⟨q1.inside.trans_le hn, by rw [hv]; exact q1.nonneg, q1.two, by rw [hc]; exact q1.count, by rw [hc]; exact q1.nodup,
      fun c q => ?_, fun c q => ?_, fun c q => ?_⟩ (by rw [hT, hv]; exact q2) (by rw [← w1]; exact q3) (fun c q => ?_)
    · rw [hc] at q; exact (q1.lt c q).trans_le hn
    · rw [hc] at q; exact q1.ne c q
    · rw [hc] at q; rw [(w2 c q).1, hv]; exact q1.share c q
    · rw [hc] at q
      rw [hf c q, (w2 c q).1, (w2 c q).2.1]
      obtain ⟨u1, u2, u3, u4⟩ := q4 c q
      exact ⟨u1, u2, u3, u4.congr (hloops (by simp) c q)⟩
  | extract v c x y q1 q2 q3 q4 =>
    obtain ⟨w1, w2⟩ := hp (by simp)
    have hx := w2 x (by rw [q1.children]; simp)
    have hy := w2 y (by rw [q1.children]; simp)
    refine .extract v c x y ⟨q1.inside.trans_le hn, by rw [hv]; exact q1.value, q1.pos, q1.lt, by rw [hc]; exact q1.children,
      ⟨q1.left.1.trans_le hn, q1.left.2⟩, ⟨q1.right.1.trans_le hn, q1.right.2⟩, q1.ne, by rw [hx.1, hy.1]; exact q1.share⟩
      (by rw [hT, hv]; exact q2) (by rw [← w1]; exact q3) (fun c q => ?_)
    rw [hc] at q
    rw [hf c q, (w2 c q).1, (w2 c q).2.1, hloops (by simp) c q]
    obtain ⟨u1, u2, u3, u4, u5⟩ := q4 c q
    exact ⟨u1, u2, u3, u4.congr (hloops (by simp) c q), u5.imp (w2 c q).2.2.2 id⟩

/-- What carrying out the division or the extraction pending for a node does. -/
structure Spread (h h' : Heap ℚ) (node : Addr) (V : ℚ) (outs : List Addr) : Prop where
  next : h.next ≤ h'.next
  arity : ∀ a ∈ made h h' node, (h'.get a).children.length = 2 ∨ (h'.get a).children.length = 3
  closed : ∀ a ∈ made h h' node, ∀ c ∈ (h'.get a).children, c ∈ made h h' node ∨ c ∈ outs
  steady : ∀ a, h.next ≤ a → a < h'.next → handed h' (made h h' node) (flows h' node V) a = (h'.get a).value
  looped : (h.get node).value + handed h' (made h h' node) (flows h' node V) node = V
  served : ∀ x ∈ outs, handed h' (made h h' node) (flows h' node V) x = (h.get x).value
  links : ∀ c, c ∈ outs ∨ h.next ≤ c ∧ c < h'.next → (∀ p ∈ (h'.get c).parents, p ∈ made h h' node) ∧
    ∀ a ∈ made h h' node, (h'.get a).children.count c = (h'.get c).parents.count a
  back : ∃ ps, (h'.get node).parents = (h.get node).parents ++ ps ∧ node ∉ ps ∧ (∀ p ∈ ps, p ∈ made h h' node) ∧
    (∀ a ∈ made h h' node, (h'.get a).children.count node = ps.count a)
  reach : ∀ a, h.next ≤ a → a < h'.next → Reach h' [node] a
  frame : ∀ a, a < h.next → a ≠ node → a ∉ outs → h'.get a = h.get a
  keptOuts : ∀ a ∈ outs, (h'.get a).children = (h.get a).children ∧ (h'.get a).value = (h.get a).value
  tagged : ∀ a ∈ outs, ∃ tag, (h'.get a).expands = (h.get a).expands ++ tag ∧ (∀ e ∈ tag, e = .merge 3) ∧
    ((h'.get a).parents.length ≤ 3 ∧ tag = [] ∨ 3 < (h'.get a).parents.length ∧ tag ≠ [])
  fed : ∀ a ∈ outs, (h'.get a).parents ≠ []
  keptNode : (h'.get node).value = (h.get node).value
  quiet : ∀ a, h.next ≤ a → a < h'.next → (h'.get a).parents.length = 1 ∧ (h'.get a).expands = []

section
variable {Z : Addr → Prop} {Q : Terms} {speeds : List Nat} {roots : List Addr} {supply : Addr → ℚ} {h h' : Heap ℚ} {U : Addr → Prop} {T : Addr → ℚ} {f : Addr → Addr → ℚ}

theorem handed_by_count {S l : List Addr} {x : Addr} {F : Addr → ℚ} (hS : S.Nodup) (hl : ∀ p ∈ l, p ∈ S)
    (hc : ∀ a ∈ S, (h.get a).children.count x = l.count a) :
    (l.map fun p => F p / (h.get p).children.length).sum = handed h S F x := by
  rw [sum_by_count hS hl]
  unfold handed
  congr 1
  apply List.map_congr_left
  intro a ha
  rw [hc a ha]

theorem Mixed.spread (M : Mixed Z Q speeds roots supply h U T f) {node : Addr} (hU : U node) {V : ℚ} {outs : List Addr}
    (S : Spread h h' node V outs) (hch : (h.get node).children = outs) (hout : ∀ c ∈ outs, c ≠ node ∧ f node c = (h.get c).value ∧
      (h.get c).parents = [node] ∧ c ∉ roots) (hT : T node = (h.get node).value) (habove : ¬ Above h U node) (hV : 0 < V) (hVQ : ∀ b, Q.bound b → V ≤ b)
    (hpost : ∀ e ∈ (h'.get node).expands, e = .merge (cap roots node))
    (hfew : (h'.get node).parents.length ≤ cap roots node ∨ (h'.get node).expands ≠ []) (hfit : Parted (cap roots node) (h'.get node).parents)
    (hfitOut : ∀ c ∈ outs, Lodges 3 h c (h'.get c).parents)
    (hlight : ∀ c ∈ outs, Z c ∨ (h'.get c).parents.length + (loops h c).length ≤ 3 ∨ (h'.get c).parents.length ≤ 1) (R : Region h' (Within h U h'))
    (hbook : ∀ y, Q.book = some y → y node = some V ∧ Together (h'.get node).parents ∧
      ∀ c ∈ outs, Together ((h'.get c).parents.map Sum.inl ++ (loops h c).map Sum.inr))
    (hlead : ∀ c ∈ outs, node ∈ (h'.get c).parents → (h'.get c).parents.head? = some node)
    (hlev : ∀ a, Within h U h' a → (h'.get a).level ≠ none) :
    ∃ T' f', Mixed (fun a => Z a ∨ a = node) Q speeds roots supply h' (Within h U h') T' f' := by
  have hin := M.region.inside
  have hnode := hin node hU
  have hnext := S.next
  have hM : ∀ a, a ∈ made h h' node ↔ a = node ∨ h.next ≤ a ∧ a < h'.next := fun a => mem_made hnext
  have hnd := made_nodup (h := h) (h' := h') hnode
  have outU : ∀ c ∈ outs, U c := fun c hc => M.region.children node hU c (by rw [hch]; exact hc)
  have outLt : ∀ c ∈ outs, c < h.next := fun c hc => hin c (outU c hc)
  have outM : ∀ c ∈ outs, c ∉ made h h' node := fun c hc q => by
    rcases (hM c).1 q with q | q
    · exact (hout c hc).1 q
    · have := outLt c hc; omega
  have oldM : ∀ a, U a → a ≠ node → a ∉ made h h' node := fun a ha hne q => by
    rcases (hM a).1 q with q | q
    · exact hne q
    · have := hin a ha; omega
  -- the nodes that were there
  have kCh : ∀ a, U a → a ≠ node → (h'.get a).children = (h.get a).children := fun a ha hne => by
    by_cases q : a ∈ outs
    · exact (S.keptOuts a q).1
    · rw [S.frame a (hin a ha) hne q]
  have kVal : ∀ a, U a → (h'.get a).value = (h.get a).value := fun a ha => by
    by_cases q : a ∈ outs
    · exact (S.keptOuts a q).2
    · by_cases hne : a = node
      · subst hne; exact S.keptNode
      · rw [S.frame a (hin a ha) hne q]
  have kExp : ∀ a, U a → a ≠ node → a ∉ outs → (h'.get a).expands = (h.get a).expands := fun a ha hne q => by
    rw [S.frame a (hin a ha) hne q]
  have kPar : ∀ a, U a → a ≠ node → a ∉ outs → (h'.get a).parents = (h.get a).parents := fun a ha hne q => by
    rw [S.frame a (hin a ha) hne q]
  have kLoops : ∀ a, U a → a ≠ node → loops h' a = loops h a := fun a ha hne => by
    by_cases q : a ∈ outs
    · obtain ⟨tag, t1, t2, -⟩ := S.tagged a q
      exact loops_congr (kVal a ha) t1 fun e he => ⟨3, t2 e he⟩
    · exact loops_congr (tag := []) (kVal a ha) (by rw [kExp a ha hne q, List.append_nil]) (by simp)
  have quietN : ∀ a ∈ made h h' node, ∀ e ∈ (h'.get a).expands, e = .merge (cap roots node) := fun a hm e he => by
    rcases (hM a).1 hm with rfl | w
    · exact hpost e he
    · rw [(S.quiet a w.1 w.2).2] at he
      simp at he
  have nLoops : ∀ a ∈ made h h' node, loops h' a = [] := fun a hm => loops_merges fun e he => ⟨_, quietN a hm e he⟩
  obtain ⟨ps, hps, hpsN, hpsM, hpsC⟩ := S.back
  -- no edge from the node to itself
  have selfPar : (h.get node).parents.count node = 0 := by
    rw [← M.count node node hU hU, hch, List.count_eq_zero]
    exact fun q => (hout node q).1 rfl
  have parNe : ∀ p ∈ (h.get node).parents, p ≠ node := fun p hp e => by
    subst e
    exact absurd (List.count_pos_iff.2 hp) (by omega)
  have parOut : ∀ b, U b → ∀ p ∈ (h.get b).parents, p = node → b ∈ outs := fun b hb p hp e => by
    subst e
    have := M.count p b hU hb
    rw [hch] at this
    exact List.count_pos_iff.1 (by rw [this]; exact List.count_pos_iff.2 hp)
  obtain ⟨T', hT'⟩ : ∃ T' : Addr → ℚ, T' = fun a => if a ∈ made h h' node then flows h' node V a else T a := ⟨_, rfl⟩
  obtain ⟨f', hf'⟩ : ∃ f' : Addr → Addr → ℚ, f' = fun p c => if p ∈ made h h' node then T' p / (h'.get p).children.length else f p c := ⟨_, rfl⟩
  have TM : ∀ a ∈ made h h' node, T' a = flows h' node V a := fun a ha => by rw [hT']; exact if_pos ha
  have TO : ∀ a, a ∉ made h h' node → T' a = T a := fun a ha => by rw [hT']; exact if_neg ha
  have fM : ∀ a ∈ made h h' node, ∀ c, f' a c = T' a / (h'.get a).children.length := fun a ha c => by rw [hf']; exact if_pos ha
  have fO : ∀ a, a ∉ made h h' node → ∀ c, f' a c = f a c := fun a ha c => by rw [hf']; exact if_neg ha
  have sumM : ∀ (l : List Addr) (c : Addr), (∀ p ∈ l, p ∈ made h h' node) → (∀ a ∈ made h h' node, (h'.get a).children.count c = l.count a) →
      (l.map fun p => f' p c).sum = handed h' (made h h' node) (flows h' node V) c := fun l c h1 h2 => by
    rw [← handed_by_count (F := flows h' node V) hnd h1 h2]
    congr 1
    apply List.map_congr_left
    intro p hp
    rw [fM p (h1 p hp), TM p (h1 p hp)]
  have rootsLt : ∀ r ∈ roots, r < h.next := fun r hr => hin r (M.top r hr)
  have inM : ∀ b c, Within h U h' b → c ∈ (h'.get b).children → h.next ≤ c → b ∈ made h h' node := fun b c hb hc hcn => by
    by_contra q
    have hne : b ≠ node := fun e => q ((hM b).2 (.inl e))
    have hbU : U b := by
      rcases hb with w | w
      · exact w
      · exact absurd ((hM b).2 (.inr w)) q
    rw [kCh b hbU hne] at hc
    have := hin c (M.region.children b hbU c hc)
    omega
  have keyPos : ∀ a, Reach h' [node] a → Within h U h' a ∧ (a ∈ made h h' node → 0 < flows h' node V a ∧ flows h' node V a ≤ V) := by
    intro a ha
    induction ha with
    | root w =>
      rw [List.mem_singleton] at w
      subst w
      exact ⟨.inl hU, fun _ => by rw [flows, if_pos rfl]; exact ⟨hV, le_rfl⟩⟩
    | @child b c _ hc ih =>
      refine ⟨R.children b ih.1 c hc, fun hm => ?_⟩
      by_cases hcn : c = node
      · rw [hcn, flows, if_pos rfl]
        exact ⟨hV, le_rfl⟩
      have hnew := ((hM c).1 hm).resolve_left hcn
      have hbm : b ∈ made h h' node := inM b c ih.1 hc hnew.1
      obtain ⟨l1, l2⟩ := S.links c (.inr hnew)
      obtain ⟨p, hp⟩ := List.length_eq_one_iff.1 (S.quiet c hnew.1 hnew.2).1
      have hbp : b = p := by
        have := List.count_pos_iff.2 hc
        rw [l2 b hbm, hp, List.count_pos_iff, List.mem_singleton] at this
        exact this
      have hs := S.steady c hnew.1 hnew.2
      rw [← handed_by_count (F := flows h' node V) hnd l1 l2, hp, ← hbp] at hs
      simp only [List.map_cons, List.map_nil, List.sum_cons, List.sum_nil, add_zero] at hs
      rw [flows, if_neg hcn, ← hs]
      have har := S.arity b hbm
      obtain ⟨i1, i2⟩ := ih.2 hbm
      exact ⟨div_pos i1 (by exact_mod_cast (by omega : 0 < (h'.get b).children.length)),
        (div_le_self i1.le (by exact_mod_cast (by omega : 1 ≤ (h'.get b).children.length))).trans i2⟩
  have valM : ∀ a, h.next ≤ a → a < h'.next → 0 < (h'.get a).value := fun a h1 h2 => by
    have := ((keyPos a (S.reach a h1 h2)).2 ((hM a).2 (.inr ⟨h1, h2⟩))).1
    rw [flows, if_neg (by omega)] at this
    exact this
  refine ⟨T', f', R, hlev, ?_, ?_, fun r hr => .inl (M.top r hr), M.dry, ?_, ?_, ?_, ?_, ?_, M.paid, ?_, ?_, ?_, ?_⟩
  · -- values
    rintro a (ha | ha)
    · rw [kVal a ha]
      exact M.nonneg a ha
    · exact (valM a ha.1 ha.2).le
  · -- no belt from a node to itself
    intro a ha w
    by_cases q : a ∈ outs
    · exact outM a q ((S.links a (.inl q)).1 a w)
    · by_cases hne : a = node
      · subst hne
        rw [hps] at w
        rcases List.mem_append.1 w with w | w
        · exact parNe a w rfl
        · exact hpsN w
      · rcases ha with ha | ha
        · rw [kPar a ha hne q] at w
          exact M.apart a ha w
        · obtain ⟨p, hp⟩ := List.length_eq_one_iff.1 (S.quiet a ha.1 ha.2).1
          obtain ⟨l1, l2⟩ := S.links a (.inr ha)
          rw [hp, List.mem_singleton] at w
          subst w
          have : ∀ b, Reach h' [node] b → b ≠ a := by
            intro b hb
            induction hb with
            | root w => rw [List.mem_singleton.1 w]; omega
            | @child b c hb hc ih =>
              rintro rfl
              have h1 := List.count_pos_iff.2 hc
              rw [l2 b (inM b c (keyPos b hb).1 hc ha.1), hp, List.count_pos_iff, List.mem_singleton] at h1
              exact ih h1
          exact this a (S.reach a ha.1 ha.2) rfl
  · -- links
    intro a b ha hb
    have key : ∀ c, c ∈ outs ∨ h.next ≤ c ∧ c < h'.next → (h'.get a).children.count c = (h'.get c).parents.count a := fun c hc => by
      obtain ⟨l1, l2⟩ := S.links c hc
      by_cases q : a ∈ made h h' node
      · exact l2 a q
      · have hne : a ≠ node := fun e => q ((hM a).2 (.inl e))
        have haU : U a := by
          rcases ha with ha | ha
          · exact ha
          · exact absurd ((hM a).2 (.inr ha)) q
        rw [List.count_eq_zero.2 fun w => q (l1 a w), kCh a haU hne, List.count_eq_zero]
        intro w
        rcases hc with hc | hc
        · have := M.count a c haU (outU c hc)
          rw [(hout c hc).2.2.1] at this
          have h2 := List.count_pos_iff.2 w
          rw [this, List.count_pos_iff, List.mem_singleton] at h2
          exact hne h2
        · have := hin c (M.region.children a haU c w)
          omega
    rcases hb with hb | hb
    · by_cases q : b ∈ outs
      · exact key b (.inl q)
      · by_cases hbn : b = node
        · subst hbn
          rw [hps, List.count_append]
          by_cases w : a ∈ made h h' b
          · rw [hpsC a w]
            have : (h.get b).parents.count a = 0 := by
              rcases (hM a).1 w with rfl | w
              · exact selfPar
              · rw [List.count_eq_zero]
                intro w'
                have := hin a (M.region.parents b hU a w')
                omega
            omega
          · have hne : a ≠ b := fun e => w ((hM a).2 (.inl e))
            have haU : U a := by
              rcases ha with ha | ha
              · exact ha
              · exact absurd ((hM a).2 (.inr ha)) w
            rw [kCh a haU hne, M.count a b haU hU, List.count_eq_zero.2 fun w' => w (hpsM a w'), Nat.add_zero]
        · rw [kPar b hb hbn q]
          by_cases w : a ∈ made h h' node
          · rw [List.count_eq_zero.2 fun w' => ?_, List.count_eq_zero.2 fun w' => ?_]
            · rcases (hM a).1 w with rfl | w
              · exact q (parOut b hb a w' rfl)
              · have := hin a (M.region.parents b hb a w')
                omega
            · rcases S.closed a w b w' with w' | w'
              · exact oldM b hb hbn w'
              · exact q w'
          · have hne : a ≠ node := fun e => w ((hM a).2 (.inl e))
            have haU : U a := by
              rcases ha with ha | ha
              · exact ha
              · exact absurd ((hM a).2 (.inr ha)) w
            rw [kCh a haU hne]
            exact M.count a b haU hb
    · exact key b (.inr hb)
  · -- intake
    intro a ha
    by_cases q : a ∈ outs
    · have haU := outU a q
      obtain ⟨l1, l2⟩ := S.links a (.inl q)
      rw [sumM _ a l1 l2, S.served a q, TO a (outM a q), M.intake a haU, (hout a q).2.2.1]
      simp [(hout a q).2.1]
    · by_cases hne : a = node
      · subst hne
        have e1 : ((h.get a).parents.map fun p => f' p a).sum = ((h.get a).parents.map fun p => f p a).sum := by
          congr 1
          apply List.map_congr_left
          intro p hp
          exact fO p (oldM p (M.region.parents a hU p hp) (parNe p hp)) a
        rw [hps, List.map_append, List.sum_append, sumM ps a hpsM hpsC, e1, TM a ((hM a).2 (.inl rfl)), flows, if_pos rfl]
        have := S.looped
        have := M.intake a hU
        linarith
      · rcases ha with ha | ha
        · have e1 : ((h.get a).parents.map fun p => f' p a).sum = ((h.get a).parents.map fun p => f p a).sum := by
            congr 1
            apply List.map_congr_left
            intro p hp
            exact fO p (oldM p (M.region.parents a ha p hp) fun e => q (parOut a ha p hp e)) a
          rw [kPar a ha hne q, e1, TO a (oldM a ha hne)]
          exact M.intake a ha
        · obtain ⟨l1, l2⟩ := S.links a (.inr ha)
          have hm := (hM a).2 (.inr ha)
          rw [sumM _ a l1 l2, S.steady a ha.1 ha.2, TM a hm, flows, if_neg hne, M.dry a fun w => by have := rootsLt a w; omega]
          ring
  · -- what is to be done
    intro a ha
    by_cases hm : a ∈ made h h' node
    · refine ⟨[], [], (h'.get a).expands, rfl, ?_, .inr ⟨rfl, ?_⟩⟩
      · have har := S.arity a hm
        refine .share (fun e => ?_) (by omega) (fun c _ => fM a hm c)
        rw [e] at har
        simp at har
      · rcases (hM a).1 hm with rfl | w
        · exact ⟨hpost, hfew, .inl (.inr rfl)⟩
        · obtain ⟨w1, w2⟩ := S.quiet a w.1 w.2
          rw [w1, w2]
          have := (cap_bounds roots a).1
          exact ⟨by simp, .inl (by omega), .inr rfl⟩
    · have hne : a ≠ node := fun e => hm ((hM a).2 (.inl e))
      have haU : U a := by
        rcases ha with ha | ha
        · exact ha
        · exact absurd ((hM a).2 (.inr ha)) hm
      obtain ⟨mg, es, post, h1, h2, h3⟩ := M.jobs a haU
      have hout2 : Outlet (fun a => Z a ∨ a = node) speeds roots h' T' f' a es := by
        refine h2.keep hnext (kCh a haU hne) (kVal a haU) (TO a hm) (fun c _ => fO a hm c) fun hes => ?_
        obtain ⟨⟨e, he, hem⟩, -, hkid⟩ := h2.below hes
        refine ⟨?_, fun c hc => ?_⟩
        · by_cases q : a ∈ outs
          · rw [(hout a q).2.2.1]
            simpa using S.fed a q
          · rw [kPar a haU hne q]
        · have hcU := M.region.children a haU c hc
          have hcn : c ≠ node := fun w => habove ⟨a, haU, w ▸ hc, e, by rw [h1, he]; simp, hem⟩
          have hco : c ∉ outs := fun q => by
            have := (hkid c hc).2.1
            rw [(hout c q).2.2.1] at this
            exact hne (List.singleton_inj.1 this).symm
          exact ⟨kVal c hcU, kPar c hcU hcn hco, kExp c hcU hcn hco, .inl⟩
      rcases h3 with ⟨h3, G, h4⟩ | ⟨h3, h4, h5, h6⟩
      · have q : a ∉ outs := fun q => by
          have := G.many
          rw [(hout a q).2.2.1] at this
          simp at this
        refine ⟨mg, es, post, by rw [kExp a haU hne q]; exact h1, hout2, .inl ⟨h3, ?_, h4⟩⟩
        have e := kPar a haU hne q
        refine ⟨by rw [e]; exact G.many, by rw [e]; exact G.nodup, fun p hp => ?_, G.inner⟩
        rw [e] at hp
        obtain ⟨g1, g2, g3⟩ := G.only p hp
        have hpU := M.region.parents a haU p hp
        have hpn : p ≠ node := fun w => q (parOut a haU p hp w)
        exact ⟨g1, by rw [kCh p hpU hpn]; exact g2, by rw [kVal p hpU]; exact g3⟩
      · by_cases q : a ∈ outs
        · obtain ⟨tag, t1, t2, t3⟩ := S.tagged a q
          have hc3 := cap_ne (hout a q).2.2.2
          refine ⟨[], es, post ++ tag, by rw [t1, h1, h3]; simp, hout2, .inr ⟨rfl, fun e he => ?_, ?_, ?_⟩⟩
          · rcases List.mem_append.1 he with w | w
            · exact h4 e w
            · rw [hc3]; exact t2 e w
          · rcases t3 with t3 | t3
            · exact .inl (by rw [hc3]; exact t3.1)
            · exact .inr (by simp [t3.2])
          · rcases h6 with h6 | h6
            · exact .inl (.inl h6)
            · rcases hlight a q with w | w
              · exact .inl (.inl w)
              · rcases t3 with ⟨-, t3⟩ | t3
                · exact .inr (by rw [h6, t3]; rfl)
                · omega
        · refine ⟨mg, es, post, by rw [kExp a haU hne q]; exact h1, hout2, .inr ⟨h3, h4, ?_, h6.imp .inl id⟩⟩
          rw [kPar a haU hne q]
          exact h5
  · -- no belt will be lost
    intro a ha
    by_cases hm : a ∈ made h h' node
    · refine .inr ?_
      unfold Lodges
      rw [nLoops a hm, List.map_nil, List.append_nil]
      rcases (hM a).1 hm with rfl | w
      · exact hfit.map _ fun x _ y _ e => Sum.inl_injective e
      · refine parted_few ?_
        have := (cap_bounds roots a).1
        rw [List.length_map, (S.quiet a w.1 w.2).1]
        omega
    · have hne : a ≠ node := fun e => hm ((hM a).2 (.inl e))
      have haU : U a := by
        rcases ha with ha | ha
        · exact ha
        · exact absurd ((hM a).2 (.inr ha)) hm
      by_cases q : a ∈ outs
      · rw [cap_ne (hout a q).2.2.2]
        exact .inr ((hfitOut a q).congr (kLoops a haU hne))
      · rcases M.fits a haU with ⟨b, hb, w1, e, w2, w3⟩ | w
        · have hbn : b ≠ node := fun w => q (by rw [← hch, ← w]; exact w1)
          refine .inl ⟨b, .inl hb, by rw [kCh b hb hbn]; exact w1, e, ?_, w3⟩
          by_cases qb : b ∈ outs
          · obtain ⟨tag, t1, -⟩ := S.tagged b qb
            rw [t1]
            exact List.mem_append_left _ w2
          · rw [kExp b hb hbn qb]
            exact w2
        · rw [kPar a haU hne q]
          exact .inr (w.congr (kLoops a haU hne))
  · -- which belts are merged
    intro a ha
    by_cases hm : a ∈ made h h' node
    · rcases (hM a).1 hm with rfl | w
      · exact .inl (.inr rfl)
      · exact .inr (.inr (.inl (by rw [(S.quiet a w.1 w.2).1])))
    · have hne : a ≠ node := fun e => hm ((hM a).2 (.inl e))
      have haU : U a := by
        rcases ha with ha | ha
        · exact ha
        · exact absurd ((hM a).2 (.inr ha)) hm
      by_cases q : a ∈ outs
      · rcases hlight a q with w | w | w
        · exact .inl (.inl w)
        · exact .inr (.inl (by rw [cap_ne (hout a q).2.2.2, kLoops a haU hne]; exact w))
        · exact .inr (.inr (.inl w))
      · rcases M.easy a haU with w | w | w | w
        · exact .inl (.inl w)
        · exact .inr (.inl (by rw [kPar a haU hne q, kLoops a haU hne]; exact w))
        · exact .inr (.inr (.inl (by rw [kPar a haU hne q]; exact w)))
        · refine .inr (.inr (.inr fun p hp => ?_))
          rw [kPar a haU hne q] at hp
          rw [kCh p (M.region.parents a haU p hp) fun e => q (parOut a haU p hp e)]
          exact w p hp
  · -- positive flows
    intro a ha c hc
    by_cases hm : a ∈ made h h' node
    · rw [fM a hm, TM a hm]
      have har := S.arity a hm
      refine div_pos ?_ (by exact_mod_cast (by omega : 0 < (h'.get a).children.length))
      rcases (hM a).1 hm with rfl | w
      · rw [flows, if_pos rfl]
        exact hV
      · exact ((keyPos a (S.reach a w.1 w.2)).2 hm).1
    · have hne : a ≠ node := fun e => hm ((hM a).2 (.inl e))
      have haU : U a := by
        rcases ha with ha | ha
        · exact ha
        · exact absurd ((hM a).2 (.inr ha)) hm
      rw [fO a hm]
      rw [kCh a haU hne] at hc
      exact M.pos a haU c hc
  · -- bounds
    intro b hb a ha
    by_cases hm : a ∈ made h h' node
    · rw [TM a hm]
      rcases (hM a).1 hm with rfl | w
      · rw [flows, if_pos rfl]
        exact hVQ b hb
      · exact ((keyPos a (S.reach a w.1 w.2)).2 hm).2.trans (hVQ b hb)
    · rw [TO a hm]
      refine M.under b hb a ?_
      rcases ha with ha | ha
      · exact ha
      · exact absurd ((hM a).2 (.inr ha)) hm
  · -- ranks
    obtain ⟨ρ, hρ⟩ := M.rank
    refine ⟨fun x => if h.next ≤ x then ρ node else ρ x, fun a ha c hc => ?_⟩
    have old : ∀ x, U x → (if h.next ≤ x then ρ node else ρ x) = ρ x := fun x hx => if_neg (by have := hin x hx; omega)
    have onMade : ∀ x ∈ made h h' node, (if h.next ≤ x then ρ node else ρ x) = ρ node := fun x hx => by
      rcases (hM x).1 hx with rfl | w
      · exact old x hU
      · exact if_pos w.1
    by_cases hm : a ∈ made h h' node
    · simp only
      rw [onMade a hm]
      refine ⟨?_, fun ⟨x, _, hx⟩ => absurd (fM a hm x) hx⟩
      rcases S.closed a hm c hc with w | w
      · rw [onMade c w]
      · rw [old c (outU c w)]
        exact (hρ node hU c (by rw [hch]; exact w)).1
    · have hne : a ≠ node := fun e => hm ((hM a).2 (.inl e))
      have haU : U a := by
        rcases ha with ha | ha
        · exact ha
        · exact absurd ((hM a).2 (.inr ha)) hm
      have kc := kCh a haU hne
      rw [kc] at hc
      simp only
      rw [old a haU, old c (M.region.children a haU c hc)]
      refine ⟨(hρ a haU c hc).1, fun ⟨x, hx, hx'⟩ => (hρ a haU c hc).2 ⟨x, by rw [← kc]; exact hx, ?_⟩⟩
      rw [fO a hm, TO a hm, kc] at hx'
      exact hx'
  · -- labels
    intro y hy
    have Y := M.labels y hy
    obtain ⟨b1, b3, b4⟩ := hbook y hy
    have nPends : ∀ a ∈ made h h' node, ¬ Pends h' a := fun a hm ⟨e, w1, w2⟩ => w2 _ (quietN a hm e w1)
    have oPends : ∀ a, U a → a ≠ node → (Pends h' a ↔ Pends h a) := fun a ha hne => by
      unfold Pends
      by_cases q : a ∈ outs
      · obtain ⟨tag, t1, t2, -⟩ := S.tagged a q
        rw [t1]
        constructor
        · rintro ⟨e, w1, w2⟩
          rcases List.mem_append.1 w1 with w1 | w1
          · exact ⟨e, w1, w2⟩
          · exact absurd (t2 e w1) (w2 3)
        · rintro ⟨e, w1, w2⟩
          exact ⟨e, List.mem_append_left _ w1, w2⟩
      · rw [kExp a ha hne q]
    have oOut : ∀ a, U a → a ≠ node → ∀ e ∈ (h'.get a).expands, (∀ t, e ≠ .merge t) → e ∈ (h.get a).expands := fun a ha hne e w1 w2 => by
      by_cases q : a ∈ outs
      · obtain ⟨tag, t1, t2, -⟩ := S.tagged a q
        rw [t1] at w1
        rcases List.mem_append.1 w1 with w1 | w1
        · exact w1
        · exact absurd (t2 e w1) (w2 3)
      · rw [kExp a ha hne q] at w1
        exact w1
    have part : ∀ a, Within h U h' a → a ∉ made h h' node → U a ∧ a ≠ node := fun a ha hm => by
      refine ⟨?_, fun e => hm ((hM a).2 (.inl e))⟩
      rcases ha with ha | ha
      · exact ha
      · exact absurd ((hM a).2 (.inr ha)) hm
    have newBad : ∀ p, h.next ≤ p → p < h'.next → ¬ (y p ≠ none ∨ Skewed h' T' f' p) := fun p h1 h2 w => by
      rcases w with w | ⟨c, -, w⟩
      · exact w (Y.fresh p h1)
      · exact w (fM p ((hM p).2 (.inr ⟨h1, h2⟩)) c)
    have oldBad : ∀ p, U p → p ≠ node → y p ≠ none ∨ Skewed h' T' f' p → y p ≠ none ∨ Skewed h T f p := fun p hp hne w => by
      refine w.imp id fun ⟨c, w1, w2⟩ => ⟨c, by rw [← kCh p hp hne]; exact w1, ?_⟩
      rw [fO p (oldM p hp hne), TO p (oldM p hp hne), kCh p hp hne] at w2
      exact w2
    refine ⟨fun a ha => ?_, fun a ha e w1 w2 => ?_, fun a ha => Y.fresh a (hnext.trans ha), fun a ha p hp bad => ?_, fun a ha => ?_,
      fun a ha c hc z hz => ?_, fun a ha d hd z hz => ?_⟩
    · by_cases hm : a ∈ made h h' node
      · rcases (hM a).1 hm with rfl | w
        · exact .inr ⟨nPends a hm, by rw [TM a hm, flows, if_pos rfl]; exact b1⟩
        · exact .inl ⟨by rw [TM a hm, flows, if_neg (by omega)], fun q => absurd (Y.fresh a w.1) q⟩
      · obtain ⟨haU, hne⟩ := part a ha hm
        rw [TO a hm, kVal a haU, oPends a haU hne]
        exact Y.label a haU
    · by_cases hm : a ∈ made h h' node
      · exact absurd ⟨e, w1, w2⟩ (nPends a hm)
      · obtain ⟨haU, hne⟩ := part a ha hm
        rw [kVal a haU]
        exact Y.owed a haU e (oOut a haU hne e w1 w2) w2
    · by_cases q : a ∈ outs
      · refine ⟨(hout a q).2.2.2, ?_⟩
        rcases (hM p).1 ((S.links a (.inl q)).1 p hp) with w | w
        · subst w
          exact hlead a q hp
        · exact absurd bad (newBad p w.1 w.2)
      · by_cases hne : a = node
        · subst hne
          rw [hps] at hp ⊢
          rcases List.mem_append.1 hp with w | w
          · obtain ⟨k1, k2⟩ := Y.front a hU p w (oldBad p (M.region.parents a hU p w) (parNe p w) bad)
            refine ⟨k1, ?_⟩
            rw [List.head?_append, k2]
            rfl
          · rcases (hM p).1 (hpsM p w) with w' | w'
            · subst w'
              exact absurd w hpsN
            · exact absurd bad (newBad p w'.1 w'.2)
        · rcases ha with ha | ha
          · rw [kPar a ha hne q] at hp ⊢
            exact Y.front a ha p hp (oldBad p (M.region.parents a ha p hp) (fun e => q (parOut a ha p hp e)) bad)
          · refine ⟨fun w => by have := rootsLt a w; omega, ?_⟩
            obtain ⟨p', hp'⟩ := List.length_eq_one_iff.1 (S.quiet a ha.1 ha.2).1
            rw [hp', List.mem_singleton] at hp
            rw [hp', hp]
            rfl
    · by_cases hm : a ∈ made h h' node
      · refine .inr ?_
        rw [nLoops a hm, List.map_nil, List.append_nil]
        rcases (hM a).1 hm with rfl | w
        · exact b3.map _ fun x _ y _ e => Sum.inl_injective e
        · refine together_few ?_
          rw [List.length_map, (S.quiet a w.1 w.2).1]
          omega
      · obtain ⟨haU, hne⟩ := part a ha hm
        rw [kLoops a haU hne]
        by_cases q : a ∈ outs
        · exact .inr (b4 a q)
        · rcases Y.tidy a haU with ⟨b, hb, w1, e, w2, w3⟩ | w
          · have hbn : b ≠ node := fun w => q (by rw [← hch, ← w]; exact w1)
            refine .inl ⟨b, .inl hb, by rw [kCh b hb hbn]; exact w1, ?_⟩
            exact (oPends b hb hbn).2 ⟨e, w2, w3⟩
          · rw [kPar a haU hne q]
            exact .inr w
    all_goals
      by_cases hm : a ∈ made h h' node
      · exact absurd ⟨_, ‹_ ∈ (h'.get a).expands›, by simp⟩ (nPends a hm)
      · obtain ⟨haU, hne⟩ := part a ha hm
        rw [kCh a haU hne] at hz
        have hzU := M.region.children a haU z hz
        have hx := oOut a haU hne _ ‹_ ∈ (h'.get a).expands› (by simp)
        have hzn : z ≠ node := fun e => habove ⟨a, haU, e ▸ hz, _, hx, by simp⟩
        rw [kLoops z hzU hzn]
        first
          | (rw [kVal a haU, kVal z hzU]; exact Y.tidyOut a haU c hx z hz)
          | exact Y.tidyDiv a haU d hx z hz

end

end Satis.Graph
