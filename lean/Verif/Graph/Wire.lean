import Verif.Graph.Expand
import Verif.Graph.Moves
/-!
# Adding nodes and edges: how the steps of an expansion change the heap
-/

namespace Satis.Graph
open Satis

/-- The children `a` gets from the edges `E`. -/
def outsOf (E : List (Addr × Addr)) (a : Addr) : List Addr := (E.filter fun e => decide (e.1 = a)).map Prod.snd

/-- The parents `c` gets from the edges `E`. -/
def insOf (E : List (Addr × Addr)) (c : Addr) : List Addr := (E.filter fun e => decide (e.2 = c)).map Prod.fst

@[simp] theorem outsOf_nil (a : Addr) : outsOf [] a = [] := rfl
@[simp] theorem insOf_nil (a : Addr) : insOf [] a = [] := rfl
theorem outsOf_append (E F : List (Addr × Addr)) (a : Addr) : outsOf (E ++ F) a = outsOf E a ++ outsOf F a := by simp [outsOf]
theorem insOf_append (E F : List (Addr × Addr)) (a : Addr) : insOf (E ++ F) a = insOf E a ++ insOf F a := by simp [insOf]
theorem mem_outsOf {E : List (Addr × Addr)} {a c : Addr} : c ∈ outsOf E a ↔ (a, c) ∈ E := by
  simp [outsOf]
theorem mem_insOf {E : List (Addr × Addr)} {a c : Addr} : a ∈ insOf E c ↔ (a, c) ∈ E := by
  simp [insOf]
theorem outsOf_eq_nil {E : List (Addr × Addr)} {a : Addr} (h : ∀ e ∈ E, e.1 ≠ a) : outsOf E a = [] := by
  rw [List.eq_nil_iff_forall_not_mem]
  intro c hc
  exact h _ (mem_outsOf.1 hc) rfl
theorem insOf_eq_nil {E : List (Addr × Addr)} {a : Addr} (h : ∀ e ∈ E, e.2 ≠ a) : insOf E a = [] := by
  rw [List.eq_nil_iff_forall_not_mem]
  intro c hc
  exact h _ (mem_insOf.1 hc) rfl
theorem count_outsOf (E : List (Addr × Addr)) (a c : Addr) : (outsOf E a).count c = E.count (a, c) := by
  induction E with
  | nil => rfl
  | cons e E ih =>
    obtain ⟨p, x⟩ := e
    unfold outsOf at ih ⊢
    by_cases hp : p = a
    · subst hp
      by_cases hx : x = c
      · subst hx; simp [ih]
      · rw [List.count_cons_of_ne (by simp [hx])]
        simp [hx, ih]
    · rw [List.count_cons_of_ne (by simp [hp])]
      simp [hp, ih]
theorem count_insOf (E : List (Addr × Addr)) (a c : Addr) : (insOf E c).count a = E.count (a, c) := by
  induction E with
  | nil => rfl
  | cons e E ih =>
    obtain ⟨p, x⟩ := e
    unfold insOf at ih ⊢
    by_cases hp : x = c
    · subst hp
      by_cases hx : p = a
      · subst hx; simp [ih]
      · rw [List.count_cons_of_ne (by simp [hx])]
        simp [hx, ih]
    · rw [List.count_cons_of_ne (by simp [hp])]
      simp [hp, ih]

/-- After the first `z` there are only `z` and nodes `Y`. -/
def Trails (Y : Addr → Prop) (z : Addr) (l : List Addr) : Prop := ∃ A B, l = A ++ B ∧ z ∉ A ∧ ∀ x ∈ B, x = z ∨ Y x

theorem Trails.none {Y : Addr → Prop} {z : Addr} {l : List Addr} (h : z ∉ l) : Trails Y z l := ⟨l, [], by simp, h, by simp⟩

theorem Trails.mono {Y Y' : Addr → Prop} {z : Addr} {l : List Addr} (h : Trails Y z l) (hY : ∀ x ∈ l, Y x → x = z ∨ Y' x) : Trails Y' z l := by
  obtain ⟨A, B, rfl, h1, h2⟩ := h
  exact ⟨A, B, rfl, h1, fun x hx => (h2 x hx).elim .inl fun w => hY x (List.mem_append_right _ hx) w⟩

/-- The edges `E` were added to the heap, and new nodes; nothing else happened. -/
structure Wired (h h' : Heap ℚ) (E : List (Addr × Addr)) : Prop where
  next : h.next ≤ h'.next
  uid : h'.nextUid = h.nextUid + (h'.next - h.next)
  inside : ∀ e ∈ E, e.1 < h'.next ∧ e.2 < h'.next
  children : ∀ a, a < h'.next → (h'.get a).children = (if a < h.next then (h.get a).children else []) ++ outsOf E a
  parents : ∀ a, a < h'.next → (h'.get a).parents = (if a < h.next then (h.get a).parents else []) ++ insOf E a
  keep : ∀ a, a < h.next → h'.get a = { h.get a with children := (h'.get a).children, parents := (h'.get a).parents }
  fresh : ∀ a, h.next ≤ a → a < h'.next →
    (h'.get a).id = h.nextUid + (a - h.next) ∧ (h'.get a).expands = [] ∧ (h'.get a).level ≠ none ∧ 0 ≤ (h'.get a).value

theorem Wired.refl (h : Heap ℚ) : Wired h h [] where
  next := le_rfl
  uid := by simp
  inside := by simp
  children a ha := by simp [ha]
  parents a ha := by simp [ha]
  keep _ _ := rfl
  fresh a h1 h2 := by omega

theorem Wired.value {h h' : Heap ℚ} {E : List (Addr × Addr)} (w : Wired h h' E) {a : Addr} (ha : a < h.next) :
    (h'.get a).value = (h.get a).value := by rw [w.keep a ha]

theorem Wired.trans {h h1 h2 : Heap ℚ} {E F : List (Addr × Addr)} (w : Wired h h1 E) (x : Wired h1 h2 F) : Wired h h2 (E ++ F) where
  next := w.next.trans x.next
  uid := by
    have := w.next
    have := x.next
    rw [x.uid, w.uid]
    omega
  inside e he := by
    rcases List.mem_append.1 he with he | he
    · have := w.inside e he
      have := x.next
      omega
    · exact x.inside e he
  children a ha := by
    rw [x.children a ha, outsOf_append, ← List.append_assoc]
    congr 1
    by_cases hlt : a < h1.next
    · rw [if_pos hlt, w.children a hlt]
    · have : ¬ a < h.next := by have := w.next; omega
      rw [if_neg hlt, if_neg this, outsOf_eq_nil fun e he (q : e.1 = a) => hlt (q ▸ (w.inside e he).1)]
      rfl
  parents a ha := by
    rw [x.parents a ha, insOf_append, ← List.append_assoc]
    congr 1
    by_cases hlt : a < h1.next
    · rw [if_pos hlt, w.parents a hlt]
    · have : ¬ a < h.next := by have := w.next; omega
      rw [if_neg hlt, if_neg this, insOf_eq_nil fun e he (q : e.2 = a) => hlt (q ▸ (w.inside e he).2)]
      rfl
  keep a ha := by
    have := w.next
    rw [x.keep a (by omega), w.keep a ha]
  fresh a h1' h2' := by
    by_cases ha : a < h1.next
    · obtain ⟨q1, q2, q3, q4⟩ := w.fresh a h1' ha
      rw [x.keep a ha]
      exact ⟨q1, q2, q3, q4⟩
    · obtain ⟨q1, q2⟩ := x.fresh a (by omega) h2'
      refine ⟨?_, q2⟩
      have := w.next
      rw [q1, w.uid]
      omega

theorem Wired.link {h : Heap ℚ} {p c : Addr} (hp : p < h.next) (hc : c < h.next) : Wired h (Graph.link h p c) [(p, c)] where
  next := le_rfl
  uid := by simp [Graph.link, Heap.modify, Heap.set]
  inside e he := by
    rw [List.mem_singleton] at he
    subst he
    exact ⟨hp, hc⟩
  children a ha := by
    have ha : a < h.next := ha
    simp only [Graph.link, Heap.get_modify, ha, if_true, outsOf, List.filter_cons, List.filter_nil]
    by_cases h1 : a = c <;> by_cases h2 : a = p
    · subst h1; subst h2; simp
    · have : ¬ p = a := fun q => h2 q.symm
      subst h1; simp [h2, this]
    · subst h2; simp [h1]
    · have : ¬ p = a := fun q => h2 q.symm
      simp [h1, h2, this]
  parents a ha := by
    have ha : a < h.next := ha
    simp only [Graph.link, Heap.get_modify, ha, if_true, insOf, List.filter_cons, List.filter_nil]
    by_cases h1 : a = c <;> by_cases h2 : a = p
    · subst h1; subst h2; simp
    · subst h1; simp [h2]
    · have : ¬ c = a := fun q => h1 q.symm
      subst h2; simp [h1, this]
    · have : ¬ c = a := fun q => h1 q.symm
      simp [h1, h2, this]
  keep a ha := by
    simp only [Graph.link, Heap.get_modify]
    by_cases h1 : a = c <;> by_cases h2 : a = p <;> simp [h1, h2]
    · subst h1; subst h2; simp
    · subst h1; simp [h2]
    · subst h2; simp [h1]
  fresh a h1 h2 := by
    have : a < h.next := h2
    omega

/-- The edges from `k` outputs of each node of `cur`, from output number `off` on, to the nodes `xs`. -/
def wire (k off : Nat) (cur xs : List Addr) : List (Addr × Addr) := xs.zipIdx.map fun x => (cur.getD ((off + x.2) / k) 0, x.1)

@[simp] theorem wire_nil (k off : Nat) (cur : List Addr) : wire k off cur [] = [] := rfl

theorem wire_append (k off : Nat) (cur xs ys : List Addr) :
    wire k off cur (xs ++ ys) = wire k off cur xs ++ wire k (off + xs.length) cur ys := by
  unfold wire
  rw [List.zipIdx_append, List.map_append]
  congr 1
  have : ∀ (l : List Addr) (s : Nat), (l.zipIdx (0 + s)).map (fun x => (cur.getD ((off + x.2) / k) 0, x.1)) =
      l.zipIdx.map fun x => (cur.getD ((off + s + x.2) / k) 0, x.1) := by
    intro l s
    rw [List.zipIdx_eq_map_add (i := 0 + s), List.map_map]
    apply List.map_congr_left
    intro x _
    simp only [Function.comp]
    congr 3
    omega
  exact this ys xs.length

theorem wire_singleton (k off : Nat) (cur : List Addr) (x : Addr) : wire k off cur [x] = [(cur.getD (off / k) 0, x)] := rfl

theorem item_ok {l : List Addr} {i : Nat} (hi : i < l.length) : item l i = .ok (l.getD i 0) := by
  unfold item
  rw [List.getD_eq_getElem?_getD, List.getElem?_eq_getElem hi]
  rfl

theorem getD_mem {l : List Addr} {i : Nat} (hi : i < l.length) : l.getD i 0 ∈ l := by
  rw [List.getD_eq_getElem?_getD, List.getElem?_eq_getElem hi]
  exact List.getElem_mem hi

theorem div_lt {k off j n c : Nat} (hk : 0 < k) (hj : j < n) (hc : off + n ≤ k * c) : (off + j) / k < c := by
  rw [Nat.div_lt_iff_lt_mul hk]
  rw [Nat.mul_comm]
  omega

theorem reroute_spec {k off : Nat} {target : Addr} {cur : List Addr} {h : Heap ℚ} (hk : 0 < k) (hcur : ∀ a ∈ cur, a < h.next)
    (ht : target < h.next) : ∀ count, off + count ≤ k * cur.length →
    ∃ h', reroute k off target cur h count = .ok h' ∧ h'.next = h.next ∧ Wired h h' (wire k off cur (List.replicate count target)) := by
  intro count
  induction count with
  | zero => intro _; exact ⟨h, rfl, rfl, Wired.refl h⟩
  | succ j ih =>
    intro hc
    obtain ⟨h1, e1, n1, w1⟩ := ih (by omega)
    have hi : (off + j) / k < cur.length := div_lt hk (by omega) hc
    refine ⟨Graph.link h1 (cur.getD ((off + j) / k) 0) target, ?_, n1, ?_⟩
    · simp only [reroute, e1, item_ok hi]
      rfl
    · have w2 : Wired h1 _ _ := Wired.link (h := h1) (p := cur.getD ((off + j) / k) 0) (c := target)
        (by rw [n1]; exact hcur _ (getD_mem hi)) (by rw [n1]; exact ht)
      have := w1.trans w2
      rw [List.replicate_succ', wire_append, List.length_replicate, wire_singleton]
      exact this

/-- A new node with the given level, hanging from `p`. -/
theorem Wired.newChild {h h1 : Heap ℚ} {p a : Addr} {value : ℚ} {level depth : Int}
    (e : newNode h value [] none (some level) = .ok (h1, a)) (hv : 0 ≤ value) (hp : p < h.next) :
    a = h.next ∧
    Wired h (((h1.modify a fun o => { o with levelsToAdd := -depth }).modify p fun o => { o with children := o.children ++ [a] }).modify a
      fun o => { o with parents := [p] }) [(p, a)] ∧ h1.next = h.next + 1 ∧ (h1.get a).value = value := by
  unfold newNode at e
  rw [if_neg (not_lt.2 hv)] at e
  simp only [Except.ok.injEq, Prod.mk.injEq, Heap.alloc] at e
  obtain ⟨e1, e2⟩ := e
  have e2 : h.next = a := e2
  subst e2
  subst e1
  refine ⟨rfl, ?_, rfl, by simp⟩
  have hpa : p ≠ h.next := by omega
  constructor
  · simp [Heap.modify, Heap.set]
  · simp [Heap.modify, Heap.set]
  · intro e he
    rw [List.mem_singleton] at he
    subst he
    simp [Heap.modify, Heap.set]
    omega
  · intro b hb
    have hb : b < h.next + 1 := hb
    by_cases hb1 : b = h.next
    · subst hb1
      simp [outsOf, hpa, hpa.symm]
    · have : b < h.next := by omega
      by_cases hb2 : b = p
      · subst hb2; simp [hb1, outsOf, this]
      · have : ¬ p = b := fun q => hb2 q.symm
        simp [hb1, hb2, outsOf, this]
        intro; omega
  · intro b hb
    have hb : b < h.next + 1 := hb
    by_cases hb1 : b = h.next
    · subst hb1
      simp [insOf]
    · have : b < h.next := by omega
      have q : ¬ h.next = b := fun q => hb1 q.symm
      by_cases hb2 : b = p
      · subst hb2; simp [hb1, insOf, this, q]
      · simp [hb1, hb2, insOf, this, q]
  · intro b hb
    have hb1 : b ≠ h.next := by omega
    by_cases hb2 : b = p
    · subst hb2; simp [hb1]
    · simp [hb1, hb2]
  · intro b h1 h2
    have h2 : b < h.next + 1 := h2
    have : b = h.next := by omega
    subst this
    simp [hpa.symm, hv]

theorem newNode_ok {h : Heap ℚ} {value : ℚ} {past : List ℚ} {id : Option Uid} {level : Option Int} (hv : 0 ≤ value) :
    ∃ h1 a, newNode h value past id level = .ok (h1, a) := by
  unfold newNode
  rw [if_neg (not_lt.2 hv)]
  exact ⟨_, _, rfl⟩

theorem newLayer_spec {k off : Nat} {value : ℚ} {level depth : Int} {cur : List Addr} {h : Heap ℚ} (hk : 0 < k) (hv : 0 ≤ value)
    (hcur : ∀ a ∈ cur, a < h.next) : ∀ count, off + count ≤ k * cur.length →
    ∃ h', newLayer k off value level depth cur h count = .ok (h', List.range' h.next count) ∧ h'.next = h.next + count ∧
      Wired h h' (wire k off cur (List.range' h.next count)) ∧ ∀ a, h.next ≤ a → a < h'.next → (h'.get a).value = value := by
  intro count
  induction count with
  | zero => intro _; exact ⟨h, rfl, rfl, Wired.refl h, fun a h1 h2 => by omega⟩
  | succ j ih =>
    intro hc
    obtain ⟨h1, e1, n1, w1, v1⟩ := ih (by omega)
    have hi : (off + j) / k < cur.length := div_lt hk (by omega) hc
    obtain ⟨h2, a, e2⟩ := newNode_ok (h := h1) (past := []) (id := none) (level := some level) hv
    have hp : cur.getD ((off + j) / k) 0 < h1.next := by
      have := hcur _ (getD_mem hi)
      omega
    obtain ⟨ea, w2, n2, v2⟩ := Wired.newChild (depth := depth) e2 hv hp
    refine ⟨((h2.modify a fun o => { o with levelsToAdd := -depth }).modify (cur.getD ((off + j) / k) 0) fun o =>
      { o with children := o.children ++ [a] }).modify a fun o => { o with parents := [cur.getD ((off + j) / k) 0] }, ?_, ?_, ?_, ?_⟩
    · simp only [newLayer, e1, bind, Except.bind, e2, item_ok hi, pure, Except.pure]
      rw [List.range'_concat, Nat.one_mul, ← n1, ← ea]
    · show h2.next = _
      omega
    · have := w1.trans w2
      rw [List.range'_concat, wire_append, List.length_range', wire_singleton]
      rw [ea, n1] at this
      rw [ea, n1, Nat.one_mul]
      exact this
    · intro b hb1 hb2
      have hb2 : b < h2.next := hb2
      by_cases hb : b < h1.next
      · rw [w2.value hb]
        exact v1 b hb1 hb
      · have : b = a := by omega
        subst this
        simp only [Heap.get_modify, if_true]
        by_cases q : b = cur.getD ((off + j) / k) 0
        · omega
        · simp only [q, if_false]
          exact v2

/-- The parents of the nodes `cs` are dropped. -/
def clear (h : Heap ℚ) (cs : List Addr) : Heap ℚ :=
  { h with get := fun a => if a ∈ cs then { h.get a with parents := [] } else h.get a }

theorem clear_nil (h : Heap ℚ) : clear h [] = h := by
  unfold clear
  simp

theorem Wired.clear {h h' : Heap ℚ} {E : List (Addr × Addr)} (w : Wired h h' E) {cs : List Addr} (hE : ∀ e ∈ E, e.2 ∉ cs)
    (hcs : ∀ c ∈ cs, c < h.next) : Wired (Graph.clear h cs) (Graph.clear h' cs) E where
  next := w.next
  uid := w.uid
  inside := w.inside
  children a ha := by
    have := w.children a ha
    by_cases hc : a ∈ cs
    · simp only [Graph.clear, hc, if_true]; exact this
    · simp only [Graph.clear, hc, if_false]; exact this
  parents a ha := by
    have := w.parents a ha
    by_cases hc : a ∈ cs
    · simp only [Graph.clear, hc, if_true]
      rw [insOf_eq_nil fun e he (q : e.2 = a) => hE e he (q ▸ hc)]
      simp
    · simp only [Graph.clear, hc, if_false]; exact this
  keep a ha := by
    have := w.keep a ha
    by_cases hc : a ∈ cs
    · simp only [Graph.clear, hc, if_true]; rw [this]
    · simp only [Graph.clear, hc, if_false]; exact this
  fresh a h1 h2 := by
    have := w.fresh a h1 h2
    have hc : a ∉ cs := fun q => by
      have := hcs a q
      have : h.next ≤ a := h1
      omega
    simp only [Graph.clear, hc, if_false]
    exact this

theorem clear_adopt {h : Heap ℚ} {p c : Addr} {cs : List Addr} (hc : c ∉ cs) :
    Graph.clear (adopt p h c) cs = Graph.link (Graph.clear h (c :: cs)) p c := by
  unfold Graph.clear adopt Graph.link Heap.modify Heap.set
  congr 1
  funext a
  by_cases h1 : a = c
  · subst h1
    by_cases h2 : a = p
    · subst h2; simp [hc]
    · simp [hc, h2]
  · by_cases h2 : a = p
    · subst h2
      by_cases h3 : a ∈ cs <;> simp [h1, h3]
    · by_cases h3 : a ∈ cs <;> simp [h1, h2, h3]

theorem hangChildren_spec {k off : Nat} {cur : List Addr} (hk : 0 < k) : ∀ (cs : List Addr) (j : Nat) (h : Heap ℚ),
    (∀ a ∈ cur, a < h.next) → (∀ c ∈ cs, c < h.next) → cs.Nodup → off + j + cs.length ≤ k * cur.length →
    ∃ h', hangChildren k off cur h j cs = .ok h' ∧ h'.next = h.next ∧ Wired (clear h cs) h' (wire k (off + j) cur cs) := by
  intro cs
  induction cs with
  | nil => intro j h _ _ _ _; exact ⟨h, rfl, rfl, by rw [clear_nil]; exact Wired.refl h⟩
  | cons c cs ih =>
    intro j h hcur hcs hnd hlen
    rw [List.length_cons] at hlen
    rw [List.nodup_cons] at hnd
    have hi : (off + j) / k < cur.length := div_lt hk (Nat.lt_succ_self j) (by omega)
    obtain ⟨h', e1, n1, w1⟩ := ih (j + 1) (adopt (cur.getD ((off + j) / k) 0) h c) hcur
      (fun x hx => hcs x (List.mem_cons_of_mem _ hx)) hnd.2 (by omega)
    refine ⟨h', ?_, n1, ?_⟩
    · simp only [hangChildren, item_ok hi, bind, Except.bind]
      exact e1
    · rw [clear_adopt hnd.1] at w1
      have w2 : Wired (clear h (c :: cs)) _ _ := Wired.link (h := clear h (c :: cs)) (p := cur.getD ((off + j) / k) 0) (c := c)
        (hcur _ (getD_mem hi)) (hcs c (by simp))
      have := w2.trans w1
      rw [show c :: cs = [c] ++ cs from rfl, wire_append, wire_singleton]
      exact this

end Satis.Graph
