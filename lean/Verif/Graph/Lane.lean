import Verif.Graph.Calm
/-!
# Ways that no expansion cuts

An expansion empties the list of children of its own node, unless it is a merge. So a way from the roots whose nodes have nothing but merges pending stays
open, whatever is expanded.
-/

namespace Satis.Graph
open Satis Satis.Cost

/-- What is pending at a node, without the merges. -/
def heavy (o : NodeObj ℚ) : List (Expand ℚ) := o.expands.filter fun
  | .merge _ => false
  | _ => true

/-- There is a way to the node on which only merges are pending, and which does not go through the node `N`. -/
inductive Lane (N : Option Addr) (h : Heap ℚ) (rs : List Addr) : Addr → Prop
  | root {a} : a ∈ rs → a < h.next → Lane N h rs a
  | child {a b} : Lane N h rs a → N ≠ some a → heavy (h.get a) = [] → b ∈ (h.get a).children → b < h.next → Lane N h rs b

theorem Lane.lt {N : Option Addr} {h : Heap ℚ} {rs : List Addr} {a : Addr} (L : Lane N h rs a) : a < h.next := by
  cases L <;> assumption

theorem Lane.reach {N : Option Addr} {h : Heap ℚ} {rs : List Addr} {a : Addr} (L : Lane N h rs a) : Reach h rs a := by
  induction L with
  | root h1 _ => exact .root h1
  | child _ _ _ h1 _ ih => exact ih.child h1

theorem Lane.open {N : Option Addr} {h : Heap ℚ} {rs : List Addr} {a : Addr} (L : Lane N h rs a) : Lane none h rs a := by
  induction L with
  | root h1 h2 => exact .root h1 h2
  | child _ _ h1 h2 h3 ih => exact .child ih (by simp) h1 h2 h3

/-- The ways avoid nodes at which more than merges is pending. -/
theorem Lane.avoid {h : Heap ℚ} {rs : List Addr} {a n : Addr} (hn : heavy (h.get n) ≠ []) (L : Lane none h rs a) : Lane (some n) h rs a := by
  induction L with
  | root h1 h2 => exact .root h1 h2
  | child _ _ h1 h2 h3 ih => exact .child ih (fun e => hn (by cases e; exact h1)) h1 h2 h3

theorem Lane.trans {N : Option Addr} {h : Heap ℚ} {rs : List Addr} {a b : Addr} (A : Lane N h rs a) (B : Lane N h [a] b) : Lane N h rs b := by
  induction B with
  | root h1 _ => rw [List.mem_singleton.1 h1]; exact A
  | child _ h0 h1 h2 h3 ih => exact .child ih h0 h1 h2 h3

/-- What the parts of an expansion keep. -/
structure Keep (N : Option Addr) (h h' : Heap ℚ) : Prop where
  next : h.next ≤ h'.next
  value : ∀ x, x < h.next → (h'.get x).value = (h.get x).value
  low : ∀ x, x < h.next → (h.get x).level = none → (h'.get x).level = none
  heavy : ∀ x, x < h.next → heavy (h'.get x) = heavy (h.get x)
  fresh : ∀ x, h.next ≤ x → x < h'.next → Graph.heavy (h'.get x) = []
  lane : ∀ rs a, Lane N h rs a → Lane N h' rs a

theorem Keep.refl (N : Option Addr) (h : Heap ℚ) : Keep N h h :=
  ⟨le_rfl, fun _ _ => rfl, fun _ _ e => e, fun _ _ => rfl, fun x h1 h2 => by omega, fun _ _ L => L⟩

theorem Keep.trans {N : Option Addr} {h₁ h₂ h₃ : Heap ℚ} (A : Keep N h₁ h₂) (B : Keep N h₂ h₃) : Keep N h₁ h₃ := by
  have := A.next
  have := B.next
  refine ⟨by omega, fun x hx => (B.value x (by omega)).trans (A.value x hx), fun x hx e => B.low x (by omega) (A.low x hx e),
    fun x hx => (B.heavy x (by omega)).trans (A.heavy x hx), fun x h1 h2 => ?_, fun rs a L => B.lane rs a (A.lane rs a L)⟩
  rcases Nat.lt_or_ge x h₂.next with h | h
  · rw [B.heavy x h]
    exact A.fresh x h1 h
  · exact B.fresh x h h2

/-- Each edge is kept, or replaced by a way over one node. -/
theorem Keep.of {N : Option Addr} {h h' : Heap ℚ} (next : h.next ≤ h'.next) (value : ∀ x, x < h.next → (h'.get x).value = (h.get x).value)
    (low : ∀ x, x < h.next → (h.get x).level = none → (h'.get x).level = none)
    (heavy : ∀ x, x < h.next → Graph.heavy (h'.get x) = Graph.heavy (h.get x)) (fresh : ∀ x, h.next ≤ x → x < h'.next → Graph.heavy (h'.get x) = [])
    (edge : ∀ x, x < h.next → N ≠ some x → ∀ c ∈ (h.get x).children, c ∈ (h'.get x).children ∨
      ∃ d, d < h'.next ∧ N ≠ some d ∧ Graph.heavy (h'.get d) = [] ∧ d ∈ (h'.get x).children ∧ c ∈ (h'.get d).children) : Keep N h h' := by
  refine ⟨next, value, low, heavy, fresh, fun rs a L => ?_⟩
  induction L with
  | root h1 h2 => exact .root h1 (by omega)
  | @child a b La hN h1 h2 h3 ih =>
    have hx : Graph.heavy (h'.get a) = [] := by rw [heavy a La.lt]; exact h1
    rcases edge a La.lt hN b h2 with hc | ⟨d, e1, e2, e3, e4, e5⟩
    · exact .child ih hN hx hc (by omega)
    · exact .child (.child ih hN hx e4 e1) e2 e3 e5 (by omega)

theorem Keep.modify {N : Option Addr} {h : Heap ℚ} {a : Addr} {f : NodeObj ℚ → NodeObj ℚ} (hv : (f (h.get a)).value = (h.get a).value)
    (hl : (f (h.get a)).level = (h.get a).level) (he : Graph.heavy (f (h.get a)) = Graph.heavy (h.get a))
    (hc : N ≠ some a → ∀ c ∈ (h.get a).children, c ∈ (f (h.get a)).children) : Keep N h (h.modify a f) := by
  refine Keep.of le_rfl ?_ ?_ ?_ ?_ ?_
  · intro x _
    rw [Heap.get_modify]
    split
    · next e => rw [e, hv]
    · rfl
  · intro x _ e
    rw [Heap.get_modify]
    split
    · next e' => rw [hl, ← e', e]
    · exact e
  · intro x _
    rw [Heap.get_modify]
    split
    · next e => rw [e, he]
    · rfl
  · intro x h1 h2
    have h2 : x < h.next := h2
    omega
  · intro x _ hN c hcx
    left
    rw [Heap.get_modify]
    split
    · next e => subst e; exact hc hN c hcx
    · exact hcx

theorem keep_newNode (h : Heap ℚ) (v : ℚ) (p : List ℚ) (l : Option Int) :
    Yields (fun x => (∀ N, Keep N h x.1) ∧ x.2 = h.next ∧ x.1.next = h.next + 1 ∧ heavy (x.1.get x.2) = [] ∧ (x.1.get x.2).level = l)
      (newNode h v p none l) := by
  unfold newNode
  split
  · intro x hx; cases hx
  refine Yields.pure ⟨fun N => Keep.of ?_ ?_ ?_ ?_ ?_ ?_, rfl, rfl, ?_, ?_⟩
  · show h.next ≤ h.next + 1
    omega
  · intro x hx
    simp only [Heap.get_alloc, hx.ne, if_false]
  · intro x hx e
    simp only [Heap.get_alloc, hx.ne, if_false]
    exact e
  · intro x hx
    simp only [Heap.get_alloc, hx.ne, if_false]
  · intro x h1 h2
    have h2 : x < h.next + 1 := h2
    have : x = h.next := by omega
    subst this
    simp [heavy]
  · intro x hx _ c hc
    left
    simp only [Heap.get_alloc, hx.ne, if_false]
    exact hc
  · simp [heavy, Heap.alloc]
  · simp [Heap.alloc]

theorem keep_addChild (N : Option Addr) (h : Heap ℚ) (p c : Addr) : Keep N h (h.modify p fun o => { o with children := o.children ++ [c] }) :=
  Keep.modify rfl rfl rfl fun _ x hx => List.mem_append_left _ hx

theorem keep_parents (N : Option Addr) (h : Heap ℚ) (a : Addr) (f : NodeObj ℚ → List Addr) : Keep N h (h.modify a fun o => { o with parents := f o }) :=
  Keep.modify rfl rfl rfl fun _ _ hx => hx

theorem keep_link (N : Option Addr) (h : Heap ℚ) (p c : Addr) : Keep N h (link h p c) :=
  (keep_addChild N h p c).trans (keep_parents N _ c _)

theorem keep_adopt (N : Option Addr) (h : Heap ℚ) (p c : Addr) : Keep N h (adopt p h c) :=
  (keep_addChild N h p c).trans (keep_parents N _ c _)

theorem keep_tagMerge (N : Option Addr) (h : Heap ℚ) (a : Addr) (t : Nat) : Keep N h (tagMerge h a t) := by
  unfold tagMerge
  split
  · exact Keep.modify rfl rfl (by simp [heavy]) fun _ _ hx => hx
  · exact Keep.refl N h

theorem link_child (h : Heap ℚ) (p c : Addr) : c ∈ ((link h p c).get p).children := by
  unfold link
  rw [Heap.get_modify]
  split
  · next e => subst e; simp [Heap.get_modify]
  · simp [Heap.get_modify]

/-- The node can be reached from `node` on a way that stays open. -/
def Near (node : Addr) (h : Heap ℚ) (a : Addr) : Prop := Lane none h [node] a ∧ heavy (h.get a) = []

theorem Near.keep {node : Addr} {h h' : Heap ℚ} (K : Keep none h h') {a : Addr} (w : Near node h a) : Near node h' a :=
  ⟨K.lane _ _ w.1, by rw [K.heavy a w.1.lt]; exact w.2⟩

theorem keep_newLayer (node : Addr) (q off : Nat) (value : ℚ) (lvl depth : Int) (cur : List Addr) (h : Heap ℚ) : ∀ j,
    Yields (fun x => (∀ N, Keep N h x.1) ∧ ((∀ a ∈ cur, Near node h a) → ∀ a ∈ x.2, Near node x.1 a)) (newLayer q off value lvl depth cur h j) := by
  intro j
  induction j with
  | zero => exact Yields.pure ⟨fun N => Keep.refl N h, by simp⟩
  | succ j ih =>
    rw [newLayer]
    refine ih.bind ?_
    rintro ⟨h₂, as⟩ ⟨K2, w2⟩
    refine (keep_newNode h₂ value [] (some lvl)).bind ?_
    rintro ⟨h₃, a⟩ ⟨K3, ea, n3, e3, -⟩
    refine (yields_item cur _).bind ?_
    intro p hp
    have n3 : h₃.next = h₂.next + 1 := n3
    have ea : a = h₂.next := ea
    have e3 : heavy (h₃.get a) = [] := e3
    have Ka : ∀ N, Keep N h₃ (h₃.modify a fun o => { o with levelsToAdd := -depth }) := fun N => Keep.modify rfl rfl rfl fun _ _ hx => hx
    have Kb := fun N => keep_addChild N (h₃.modify a fun o => { o with levelsToAdd := -depth }) p a
    have Kc := fun N => keep_parents N ((h₃.modify a fun o => { o with levelsToAdd := -depth }).modify p fun o => { o with children := o.children ++ [a] }) a
      fun _ => [p]
    have K := fun N => (((K3 N).trans (Ka N)).trans (Kb N)).trans (Kc N)
    refine Yields.pure ⟨fun N => (K2 N).trans (K N), fun hcur x hx => ?_⟩
    rcases List.mem_append.1 hx with hx | hx
    · exact (w2 hcur x hx).keep (K none)
    · rw [List.mem_singleton.1 hx]
      have hp' : Near node ((h₃.modify a fun o => { o with levelsToAdd := -depth }).modify p fun o => { o with children := o.children ++ [a] }) p :=
        (hcur p hp).keep (((K2 none).trans ((K3 none).trans (Ka none))).trans (Kb none))
      have ha : a < h₃.next := by omega
      have l1 : Lane none ((h₃.modify a fun o => { o with levelsToAdd := -depth }).modify p fun o => { o with children := o.children ++ [a] }) [node] a := by
        refine .child hp'.1 (by simp) hp'.2 ?_ ha
        rw [Heap.get_modify, if_pos rfl]
        simp
      refine ⟨(Kc none).lane _ _ l1, ?_⟩
      rw [(((Ka none).trans (Kb none)).trans (Kc none)).heavy a ha]
      exact e3

theorem keep_hangChildren (q off : Nat) (cur : List Addr) : ∀ (cs : List Addr) (h : Heap ℚ) (j : Nat),
    Yields (fun h' => ∀ N, Keep N h h') (hangChildren q off cur h j cs) := by
  intro cs
  induction cs with
  | nil => exact fun h j => Yields.pure fun N => Keep.refl N h
  | cons c cs ih =>
    intro h j
    rw [hangChildren]
    refine (yields_item cur _).bind fun p _ => ?_
    intro x hx N
    exact (keep_adopt N h p c).trans (ih _ _ x hx N)

theorem keep_reroute (node : Addr) (q off : Nat) (target : Addr) (cur : List Addr) (h : Heap ℚ) : ∀ j,
    Yields (fun h' => (∀ N, Keep N h h') ∧ (0 < j → target < h.next → (∀ a ∈ cur, Near node h a) → Lane none h' [node] target))
      (reroute q off target cur h j) := by
  intro j
  induction j with
  | zero => exact Yields.pure ⟨fun N => Keep.refl N h, by simp⟩
  | succ j ih =>
    rw [reroute]
    refine ih.bind ?_
    rintro h₂ ⟨K2, -⟩
    refine (yields_item cur _).bind fun p hp => ?_
    refine Yields.pure ⟨fun N => (K2 N).trans (keep_link N h₂ p target), fun _ ht hcur => ?_⟩
    have wp : Near node (link h₂ p target) p := (hcur p hp).keep ((K2 none).trans (keep_link none h₂ p target))
    have := (K2 none).next
    exact .child wp.1 (by simp) wp.2 (link_child h₂ p target) (show target < h₂.next by omega)

/-- What holds of the state of the loops over the depths, after a depth that was the `last` or not; `only` tells that nothing but merges is pending at the
node besides what is being done. -/
structure Layered (only : Prop) (node loop : Addr) (h : Heap ℚ) (looped last : Prop) (s : Heap ℚ × Int × List Addr) : Prop where
  keep : ∀ N, Keep N h s.1
  near : only → ¬ last → ∀ a ∈ s.2.2, Near node s.1 a
  loop : only → looped → Lane none s.1 [node] loop

theorem keep_divideLayer (only : Prop) (node loop : Addr) (q width : Nat) (plan : Nat × Nat) (value : ℚ) (depth : Int) (target : Addr) (last : Bool) (original : List Addr)
    (h : Heap ℚ) (looped : Prop) (s : Heap ℚ × Int × List Addr) (S : Layered only node loop h looped False s) (ht : loop < h.next) :
    Yields (Layered only node loop h (looped ∨ target = loop ∧ 0 < plan.1) (last = true)) (divideLayer q width plan value depth target last original s) := by
  obtain ⟨h₁, lvl, cur⟩ := s
  have hcur : only → ∀ a ∈ cur, Near node h₁ a := fun w => S.near w id
  have n1 := (S.keep none).next
  have n1 : h.next ≤ h₁.next := n1
  have cont : ∀ x : Heap ℚ × List Addr, ((∀ N, Keep N h₁ x.1) ∧ (only → ¬ last = true → ∀ a ∈ x.2, Near node x.1 a)) →
      Yields (Layered only node loop h (looped ∨ target = loop ∧ 0 < plan.1) (last = true))
        (reroute q 0 target cur x.1 plan.1 >>= fun h' => Pure.pure (h', lvl + 1, x.2)) := by
    rintro ⟨h₂, new⟩ ⟨K2, w2⟩
    refine (keep_reroute node q 0 target cur h₂ plan.1).bind ?_
    rintro h₃ ⟨K3, w3⟩
    have n2 := (K2 none).next
    have n2 : h₁.next ≤ h₂.next := n2
    refine Yields.pure ⟨fun N => ((S.keep N).trans (K2 N)).trans (K3 N), fun ho hl a ha => (w2 ho hl a ha).keep (K3 none), ?_⟩
    rintro ho (w | ⟨rfl, w⟩)
    · exact ((K2 none).trans (K3 none)).lane _ _ (S.loop ho w)
    · exact w3 w (by omega) fun a ha => (hcur ho a ha).keep (K2 none)
  unfold divideLayer
  cases last
  · exact (keep_newLayer node q plan.1 value (lvl + 1) depth cur h₁ _).bind fun x hx => cont x ⟨hx.1, fun ho _ => hx.2 (hcur ho)⟩
  · refine Yields.bind ((keep_hangChildren q plan.1 cur original h₁ 0).map (P' := fun x : Heap ℚ × List Addr =>
      (∀ N, Keep N h₁ x.1) ∧ (only → ¬ true = true → ∀ a ∈ x.2, Near node x.1 a)) ?_) cont
    exact fun h₂ K2 => ⟨K2, by simp⟩

theorem keep_extractLayer (only : Prop) (node : Addr) (q width : Nat) (p₁ p₂ p₃ : Nat × Nat) (value : ℚ) (depth : Int) (loop extracted overflow : Addr) (last : Bool)
    (original : List Addr) (h : Heap ℚ) (looped : Prop) (s : Heap ℚ × Int × List Addr) (S : Layered only node loop h looped False s) (ht : loop < h.next) :
    Yields (Layered only node loop h (looped ∨ 0 < p₁.1) (last = true))
      (extractLayer q width p₁ p₂ p₃ value depth loop extracted overflow last original s) := by
  obtain ⟨h₁, lvl, cur⟩ := s
  have hcur : only → ∀ a ∈ cur, Near node h₁ a := fun w => S.near w id
  have n1 := (S.keep none).next
  have n1 : h.next ≤ h₁.next := n1
  have cont : ∀ x : Heap ℚ × List Addr, ((∀ N, Keep N h₁ x.1) ∧ (only → ¬ last = true → ∀ a ∈ x.2, Near node x.1 a)) →
      Yields (Layered only node loop h (looped ∨ 0 < p₁.1) (last = true))
        (reroute q 0 loop cur x.1 p₁.1 >>= fun h' => reroute q p₁.1 extracted cur h' p₂.1 >>= fun h' =>
          reroute q (p₁.1 + p₂.1) overflow cur h' p₃.1 >>= fun h' => Pure.pure (h', lvl + 1, x.2)) := by
    rintro ⟨h₂, new⟩ ⟨K2, w2⟩
    refine (keep_reroute node q 0 loop cur h₂ p₁.1).bind ?_
    rintro h₃ ⟨K3, w3⟩
    refine (keep_reroute node q p₁.1 extracted cur h₃ p₂.1).bind ?_
    rintro h₄ ⟨K4, -⟩
    refine (keep_reroute node q (p₁.1 + p₂.1) overflow cur h₄ p₃.1).bind ?_
    rintro h₅ ⟨K5, -⟩
    have n2 := (K2 none).next
    have n2 : h₁.next ≤ h₂.next := n2
    have K35 := fun N => ((K3 N).trans (K4 N)).trans (K5 N)
    refine Yields.pure ⟨fun N => ((S.keep N).trans (K2 N)).trans (K35 N), fun ho hl a ha => (w2 ho hl a ha).keep (K35 none), ?_⟩
    rintro ho (w | w)
    · exact ((K2 none).trans (K35 none)).lane _ _ (S.loop ho w)
    · exact ((K4 none).trans (K5 none)).lane _ _ (w3 w (by omega) fun a ha => (hcur ho a ha).keep (K2 none))
  unfold extractLayer
  cases last
  · exact (keep_newLayer node q (p₁.1 + p₂.1 + p₃.1) value (lvl + 1) depth cur h₁ _).bind fun x hx => cont x ⟨hx.1, fun ho _ => hx.2 (hcur ho)⟩
  · exact cont (h₁, original) ⟨fun N => Keep.refl N h₁, by simp⟩

theorem keep_joinLoop (N : Option Addr) (h : Heap ℚ) (node loop : Addr) : Keep N h (joinLoop h node loop) := by
  unfold joinLoop
  have : ∀ (cs : List Addr) (h₁ : Heap ℚ), Keep N h₁ (cs.foldl (fun h c => link h loop c) h₁) := by
    intro cs
    induction cs with
    | nil => exact fun h₁ => Keep.refl N h₁
    | cons c cs ih => exact fun h₁ => (keep_link N h₁ loop c).trans (ih _)
  exact this _ _

end Satis.Graph
