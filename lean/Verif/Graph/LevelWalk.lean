import Verif.Graph.Walk
import Verif.Graph.ExpandWalk
import Verif.Graph.Fuel
/-!
# The traversals that keep the graph: levels, drawing
-/

namespace Satis.Graph
open Satis

theorem from_iff_reach {V : Type} (h : Heap V) (rs : List Addr) (a : Addr) : From (fun a => (h.get a).children) rs a ↔ Reach h rs a := by
  constructor
  · intro H
    induction H with
    | root h => exact .root h
    | step _ hb ih => exact ih.child hb
  · intro H
    induction H with
    | root h => exact .root h
    | child _ hb ih => exact ih.step hb

/-- Two heaps with the same graph. -/
structure SameGraph {V : Type} (h h' : Heap V) : Prop where
  id : ∀ a, (h'.get a).id = (h.get a).id
  children : ∀ a, (h'.get a).children = (h.get a).children
  parents : ∀ a, (h'.get a).parents = (h.get a).parents
  next : h'.next = h.next
  nextUid : h'.nextUid = h.nextUid

theorem SameGraph.refl {V : Type} (h : Heap V) : SameGraph h h := ⟨fun _ => rfl, fun _ => rfl, fun _ => rfl, rfl, rfl⟩

theorem SameGraph.trans {V : Type} {h₁ h₂ h₃ : Heap V} (A : SameGraph h₁ h₂) (B : SameGraph h₂ h₃) : SameGraph h₁ h₃ :=
  ⟨fun a => (B.id a).trans (A.id a), fun a => (B.children a).trans (A.children a), fun a => (B.parents a).trans (A.parents a),
    B.next.trans A.next, B.nextUid.trans A.nextUid⟩

theorem SameGraph.region {h h' : Heap ℚ} (S : SameGraph h h') {U : Addr → Prop} (H : Region h U) : Region h' U :=
  ⟨fun a ha => by rw [S.next]; exact H.inside a ha, fun a ha c hc => H.children a ha c (by rw [← S.children]; exact hc),
    fun a ha c hc => H.parents a ha c (by rw [← S.parents]; exact hc),
    fun a b ha hb e => H.ids a b ha hb (by rw [← S.id, ← S.id]; exact e), fun a ha => by rw [S.id, S.nextUid]; exact H.fresh a ha⟩

theorem SameGraph.reach {V : Type} {h h' : Heap V} (S : SameGraph h h') {rs : List Addr} {a : Addr} : Reach h' rs a ↔ Reach h rs a := by
  constructor
  · intro H
    induction H with
    | root h => exact .root h
    | child _ hb ih => exact ih.child (by rw [← S.children]; exact hb)
  · intro H
    induction H with
    | root h => exact .root h
    | child _ hb ih => exact ih.child (by rw [S.children]; exact hb)

open scoped Classical in
/-- The nodes of the part, in a list. -/
noncomputable def Region.nodes (h : Heap ℚ) (U : Addr → Prop) : List Addr := (List.range h.next).filter fun a => decide (U a)

theorem Region.mem_nodes {h : Heap ℚ} {U : Addr → Prop} (H : Region h U) {a : Addr} : a ∈ Region.nodes h U ↔ U a := by
  classical
  unfold Region.nodes
  rw [List.mem_filter, List.mem_range, decide_eq_true_eq]
  exact ⟨fun h => h.2, fun h => ⟨H.inside a h, h⟩⟩

/-- The fuel that is enough for a traversal along the children. -/
noncomputable def childFuel (h : Heap ℚ) (U : Addr → Prop) : Nat := walkFuel (fun a => (h.get a).children) (Region.nodes h U)

theorem SameGraph.childFuel {h h' : Heap ℚ} (S : SameGraph h h') (U : Addr → Prop) : childFuel h' U = childFuel h U := by
  unfold Graph.childFuel Region.nodes
  rw [S.next]
  congr 1
  funext a
  exact S.children a

/-- **Traversals of a part of the heap.** Each visit is done once to each reachable node; the visit may change anything but ids and
references. -/
theorem region_walk {h : Heap ℚ} {U : Addr → Prop} (H : Region h U) (roots : List Addr) (hr : ∀ r ∈ roots, U r) (fuel : Nat)
    (hf : childFuel h U ≤ fuel) : ∃ order : List Addr, order.Nodup ∧ (∀ a, a ∈ order ↔ Reach h roots a) ∧
      ∀ (S : Type) (visit : S → Addr → Py S) (π : S → Marked ℚ) (s : S),
        (∀ s a s', visit s a = .ok s' → SameGraph (π s).1 (π s').1 ∧ (π s').2 = (π s).2 ++ [((π s).1.get a).id]) →
        π s = (h, []) →
        walkAll visit (fun s a => (π s).kids a) (fun s a => (π s).seen a) fuel s roots = order.foldlM visit s := by
  obtain ⟨order, h1, h2, h3⟩ := walkAll_spec (fun a => (h.get a).children) (Region.nodes h U) (fun a ha c hc =>
    H.mem_nodes.2 (H.children a (H.mem_nodes.1 ha) c hc)) roots (fun r hr' => H.mem_nodes.2 (hr r hr')) fuel hf
  refine ⟨order, h1, fun a => (h2 a).trans (from_iff_reach h roots a), fun S visit π s hv hs => ?_⟩
  refine (h3 S visit (fun s a => (π s).kids a) (fun s a => (π s).seen a)
    (fun s l => SameGraph h (π s).1 ∧ (π s).2 = l.map (fun a => (h.get a).id) ∧ ∀ a ∈ l, U a) ?_ ?_ ?_ s ?_).1
  · rintro s l ⟨S1, -, -⟩ a -
    exact S1.children a
  · rintro s l ⟨S1, e, hl⟩ a ha
    unfold Marked.seen
    rw [e, S1.id, decide_eq_decide, List.mem_map]
    constructor
    · rintro ⟨b, hb, e⟩
      exact H.ids b a (hl b hb) (H.mem_nodes.1 ha) e ▸ hb
    · exact fun h => ⟨a, h, rfl⟩
  · rintro s l a s' ⟨S1, e, hl⟩ ha _ hvis
    obtain ⟨S2, e2⟩ := hv s a s' hvis
    refine ⟨S1.trans S2, ?_, fun b hb => ?_⟩
    · rw [e2, e, S1.id]
      simp
    · rcases List.mem_append.1 hb with hb | hb
      · exact hl b hb
      · rw [List.mem_singleton.1 hb]
        exact H.mem_nodes.1 ha
  · rw [hs]
    exact ⟨SameGraph.refl h, rfl, by simp⟩

/-- `o` after one pass of `tag_levels_update(t, m)`. -/
def tagged (t m : Int) (o : NodeObj ℚ) : NodeObj ℚ :=
  match o.level with
  | none => o
  | some l => if l ≥ t then { o with levelsToAdd := o.levelsToAdd + m } else o

/-- `o` after `apply_levels_update`. -/
def applied (o : NodeObj ℚ) : NodeObj ℚ :=
  match o.level with
  | none => o
  | some l => { o with level := some (l + o.levelsToAdd), levelsToAdd := 0 }

theorem sameGraph_modify {V : Type} (h : Heap V) (a : Addr) (f : NodeObj V → NodeObj V) (h1 : ∀ o, (f o).id = o.id)
    (h2 : ∀ o, (f o).children = o.children) (h3 : ∀ o, (f o).parents = o.parents) : SameGraph h (h.modify a f) := by
  refine ⟨fun x => ?_, fun x => ?_, fun x => ?_, rfl, rfl⟩ <;> rw [Heap.get_modify] <;> split
  · next e => rw [h1, e]
  · rfl
  · next e => rw [h2, e]
  · rfl
  · next e => rw [h3, e]
  · rfl

/-- Changing each node of a list once. -/
theorem modify_fold {V : Type} (f : NodeObj V → NodeObj V) : ∀ (l : List Addr) (h : Heap V), l.Nodup →
    ∀ a, (l.foldl (fun h a => h.modify a f) h).get a = if a ∈ l then f (h.get a) else h.get a := by
  intro l
  induction l with
  | nil => intro h _ a; simp
  | cons x l ih =>
    intro h hnd a
    obtain ⟨h1, h2⟩ := List.nodup_cons.1 hnd
    rw [List.foldl_cons, ih _ h2, Heap.get_modify]
    by_cases e : a = x
    · subst e
      simp [h1]
    · simp [e]

theorem foldl_modify_same {V : Type} (f : NodeObj V → NodeObj V) (h1 : ∀ o, (f o).id = o.id)
    (h2 : ∀ o, (f o).children = o.children) (h3 : ∀ o, (f o).parents = o.parents) : ∀ (l : List Addr) (h : Heap V),
    SameGraph h (l.foldl (fun h a => h.modify a f) h) := by
  intro l
  induction l with
  | nil => exact fun h => SameGraph.refl h
  | cons x l ih => exact fun h => (sameGraph_modify h x f h1 h2 h3).trans (ih _)

theorem heap_modify_self {V : Type} (h : Heap V) (a : Addr) (f : NodeObj V → NodeObj V) (hf : f (h.get a) = h.get a) : h.modify a f = h := by
  unfold Heap.modify Heap.set
  rw [hf]
  cases h
  congr 1
  funext b
  split
  · next e => rw [e]
  · rfl

theorem tagVisit_eq (t m : Int) (s : Marked ℚ) (a : Addr) (hl : (s.1.get a).level ≠ none) :
    tagVisit t m s a = .ok (s.1.modify a (tagged t m), s.2 ++ [(s.1.get a).id]) := by
  unfold tagVisit
  cases h : (s.1.get a).level with
  | none => exact absurd h hl
  | some l =>
    simp only [Except.ok.injEq]
    by_cases hge : l ≥ t
    · rw [if_pos hge]
      congr 1
      unfold Heap.modify
      simp [tagged, h, hge]
    · rw [if_neg hge, Marked.add, heap_modify_self]
      simp [tagged, h, hge]

theorem applyVisit_eq (s : Marked ℚ) (a : Addr) (hl : (s.1.get a).level ≠ none) :
    applyVisit s a = .ok (s.1.modify a applied, s.2 ++ [(s.1.get a).id]) := by
  unfold applyVisit
  cases h : (s.1.get a).level with
  | none => exact absurd h hl
  | some l =>
    simp only [Except.ok.injEq]
    congr 1
    unfold Heap.modify
    simp [applied, h]

theorem tagged_facts (t m : Int) (o : NodeObj ℚ) : (tagged t m o).id = o.id ∧ (tagged t m o).children = o.children ∧
    (tagged t m o).parents = o.parents ∧ (tagged t m o).level = o.level := by
  unfold tagged
  split
  · exact ⟨rfl, rfl, rfl, rfl⟩
  · split <;> exact ⟨rfl, rfl, rfl, rfl⟩

theorem applied_facts (o : NodeObj ℚ) : (applied o).id = o.id ∧ (applied o).children = o.children ∧
    (applied o).parents = o.parents ∧ ((applied o).level = none ↔ o.level = none) := by
  unfold applied
  split
  · exact ⟨rfl, rfl, rfl, Iff.rfl⟩
  · next h => exact ⟨rfl, rfl, rfl, by simp [h]⟩

/-- A pass over the nodes of a list that changes each by `f`. -/
theorem pass_fold (visit : Marked ℚ → Addr → Py (Marked ℚ)) (f : NodeObj ℚ → NodeObj ℚ)
    (hv : ∀ s a, (s.1.get a).level ≠ none → visit s a = .ok (s.1.modify a f, s.2 ++ [(s.1.get a).id]))
    (hl : ∀ o, ((f o).level = none ↔ o.level = none)) : ∀ (l : List Addr) (s : Marked ℚ), (∀ a ∈ l, (s.1.get a).level ≠ none) →
    ∃ seen, l.foldlM visit s = .ok (l.foldl (fun h a => h.modify a f) s.1, seen) := by
  intro l
  induction l with
  | nil => exact fun s _ => ⟨s.2, rfl⟩
  | cons x l ih =>
    intro s hs
    rw [List.foldlM_cons, hv s x (hs x (by simp))]
    obtain ⟨seen, e⟩ := ih (s.1.modify x f, s.2 ++ [(s.1.get x).id]) (fun a ha => by
      show ((s.1.modify x f).get a).level ≠ none
      rw [Heap.get_modify]
      split
      · rw [ne_eq, hl]
        exact hs x (by simp)
      · exact hs a (List.mem_cons_of_mem _ ha))
    exact ⟨seen, e⟩

/-- One entry of `levels_updates`. -/
theorem tagLevels_spec {h : Heap ℚ} {U : Addr → Prop} (H : Region h U) (roots : List Addr) (hr : ∀ r ∈ roots, U r)
    (hl : ∀ a, Reach h roots a → (h.get a).level ≠ none) (fuel : Nat) (hf : childFuel h U ≤ fuel) (u : Int × Int) :
    ∃ h', tagLevels fuel roots h u = .ok h' ∧ SameGraph h h' ∧ ∀ a, (Reach h roots a → h'.get a = tagged u.1 u.2 (h.get a)) ∧
      (¬ Reach h roots a → h'.get a = h.get a) := by
  obtain ⟨order, h1, h2, h3⟩ := region_walk H roots hr fuel hf
  have hw := h3 (Marked ℚ) (tagVisit u.1 u.2) id (h, []) (fun s a s' hs => by
    have hlev : (s.1.get a).level ≠ none := by
      intro h0
      unfold tagVisit at hs
      rw [h0] at hs
      cases hs
    rw [tagVisit_eq _ _ _ _ hlev] at hs
    cases hs
    exact ⟨sameGraph_modify _ _ _ (fun o => (tagged_facts _ _ o).1) (fun o => (tagged_facts _ _ o).2.1)
      (fun o => (tagged_facts _ _ o).2.2.1), rfl⟩) rfl
  obtain ⟨seen, e⟩ := pass_fold (tagVisit u.1 u.2) (tagged u.1 u.2) (fun s a => tagVisit_eq u.1 u.2 s a)
    (fun o => by rw [(tagged_facts _ _ o).2.2.2]) order (h, []) (fun a ha => hl a ((h2 a).1 ha))
  refine ⟨_, ?_, foldl_modify_same (tagged u.1 u.2) (fun o => (tagged_facts _ _ o).1) (fun o => (tagged_facts _ _ o).2.1)
    (fun o => (tagged_facts _ _ o).2.2.1) order h, fun a => ⟨fun ha => ?_, fun ha => ?_⟩⟩
  · unfold tagLevels
    have hw : walkAll (tagVisit u.1 u.2) Marked.kids Marked.seen fuel (h, []) roots = _ := hw
    rw [hw, e]
    rfl
  · rw [modify_fold _ _ _ h1, if_pos ((h2 a).2 ha)]
  · rw [modify_fold _ _ _ h1, if_neg (fun x => ha ((h2 a).1 x))]

/-- The last pass. -/
theorem applyLevels_spec {h : Heap ℚ} {U : Addr → Prop} (H : Region h U) (roots : List Addr) (hr : ∀ r ∈ roots, U r)
    (hl : ∀ a, Reach h roots a → (h.get a).level ≠ none) (fuel : Nat) (hf : childFuel h U ≤ fuel) :
    ∃ h', applyLevels fuel roots h = .ok h' ∧ SameGraph h h' ∧ ∀ a, (Reach h roots a → h'.get a = applied (h.get a)) ∧
      (¬ Reach h roots a → h'.get a = h.get a) := by
  obtain ⟨order, h1, h2, h3⟩ := region_walk H roots hr fuel hf
  have hw := h3 (Marked ℚ) applyVisit id (h, []) (fun s a s' hs => by
    have hlev : (s.1.get a).level ≠ none := by
      intro h0
      unfold applyVisit at hs
      rw [h0] at hs
      cases hs
    rw [applyVisit_eq _ _ hlev] at hs
    cases hs
    exact ⟨sameGraph_modify _ _ _ (fun o => (applied_facts o).1) (fun o => (applied_facts o).2.1)
      (fun o => (applied_facts o).2.2.1), rfl⟩) rfl
  obtain ⟨seen, e⟩ := pass_fold applyVisit applied (fun s a => applyVisit_eq s a)
    (fun o => (applied_facts o).2.2.2) order (h, []) (fun a ha => hl a ((h2 a).1 ha))
  refine ⟨_, ?_, foldl_modify_same applied (fun o => (applied_facts o).1) (fun o => (applied_facts o).2.1)
    (fun o => (applied_facts o).2.2.1) order h, fun a => ⟨fun ha => ?_, fun ha => ?_⟩⟩
  · unfold applyLevels
    have hw : walkAll applyVisit Marked.kids Marked.seen fuel (h, []) roots = _ := hw
    rw [hw, e]
    rfl
  · rw [modify_fold _ _ _ h1, if_pos ((h2 a).2 ha)]
  · rw [modify_fold _ _ _ h1, if_neg (fun x => ha ((h2 a).1 x))]

/-- A node after all updates: the level grows by what was to be added already and by the amounts of the updates whose threshold the level
had reached. -/
def raised (us : List (Int × Int)) (o : NodeObj ℚ) : NodeObj ℚ :=
  match o.level with
  | none => o
  | some l => { o with level := some (l + (o.levelsToAdd + ((us.filter fun u => decide (u.1 ≤ l)).map Prod.snd).sum)), levelsToAdd := 0 }

theorem applied_raised (o : NodeObj ℚ) : applied o = raised [] o := by
  unfold applied raised
  split <;> simp

theorem raised_tagged (u : Int × Int) (us : List (Int × Int)) (o : NodeObj ℚ) : raised us (tagged u.1 u.2 o) = raised (u :: us) o := by
  unfold tagged
  cases h : o.level with
  | none => simp [raised, h]
  | some l =>
    simp only
    by_cases hge : u.1 ≤ l
    · rw [if_pos hge]
      simp [raised, h, hge, add_assoc]
    · rw [if_neg hge]
      simp [raised, h, hge]

/-- All updates and the last pass. -/
theorem levels_spec {U : Addr → Prop} (roots : List Addr) (hr : ∀ r ∈ roots, U r) (fuel : Nat) : ∀ (us : List (Int × Int)) (h : Heap ℚ),
    Region h U → (∀ a, Reach h roots a → (h.get a).level ≠ none) → childFuel h U ≤ fuel →
    ∃ h', (us.foldlM (tagLevels fuel roots) h >>= applyLevels fuel roots) = .ok h' ∧ SameGraph h h' ∧
      ∀ a, (Reach h roots a → h'.get a = raised us (h.get a)) ∧ (¬ Reach h roots a → h'.get a = h.get a) := by
  intro us
  induction us with
  | nil =>
    intro h H hl hf
    obtain ⟨h', e, S, hg⟩ := applyLevels_spec H roots hr hl fuel hf
    exact ⟨h', e, S, fun a => ⟨fun ha => by rw [← applied_raised]; exact (hg a).1 ha, (hg a).2⟩⟩
  | cons u us ih =>
    intro h H hl hf
    obtain ⟨h₁, e, S, hg⟩ := tagLevels_spec H roots hr hl fuel hf u
    obtain ⟨h', e', S', hg'⟩ := ih h₁ (S.region H) (fun a ha => by
      have ha := S.reach.1 ha
      rw [(hg a).1 ha, (tagged_facts _ _ _).2.2.2]
      exact hl a ha) (by rw [S.childFuel]; exact hf)
    refine ⟨h', ?_, S.trans S', fun a => ⟨fun ha => ?_, fun ha => ?_⟩⟩
    · rw [List.foldlM_cons, e]
      exact e'
    · rw [(hg' a).1 (S.reach.2 ha), (hg a).1 ha, raised_tagged]
    · rw [(hg' a).2 (fun x => ha (S.reach.1 x)), (hg a).2 ha]

/-- The smallest level. -/
theorem minLevel_spec {h : Heap ℚ} {U : Addr → Prop} (H : Region h U) (roots : List Addr) (hr : ∀ r ∈ roots, U r)
    (hl : ∀ a, Reach h roots a → (h.get a).level ≠ none) (fuel : Nat) (hf : childFuel h U ≤ fuel) :
    ∃ low : Int, minLevelAfterZero fuel h roots = .ok low ∧
      (∀ a l, Reach h (roots.flatMap fun r => (h.get r).children) a → (h.get a).level = some l → low ≤ l) ∧
      (low = 2 ^ 32 ∨ ∃ a, Reach h (roots.flatMap fun r => (h.get r).children) a ∧ (h.get a).level = some low) ∧ low ≤ 2 ^ 32 := by
  have hr' : ∀ c ∈ roots.flatMap fun r => (h.get r).children, U c := by
    intro c hc
    obtain ⟨r, h1, h2⟩ := List.mem_flatMap.1 hc
    exact H.children r (hr r h1) c h2
  have up : ∀ a, Reach h (roots.flatMap fun r => (h.get r).children) a → Reach h roots a := by
    intro a ha
    refine Reach.mono (fun c hc => ?_) ha
    obtain ⟨r, h1, h2⟩ := List.mem_flatMap.1 hc
    exact (Reach.root h1).child h2
  obtain ⟨order, h1, h2, h3⟩ := region_walk H _ hr' fuel hf
  have hw := h3 (Int × Marked ℚ) minLevelVisit Prod.snd ((2 : Int) ^ 32, (h, [])) (fun s a s' hs => by
    unfold minLevelVisit at hs
    split at hs
    · cases hs
    · cases hs
      exact ⟨SameGraph.refl _, rfl⟩) rfl
  have key : ∀ (l : List Addr) (x : Int) (seen : List Uid), (∀ a ∈ l, (h.get a).level ≠ none) → ∃ low seen',
      l.foldlM minLevelVisit (x, (h, seen)) = .ok (low, (h, seen')) ∧ (∀ a ∈ l, ∀ v, (h.get a).level = some v → low ≤ v) ∧
      (low = x ∨ ∃ a ∈ l, (h.get a).level = some low) ∧ low ≤ x := by
    intro l
    induction l with
    | nil => exact fun x seen _ => ⟨x, seen, rfl, by simp, .inl rfl, le_rfl⟩
    | cons y l ih =>
      intro x seen hs
      cases hy : (h.get y).level with
      | none => exact absurd hy (hs y (by simp))
      | some v =>
        obtain ⟨low, seen', e, k1, k2, k3⟩ := ih (min x v) (seen ++ [(h.get y).id]) (fun a ha => hs a (List.mem_cons_of_mem _ ha))
        refine ⟨low, seen', ?_, ?_, ?_, k3.trans (min_le_left _ _)⟩
        · rw [List.foldlM_cons]
          have : minLevelVisit (x, (h, seen)) y = .ok (min x v, (h, seen ++ [(h.get y).id])) := by
            unfold minLevelVisit
            simp only [hy]
            rfl
          rw [this]
          exact e
        · intro a ha w hw
          rcases List.mem_cons.1 ha with rfl | ha
          · rw [hy] at hw
            cases hw
            exact k3.trans (min_le_right _ _)
          · exact k1 a ha w hw
        · rcases k2 with k2 | ⟨a, ha, k2⟩
          · rcases min_choice x v with hm | hm
            · exact .inl (k2.trans hm)
            · exact .inr ⟨y, by simp, by rw [k2, hm]; exact hy⟩
          · exact .inr ⟨a, List.mem_cons_of_mem _ ha, k2⟩
  obtain ⟨low, seen', e, k1, k2, k3⟩ := key order (2 ^ 32) [] (fun a ha => hl a (up a ((h2 a).1 ha)))
  refine ⟨low, ?_, fun a l ha => k1 a ((h2 a).2 ha) l, k2.imp id fun ⟨a, ha, e⟩ => ⟨a, (h2 a).1 ha, e⟩, k3⟩
  unfold minLevelAfterZero
  have hw : walkAll minLevelVisit (fun s a => (s.2.1.get a).children) (fun s a => s.2.seen a) fuel ((2 : Int) ^ 32, (h, []))
    (roots.flatMap fun r => (h.get r).children) = _ := hw
  rw [hw, e]
  rfl

/-- The nodes handed to the drawing. -/
theorem populateOrder_spec {h : Heap ℚ} {U : Addr → Prop} (H : Region h U) (roots : List Addr) (hr : ∀ r ∈ roots, U r)
    (fuel : Nat) (hf : childFuel h U ≤ fuel) :
    ∃ order, populateOrder fuel h roots = .ok order ∧ order.Nodup ∧ ∀ a, a ∈ order ↔ Reach h roots a := by
  obtain ⟨order, h1, h2, h3⟩ := region_walk H roots hr fuel hf
  have hw := h3 (Marked ℚ × List Addr) populateVisit Prod.fst ((h, []), []) (fun s a s' hs => by
    cases hs
    exact ⟨SameGraph.refl _, rfl⟩) rfl
  have key : ∀ (l : List Addr) (s : Marked ℚ × List Addr), ∃ seen, l.foldlM populateVisit s = .ok (seen, s.2 ++ l) := by
    intro l
    induction l with
    | nil => exact fun s => ⟨s.1, by simp [pure, Except.pure]⟩
    | cons y l ih =>
      intro s
      obtain ⟨seen, e⟩ := ih (s.1.add y, s.2 ++ [y])
      refine ⟨seen, ?_⟩
      rw [List.foldlM_cons]
      show List.foldlM populateVisit (s.1.add y, s.2 ++ [y]) l = _
      rw [e]
      simp
  obtain ⟨seen, e⟩ := key order ((h, []), [])
  refine ⟨order, ?_, h1, h2⟩
  unfold populateOrder
  have hw : walkAll populateVisit (fun s a => s.1.kids a) (fun s a => s.1.seen a) fuel ((h, []), []) roots = _ := hw
  rw [hw, e]
  simp [bind, Except.bind, pure, Except.pure]

/-! ## Enough fuel -/

/-- Same links, and nothing but levels changed, and only inside of `U`. -/
def Kept (U : Addr → Prop) (h h' : Heap ℚ) : Prop := SameGraph h h' ∧ ∀ a, ¬ U a → h'.get a = h.get a

theorem Kept.refl (U : Addr → Prop) (h : Heap ℚ) : Kept U h h := ⟨SameGraph.refl h, fun _ _ => rfl⟩

theorem Kept.trans {U : Addr → Prop} {h₁ h₂ h₃ : Heap ℚ} (A : Kept U h₁ h₂) (B : Kept U h₂ h₃) : Kept U h₁ h₃ :=
  ⟨A.1.trans B.1, fun a ha => (B.2 a ha).trans (A.2 a ha)⟩

theorem ends_foldlM_mem {α β : Type} {f : β → α → Py β} (P : β → Prop) : ∀ (l : List α) (s : β), P s →
    (∀ s, ∀ a ∈ l, P s → Ends P (f s a)) → Ends P (l.foldlM f s) := by
  intro l
  induction l with
  | nil => exact fun s hs _ => hs
  | cons a l ih =>
    intro s hs hf
    rw [List.foldlM_cons]
    exact Ends.bind (hf s a (by simp) hs) fun x hx => ih x hx fun s b hb => hf s b (List.mem_cons_of_mem _ hb)

theorem reach_inside {h : Heap ℚ} {U : Addr → Prop} (H : Region h U) {roots : List Addr} (hr : ∀ r ∈ roots, U r) {a : Addr}
    (ha : Reach h roots a) : U a := by
  induction ha with
  | root hm => exact hr _ hm
  | child _ hb ih => exact H.children _ ih _ hb

/-- A traversal of a part of the heap ends, if its visits do. -/
theorem region_walk_settles {h : Heap ℚ} {U : Addr → Prop} (H : Region h U) (roots : List Addr) (hr : ∀ r ∈ roots, U r)
    {S : Type} (visit : S → Addr → Py S) (π : S → Marked ℚ) (s : S)
    (hv : ∀ s a s', visit s a = .ok s' → (SameGraph (π s).1 (π s').1 ∧ (π s').2 = (π s).2 ++ [((π s).1.get a).id]) ∧
      ∀ b, b ≠ a → (π s').1.get b = (π s).1.get b)
    (he : ∀ s a, visit s a ≠ .error .diverge) (hs : π s = (h, [])) :
    ∃ r, Ends (fun s' => Kept U h (π s').1) r ∧
      Settles (fun fuel => walkAll visit (fun s a => (π s).kids a) (fun s a => (π s).seen a) fuel s roots) r := by
  obtain ⟨order, -, h2, h3⟩ := region_walk H roots hr (childFuel h U) le_rfl
  have e := h3 S visit π s (fun s a s' h => (hv s a s' h).1) hs
  have hend : Ends (fun s' => Kept U h (π s').1) (order.foldlM visit s) := by
    refine ends_foldlM_mem _ order s ?_ ?_
    · rw [hs]
      exact Kept.refl U h
    · intro s a ha hP
      rw [Ends.iff]
      refine ⟨he s a, fun s' hs' => hP.trans ⟨(hv s a s' hs').1.1, fun b hb => (hv s a s' hs').2 b ?_⟩⟩
      rintro rfl
      exact hb (reach_inside H hr ((h2 _).1 ha))
  exact ⟨_, hend, (walkAll_stable (visit := fun _ => visit) (fun s a => Stable.const _) _ _ _ _).settles (Ends.iff.1 hend).1 e⟩

section
variable {h : Heap ℚ} {U : Addr → Prop}

theorem minLevel_settles (H : Region h U) (roots : List Addr) (hr : ∀ r ∈ roots, U r) :
    ∃ r, Ends (fun _ => True) r ∧ Settles (fun fuel => minLevelAfterZero fuel h roots) r := by
  have hr' : ∀ c ∈ roots.flatMap fun r => (h.get r).children, U c := by
    intro c hc
    obtain ⟨r, h1, h2⟩ := List.mem_flatMap.1 hc
    exact H.children r (hr r h1) c h2
  obtain ⟨r, h1, F, h2⟩ := region_walk_settles H _ hr' minLevelVisit Prod.snd ((2 : Int) ^ 32, (h, [])) (fun s a s' hs => by
    unfold minLevelVisit at hs
    split at hs
    · cases hs
    · cases hs
      exact ⟨⟨SameGraph.refl _, rfl⟩, fun _ _ => rfl⟩) (fun s a => by unfold minLevelVisit; split <;> simp) rfl
  refine ⟨r >>= fun s => .ok s.1, h1.bind fun s _ => trivial, F, fun fuel hf => ?_⟩
  have := h2 fuel hf
  show walkAll minLevelVisit (fun s a => (s.2.1.get a).children) (fun s a => s.2.seen a) fuel ((2 : Int) ^ 32, (h, []))
    (roots.flatMap fun r => (h.get r).children) >>= _ = _
  have : walkAll minLevelVisit (fun s a => (s.2.1.get a).children) (fun s a => s.2.seen a) fuel ((2 : Int) ^ 32, (h, []))
    (roots.flatMap fun r => (h.get r).children) = r := this
  rw [this]
  rfl

theorem populateOrder_settles (H : Region h U) (roots : List Addr) (hr : ∀ r ∈ roots, U r) :
    ∃ order, Settles (fun fuel => populateOrder fuel h roots) (.ok order) ∧ order.Nodup ∧ ∀ a, a ∈ order ↔ Reach h roots a := by
  obtain ⟨order, e, h1, h2⟩ := populateOrder_spec H roots hr _ le_rfl
  exact ⟨order, (populateOrder_stable h roots).settles (by simp) e, h1, h2⟩

theorem tagLevels_settles (H : Region h U) (roots : List Addr) (hr : ∀ r ∈ roots, U r) (u : Int × Int) :
    ∃ r, Ends (fun h' => Kept U h h') r ∧ Settles (fun fuel => tagLevels fuel roots h u) r := by
  obtain ⟨r, h1, F, h2⟩ := region_walk_settles H roots hr (tagVisit u.1 u.2) id (h, []) (fun s a s' hs => by
    have hlev : (s.1.get a).level ≠ none := by
      intro h0
      unfold tagVisit at hs
      rw [h0] at hs
      cases hs
    rw [tagVisit_eq _ _ _ _ hlev] at hs
    cases hs
    exact ⟨⟨sameGraph_modify _ _ _ (fun o => (tagged_facts _ _ o).1) (fun o => (tagged_facts _ _ o).2.1)
      (fun o => (tagged_facts _ _ o).2.2.1), rfl⟩, fun b hb => by
        show (Heap.modify _ _ _).get b = _
        rw [Heap.get_modify, if_neg hb]
        rfl⟩) (fun s a => by unfold tagVisit; split <;> simp) rfl
  refine ⟨r >>= fun s => .ok s.1, h1.bind fun s hs => hs, F, fun fuel hf => ?_⟩
  have : walkAll (tagVisit u.1 u.2) Marked.kids Marked.seen fuel (h, []) roots = r := h2 fuel hf
  show walkAll (tagVisit u.1 u.2) Marked.kids Marked.seen fuel (h, []) roots >>= _ = _
  rw [this]
  rfl

theorem applyLevels_settles (H : Region h U) (roots : List Addr) (hr : ∀ r ∈ roots, U r) :
    ∃ r, Ends (fun h' => Kept U h h') r ∧ Settles (fun fuel => applyLevels fuel roots h) r := by
  obtain ⟨r, h1, F, h2⟩ := region_walk_settles H roots hr applyVisit id (h, []) (fun s a s' hs => by
    have hlev : (s.1.get a).level ≠ none := by
      intro h0
      unfold applyVisit at hs
      rw [h0] at hs
      cases hs
    rw [applyVisit_eq _ _ hlev] at hs
    cases hs
    exact ⟨⟨sameGraph_modify _ _ _ (fun o => (applied_facts o).1) (fun o => (applied_facts o).2.1)
      (fun o => (applied_facts o).2.2.1), rfl⟩, fun b hb => by
        show (Heap.modify _ _ _).get b = _
        rw [Heap.get_modify, if_neg hb]
        rfl⟩) (fun s a => by unfold applyVisit; split <;> simp) rfl
  refine ⟨r >>= fun s => .ok s.1, h1.bind fun s hs => hs, F, fun fuel hf => ?_⟩
  have : walkAll applyVisit Marked.kids Marked.seen fuel (h, []) roots = r := h2 fuel hf
  show walkAll applyVisit Marked.kids Marked.seen fuel (h, []) roots >>= _ = _
  rw [this]
  rfl

theorem levels_settles (roots : List Addr) (hr : ∀ r ∈ roots, U r) : ∀ (us : List (Int × Int)) (h : Heap ℚ), Region h U →
    ∃ r, Ends (fun h' => Kept U h h') r ∧ Settles (fun fuel => us.foldlM (tagLevels fuel roots) h >>= applyLevels fuel roots) r := by
  intro us
  induction us with
  | nil => exact fun h H => applyLevels_settles H roots hr
  | cons u us ih =>
    intro h H
    obtain ⟨r, h1, h2⟩ := tagLevels_settles H roots hr u
    have hk : ∀ x, ∃ r', r = .ok x → Ends (fun h' => Kept U h h') r' ∧
        Settles (fun fuel => us.foldlM (tagLevels fuel roots) x >>= applyLevels fuel roots) r' := by
      intro x
      by_cases e : r = .ok x
      · have S := (Ends.iff.1 h1).2 x e
        obtain ⟨r', q1, q2⟩ := ih x (S.1.region H)
        exact ⟨r', fun _ => ⟨q1.mono fun y hy => S.trans hy, q2⟩⟩
      · exact ⟨.error .diverge, fun e' => absurd e' e⟩
    choose k hk using hk
    refine ⟨r >>= k, ?_, ?_⟩
    · cases r with
      | error e => exact h1
      | ok x => exact (hk x rfl).1
    · refine (Settles.bind h2 fun x hx => (hk x hx).2).congr fun n => ?_
      rw [List.foldlM_cons, bind_assoc]

/-- What `expand_roots` leaves alone: everything outside of the part it works on. -/
def Framed (U : Addr → Prop) (h h' : Heap ℚ) : Prop :=
  h.next ≤ h'.next ∧ h.nextUid ≤ h'.nextUid ∧ (∀ a, a < h.next → ¬ U a → h'.get a = h.get a) ∧ Region h' (Within h U h')

/-- **`expand_roots`** ends, on every graph and whatever is pending, and stays inside of its part of the heap. -/
theorem expandRoots_frame (cfg : Config) (H : Region h U) (roots : List Addr) (hr : ∀ r ∈ roots, U r) :
    ∃ r, Ends (Framed U h) r ∧ Settles (fun fuel => expandRoots cfg fuel h roots) r := by
  obtain ⟨rl, h1, h2⟩ := minLevel_settles H roots hr
  have ha : ∀ low : Int, ∃ r, Ends (Framed U h) r ∧ Settles (fun fuel => do
      let (h, us) ← expandAll cfg fuel h roots [(1, 1 - low)]
      let h ← us.foldlM (tagLevels fuel roots) h
      applyLevels fuel roots h) r := by
    intro low
    obtain ⟨B, r, q1, q2⟩ := expandAll_ends (strict := False) cfg h U roots [(1, 1 - low)] H False.elim hr
    have hk : ∀ x : Heap ℚ × List (Int × Int), ∃ r', r = .ok x → Ends (Framed U h) r' ∧
        Settles (fun fuel => x.2.foldlM (tagLevels fuel roots) x.1 >>= applyLevels fuel roots) r' := by
      intro x
      by_cases e : r = .ok x
      · have E := (Ends.iff.1 q1).2 x e
        obtain ⟨r', p1, p2⟩ := levels_settles roots (fun r hr' => .inl (hr r hr')) x.2 x.1 E.region
        refine ⟨r', fun _ => ⟨p1.mono fun y hy => ⟨?_, ?_, fun a ha hU => ?_, ?_⟩, p2⟩⟩
        · rw [hy.1.next]
          exact E.next
        · rw [hy.1.nextUid]
          exact E.uid
        · rw [hy.2 a (by rintro (h1 | h1); exacts [hU h1, absurd ha (by omega)]), E.outside a ha hU]
        · have := hy.1.region E.region
          unfold Within at this ⊢
          rwa [hy.1.next]
      · exact ⟨.error .diverge, fun e' => absurd e' e⟩
    choose k hk using hk
    refine ⟨r >>= k, ?_, Settles.bind ⟨B, q2⟩ fun x hx => (hk x hx).2⟩
    cases r with
    | error e => exact q1
    | ok x => exact (hk x rfl).1
  choose k hk using ha
  refine ⟨rl >>= k, ?_, Settles.bind h2 fun x _ => (hk x).2⟩
  cases rl with
  | error e => exact h1
  | ok x => exact (hk x).1

/-- **`expand_roots`** ends, on every graph and whatever is pending. -/
theorem expandRoots_settles (cfg : Config) (H : Region h U) (roots : List Addr) (hr : ∀ r ∈ roots, U r) :
    ∃ r, r ≠ .error .diverge ∧ Settles (fun fuel => expandRoots cfg fuel h roots) r := by
  obtain ⟨r, h1, h2⟩ := expandRoots_frame cfg H roots hr
  exact ⟨r, (Ends.iff.1 h1).1, h2⟩

end

end Satis.Graph
