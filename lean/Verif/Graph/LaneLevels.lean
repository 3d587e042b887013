import Verif.Graph.LaneWalk
import Verif.Graph.LevelWalk
/-!
# The passes over the levels end in an exception if a node without a level can be reached
-/

namespace Satis.Graph
open Satis Satis.Cost

theorem fold_some {visit : Marked ℚ → Addr → Py (Marked ℚ)}
    (hv : ∀ s a s', visit s a = .ok s' → (s.1.get a).level ≠ none ∧ ∀ b, ((s'.1.get b).level = none ↔ (s.1.get b).level = none)) :
    ∀ (l : List Addr) (s s' : Marked ℚ), l.foldlM visit s = .ok s' → ∀ a ∈ l, (s.1.get a).level ≠ none := by
  intro l
  induction l with
  | nil => exact fun s s' _ a ha => absurd ha (by simp)
  | cons x l ih =>
    intro s s' e a ha
    rw [List.foldlM_cons] at e
    cases hx : visit s x with
    | error err =>
      rw [hx] at e
      cases e
    | ok s1 =>
      rw [hx] at e
      obtain ⟨h1, h2⟩ := hv s x s1 hx
      rcases List.mem_cons.1 ha with rfl | ha
      · exact h1
      · exact fun w => ih s1 s' e a ha ((h2 a).2 w)

theorem pass_some {h : Heap ℚ} {U : Addr → Prop} (H : Region h U) (roots : List Addr) (hr : ∀ r ∈ roots, U r) (fuel : Nat) (hf : childFuel h U ≤ fuel)
    {visit : Marked ℚ → Addr → Py (Marked ℚ)} (f : NodeObj ℚ → NodeObj ℚ) (h0 : ∀ s a, (s.1.get a).level = none → visit s a = .error .typeError)
    (h1 : ∀ s a, (s.1.get a).level ≠ none → visit s a = .ok (s.1.modify a f, s.2 ++ [(s.1.get a).id]))
    (h2 : ∀ o, (f o).id = o.id ∧ (f o).children = o.children ∧ (f o).parents = o.parents ∧ ((f o).level = none ↔ o.level = none))
    {s' : Marked ℚ} (e : walkAll visit Marked.kids Marked.seen fuel (h, []) roots = .ok s') : ∀ a, Reach h roots a → (h.get a).level ≠ none := by
  have key : ∀ s a s', visit s a = .ok s' → (s.1.get a).level ≠ none ∧ s' = (s.1.modify a f, s.2 ++ [(s.1.get a).id]) := by
    intro s a s' hs
    have hl : (s.1.get a).level ≠ none := by
      intro w
      rw [h0 s a w] at hs
      cases hs
    rw [h1 s a hl] at hs
    cases hs
    exact ⟨hl, rfl⟩
  obtain ⟨order, -, q2, q3⟩ := region_walk H roots hr fuel hf
  have hw := q3 (Marked ℚ) visit id (h, []) (fun s a s' hs => by
    obtain ⟨-, rfl⟩ := key s a s' hs
    exact ⟨sameGraph_modify _ _ _ (fun o => (h2 o).1) (fun o => (h2 o).2.1) (fun o => (h2 o).2.2.1), rfl⟩) rfl
  have hw : walkAll visit Marked.kids Marked.seen fuel (h, []) roots = _ := hw
  rw [e] at hw
  intro a ha
  refine fold_some (visit := visit) (fun s a s' hs => ?_) order (h, []) s' hw.symm a ((q2 a).2 ha)
  obtain ⟨hl, rfl⟩ := key s a s' hs
  refine ⟨hl, fun b => ?_⟩
  show ((s.1.modify a f).get b).level = none ↔ _
  rw [Heap.get_modify]
  split
  · next eb => rw [eb]; exact (h2 _).2.2.2
  · exact Iff.rfl

/-- **The level updates**: if they raise nothing, every node that can be reached had a level. -/
theorem levels_some {h : Heap ℚ} {U : Addr → Prop} (H : Region h U) (roots : List Addr) (hr : ∀ r ∈ roots, U r) (fuel : Nat) (hf : childFuel h U ≤ fuel)
    (us : List (Int × Int)) {h' : Heap ℚ} (e : us.foldlM (tagLevels fuel roots) h >>= applyLevels fuel roots = .ok h') :
    ∀ a, Reach h roots a → (h.get a).level ≠ none := by
  cases us with
  | nil =>
    have e : applyLevels fuel roots h = .ok h' := e
    unfold applyLevels at e
    cases hs : walkAll applyVisit Marked.kids Marked.seen fuel (h, []) roots with
    | error err => rw [hs] at e; cases e
    | ok s =>
      exact pass_some H roots hr fuel hf applied (fun s a w => by unfold applyVisit; rw [w]) (fun s a => applyVisit_eq s a) applied_facts hs
  | cons u us =>
    rw [List.foldlM_cons] at e
    unfold tagLevels at e
    cases hs : walkAll (tagVisit u.1 u.2) Marked.kids Marked.seen fuel (h, []) roots with
    | error err => rw [hs] at e; cases e
    | ok s =>
      exact pass_some H roots hr fuel hf (tagged u.1 u.2) (fun s a w => by unfold tagVisit; rw [w]) (fun s a => tagVisit_eq u.1 u.2 s a)
        (fun o => ⟨(tagged_facts u.1 u.2 o).1, (tagged_facts u.1 u.2 o).2.1, (tagged_facts u.1 u.2 o).2.2.1, by rw [(tagged_facts u.1 u.2 o).2.2.2]⟩) hs

/-- **`expand_roots`**: if it raises nothing, every expansion that was pending alone, merges aside, and overruns its node, is still pending; and none was
pending at a root. -/
theorem expandRoots_overruns (cfg : Config) {h : Heap ℚ} {U : Addr → Prop} (H : Region h U) (roots : List Addr) (hr : ∀ r ∈ roots, U r) {h' : Heap ℚ}
    (hs : Settles (fun fuel => expandRoots cfg fuel h roots) (.ok h')) (a : Addr) (ha : U a) (e : Expand ℚ) (he : heavy (h.get a) = [e])
    (ho : Overruns cfg (h.get a).value e) : heavy (h'.get a) = [e] ∧ a ∉ roots := by
  obtain ⟨F, hF⟩ := hs
  obtain ⟨rl, -, B1, hB1⟩ := minLevel_settles H roots hr
  cases rl with
  | error err =>
    have := hF (max F B1) (le_max_left _ _)
    have h1 := hB1 (max F B1) (le_max_right _ _)
    simp only at this h1
    unfold expandRoots at this
    rw [h1] at this
    cases this
  | ok low =>
    obtain ⟨B, r, q1, q2⟩ := expandAll_ends (strict := False) cfg h U roots [(1, 1 - low)] H False.elim hr
    cases r with
    | error err =>
      have := hF (max F (max B1 B)) (le_max_left _ _)
      have h1 := hB1 (max F (max B1 B)) (le_trans (le_max_left _ _) (le_max_right _ _))
      have h2 := q2 (max F (max B1 B)) (le_trans (le_max_right _ _) (le_max_right _ _))
      simp only at this h1
      unfold expandRoots at this
      rw [h1] at this
      have this : (expandAll cfg (max F (max B1 B)) h roots [(1, 1 - low)] >>= _) = _ := this
      rw [h2] at this
      cases this
    | ok x =>
      obtain ⟨h₁, us⟩ := x
      have E : Evolved False 0 h U h₁ := (Ends.iff.1 q1).2 _ rfl
      obtain ⟨G, hG⟩ : ∃ G, G = max (max F B1) (max B (childFuel h₁ (Within h U h₁))) := ⟨_, rfl⟩
      have this := hF G (by rw [hG]; exact le_trans (le_max_left _ _) (le_max_left _ _))
      have h1 := hB1 G (by rw [hG]; exact le_trans (le_max_right _ _) (le_max_left _ _))
      have h2 := q2 G (by rw [hG]; exact le_trans (le_max_left _ _) (le_max_right _ _))
      have h3 : childFuel h₁ (Within h U h₁) ≤ G := by rw [hG]; exact le_trans (le_max_right _ _) (le_max_right _ _)
      simp only at this h1
      unfold expandRoots at this
      rw [h1] at this
      have this : (expandAll cfg G h roots [(1, 1 - low)] >>= fun x => x.2.foldlM (tagLevels G roots) x.1 >>= applyLevels G roots) = _ := this
      rw [h2] at this
      have this : (us.foldlM (tagLevels G roots) h₁ >>= applyLevels G roots) = .ok h' := this
      have hr' : ∀ r ∈ roots, Within h U h₁ r := fun r hm => .inl (hr r hm)
      have lv := levels_some E.region roots hr' G h3 us this
      obtain ⟨R, q⟩ := roads_expandAll cfg G H roots hr _ (h₁, us) h2
      have R : Roads cfg roots h U h₁ := R
      have hf : heavy (h₁.get a) = [e] := by
        rcases R.fate a ha e he with w | w
        · exact w
        · obtain ⟨b, s1, s2⟩ := w ho
          exact absurd s2 (lv b s1.reach)
      refine ⟨?_, fun hm => ?_⟩
      · obtain ⟨h'', e1, -, e3⟩ := levels_spec roots hr' G us h₁ E.region lv h3
        rw [this] at e1
        cases e1
        by_cases hra : Reach h₁ roots a
        · rw [(e3 a).1 hra]
          rw [← hf]
          unfold heavy raised
          split <;> rfl
        · rw [(e3 a).2 hra]
          exact hf
      · have := q a hm
        rw [hf] at this
        cases this

/-- **`expand_roots`**: if it raises nothing, every node that can be reached afterwards has a level. -/
theorem expandRoots_some (cfg : Config) {h : Heap ℚ} {U : Addr → Prop} (H : Region h U) (roots : List Addr) (hr : ∀ r ∈ roots, U r) {h' : Heap ℚ}
    (hs : Settles (fun fuel => expandRoots cfg fuel h roots) (.ok h')) :
    (∃ U', Region h' U' ∧ ∀ r ∈ roots, U' r) ∧ ∀ a, Reach h' roots a → (h'.get a).level ≠ none := by
  obtain ⟨F, hF⟩ := hs
  obtain ⟨rl, -, B1, hB1⟩ := minLevel_settles H roots hr
  cases rl with
  | error err =>
    have := hF (max F B1) (le_max_left _ _)
    have h1 := hB1 (max F B1) (le_max_right _ _)
    simp only at this h1
    unfold expandRoots at this
    rw [h1] at this
    cases this
  | ok low =>
    obtain ⟨B, r, q1, q2⟩ := expandAll_ends (strict := False) cfg h U roots [(1, 1 - low)] H False.elim hr
    cases r with
    | error err =>
      have := hF (max F (max B1 B)) (le_max_left _ _)
      have h1 := hB1 (max F (max B1 B)) (le_trans (le_max_left _ _) (le_max_right _ _))
      have h2 := q2 (max F (max B1 B)) (le_trans (le_max_right _ _) (le_max_right _ _))
      simp only at this h1
      unfold expandRoots at this
      rw [h1] at this
      have this : (expandAll cfg (max F (max B1 B)) h roots [(1, 1 - low)] >>= _) = _ := this
      rw [h2] at this
      cases this
    | ok x =>
      obtain ⟨h₁, us⟩ := x
      have E : Evolved False 0 h U h₁ := (Ends.iff.1 q1).2 _ rfl
      obtain ⟨G, hG⟩ : ∃ G, G = max (max F B1) (max B (childFuel h₁ (Within h U h₁))) := ⟨_, rfl⟩
      have this := hF G (by rw [hG]; exact le_trans (le_max_left _ _) (le_max_left _ _))
      have h1 := hB1 G (by rw [hG]; exact le_trans (le_max_right _ _) (le_max_left _ _))
      have h2 := q2 G (by rw [hG]; exact le_trans (le_max_left _ _) (le_max_right _ _))
      have h3 : childFuel h₁ (Within h U h₁) ≤ G := by rw [hG]; exact le_trans (le_max_right _ _) (le_max_right _ _)
      simp only at this h1
      unfold expandRoots at this
      rw [h1] at this
      have this : (expandAll cfg G h roots [(1, 1 - low)] >>= fun x => x.2.foldlM (tagLevels G roots) x.1 >>= applyLevels G roots) = _ := this
      rw [h2] at this
      have this : (us.foldlM (tagLevels G roots) h₁ >>= applyLevels G roots) = .ok h' := this
      have hr' : ∀ r ∈ roots, Within h U h₁ r := fun r hm => .inl (hr r hm)
      have lv := levels_some E.region roots hr' G h3 us this
      obtain ⟨h'', e1, S, e3⟩ := levels_spec roots hr' G us h₁ E.region lv h3
      rw [this] at e1
      cases e1
      refine ⟨⟨_, S.region E.region, hr'⟩, fun a ha => ?_⟩
      have ha : Reach h₁ roots a := S.reach.1 ha
      have := lv a ha
      rw [(e3 a).1 ha]
      unfold raised
      split
      · next w => exact absurd w this
      · simp

end Satis.Graph
