import Verif.Solver.LoadFacts
import Verif.Solver.Example
import Verif.Props.Solver
/-!
# Properties of `load` and `group_values`
-/

namespace Satis
open Satis.Utils Satis.Graph Satis.Solver Satis.Cost

namespace Solver.Example

/-- A solver before its first `load`. -/
def attrs0 : Attrs where
  solving := false
  doneSolving := false
  concluding := false
  doneConcluding := false
  solutions := []
  solutionsCount := 0
  problemStr := []
  unitFlowRatio := 1
  leaves := []
  sizeOffset := 0
  targetValues := []
  nTargets := 0
  minTarget := 0
  targetCounts := []
  limit := 0
  treeSource := (newTree emptyHeap []).2
  bestSize := 0
  gcd := 0

/-- Loading an input into it. -/
def loaded (input : String) : After := load config input.toList attrs0 emptyHeap

end Solver.Example

/-! ## C20 -/

/-- C20. `load` ends on every string, whatever the state: it accepts, refuses, or raises `ValueError` or `AssertionError`. -/
theorem C20_load_total (cfg : Config) (input : Str) (a : Attrs) (h : Heap Int) :
    (load cfg input a h).result = .ok true ∨ (load cfg input a h).result = .ok false ∨
    (load cfg input a h).result = .error .valueError ∨ (load cfg input a h).result = .error .assertionError := by
  unfold load
  split
  · exact Or.inr (Or.inl rfl)
  · exact Or.inr (Or.inl rfl)
  · rename_i s t _
    split
    · exact Or.inr (Or.inl rfl)
    · rcases loadValues_spec cfg s t a h with ⟨_, _, _, ⟨_, h1⟩ | ⟨_, h1⟩⟩ | ⟨_, h1, _⟩ | h1
      · exact Or.inr (Or.inl h1)
      · exact Or.inr (Or.inr (Or.inr h1))
      · exact Or.inr (Or.inr (Or.inl h1))
      · exact Or.inl h1.ok

/-- C20. An input that the parser does not accept is refused and changes nothing. -/
theorem C20_rejected_unchanged (cfg : Config) (input : Str) (a : Attrs) (h : Heap Int) (hrej : ∀ s t, ¬ Parsed input s t) :
    load cfg input a h = ⟨.ok false, a, h⟩ := by
  unfold load
  split
  · rfl
  · rfl
  · rename_i s t hp
    rw [if_pos]
    by_contra hne
    rw [not_or] at hne
    exact hrej s t ⟨hp, hne⟩

/-- C20. `CLI.main` goes on to run the problem exactly when `load` accepts it; in the other cases, exceptions included, it returns to
the prompt. -/
theorem C20_cli (cfg : Config) (input : Str) (a : Attrs) (h : Heap Int) :
    (cliLoads cfg input a h).1 = true ↔ (load cfg input a h).result = .ok true := by
  unfold cliLoads
  dsimp only
  split
  · rename_i e; rw [e]; simp
  · rename_i e; rw [e]; simp

/-- C20, beside the property: an input that is parsed but in which everything cancels is refused as well, and forgets the solutions
of the previous problem. -/
theorem C20_cancelled_resets (cfg : Config) (input : Str) (a : Attrs) (h : Heap Int) {s t : List ℚ} (hp : Parsed input s t)
    (hc : (s ++ extra s.sum t.sum).Perm (t ++ extra t.sum s.sum)) : load cfg input a h = ⟨.ok false, a.reset, h⟩ := by
  rw [load_parsed hp.1 hp.2.1 hp.2.2]
  have hrem : Remains s t [] [] := ⟨⟨t ++ extra t.sum s.sum, by simpa using hc.symm, by simp⟩, by simp⟩
  obtain ⟨e1, e2⟩ := hrem.eq (by simp) (by simp)
  rcases loadValues_spec cfg s t a h with ⟨_, h1, h2, ⟨_, h3⟩ | ⟨h3, _⟩⟩ | ⟨h1, _⟩ | L
  · obtain ⟨r, hr⟩ : ∃ r, r = loadValues cfg s t a h := ⟨_, rfl⟩
    rw [← hr] at h1 h2 h3 ⊢
    cases r
    simp_all
  · exact absurd e2 h3
  · exact absurd e1 h1
  · exact absurd e1 L.nonempty

example : (Example.loaded "2 4 to 1 5").result = .ok true ∧ (Example.loaded "two").result = .ok false ∧
    (Example.loaded "5 to 5").result = .ok false ∧ (Example.loaded "2 to 1 1").result = .error .valueError ∧
    (Example.loaded "5 to 0 5").result = .error .assertionError := by decide +kernel

/-! ## C25 -/

/-- C25. Grouping ends without exception. The nodes it creates form a forest in which every inner node shares its value equally among
at least two children, divisions by more than three being marked for expansion; the roots have increasing values; the values
of the leaves are the given values; the cost is the sum of the costs of dividing at the inner nodes; older objects are unchanged. -/
theorem C25_grouping_lossless (cfg : Config) (h : Heap Int) (values : List Int) (hpos : ∀ v ∈ values, 0 < v) :
    ∃ h' roots cost inner leaves, groupValues cfg h values = .ok (h', roots, cost) ∧ Forest h' roots inner leaves ∧
      (roots.map fun a => (h'.get a).value).Pairwise (· < ·) ∧ (leaves.map fun a => (h'.get a).value).Perm values ∧
      Tagged h' inner leaves ∧ DivideCosts cfg h' inner cost ∧ Heap.Ext h h' ∧
      (roots.map fun a => (h'.get a).value).sum = values.sum := by
  have hperm := List.perm_insertionSort (· ≤ ·) values
  rcases groupValues_spec cfg h values (fun v hv => (hpos v hv).le) with ⟨_, h1⟩ | ⟨h', roots, inner, cost, e, I, hs⟩
  · exact absurd hpos h1
  · refine ⟨h', roots, cost, inner, _, e, I.forest (fun v hv => hpos v (hperm.mem_iff.1 hv)), ?_, ?_, I.tagged, I.costs, I.ext, ?_⟩
    · rw [List.pairwise_map]; exact hs
    · rw [I.values]; exact hperm
    · rw [I.total, hperm.sum_eq]

/-- `[2, 1, 3, 1, 5]`: the two ones make a second two, and the two twos make four. -/
example : (match groupValues config Example.emptyHeap [2, 1, 3, 1, 5] with
    | .ok (h, roots, cost) => (valuesOf h roots, (roots.map fun a => valuesOf h (h.get a).children), cost)
    | .error _ => ([], [], 0)) = ([3, 4, 5], [[], [2, 2], []], 2) := by decide +kernel

/-! ## C21, C22 -/

/-- C21. The values `load` goes on with are `S` and `T`, what remains of the requested values after the side of smaller total has got
one more value (`extra`) and equal values have been cancelled. Scaled by `unit_flow_ratio` they are the values of the sources and of
the leaves below the targets. The totals agree. -/
theorem C21_balanced {cfg : Config} {input : Str} {a : Attrs} {h : Heap Int} (e : (load cfg input a h).result = .ok true) :
    ∃ (s t S T : List ℚ) (leafValues : List ℤ), Parsed input s t ∧ Remains s t S T ∧ S.sum = T.sum ∧ 1 ≤ (load cfg input a h).attrs.unitFlowRatio ∧
      (load cfg input a h).attrs.treeSource.sourceValues.map (fun (z : ℤ) => (z : ℚ)) =
        S.map (fun f => f * ((load cfg input a h).attrs.unitFlowRatio : ℚ)) ∧
      leafValues.map (fun (z : ℤ) => (z : ℚ)) = T.map (fun f => f * ((load cfg input a h).attrs.unitFlowRatio : ℚ)) ∧
      (load cfg input a h).attrs.treeSource.sourceValues.sum = (load cfg input a h).attrs.targetValues.sum ∧
      leafValues.sum = (load cfg input a h).attrs.targetValues.sum ∧
      (s.sum = t.sum → extra s.sum t.sum = [] ∧ extra t.sum s.sum = []) ∧
      (s.sum < t.sum → extra s.sum t.sum = [t.sum - s.sum] ∧ extra t.sum s.sum = []) ∧
      (t.sum < s.sum → extra s.sum t.sum = [] ∧ extra t.sum s.sum = [s.sum - t.sum]) := by
  obtain ⟨s, t, hp, hs, ht, _, L⟩ := load_accepted e
  refine ⟨s, t, _, _, scaledTargets s t, ⟨hp, hs, ht⟩, reduced_remains s t, (reduced_spec s t).2.2.2.1, ?_, ?_, ?_, ?_, ?_, ?_, ?_, ?_⟩
  · rw [L.ratio]; exact ratio_pos s t
  · rw [L.ratio, L.sources]; exact (scaled_cast s t).1
  · rw [L.ratio]; exact (scaled_cast s t).2
  · rw [L.targets_sum, L.sources]
  · rw [L.targets_sum, scaled_sum]
  · intro heq; rw [heq]; simp [extra]
  · intro hlt
    unfold extra
    rw [if_pos hlt, if_neg (not_lt.2 hlt.le)]
    exact ⟨rfl, rfl⟩
  · intro hlt
    unfold extra
    rw [if_pos hlt, if_neg (not_lt.2 hlt.le)]
    exact ⟨rfl, rfl⟩

/-- C22. For positive values: the sources are fresh nodes with sorted positive integer values; divided by `unit_flow_ratio` these are
the requested sources that remain. The targets are the roots of a forest whose leaves, divided by `unit_flow_ratio`, are the
requested targets that remain. -/
theorem C22_loaded_problem {cfg : Config} {input : Str} {a : Attrs} {h : Heap Int} {s t : List ℚ} (hp : Parsed input s t)
    (hs : ∀ v ∈ s, 0 < v) (ht : ∀ v ∈ t, 0 < v) (e : (load cfg input a h).result = .ok true) :
    ∃ values inner leaves, Source (load cfg input a h).heap (load cfg input a h).attrs.treeSource values ∧
      (load cfg input a h).attrs.treeSource.sourceValues = values ∧
      Forest (load cfg input a h).heap (load cfg input a h).attrs.leaves inner leaves ∧
      Tagged (load cfg input a h).heap inner leaves ∧
      DivideCosts cfg (load cfg input a h).heap inner (load cfg input a h).attrs.sizeOffset ∧
      (load cfg input a h).attrs.targetValues = (load cfg input a h).attrs.leaves.map
        (fun x => ((load cfg input a h).heap.get x).value) ∧
      (load cfg input a h).attrs.targetValues.Pairwise (· < ·) ∧
      Remains s t (values.map fun (z : ℤ) => (z : ℚ) / ((load cfg input a h).attrs.unitFlowRatio : ℚ))
        (leaves.map fun x => ((((load cfg input a h).heap.get x).value : ℤ) : ℚ) / ((load cfg input a h).attrs.unitFlowRatio : ℚ)) := by
  obtain ⟨s', t', hp', -, -, -, L⟩ := load_accepted e
  obtain ⟨rfl, rfl⟩ : s' = s ∧ t' = t := by
    have := hp'.symm.trans hp.1
    simpa using this
  generalize load cfg input a h = r at L e ⊢
  obtain ⟨hg, inner, I, hst, etv, hext, -⟩ := L.grouped
  have hrange := I.node_range
  have hget : ∀ x ∈ inner ++ List.range' h.next (scaledTargets s' t').length, r.heap.get x = hg.get x :=
    fun x hx => hext.get x (hrange x hx).2
  have hroot : ∀ x ∈ r.attrs.leaves, r.heap.get x = hg.get x := fun x hx => hext.get x (I.tops_range x hx).2
  refine ⟨scaledSources s' t', inner, List.range' h.next (scaledTargets s' t').length, L.source hs ht, L.sources,
    (I.forest (scaled_pos hs ht).2).ext hext (fun x hx => (hrange x hx).2), I.tagged.ext hget,
    I.costs.ext (fun x hx => hget x (List.mem_append_left _ hx)), ?_, L.targets_sorted, ?_⟩
  · rw [etv]; exact List.map_congr_left (fun x hx => by rw [hroot x hx])
  · have hrem := reduced_remains s' t'
    have e1 := of_cast (ratio_pos' s' t') (scaled_cast s' t').1
    have e2 := of_cast (ratio_pos' s' t') (scaled_cast s' t').2
    have e3 : (List.range' h.next (scaledTargets s' t').length).map
        (fun x => (((r.heap.get x).value : ℤ) : ℚ) / (r.attrs.unitFlowRatio : ℚ)) =
        (scaledTargets s' t').map (fun (z : ℤ) => (z : ℚ) * (1 / (ratio s' t' : ℚ))) := by
      conv_rhs => rw [← I.values]
      rw [List.map_map]
      apply List.map_congr_left
      intro x hx
      rw [hget x (List.mem_append_right _ hx), L.ratio]
      simp only [Function.comp]
      ring
    have e4 : (scaledSources s' t').map (fun (z : ℤ) => (z : ℚ) / (r.attrs.unitFlowRatio : ℚ)) =
        (scaledSources s' t').map (fun (z : ℤ) => (z : ℚ) * (1 / (ratio s' t' : ℚ))) := by
      apply List.map_congr_left
      intro x _
      rw [L.ratio]; ring
    rw [e3, e4, ← e1, ← e2]
    exact hrem

/-- C22. A loaded problem meets the assumptions of the theorems on the search (`Problem.WF`, `Source`, a bound that is not negative); its
other attributes are those the property names promise: least target, belt limit, greatest common divisor, flags cleared. -/
theorem C22_search_assumptions {cfg : Config} (hcfg : cfg.speeds.Pairwise (· ≤ ·)) {input : Str} {a : Attrs} {h : Heap Int}
    {s t : List ℚ} (hp : Parsed input s t) (hs : ∀ v ∈ s, 0 < v) (ht : ∀ v ∈ t, 0 < v)
    (e : (load cfg input a h).result = .ok true) :
    ((load cfg input a h).attrs.problem cfg).WF ∧
    Source (load cfg input a h).heap (load cfg input a h).attrs.treeSource (load cfg input a h).attrs.treeSource.sourceValues ∧
    0 ≤ (load cfg input a h).attrs.bestSize ∧
    IsLeast {v | v ∈ (load cfg input a h).attrs.targetValues} (load cfg input a h).attrs.minTarget ∧
    (load cfg input a h).attrs.nTargets = (load cfg input a h).attrs.targetValues.length ∧
    (load cfg input a h).attrs.limit = cfg.limit ∧
    (∀ v ∈ (load cfg input a h).attrs.treeSource.sourceValues ++ (load cfg input a h).attrs.targetValues,
      0 < v ∧ (load cfg input a h).attrs.gcd ∣ v) ∧
    (∃ T, (load cfg input a h).attrs.problemStr = problemName
      ((load cfg input a h).attrs.treeSource.sourceValues.map fun (z : ℤ) => (z : ℚ) / ((load cfg input a h).attrs.unitFlowRatio : ℚ))
      T ∧ Remains s t
      ((load cfg input a h).attrs.treeSource.sourceValues.map fun (z : ℤ) => (z : ℚ) / ((load cfg input a h).attrs.unitFlowRatio : ℚ))
      T) ∧
    (load cfg input a h).attrs.solving = false ∧ (load cfg input a h).attrs.doneSolving = false ∧
    (load cfg input a h).attrs.concluding = false ∧ (load cfg input a h).attrs.doneConcluding = false ∧
    (load cfg input a h).attrs.solutions = [] ∧ (load cfg input a h).attrs.solutionsCount = 0 := by
  obtain ⟨s', t', hp', -, -, -, L⟩ := load_accepted e
  obtain ⟨rfl, rfl⟩ : s' = s ∧ t' = t := by
    have := hp'.symm.trans hp.1
    simpa using this
  generalize load cfg input a h = r at L e ⊢
  have hsrc := L.source hs ht
  refine ⟨L.wf hcfg hs ht, by rw [L.sources]; exact hsrc, ?_, ⟨L.minTarget.1, L.minTarget.2⟩, L.nTargets, L.limit, ?_, ?_, L.reset⟩
  · obtain ⟨x, _, h0, h1⟩ := L.bound
    have := L.cost_nonneg hs ht
    rw [h1]; omega
  · intro v hv
    rw [L.sources] at hv
    obtain ⟨_, g1, g2⟩ := L.gcd_pos hs ht
    rcases List.mem_append.1 hv with hv | hv
    · exact ⟨hsrc.pos v hv, g1 v hv⟩
    · exact ⟨L.targets_pos hs ht v hv, g2 v hv⟩
  · have e1 := of_cast (ratio_pos' s' t') (scaled_cast s' t').1
    have e2 : (r.attrs.treeSource.sourceValues.map fun (z : ℤ) => (z : ℚ) / (r.attrs.unitFlowRatio : ℚ)) = (reduced s' t').1 := by
      rw [e1, L.sources]
      apply List.map_congr_left
      intro x _
      rw [L.ratio]; ring
    rw [e2]
    exact ⟨_, L.name, reduced_remains s' t'⟩

/-- `"1/2 3/2 3 to 3/2 1/2 1/2 4"`: a source of 3/2 is added; 1/2 and 3/2 cancel. -/
example : Parsed "1/2 3/2 3 to 3/2 1/2 1/2 4".toList [1/2, 3/2, 3] [3/2, 1/2, 1/2, 4] ∧
    (Example.loaded "1/2 3/2 3 to 3/2 1/2 1/2 4").result = .ok true ∧
    (Example.loaded "1/2 3/2 3 to 3/2 1/2 1/2 4").attrs.treeSource.sourceValues = [3, 6] ∧
    (Example.loaded "1/2 3/2 3 to 3/2 1/2 1/2 4").attrs.unitFlowRatio = 2 ∧
    (Example.loaded "1/2 3/2 3 to 3/2 1/2 1/2 4").attrs.targetValues = [1, 8] :=
  ⟨⟨by decide +kernel, by decide, by decide⟩, by decide +kernel⟩

/-! ## C23 -/

/-- C23. For positive values, the sources that remain are none iff the targets that remain are none, and `load` does not raise
`AssertionError`. -/
theorem C23_assertion_holds (cfg : Config) {input : Str} (a : Attrs) (h : Heap Int) {s t : List ℚ} (hp : Parsed input s t)
    (hs : ∀ v ∈ s, 0 < v) (ht : ∀ v ∈ t, 0 < v) :
    (∀ S T, Remains s t S T → (S = [] ↔ T = [])) ∧ (load cfg input a h).result ≠ .error .assertionError := by
  have hpos := reduced_pos hs ht
  have hiff := pos_nil_iff hpos.1 hpos.2 (reduced_spec s t).2.2.2.1
  constructor
  · intro S T hrem
    obtain ⟨p1, p2⟩ := hrem.perm (reduced_remains s t)
    rw [← List.length_eq_zero_iff, ← List.length_eq_zero_iff, p1.length_eq, p2.length_eq, List.length_eq_zero_iff,
      List.length_eq_zero_iff]
    exact hiff
  · rw [load_parsed hp.1 hp.2.1 hp.2.2]
    rcases loadValues_spec cfg s t a h with ⟨h0, _, _, ⟨_, h1⟩ | ⟨h1, _⟩⟩ | ⟨_, h1, _⟩ | h1
    · rw [h1]; simp
    · exact absurd (hiff.1 h0) h1
    · rw [h1]; simp
    · rw [h1.ok]; simp

example : Remains [1/2, 3/2, 3] [3/2, 1/2, 1/2, 4] [3, 3/2] [1/2, 4] :=
  ⟨⟨[1/2, 3/2], by decide +kernel, by decide +kernel⟩, by decide +kernel⟩

/-! ## C24 -/

/-- C24 fails: `"2 to 1 1"` is made of positive values, does not cancel out, and `load` raises. -/
theorem C24_loads_false : ∃ (input : Str) (s t : List ℚ), Parsed input s t ∧ (∀ v ∈ s, 0 < v) ∧ (∀ v ∈ t, 0 < v) ∧
    ¬ (s ++ extra s.sum t.sum).Perm (t ++ extra t.sum s.sum) ∧
    (load config input Example.attrs0 Example.emptyHeap).result = .error .valueError :=
  ⟨"2 to 1 1".toList, [2], [1, 1], ⟨by decide +kernel, by decide, by decide⟩, by decide, by decide, by decide +kernel, by decide +kernel⟩

/-- C24, the part that holds: on positive values that do not cancel out, `load` accepts, except that it raises `ValueError` exactly
when what remains is `u u to 2u`, `2u to u u` or `3u to u 2u` for `u` equal to 1, 1/2, 1/3, …. Missing: acceptance in these cases, which
is false. -/
theorem C24_loads_partial (cfg : Config) {input : Str} (a : Attrs) (h : Heap Int) {s t : List ℚ} (hp : Parsed input s t)
    (hs : ∀ v ∈ s, 0 < v) (ht : ∀ v ∈ t, 0 < v) (hc : ¬ (s ++ extra s.sum t.sum).Perm (t ++ extra t.sum s.sum)) :
    ((load cfg input a h).result = .ok true ∨ (load cfg input a h).result = .error .valueError) ∧
    ((load cfg input a h).result = .error .valueError ↔ ∃ (n : Nat) (S T : List ℚ), 1 ≤ n ∧ Remains s t S T ∧ Tiny S T (1 / n : ℚ)) := by
  have hne : (reduced s t).1 ≠ [] := by
    intro hnil
    have hnil2 := (pos_nil_iff (reduced_pos hs ht).1 (reduced_pos hs ht).2 (reduced_spec s t).2.2.2.1).1 hnil
    obtain ⟨⟨c, c1, c2⟩, _⟩ := reduced_remains s t
    rw [hnil] at c1
    rw [hnil2] at c2
    exact hc (c1.symm.trans c2)
  rw [load_parsed hp.1 hp.2.1 hp.2.2]
  obtain ⟨h1, h2⟩ := loadValues_raises (cfg := cfg) (h := h) a hs ht hne
  refine ⟨h1, h2.trans ⟨?_, ?_⟩⟩
  · rintro ⟨n, hn, htiny⟩
    exact ⟨n, _, _, hn, reduced_remains s t, htiny⟩
  · rintro ⟨n, S, T, hn, hrem, htiny⟩
    have hu : (0 : ℚ) < (n : ℚ)⁻¹ := by positivity
    have hS : S.Pairwise (· ≤ ·) ∧ T.Pairwise (· ≤ ·) := by
      rcases htiny with ⟨rfl, rfl⟩ | ⟨rfl, rfl⟩ | ⟨rfl, rfl⟩ <;> simp <;> linarith
    obtain ⟨e1, e2⟩ := hrem.eq hS.1 hS.2
    exact ⟨n, hn, by rw [e1, e2]; exact htiny⟩

/-! ## C55 -/

/-- C55 fails: in `"601/2 601/2 to 601"` the flows are doubled, and merging the two sources is refused because of the limit 1200
although the real flow is 601. The search then ends without a solution. -/
theorem C55_limit_false : (Example.loaded "601/2 601/2 to 601").result = .ok true ∧
    LimitRejects ((Example.loaded "601/2 601/2 to 601").attrs.problem config) (Example.loaded "601/2 601/2 to 601").attrs.treeSource
      [] 1 (initial (Example.loaded "601/2 601/2 to 601").heap 1) [0, 1] [601, 601] ∧
    ((601 + 601 : ℤ) : ℚ) / ((Example.loaded "601/2 601/2 to 601").attrs.unitFlowRatio : ℚ) = 601 ∧
    (Example.loaded "601/2 601/2 to 601").attrs.limit = 1200 ∧
    Example.summary (solve ((Example.loaded "601/2 601/2 to 601").attrs.problem config) (Example.oracle [1202] none) 100
      (Example.loaded "601/2 601/2 to 601").heap (Example.loaded "601/2 601/2 to 601").attrs.treeSource
      (Example.loaded "601/2 601/2 to 601").attrs.bestSize) = .ok (1, 0, 0, 6) := by
  refine ⟨by decide +kernel, ⟨by decide +kernel, 1202, ⟨[1202], .merge [0, 1], 1⟩, by decide +kernel⟩, ?_, by decide +kernel,
    by decide +kernel⟩
  have : (Example.loaded "601/2 601/2 to 601").attrs.unitFlowRatio = 2 := by decide +kernel
  rw [this]; norm_num

/-- C55, the part that holds: whatever the tree, a candidate whose real flow exceeds the limit is never proposed, and when the input is
not scaled (`unit_flow_ratio` is 1) only candidates whose real flow exceeds the limit are refused for that reason. Missing: the
latter for scaled inputs, which is false. -/
theorem C55_limit_partial {cfg : Config} {input : Str} {a : Attrs} {h : Heap Int} (e : (load cfg input a h).result = .ok true)
    (t : TreeObj Int) (cantUse : List Int) (cost : Int) (s : Search) (idx : List Nat) (vs : List Int) (hvs : ∀ v ∈ vs, 0 ≤ v) :
    ((cfg.limit : ℚ) < ((vs.sum : ℤ) : ℚ) / ((load cfg input a h).attrs.unitFlowRatio : ℚ) →
      ∀ m, mergeMove ((load cfg input a h).attrs.problem cfg) t cantUse cost s idx vs ≠ .ok (some m)) ∧
    (LimitRejects ((load cfg input a h).attrs.problem cfg) t cantUse cost s idx vs →
      (cfg.limit : ℚ) < ((vs.sum : ℤ) : ℚ)) ∧
    ((load cfg input a h).attrs.unitFlowRatio = 1 → LimitRejects ((load cfg input a h).attrs.problem cfg) t cantUse cost s idx vs →
      (cfg.limit : ℚ) < ((vs.sum : ℤ) : ℚ) / ((load cfg input a h).attrs.unitFlowRatio : ℚ)) := by
  obtain ⟨s', t', hp', -, -, -, L⟩ := load_accepted e
  generalize load cfg input a h = r at L e ⊢
  have hsum : vs.foldl (· + ·) 0 = vs.sum := by rw [← List.sum_eq_foldl]
  have hlim : (r.attrs.problem cfg).limit = cfg.limit := L.limit
  have hrej : LimitRejects (r.attrs.problem cfg) t cantUse cost s idx vs → (cfg.limit : ℚ) < ((vs.sum : ℤ) : ℚ) := by
    rintro ⟨h1, l, m, h2⟩
    by_contra hle
    rw [not_lt] at hle
    have hle' : vs.sum ≤ (cfg.limit : ℤ) := by exact_mod_cast hle
    unfold mergeMove at h1 h2
    rw [hsum] at h1 h2
    split at h2
    · simp at h2
    · rename_i g1
      rw [if_neg g1] at h1
      dsimp only at h1 h2
      split at h2
      · simp at h2
      · rename_i g2
        rw [if_neg g2] at h1
        split at h2
        · simp at h2
        · rename_i nodes hpk
          rw [hpk] at h1
          dsimp only at h1
          split at h2
          · simp at h2
          · rename_i g3
            have g3' : ¬ (decide (vs.sum > (r.attrs.problem cfg).limit) || nodes.any fun a => (s.heap.get a).past.contains vs.sum) = true := by
              rw [Bool.or_eq_true, not_or] at g3 ⊢
              exact ⟨by rw [hlim]; simpa using hle', g3.2⟩
            rw [if_neg g3'] at h1
            rw [h1] at h2
            simp at h2
  refine ⟨?_, hrej, ?_⟩
  · intro hgt m hm
    have hr1 : (1 : ℚ) ≤ (r.attrs.unitFlowRatio : ℚ) := by
      rw [L.ratio]; exact_mod_cast ratio_pos s' t'
    have h0 : (0 : ℚ) ≤ ((vs.sum : ℤ) : ℚ) := by exact_mod_cast List.sum_nonneg hvs
    have h1 : (cfg.limit : ℚ) < ((vs.sum : ℤ) : ℚ) := lt_of_lt_of_le hgt (div_le_self h0 hr1)
    have h1' : vs.sum > (cfg.limit : ℤ) := by exact_mod_cast h1
    unfold mergeMove at hm
    rw [hsum] at hm
    split at hm
    · simp at hm
    · dsimp only at hm
      split at hm
      · simp at hm
      · split at hm
        · simp at hm
        · rw [if_pos (by rw [hlim]; simp [h1'])] at hm
          simp at hm
  · intro h1 h2
    rw [h1]
    simpa using hrej h2

/-- What the limit changes for a candidate that some limit lets pass. -/
theorem Solver.mergeMove_limit (P : Problem) (t : TreeObj Int) (cantUse : List Int) (cost : Int) (s : Search) (idx : List Nat)
    (vs : List Int) {l : ℤ} {m : Move} (hm : mergeMove { P with limit := l } t cantUse cost s idx vs = .ok (some m)) (l' : ℤ) :
    mergeMove { P with limit := l' } t cantUse cost s idx vs = if vs.sum ≤ l' then .ok (some m) else .ok none := by
  have hsum : vs.foldl (· + ·) 0 = vs.sum := by rw [← List.sum_eq_foldl]
  unfold mergeMove at hm ⊢
  rw [hsum] at hm ⊢
  split at hm
  · simp at hm
  · rename_i g1
    rw [if_neg g1]
    dsimp only at hm ⊢
    split at hm
    · simp at hm
    · rename_i g2
      rw [if_neg g2]
      split at hm
      · simp at hm
      · rename_i nodes hpk
        split at hm
        · simp at hm
        · rename_i g3
          rw [Bool.or_eq_true, not_or] at g3
          by_cases hle : vs.sum ≤ l'
          · rw [if_pos hle, if_neg (by rw [Bool.or_eq_true, not_or]; exact ⟨by simpa using hle, g3.2⟩)]
            exact hm
          · rw [if_neg hle, if_pos (by simp [not_le.1 hle])]

/-- C55, exactly: of the candidates that some limit lets pass, the code refuses those whose scaled flow exceeds the limit and no others;
so it decides wrongly exactly on those whose real flow is within the limit while the scaled one is not. Missing: that there are none,
which is false. -/
theorem C55_limit_iff_partial {cfg : Config} {input : Str} {a : Attrs} {h : Heap Int} (e : (load cfg input a h).result = .ok true)
    (t : TreeObj Int) (cantUse : List Int) (cost : Int) (s : Search) (idx : List Nat) (vs : List Int)
    (hok : ∃ l m, mergeMove { (load cfg input a h).attrs.problem cfg with limit := l } t cantUse cost s idx vs = .ok (some m)) :
    ((∃ m, mergeMove ((load cfg input a h).attrs.problem cfg) t cantUse cost s idx vs = .ok (some m)) ↔ vs.sum ≤ cfg.limit) ∧
    (LimitRejects ((load cfg input a h).attrs.problem cfg) t cantUse cost s idx vs ↔ (cfg.limit : ℤ) < vs.sum) ∧
    ((LimitRejects ((load cfg input a h).attrs.problem cfg) t cantUse cost s idx vs ↔
      (cfg.limit : ℚ) < ((vs.sum : ℤ) : ℚ) / ((load cfg input a h).attrs.unitFlowRatio : ℚ)) ↔
      ¬ ((cfg.limit : ℤ) < vs.sum ∧ vs.sum ≤ (load cfg input a h).attrs.unitFlowRatio * (cfg.limit : ℤ))) := by
  obtain ⟨s', t', hp', -, -, -, L⟩ := load_accepted e
  generalize load cfg input a h = r at L e hok ⊢
  obtain ⟨l, m, hm⟩ := hok
  have hlim : (r.attrs.problem cfg).limit = cfg.limit := L.limit
  have hP : mergeMove (r.attrs.problem cfg) t cantUse cost s idx vs = if vs.sum ≤ cfg.limit then .ok (some m) else .ok none := by
    have := mergeMove_limit _ t cantUse cost s idx vs hm (r.attrs.problem cfg).limit
    rw [hlim] at this
    rw [← this, ← hlim]
  have h2 : LimitRejects (r.attrs.problem cfg) t cantUse cost s idx vs ↔ (cfg.limit : ℤ) < vs.sum := by
    unfold LimitRejects
    rw [hP]
    constructor
    · rintro ⟨h1, -⟩
      by_contra hle
      rw [if_pos (not_lt.1 hle)] at h1
      simp at h1
    · intro hlt
      exact ⟨if_neg (not_le.2 hlt), l, m, hm⟩
  have hr : (1 : ℤ) ≤ r.attrs.unitFlowRatio := by
    rw [L.ratio]; exact_mod_cast ratio_pos s' t'
  have hr' : (0 : ℚ) < (r.attrs.unitFlowRatio : ℚ) := by exact_mod_cast (by omega : (0 : ℤ) < r.attrs.unitFlowRatio)
  refine ⟨?_, h2, ?_⟩
  · rw [hP]
    by_cases hle : vs.sum ≤ cfg.limit
    · simp [hle]
    · simp [hle]
  · have h3 : (cfg.limit : ℚ) < ((vs.sum : ℤ) : ℚ) / (r.attrs.unitFlowRatio : ℚ) ↔
        r.attrs.unitFlowRatio * (cfg.limit : ℤ) < vs.sum := by
      rw [lt_div_iff₀ hr', mul_comm]
      exact_mod_cast Iff.rfl
    have h4 : (cfg.limit : ℤ) ≤ r.attrs.unitFlowRatio * (cfg.limit : ℤ) := by nlinarith [Int.natCast_nonneg cfg.limit]
    rw [h2, h3]
    constructor
    · rintro h5 ⟨h6, h7⟩
      exact absurd (h5.1 h6) (not_lt.2 h7)
    · intro h5
      constructor
      · intro h6
        by_contra h7
        exact h5 ⟨h6, not_lt.1 h7⟩
      · intro h6; omega

/-- The candidate of `C55_limit_false` is one that another limit lets pass. -/
example : ∃ l m, mergeMove { (Example.loaded "601/2 601/2 to 601").attrs.problem config with limit := l }
    (Example.loaded "601/2 601/2 to 601").attrs.treeSource [] 1 (initial (Example.loaded "601/2 601/2 to 601").heap 1) [0, 1]
    [601, 601] = .ok (some m) :=
  ⟨1202, ⟨[1202], .merge [0, 1], 1⟩, by decide +kernel⟩

end Satis
