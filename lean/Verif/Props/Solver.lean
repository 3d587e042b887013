import Verif.Solver.Proposed
import Verif.Solver.Example
/-!
# Properties of the search (C27–C29, C32–C38, C53, C54, C56)

Setting: `P.WF` says what `load` establishes, `Source h0 t0 values` that the search starts from fresh nodes with the given sorted
positive values, `B` is the initial `best_size`. An `Oracle` holds everything the search does not control. Statements about
"every moment" are about the loop test of `solve` (`Reached`) for every oracle: because an oracle may clear the flag at any of its
reads and nothing is queued or reported after that (C36), the moments inside a round are covered as well.
-/

namespace Satis
open Graph Solver Cost

section
variable {P : Problem} {O : Oracle} {h0 : Heap Int} {t0 : TreeObj Int} {values : List Int} {B : Int} {s : Search}

theorem Solver.start_above (hP : P.WF) (hs : Source h0 t0 values) (hB : 0 ≤ B) {lo : Nat}
    (hlo : ∀ a, Reach h0 t0.roots a → lo ≤ (h0.get a).id) :
    Inv P B (Net.ofValues values) lo (enqueue P O (initial h0 B) t0) ∧ (O.stopAt = none → ∀ gE, NPlay P B (Net.ofValues values) gE →
      Kept P B (Net.ofValues values) gE (enqueue P O (initial h0 B) t0)) := by
  obtain ⟨loc, hr⟩ := hs.rep
  exact start_inv hP hs.wf O hr ⟨⟨values, _, _, rfl, .start hs⟩, _, loc, hs.wf, hr,
    fun i hi => hlo _ ((hr.reach_iff hs.wf _).2 ⟨i, hi, rfl⟩)⟩ hB

theorem Solver.start_ok (hP : P.WF) (hs : Source h0 t0 values) (hB : 0 ≤ B) :
    Inv P B (Net.ofValues values) 0 (enqueue P O (initial h0 B) t0) ∧ (O.stopAt = none → ∀ gE, NPlay P B (Net.ofValues values) gE →
      Kept P B (Net.ofValues values) gE (enqueue P O (initial h0 B) t0)) :=
  start_above hP hs hB fun _ _ => Nat.zero_le _

theorem Solver.Reached.inv (hP : P.WF) (hs : Source h0 t0 values) (hB : 0 ≤ B) (h : Reached P O h0 t0 B s) :
    Inv P B (Net.ofValues values) 0 s :=
  Visited.inv hP hs.wf O (start_ok hP hs hB).1 h

/-- Ids in the trees of the search do not fall below those of the initial nodes. -/
theorem Solver.Reached.ids (hP : P.WF) (hs : Source h0 t0 values) (hB : 0 ≤ B) (h : Reached P O h0 t0 B s) {lo : Nat}
    (hlo : ∀ a, Reach h0 t0.roots a → lo ≤ (h0.get a).id) {t : TreeObj Int} (ht : s.Holds t) {a : Nat}
    (ha : Reach s.heap t.roots a) : lo ≤ (s.heap.get a).id := by
  have hi := Visited.inv hP hs.wf O (start_above (O := O) hP hs hB hlo).1 h
  rcases ht with ⟨e, he, rfl⟩ | ht
  · exact (hi.queue e he).2.1.ids ha
  · exact (hi.sols t ht).2.2.1.ids ha

/-- Whatever the search holds was built by permitted moves. -/
theorem Solver.Reached.play (hP : P.WF) (hs : Source h0 t0 values) (hB : 0 ≤ B) (h : Reached P O h0 t0 B s) {t : TreeObj Int}
    (ht : s.Holds t) : ∃ hist costs, Play P B values s.heap t hist costs := by
  have hi := h.inv hP hs hB
  have : Made P B (Net.ofValues values) 0 s.heap t := by
    rcases ht with ⟨e, he, rfl⟩ | ht
    · exact (hi.queue e he).2.1
    · exact (hi.sols t ht).2.2.1
  obtain ⟨⟨values', hist, costs, e, hp⟩, -⟩ := this
  have : values = values' := by rw [← ofValues_vals values, e, ofValues_vals]
  subst this
  exact ⟨hist, costs, hp⟩

theorem Solver.Play.head {h : Heap Int} {t : TreeObj Int} {hist : List (List Int)} {costs : List Int}
    (hp : Play P B values h t hist costs) : hist.head? = some values := by
  induction hp with
  | start _ => rfl
  | move _ _ _ _ _ ih => rw [List.head?_append, ih]; rfl
  | other _ _ ih => exact ih

/-! ## C27, C29 -/

/-- C27. Every tree in the queue or among the solutions has sources sorted by value, positive values, caches that agree with the
sources, sources that are exactly the nodes without children, and the total of the loaded sources. -/
theorem C27_states_well_formed (hP : P.WF) (hs : Source h0 t0 values) (hB : 0 ≤ B) (h : Reached P O h0 t0 B s) {t : TreeObj Int}
    (ht : s.Holds t) : WellFormed s.heap t values.sum := by
  obtain ⟨hist, costs, hp⟩ := h.play hP hs hB ht
  exact (hp.facts hP).1

/-- C29. In every such tree edges lead to strictly greater levels, sources carry the current level, all levels lie between 0 and the
current one, and no node reaches itself. -/
theorem C29_states_layered (hP : P.WF) (hs : Source h0 t0 values) (hB : 0 ≤ B) (h : Reached P O h0 t0 B s) {t : TreeObj Int}
    (ht : s.Holds t) : Layered s.heap t := by
  obtain ⟨hist, costs, hp⟩ := h.play hP hs hB ht
  exact (hp.facts hP).2.1

/-- The search for "2 4 to 1 5", stopped at read 40, holds six trees that C27, C29, C32 and C54 speak about. -/
theorem Solver.Example.reached : ∃ s, Reached Example.P (Example.oracle [1, 5] (some 40)) Example.h0 Example.t0 4 s ∧
    s.queue.length = 6 ∧ ∀ e ∈ s.queue, s.Holds e.1 := by
  obtain ⟨s, h1, _, _, h2, _⟩ := Example.of_summary Example.run_stopped
  exact ⟨s, solveLoop_visited _ .start h1, h2, fun e he => Or.inl ⟨e, he, rfl⟩⟩

example : ∃ s t, Reached Example.P (Example.oracle [1, 5] (some 40)) Example.h0 Example.t0 4 s ∧ s.Holds t ∧
    WellFormed s.heap t 6 ∧ Layered s.heap t := by
  obtain ⟨s, h1, h2, h3⟩ := Example.reached
  obtain ⟨e, l, hq⟩ : ∃ e l, s.queue = e :: l := List.exists_cons_of_length_eq_add_one h2
  have ht := h3 e (by rw [hq]; simp)
  exact ⟨s, e.1, h1, ht, C27_states_well_formed Example.P_wf Example.source (by decide) h1 ht,
    C29_states_layered Example.P_wf Example.source (by decide) h1 ht⟩

/-! ## C28 -/

/-- C28. A move proposed for a tree can be applied to a copy of it, the copy then has exactly the predicted source values (and they
are the values of its sources), which differ from all earlier ones. -/
theorem C28_predicted_states (hP : P.WF) {h : Heap Int} {t : TreeObj Int} {hist : List (List Int)} {costs : List Int}
    (hp : Play P B values h t hist costs) {s : Search} (he : Heap.Ext h s.heap) {m : Move} (hm : Proposed P h s t m) :
    ∃ h' t', makeChild P.cfg s.heap t m.op m.cost = .ok (h', t') ∧ t'.sourceValues = m.sim ∧
      t'.sources.map (fun a => (h'.get a).value) = m.sim ∧ m.sim ∉ t.past.items := by
  obtain ⟨g, loc, hn, hr, hg0⟩ := hp.net hP
  have hg := hn.wf hP hg0
  obtain ⟨e1, ha, e2, _⟩ := hm.net hP hr (hr.ext he) hg
  obtain ⟨h', t', loc', e, _, _, hr'⟩ := makeChild_rep (hr.ext he) hg (cfg := P.cfg) m.cost ha
  obtain ⟨old, vs, tO, tN, hc, eg⟩ := Adm.grow hg ha m.cost
  have hfresh : m.sim ∉ t.past.items := by
    unfold seenState at e2
    rw [Bool.or_eq_false_iff] at e2
    intro hin
    have hw : t.past.WF := by rw [hr.past]; exact hg.pastWF
    have h1 := e2.1
    unfold FastList.contains at h1
    rw [decide_eq_false_iff_not] at h1
    exact h1 ((hw.2 _).2 hin)
  refine ⟨h', t', e, by rw [hr'.vals, e1], ?_, hfresh⟩
  rw [hr'.values ?_, hr'.vals, e1]
  rw [eg]
  apply Net.grow_wf hg hc
  rw [← eg, ← e1, ← hr.past]
  exact hfresh

/-- At the start of "2 4 to 1 5", dividing the source 4 by 2 is proposed. -/
theorem Solver.Example.proposed :
    Proposed Example.P Example.h0 (initial Example.h0 4) Example.t0 ⟨[2, 2, 2], .divide 1 2, 1⟩ :=
  .divide (i := 1) (a := 1) (d := 2) (by decide +kernel) (by decide +kernel)

example : ∃ h' t', makeChild Example.P.cfg Example.h0 Example.t0 (.divide 1 2) 1 = .ok (h', t') ∧ t'.sourceValues = [2, 2, 2] := by
  obtain ⟨h', t', h1, h2, _⟩ := C28_predicted_states Example.P_wf (.start Example.source (B := 4))
    (s := initial Example.h0 4) (.refl _) Example.proposed
  exact ⟨h', t', h1, h2⟩

/-! ## C53 -/

/-- C53. `compute_cant_use` returns the values that occur among the sources, at most as often as among the targets. -/
theorem C53_cant_use_exact {targetCounts : Dict Int Nat} {targets : List Int}
    (hc : ∀ v, (targetCounts.get? v).getD 0 = targets.count v) (sources : List Int) (v : Int) :
    v ∈ computeCantUse targetCounts sources ↔ v ∈ sources ∧ v ∈ targets ∧ sources.count v ≤ targets.count v := by
  rw [mem_computeCantUse hc]
  unfold Needed
  constructor
  · rintro ⟨h1, h2⟩
    refine ⟨h1, ?_, h2⟩
    rw [← List.count_pos_iff]
    exact lt_of_lt_of_le (List.count_pos_iff.2 h1) h2
  · rintro ⟨h1, _, h2⟩; exact ⟨h1, h2⟩

/-- C53. No proposed move consumes a source that is needed as it is. -/
theorem C53_needed_protected (hP : P.WF) {h : Heap Int} {t : TreeObj Int} {hist : List (List Int)} {costs : List Int}
    (hp : Play P B values h t hist costs) {s : Search} (he : Heap.Ext h s.heap) {m : Move} (hm : Proposed P h s t m) :
    m.op.consumed ≠ [] ∧ ∀ i ∈ m.op.consumed, ∃ a, t.sources[i]? = some a ∧
      ¬ (t.sourceValues.count (s.heap.get a).value ≤ P.targetValues.count (s.heap.get a).value) := by
  obtain ⟨g, loc, hn, hr, hg0⟩ := hp.net hP
  have hg := hn.wf hP hg0
  obtain ⟨_, ha, _, e2⟩ := hm.net hP hr (hr.ext he) hg
  constructor
  · cases hop : m.op with
    | merge idx =>
      rw [hop] at ha
      obtain ⟨_, h2⟩ := ha
      intro hnil
      simp only [Op.consumed] at hnil
      subst hnil
      simp at h2
    | extract i c => simp [Op.consumed]
    | divide i d => simp [Op.consumed]
    | split i c => simp [Op.consumed]
  · intro i hi
    obtain ⟨v, hv, hn⟩ := e2 i hi
    obtain ⟨q1, q2⟩ := Net.lt_of_vals hv
    refine ⟨loc (g.src i), ?_, ?_⟩
    · rw [hr.sources, List.getElem?_map, Net.src_get q1]; rfl
    · rw [(hr.ext he).nodes.value _ ((hg.memSrcs _).1 (Net.src_mem q1)).1, q2, hr.vals]
      intro hle
      exact hn ⟨List.mem_of_getElem? hv, hle⟩

example : computeCantUse (sourceCounts [1, 5, 5]) [1, 2, 5, 5, 5] = [1] := by decide +kernel

example : ∀ i ∈ [1], ∃ a, Example.t0.sources[i]? = some a ∧ ¬ (Example.t0.sourceValues.count
    ((initial Example.h0 4).heap.get a).value ≤ Example.P.targetValues.count ((initial Example.h0 4).heap.get a).value) :=
  (C53_needed_protected Example.P_wf (.start Example.source (B := 4)) (s := initial Example.h0 4) (.refl _) Example.proposed).2

/-! ## C54, C56 -/

/-- C54. No value in an explored tree exceeds both the conveyor limit and the largest loaded source. -/
theorem C54_values_bounded (hP : P.WF) (hs : Source h0 t0 values) (hB : 0 ≤ B) (h : Reached P O h0 t0 B s) {t : TreeObj Int}
    (ht : s.Holds t) {a : Addr} (ha : Reach s.heap t.roots a) :
    (s.heap.get a).value ≤ P.limit ∨ ∃ v ∈ values, (s.heap.get a).value ≤ v := by
  obtain ⟨hist, costs, hp⟩ := h.play hP hs hB ht
  by_contra hcon
  push Not at hcon
  obtain ⟨h1, h2⟩ := hcon
  have := hp.values_le hP (M := (s.heap.get a).value - 1) (by omega) (fun v hv => by have := h2 v hv; omega) ha
  omega

/-- C54. No node of a tree the search holds has a greater value than all its sources together. -/
theorem C54_values_within_total (hP : P.WF) (hs : Source h0 t0 values) (hB : 0 ≤ B) (h : Reached P O h0 t0 B s) {t : TreeObj Int}
    (ht : s.Holds t) {a : Addr} (ha : Reach s.heap t.roots a) : (s.heap.get a).value ≤ (t.roots.map fun r => (s.heap.get r).value).sum := by
  obtain ⟨hist, costs, hp⟩ := h.play hP hs hB ht
  exact hp.values_le_sum hP ha

/-- C56. `is_solution` holds exactly when the values of the sources, in order, are the target values. -/
theorem C56_solution_test (P : Problem) (h : Heap Int) (sources : List Addr) :
    isSolution P h sources = true ↔ sources.map (fun a => (h.get a).value) = P.targetValues :=
  isSolution_iff P h sources

/-! ## C32 -/

/-- C32. Every tree the search holds was built by permitted moves within the bound `B`, and its `past` followed by the current source
values is the sequence of all source values from the start on, without repetition. -/
theorem C32_no_revisit (hP : P.WF) (hs : Source h0 t0 values) (hB : 0 ≤ B) (h : Reached P O h0 t0 B s) {t : TreeObj Int}
    (ht : s.Holds t) : ∃ hist costs, Play P B values s.heap t hist costs ∧ hist = t.past.items ++ [t.sourceValues] ∧
      hist.head? = some values ∧ hist.Nodup := by
  obtain ⟨hist, costs, hp⟩ := h.play hP hs hB ht
  exact ⟨hist, costs, hp, (hp.history hP).1, hp.head, (hp.history hP).2.1⟩

example : isSolution Example.P (Example.fresh [1, 5]).1 (Example.fresh [1, 5]).2.sources = true := by decide +kernel
example : isSolution Example.P (Example.fresh [1, 4]).1 (Example.fresh [1, 4]).2.sources = false := by decide +kernel

example : ∃ s t hist costs, Reached Example.P (Example.oracle [1, 5] (some 40)) Example.h0 Example.t0 4 s ∧ s.Holds t ∧
    Play Example.P 4 [2, 4] s.heap t hist costs := by
  obtain ⟨s, h1, h2, h3⟩ := Example.reached
  obtain ⟨e, l, hq⟩ : ∃ e l, s.queue = e :: l := List.exists_cons_of_length_eq_add_one h2
  have ht := h3 e (by rw [hq]; simp)
  obtain ⟨hist, costs, hp, _⟩ := C32_no_revisit Example.P_wf Example.source (by decide) h1 ht
  exact ⟨s, e.1, hist, costs, h1, ht, hp⟩

/-! ## C33, C34 -/

/-- C33. Every reported solution is a graph whose roots carry the loaded sources, whose nodes without children carry the targets, and
which conserves flow. -/
theorem C33_solutions_correct (hP : P.WF) (hs : Source h0 t0 values) (hB : 0 ≤ B) (h : Reached P O h0 t0 B s) {t : TreeObj Int}
    (ht : t ∈ s.solutions) : FlowGraph s.heap t values ∧ t.sources.map (fun a => (s.heap.get a).value) = P.targetValues ∧
      (∀ a, a ∈ t.sources ↔ Reach s.heap t.roots a ∧ (s.heap.get a).children = []) := by
  obtain ⟨hist, costs, hp⟩ := h.play hP hs hB (Or.inr ht)
  obtain ⟨h1, _, h2⟩ := hp.facts hP
  exact ⟨h2, by rw [← h1.cached]; exact ((h.inv hP hs hB).sols t ht).2.1, h1.leaves⟩

/-- C34. All solutions have size `best_size`, which is the sum of the costs of the moves that built them; `solutions_count` is their
number; until there is one, `best_size` is the initial bound; the branch for the impossible case has not been taken. -/
theorem C34_best_size (hP : P.WF) (hs : Source h0 t0 values) (hB : 0 ≤ B) (h : Reached P O h0 t0 B s) :
    (∀ t ∈ s.solutions, t.size = s.bestSize ∧ ∃ hist costs, Play P B values s.heap t hist costs ∧ costs.sum = t.size) ∧
    s.solutionsCount = s.solutions.length ∧ (s.solutions = [] → s.bestSize = B) ∧ s.bestSize ≤ B ∧ s.stopped = false := by
  have hi := h.inv hP hs hB
  refine ⟨?_, hi.count, hi.best0, hi.bestLe, hi.stopped⟩
  intro t ht
  obtain ⟨hist, costs, hp⟩ := h.play hP hs hB (Or.inr ht)
  exact ⟨(hi.sols t ht).1, hist, costs, hp, (hp.history hP).2.2.1.symm⟩

/-- C34. `best_size` never increases. -/
theorem C34_best_size_monotone (hP : P.WF) (hs : Source h0 t0 values) (hB : 0 ≤ B) (h : Reached P O h0 t0 B s) {s' : Search}
    (h' : Visited P O s s') : s'.bestSize ≤ s.bestSize ∧ (s.solutions ≠ [] → s'.solutions ≠ []) := by
  have key : Reached P O h0 t0 B s' ∧ s'.bestSize ≤ s.bestSize ∧ (s.solutions ≠ [] → s'.solutions ≠ []) := by
    induction h' with
    | start => exact ⟨h, le_rfl, id⟩
    | @next s1 s2 b hv hr ih =>
      obtain ⟨i1, i2, i3⟩ := ih
      have hi1 := i1.inv hP hs hB
      have hi2 := Reached.inv hP hs hB (.next i1 hr)
      refine ⟨.next i1 hr, ?_⟩
      rcases round_ok hP hs.wf O hi1 with ⟨b', s', e, _, hround⟩ | ⟨e, _⟩
      · rw [e] at hr
        injection hr with hr; injection hr with _ hr
        subst hr
        cases hround with
        | over e1 _ => subst e1; exact ⟨i2, i3⟩
        | step _ e q n hperm ht _ =>
          refine ⟨le_trans ht.adv.mono i2, fun hne => ?_⟩
          have h1 : 0 < s1.solutionsCount := by rw [hi1.count]; exact List.length_pos_iff.2 (i3 hne)
          have h2 := ht.adv.count h1
          rw [hi2.count] at h2
          exact List.length_pos_iff.1 h2
      · rw [e] at hr; simp at hr
  exact key.2

/-- A solution of "2 4 to 1 5". -/
example : ∃ s t, Reached Example.P (Example.oracle [1, 5] none) Example.h0 Example.t0 4 s ∧ t ∈ s.solutions ∧
    FlowGraph s.heap t [2, 4] ∧ t.sources.map (fun a => (s.heap.get a).value) = [1, 5] ∧ t.size = 2 := by
  obtain ⟨s, h1, h2, h3, _⟩ := Example.of_summary Example.run
  have hr : Reached Example.P (Example.oracle [1, 5] none) Example.h0 Example.t0 4 s := solveLoop_visited _ .start h1
  obtain ⟨t, l, hq⟩ : ∃ t l, s.solutions = t :: l := List.exists_cons_of_length_eq_add_one h3
  have ht : t ∈ s.solutions := by rw [hq]; simp
  have h4 := C33_solutions_correct Example.P_wf Example.source (by decide) hr ht
  have h5 := (C34_best_size Example.P_wf Example.source (by decide) hr).1 t ht
  exact ⟨s, t, hr, ht, h4.1, h4.2.1, by rw [h5.1, h2]⟩

/-! ## C35, C36 -/

/-- C35. Without a stop request `solve` ends normally: some number of rounds suffices, and the result does not depend on that
number. -/
theorem C35_terminates (hP : P.WF) (hs : Source h0 t0 values) (hB : 0 ≤ B) (hO : O.stopAt = none) :
    ∃ fuel s', ∀ fuel', fuel ≤ fuel' → solve P O fuel' h0 t0 B = .ok s' := by
  obtain ⟨fuel, h | ⟨_, s', _, _, h⟩⟩ := solveLoop_terminates hP hs.wf O _ _ (.start) (start_ok (O := O) hP hs hB).1 le_rfl
  · obtain ⟨s', h⟩ := h
    exact ⟨fuel, s', fun fuel' hle => solveLoop_mono hle (by simp) h⟩
  · rw [hO] at h; simp at h

/-- C36, the part on ending: whatever the moment of the stop request, `solve` ends; it ends normally unless the flag is cleared between
the loop test and the read in `dequeue`, with trees left in the queue, and then it raises `TypeError`. Missing: the absence of
that exception, which is false (`C36_stop_false`). -/
theorem C36_stop_partial (hP : P.WF) (hs : Source h0 t0 values) (hB : 0 ≤ B) (O : Oracle) :
    ∃ fuel r, (∀ fuel', fuel ≤ fuel' → solve P O fuel' h0 t0 B = r) ∧
      ((∃ s', r = .ok s') ∨ (r = .error .typeError ∧
        ∃ s', Reached P O h0 t0 B s' ∧ s'.queue ≠ [] ∧ O.stopAt = some (s'.reads + 1))) := by
  obtain ⟨fuel, h | ⟨h1, h2⟩⟩ := solveLoop_terminates hP hs.wf O _ _ (.start) (start_ok (O := O) hP hs hB).1 le_rfl
  · obtain ⟨s', h⟩ := h
    exact ⟨fuel, _, fun fuel' hle => solveLoop_mono hle (by simp) h, Or.inl ⟨s', rfl⟩⟩
  · exact ⟨fuel, _, fun fuel' hle => solveLoop_mono hle (by simp) h1, Or.inr ⟨rfl, h2⟩⟩

/-- C36. Once the flag is cleared, none of the functions of the search changes the queue, the solutions or the best size, or creates
a node (except `try_op`, which may already have started to build a tree, and drops it), and the loop ends at its test. -/
theorem C36_stop_freezes (P : Problem) (O : Oracle) {s : Search} (hc : s.Cleared O) :
    (∀ t, SameButTime s (enqueue P O s t)) ∧ SameButTime s (purgeQueue O s) ∧
    (∀ t m s', tryMove P O t s m = .ok s' → ∃ h' n, s' = { s with heap := h', reads := n }) ∧
    (∀ t cu, ∃ s', tryExtract P O t cu s = .ok s' ∧ SameButTime s s') ∧
    (∀ t cu, ∃ s', tryDivide P O t cu s = .ok s' ∧ SameButTime s s') ∧
    (∀ t cu, ∃ s', trySplit P O t cu s = .ok s' ∧ SameButTime s s') ∧
    (∀ t cu s', tryMerge P O t cu s = .ok s' → SameButTime s s') ∧
    (∀ t b s', process P O t s = .ok (b, s') → b = false ∧ SameButTime s s') ∧
    (∀ fuel, ∃ s', solveLoop P O (fuel + 1) s = .ok s' ∧ SameButTime s s') ∧
    (∀ s', SameButTime s s' → s'.Cleared O) :=
  ⟨enqueue_cleared hc, purgeQueue_cleared hc, fun _ _ _ => tryMove_cleared hc, tryExtract_cleared hc, tryDivide_cleared hc,
    trySplit_cleared hc, fun _ _ _ => tryMerge_cleared hc _ _, fun _ _ _ => process_cleared hc _,
    fun fuel => ⟨_, solveLoop_cleared hc fuel, .read s⟩, fun _ => hc.later⟩

/-- C36 fails: when the flag is cleared between the loop test and `dequeue`, which then returns `None`, `solve` raises
`TypeError`. -/
theorem C36_stop_false : ∃ (P : Problem) (O : Oracle) (h0 : Heap Int) (t0 : TreeObj Int) (values : List Int) (B : Int),
    P.WF ∧ Source h0 t0 values ∧ 0 ≤ B ∧ ∀ fuel, 1 ≤ fuel → solve P O fuel h0 t0 B = .error .typeError := by
  refine ⟨Example.P, Example.oracle [1, 5] (some 2), Example.h0, Example.t0, [2, 4], 4, Example.P_wf, Example.source, by decide, ?_⟩
  intro fuel hf
  have h : Example.summary (solve Example.P (Example.oracle [1, 5] (some 2)) 1 Example.h0 Example.t0 4) = .error .typeError := by
    decide +kernel
  refine solveLoop_mono hf (by simp) ?_
  change solve Example.P (Example.oracle [1, 5] (some 2)) 1 Example.h0 Example.t0 4 = _
  cases hs : solve Example.P (Example.oracle [1, 5] (some 2)) 1 Example.h0 Example.t0 4 with
  | ok s => rw [hs] at h; simp [Example.summary] at h
  | error e => rw [hs] at h; simpa [Example.summary] using h

/-- A state after a stop request, with work left. -/
example : ∃ s, Reached Example.P (Example.oracle [1, 5] (some 40)) Example.h0 Example.t0 4 s ∧
    s.Cleared (Example.oracle [1, 5] (some 40)) ∧ s.queue ≠ [] := by
  obtain ⟨s, h1, _, _, h2, h3⟩ := Example.of_summary Example.run_stopped
  exact ⟨s, solveLoop_visited _ .start h1, Or.inr ⟨40, rfl, by omega⟩, by intro h; rw [h] at h2; simp at h2⟩

/-! ## C37, C38 -/

/-- C37. If `solve` ends by itself without a solution, no sequence of permitted moves within the initial bound leads to the
targets. -/
theorem C37_no_solution (hP : P.WF) (hs : Source h0 t0 values) (hB : 0 ≤ B) (hO : O.stopAt = none) {fuel : Nat} {s : Search}
    (h : solve P O fuel h0 t0 B = .ok s) (hnone : s.solutions = []) {h' : Heap Int} {t : TreeObj Int} {hist : List (List Int)}
    {costs : List Int} (hp : Play P B values h' t hist costs) : t.sourceValues ≠ P.targetValues := by
  intro htv
  obtain ⟨g, loc, hn, hr, _⟩ := hp.net hP
  obtain ⟨hi, hk⟩ := start_ok (O := O) hP hs hB
  have h1 := solveLoop_kept hP hs.wf O (gE := g) (by rw [← hr.vals, htv]) hO hi (hk hO g hn) h
  have h2 := solveLoop_inv hP hs.wf O hi h
  have := h1.1
  rw [h2.count, hnone] at this
  simp at this

/-- "2 4 to 1 5" within the bound 1. -/
example : ∃ s, solve Example.P (Example.oracle [1, 5] none) 100 Example.h0 Example.t0 1 = .ok s ∧ s.solutions = [] := by
  obtain ⟨s, h1, _, h2, _⟩ := Example.of_summary Example.run_none
  exact ⟨s, h1, List.length_eq_zero_iff.1 h2⟩

theorem Solver.NPlay.vals_past (hP : P.WF) {g1 g2 : Net} (hg : g1.WF) (hn : NPlay P B g1 g2) :
    (g1.past.items ++ [g1.vals]) <+: (g2.past.items ++ [g2.vals]) := by
  induction hn with
  | start => exact List.prefix_rfl
  | move hpl hs ih =>
    have hg' := hpl.wf hP hg
    obtain ⟨op, cost, _, _, rfl, _⟩ := hs
    rw [child_past_items hg']
    exact ih.trans (List.prefix_append _ _)

/-- C38, as far as it goes: if `solve` ends by itself, then no sequence of permitted moves reaches the targets at a cost below the
reported best size, except possibly one that passes through an intermediate state (other than start and end) which another
sequence of permitted moves to the targets, not cheaper than the reported size, passes through as well. Missing: that there is no
such exception, which is false (`C38_optimal_false`), since the search drops states in the past of solutions already found. -/
theorem C38_optimal_partial (hP : P.WF) (hs : Source h0 t0 values) (hB : 0 ≤ B) (hO : O.stopAt = none) {fuel : Nat} {s : Search}
    (h : solve P O fuel h0 t0 B = .ok s) {h' : Heap Int} {t : TreeObj Int} {hist : List (List Int)} {costs : List Int}
    (hp : Play P B values h' t hist costs) (ht : t.sourceValues = P.targetValues) :
    s.solutions ≠ [] ∧ (s.bestSize ≤ costs.sum ∨
      ∃ h2 t2 hist2 costs2, Play P B values h2 t2 hist2 costs2 ∧ t2.sourceValues = P.targetValues ∧ s.bestSize ≤ costs2.sum ∧
        ∃ v, v ∈ hist ∧ v ∈ hist2 ∧ v ≠ values ∧ v ≠ P.targetValues) := by
  obtain ⟨gE, loc, hn, hr, hg0⟩ := hp.net hP
  obtain ⟨hi, hk⟩ := start_ok (O := O) hP hs hB
  have h1 := solveLoop_kept hP hs.wf O (gE := gE) (by rw [← hr.vals, ht]) hO hi (hk hO gE hn) h
  have h2 := solveLoop_inv hP hs.wf O hi h
  obtain ⟨hh, _, hsize, _⟩ := hp.history hP
  refine ⟨?_, ?_⟩
  · intro hnil
    have := h1.1
    rw [h2.count, hnil] at this
    simp at this
  · rcases h1.2 with h3 | ⟨gq, g, g1, q1, q2, q3, q4, q5, q6, q7⟩
    · left; rw [← hsize, hr.size]; exact h3
    · right
      obtain ⟨h2', t2, loc2, hist2, costs2, p1, p2⟩ := q1.play hP hs
      obtain ⟨hh2, hnd2, hsize2, _⟩ := p1.history hP
      have hg1 := q5.wf hP (q4.wf hP hg0)
      refine ⟨h2', t2, hist2, costs2, p1, by rw [p2.vals, q2], by rw [← hsize2, p2.size]; exact q3, g1.vals, ?_, ?_, ?_, ?_⟩
      · rw [hh, hr.past, hr.vals]
        exact (q6.vals_past hP hg1).subset (by simp)
      · rw [hh2, p2.past]; simp [q7]
      · intro e
        have h4 : values ∈ g1.past.items := by
          have h5 := (q4.vals_past hP hg0).subset (show (Net.ofValues values).vals ∈ _ by simp)
          rw [ofValues_vals] at h5
          obtain ⟨op, cost, _, _, rfl, _⟩ := q5
          rw [child_past_items (q4.wf hP hg0)]; exact h5
        have h6 := hg1.fresh
        rw [← e] at h4
        rw [List.nodup_append] at h6
        exact h6.2.2 _ h4 _ (by simp) rfl
      · intro e
        have h6 := (q1.wf hP hg0).fresh
        rw [List.nodup_append] at h6
        rw [e, ← q2] at q7
        exact h6.2.2 _ q7 _ (by simp) rfl

/-- The hypotheses of C38 are met by the solution that the run for "2 4 to 1 5" finds. -/
example : ∃ s t hist costs, solve Example.P (Example.oracle [1, 5] none) 100 Example.h0 Example.t0 4 = .ok s ∧
    Play Example.P 4 [2, 4] s.heap t hist costs ∧ t.sourceValues = Example.P.targetValues ∧ costs.sum = 2 := by
  obtain ⟨s, h1, h2, h3, _⟩ := Example.of_summary Example.run
  have hr : Reached Example.P (Example.oracle [1, 5] none) Example.h0 Example.t0 4 s := solveLoop_visited _ .start h1
  obtain ⟨t, l, hq⟩ : ∃ t l, s.solutions = t :: l := List.exists_cons_of_length_eq_add_one h3
  have ht : t ∈ s.solutions := by rw [hq]; simp
  obtain ⟨h4, hist, costs, hp, h5⟩ := (C34_best_size Example.P_wf Example.source (by decide) hr).1 t ht
  exact ⟨s, t, hist, costs, h1, hp, ((hr.inv Example.P_wf Example.source (by decide)).sols t ht).2.1, by rw [h5, h4, h2]⟩

/-- C38 for targets that can be reached in one move: then the reported best size is optimal among all sequences of one move. -/
theorem C38_optimal_one_move_partial (hP : P.WF) (hs : Source h0 t0 values) (hB : 0 ≤ B) (hO : O.stopAt = none) {fuel : Nat}
    {s : Search} (h : solve P O fuel h0 t0 B = .ok s) {h' : Heap Int} {t : TreeObj Int} {hist : List (List Int)} {cost : Int}
    (hp : Play P B values h' t hist [cost]) (ht : t.sourceValues = P.targetValues) : s.bestSize ≤ cost := by
  obtain ⟨_, h1 | ⟨h2, t2, hist2, costs2, p1, p2, p3, v, v1, v2, v3, v4⟩⟩ := C38_optimal_partial hP hs hB hO h hp ht
  · simpa using h1
  · exfalso
    obtain ⟨hh, _, _, hl⟩ := hp.history hP
    have hhead := hp.head
    match hist, hl with
    | [x, y], _ =>
      have hlast : [x, y].getLast? = some t.sourceValues := by rw [hh]; simp
      simp at hhead hlast v1
      rcases v1 with rfl | rfl
      · exact v3 hhead
      · exact v4 (by rw [hlast, ht])

end

end Satis
