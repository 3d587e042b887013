import Verif.Side.GreedySteps
import Verif.Side.GreedySolve
import Verif.Side.SimFacts

/-!
C75-C77: the greedy solver of `test.py`.
-/

namespace Satis.Greedy

/-! ## C75 -/

/-- C75.  Grouping equal neighbours until nothing changes ends on every list; the sum is kept, no two neighbours are equal
afterwards, and running the logged divisions, last first, beside any other sources gives back the original values. -/
theorem C75_grouping_undone (l rest : List ℤ) : ∃ l' divisions,
    (∀ fuel, l.length < fuel → groupAll fuel l = some (l', divisions)) ∧ l'.sum = l.sum ∧ l'.IsChain (· ≠ ·) ∧
      ∃ r, run divisions.reverse (l' ++ rest) = some r ∧ r.Perm (l ++ rest) := by
  obtain ⟨l', d, h1, ⟨r, h2, h3⟩, h4, h5⟩ := groupAll_facts l.length l (le_refl _)
  obtain ⟨r', h6, h7⟩ := run_more h2 rest
  exact ⟨l', d, h1, h4, h5, r', h6, h7.trans (h3.append_right rest)⟩

-- The values of `test.py` 192: three rounds, and back.
example : groupAll 9 [2, 2, 2, 2, 2, 5, 5, 10] = some ([30], [.divide 10 5, .divide 10 2, .divide 30 3]) ∧
    (run [.divide 30 3, .divide 10 2, .divide 10 5] [7, 30]).map sorted = some [2, 2, 2, 2, 2, 5, 5, 7, 10] := by
  decide +kernel

/-! ## C76 -/

/-- C76 for the two extractions: whatever the costs, the logged operation, run on the sources, gives the sources
afterwards and exactly the targets struck off; the parts add up to the source. -/
theorem C76_extract_two (ec : ℤ → ℤ → Py ℤ) (sources targets sources' targets' : List ℤ) (op : Op)
    (h : extractTwo ec sources targets = .ok (some (sources', targets', op))) :
    Accounts sources targets sources' targets' op ∧ ∃ s t1 t2, op = .extract s [t1, t2] ∧ s = t1 + t2 ∧ s ∈ sources :=
  extractTwo_accounts h

theorem C76_extract_one (ec : ℤ → ℤ → Py ℤ) (sources targets sources' targets' : List ℤ) (op : Op)
    (h : extractOne ec sources targets = .ok (some (sources', targets', op))) :
    Accounts sources targets sources' targets' op ∧
      ∃ s t, op = .extract s [t, s - t] ∧ t < s ∧ t ≠ s - t ∧ s ∈ sources ∧ t ∈ targets :=
  extractOne_accounts h

/-- The extraction of two targets is the cheapest: if none is made, no source above the least target is the sum of two
different ones. -/
theorem C76_extract_two_cheapest (ec : ℤ → ℤ → Py ℤ) (sources targets : List ℤ) (r : Step) (least : ℤ) (hl : targets.min? = some least)
    (h : extractTwo ec sources targets = .ok r) :
    (r = none → ∀ s ∈ sources, least < s → ∀ t1 t2, [t1, t2].Sublist targets → t1 ≠ t2 → s ≠ t1 + t2) ∧
    (∀ s' t' op, r = some (s', t', op) → ∃ s t1 t2 k, op = .extract s [t1, t2] ∧ ec s t1 = .ok k ∧
      ∀ a ∈ sources, least < a → ∀ b1 b2, [b1, b2].Sublist targets → b1 ≠ b2 → a = b1 + b2 → ∃ k', ec a b1 = .ok k' ∧ k ≤ k') := by
  have hpick : tryTwo ec = Sim.pick (fun c : ℤ × ℤ × ℤ => c.1 = c.2.1 + c.2.2 ∧ c.2.1 ≠ c.2.2) (fun c => ec c.1 c.2.1) := by
    funext b a
    unfold tryTwo Sim.pick
    by_cases q : a.1 ≠ a.2.1 + a.2.2 ∨ a.2.1 = a.2.2
    · rw [if_pos q, if_neg (by tauto)]
    · rw [if_neg q, if_pos (by tauto)]
  unfold extractTwo at h
  rw [hl, hpick] at h
  simp only at h
  have hmem : ∀ (s t1 t2 : ℤ), (s, t1, t2) ∈ ((sources.filter fun s => decide (least < s)).flatMap fun s => (pairsOf targets).map fun p => (s, p)) ↔
      (s ∈ sources ∧ least < s) ∧ [t1, t2].Sublist targets := by
    intro s t1 t2
    simp only [List.mem_flatMap, List.mem_map, Prod.mk.injEq, List.mem_filter, decide_eq_true_eq]
    constructor
    · rintro ⟨s', hs', p, hp, rfl, rfl⟩
      exact ⟨hs', mem_pairsOf hp⟩
    · rintro ⟨h1, h2⟩
      exact ⟨s, h1, (t1, t2), Sim.mem_pairsOf_iff.2 h2, rfl, rfl⟩
  generalize ((sources.filter fun s => decide (least < s)).flatMap fun s => (pairsOf targets).map fun p => (s, p)) = cands at h hmem
  cases hb : cands.foldlM (Sim.pick (fun c : ℤ × ℤ × ℤ => c.1 = c.2.1 + c.2.2 ∧ c.2.1 ≠ c.2.2) fun c => ec c.1 c.2.1) none with
  | error e => rw [hb] at h; simp [bind, Except.bind] at h
  | ok best =>
    rw [hb] at h
    have hp := Sim.pick_cheapest _ _ cands [] none best (by intro a ha; simp at ha) hb
    rw [List.nil_append] at hp
    rcases best with _ | ⟨k, s, t1, t2⟩
    · simp only [bind, Except.bind, pure, Except.pure, Except.ok.injEq] at h
      subst h
      exact ⟨fun _ s hs hl' t1 t2 ht hne q => hp (s, t1, t2) ((hmem s t1 t2).2 ⟨⟨hs, hl'⟩, ht⟩) ⟨q, hne⟩, by simp⟩
    · simp only [bind, Except.bind, pure, Except.pure, Except.ok.injEq] at h
      subst h
      obtain ⟨h1, h2, h3, h4⟩ := hp
      refine ⟨by simp, ?_⟩
      intro s' t' op he
      simp only [Option.some.injEq, Prod.mk.injEq] at he
      exact ⟨s, t1, t2, k, he.2.2.symm, h3, fun a ha hl' b1 b2 hb hne e => h4 (a, b1, b2) ((hmem _ _ _).2 ⟨⟨ha, hl'⟩, hb⟩) ⟨e, hne⟩⟩

/-- The extraction of one target is the cheapest: if none is made, no target is below a source, or a cheapest one is 0 or half of
its source. -/
theorem C76_extract_one_cheapest (ec : ℤ → ℤ → Py ℤ) (sources targets : List ℤ) (r : Step) (h : extractOne ec sources targets = .ok r) :
    (r = none → (∀ a ∈ sources, ∀ b ∈ targets, a ≤ b) ∨ ∃ s ∈ sources, ∃ t ∈ targets, ∃ k, t < s ∧ (t = 0 ∨ s = 2 * t) ∧ ec s t = .ok k ∧
      ∀ a ∈ sources, ∀ b ∈ targets, b < a → ∃ k', ec a b = .ok k' ∧ k ≤ k') ∧
    (∀ s' t' op, r = some (s', t', op) → ∃ s t k, op = .extract s [t, s - t] ∧ t ≠ 0 ∧ ec s t = .ok k ∧
      ∀ a ∈ sources, ∀ b ∈ targets, b < a → ∃ k', ec a b = .ok k' ∧ k ≤ k') := by
  have hpick : tryOne ec = Sim.pick (fun c : ℤ × ℤ => c.2 < c.1) (fun c => ec c.1 c.2) := by
    funext b a
    unfold tryOne Sim.pick
    by_cases q : a.1 ≤ a.2
    · rw [if_pos q, if_neg (by omega)]
    · rw [if_neg q, if_pos (by omega)]
  unfold extractOne at h
  rw [hpick] at h
  have hmem : ∀ (s t : ℤ), (s, t) ∈ (sources.flatMap fun s => targets.map fun t => (s, t)) ↔ s ∈ sources ∧ t ∈ targets := by
    intro s t
    simp only [List.mem_flatMap, List.mem_map, Prod.mk.injEq]
    constructor
    · rintro ⟨s', hs', p, hp, rfl, rfl⟩
      exact ⟨hs', hp⟩
    · rintro ⟨h1, h2⟩
      exact ⟨s, h1, t, h2, rfl, rfl⟩
  generalize (sources.flatMap fun s => targets.map fun t => (s, t)) = cands at h hmem
  cases hb : cands.foldlM (Sim.pick (fun c : ℤ × ℤ => c.2 < c.1) fun c => ec c.1 c.2) none with
  | error e => rw [hb] at h; simp [bind, Except.bind] at h
  | ok best =>
    rw [hb] at h
    have hp := Sim.pick_cheapest _ _ cands [] none best (by intro a ha; simp at ha) hb
    rw [List.nil_append] at hp
    rcases best with _ | ⟨k, s, t⟩
    · simp only [bind, Except.bind, pure, Except.pure, Except.ok.injEq] at h
      subst h
      exact ⟨fun _ => .inl fun a ha b hb => not_lt.1 (hp (a, b) ((hmem _ _).2 ⟨ha, hb⟩)), by simp⟩
    · simp only [bind, Except.bind, pure, Except.pure] at h
      obtain ⟨h1, h2, h3, h4⟩ := hp
      obtain ⟨hs, ht⟩ := (hmem _ _).1 h1
      have hmin : ∀ a ∈ sources, ∀ b ∈ targets, b < a → ∃ k', ec a b = .ok k' ∧ k ≤ k' := fun a ha b hb e => h4 (a, b) ((hmem _ _).2 ⟨ha, hb⟩) e
      split_ifs at h with q1 q2
      · obtain rfl := (Except.ok.inj h)
        exact ⟨fun _ => .inr ⟨s, hs, t, ht, k, h2, .inl q1, h3, hmin⟩, by simp⟩
      · obtain rfl := (Except.ok.inj h)
        exact ⟨fun _ => .inr ⟨s, hs, t, ht, k, h2, .inr (by omega), h3, hmin⟩, by simp⟩
      · obtain rfl := (Except.ok.inj h)
        refine ⟨by simp, ?_⟩
        intro s' t' op he
        simp only [Option.some.injEq, Prod.mk.injEq] at he
        exact ⟨s, t, k, he.2.2.symm, q1, h3, hmin⟩

-- One target is extracted at the least cost; half of the source is left to a division.
example : extractOne (fun a b => .ok (a + b)) [7, 5] [1, 3] = .ok (some ([7, 4], [3], .extract 5 [1, 4])) ∧
    extractOne (fun a b => .ok (a + b)) [2] [1] = .ok none := by decide +kernel

/-- The order in which CPython lists a small set of small numbers. -/
def byHash (l : List ℤ) : List ℤ := l.dedup.insertionSort (fun a b => a % 8 ≤ b % 8)

/-- C76 is false for the merge.  With the sources 3 3 8 8 and the targets 16 4 2 all four sources (22) are merged for the
target 16: the set lists 8 before 3, and the search for combinations keeps an old coefficient.  Nothing is left for the
targets 4 and 2. -/
theorem C76_merge_false :
    mergeStep byHash [3, 3, 8, 8] [16, 4, 2] = .ok (some ([], [4, 2], .merge [8, 8, 3, 3])) ∧
      ¬ Accounts [3, 3, 8, 8] [16, 4, 2] [] [4, 2] (.merge [8, 8, 3, 3]) := by
  refine ⟨by decide +kernel, ?_⟩
  rintro ⟨done, r, h1, h2, h3⟩
  have hr : r = [22] := by
    have : apply (.merge [8, 8, 3, 3]) [3, 3, 8, 8] = some [22] := by decide +kernel
    rw [this] at h2
    simpa using h2.symm
  have hs := h1.sum_eq
  have hs' := h3.sum_eq
  rw [List.sum_append] at hs hs'
  rw [hr] at hs'
  simp at hs hs'
  omega

/-- C76 for the merge as far as it holds: it never raises on positive sources, takes only sources that are there and strikes
off a target, in whatever order the set is listed; if the set is listed in ascending order, it accounts for the target. -/
theorem C76_merge_partial (order : List ℤ → List ℤ) (hnd : ∀ l, (order l).Nodup) (hmem : ∀ l x, x ∈ order l ↔ x ∈ l)
    (sources targets : List ℤ) (hpos : ∀ s ∈ sources, 0 < s) :
    (∃ r, mergeStep order sources targets = .ok r) ∧
    ((∀ l, (order l).Pairwise (· < ·)) → ∀ sources' targets' op,
      mergeStep order sources targets = .ok (some (sources', targets', op)) →
      Accounts sources targets sources' targets' op ∧ ∃ srcs, op = .merge srcs ∧ srcs.sum ∈ targets) :=
  ⟨mergeStep_ok hnd hmem hpos, fun hord _ _ _ h => mergeStep_accounts hord hmem hpos h⟩

/-- Steps that account for their targets can be run one after the other: if all targets are struck off and no source is
left, the operations turn the sources into the targets. -/
inductive Steps : List ℤ → List ℤ → List Op → List ℤ → List ℤ → Prop
  | done (s t) : Steps s t [] s t
  | step {s t s1 t1 s2 t2 op ops} : Accounts s t s1 t1 op → Steps s1 t1 ops s2 t2 → Steps s t (op :: ops) s2 t2

theorem C76_run {s t s' t' : List ℤ} {ops : List Op} (h : Steps s t ops s' t') :
    ∃ done r, t.Perm (done ++ t') ∧ run ops s = some r ∧ r.Perm (s' ++ done) := by
  induction h with
  | done s t => exact ⟨[], s, by simp, rfl, by simp⟩
  | step h _ ih => exact accounts_trans h ih

theorem C76_run_all {s t : List ℤ} {ops : List Op} (h : Steps s t ops [] []) : ∃ r, run ops s = some r ∧ r.Perm t := by
  obtain ⟨done, r, h1, h2, h3⟩ := C76_run h
  exact ⟨r, h2, h3.trans (by simpa using h1.symm)⟩

-- A merge that accounts for its target, and an extraction.
example : mergeStep (fun l => l.dedup.insertionSort (· ≤ ·)) [3, 3, 8, 8] [16, 4, 2]
    = .ok (some ([3, 3], [4, 2], .merge [8, 8])) := by decide +kernel
example : extractTwo (fun a b => .ok (a - b)) [10, 7] [3, 4, 6] = .ok (some ([7], [3], .extract 10 [4, 6])) ∨
    extractTwo (fun a b => .ok (a - b)) [10, 7] [3, 4, 6] = .ok (some ([10], [6], .extract 7 [3, 4])) := by
  decide +kernel
example : extractOne (fun a b => .ok (a + b)) [10, 7] [3, 6] = .ok (some ([10, 4], [6], .extract 7 [3, 4])) := by
  decide +kernel

/-! ## C77 -/

/-- C77.  For positive requests `solve` never reports 'oopsie'; if it returns, running the operations turns the scaled
sources into the scaled targets, up to order. -/
theorem C77_solve (sources targets : List ℚ) (hs : ∀ x ∈ sources, 0 < x) (ht : ∀ x ∈ targets, 0 < x) :
    solve sources targets ≠ .exit 1 ∧
    ∀ s t ops, solve sources targets = .ret s t ops → ∃ r, run ops s = some r ∧ r.Perm t ∧
      ∃ D : ℚ, 0 < D ∧ s.map (fun (z : ℤ) => (z : ℚ)) = (balance sources targets).1.map (fun x => x * D) ∧
        t.map (fun (z : ℤ) => (z : ℚ)) = (balance sources targets).2.map (fun x => x * D) := by
  obtain ⟨h1, h2, h3⟩ := scaled_facts hs ht
  obtain ⟨_, hnil⟩ := left_over h1 h2 h3
  have hno : ¬ (((Utils.removePairs (scaledSources sources targets) (scaledTargets sources targets)).1.length = 0 ∧
        (Utils.removePairs (scaledSources sources targets) (scaledTargets sources targets)).2.length ≠ 0) ∨
       ((Utils.removePairs (scaledSources sources targets) (scaledTargets sources targets)).1.length ≠ 0 ∧
        (Utils.removePairs (scaledSources sources targets) (scaledTargets sources targets)).2.length = 0)) := by
    rw [List.length_eq_zero_iff, Ne, List.length_eq_zero_iff, Ne, List.length_eq_zero_iff, hnil]
    tauto
  rw [solve_eq, if_neg hno]
  constructor
  · split_ifs <;> simp
  · intro s t ops h
    split_ifs at h with hone
    simp only [Outcome.ret.injEq] at h
    obtain ⟨rfl, rfl, rfl⟩ := h
    obtain ⟨r, hr, hp⟩ := merge_delivers h3 hone
    obtain ⟨D, hD, c1, c2⟩ := scaled_cast sources targets
    exact ⟨r, hr, hp, D, hD, c1, c2⟩

/-- The assertion of `run_problem` is decided by the order of the targets alone. -/
theorem C77_assertion_iff_partial (sources targets : List ℚ) (hs : ∀ x ∈ sources, 0 < x) (ht : ∀ x ∈ targets, 0 < x)
    (s t : List ℤ) (ops : List Op) (h : solve sources targets = .ret s t ops) :
    problem sources targets = some (decide (t.Pairwise (· ≤ ·))) := by
  obtain ⟨r, hr, hp, _⟩ := (C77_solve sources targets hs ht).2 s t ops h
  have : sorted r = sorted t := List.Perm.eq_of_pairwise' (List.pairwise_insertionSort _ r)
    (List.pairwise_insertionSort _ t)
    ((List.perm_insertionSort _ r).trans (hp.trans (List.perm_insertionSort _ t).symm))
  unfold problem
  rw [h]
  simp only [hr, Option.map_some, Option.some.injEq, decide_eq_decide]
  rw [this]
  constructor
  · intro he
    rw [← he]
    exact List.pairwise_insertionSort _ t
  · intro hsort
    exact List.Pairwise.insertionSort_eq hsort

/-- The assertion is reached exactly if `solve` returns: no operation of its log raises. -/
theorem C77_assertion_reached (sources targets : List ℚ) (hs : ∀ x ∈ sources, 0 < x) (ht : ∀ x ∈ targets, 0 < x) :
    problem sources targets = none ↔ ∃ code, solve sources targets = .exit code := by
  constructor
  · intro h
    cases q : solve sources targets with
    | exit code => exact ⟨code, rfl⟩
    | ret s t ops =>
      rw [C77_assertion_iff_partial sources targets hs ht s t ops q] at h
      simp at h
  · rintro ⟨code, h⟩
    unfold problem
    rw [h]

/-- C77 is false for the assertion: what is left over is appended behind the sorted targets, so the sources 1 10 2 and the
target 10 (3 left over) fail it although the operations are right. -/
theorem C77_assertion_false : problem [1, 10, 2] [10] = some false := by decide +kernel

-- A request that passes.
example : problem [10, 40] [50] = some true ∧ problem [1/2, 1/3] [5/6] = some true := by decide +kernel

end Satis.Greedy
