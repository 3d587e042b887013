import Verif.Side.Sim
import Verif.Side.GreedySteps

/-! The steps of `tests/sim.py`: each picks the cheapest candidate; every round makes the lists shorter. -/

namespace Satis.Sim
open Greedy

/-- Going through candidates, keeping the first cheapest. -/
def pick {α : Type} (fits : α → Prop) [DecidablePred fits] (cost : α → Py ℤ) (best : Option (ℤ × α)) (a : α) : Py (Option (ℤ × α)) :=
  if fits a then do
    let c ← cost a
    return if better c best then some (c, a) else best
  else .ok best

/-- What a search must find among the candidates `l`. -/
def Cheapest {α : Type} (fits : α → Prop) (cost : α → Py ℤ) (l : List α) : Option (ℤ × α) → Prop
  | none => ∀ a ∈ l, ¬ fits a
  | some (c, a) => a ∈ l ∧ fits a ∧ cost a = .ok c ∧ ∀ a' ∈ l, fits a' → ∃ c', cost a' = .ok c' ∧ c ≤ c'

theorem pick_cheapest {α : Type} (fits : α → Prop) [DecidablePred fits] (cost : α → Py ℤ) : ∀ (l seen : List α) (b r : Option (ℤ × α)),
    Cheapest fits cost seen b → l.foldlM (pick fits cost) b = .ok r → Cheapest fits cost (seen ++ l) r := by
  intro l
  induction l with
  | nil =>
    intro seen b r hb h
    simp only [List.foldlM_nil, pure, Except.pure, Except.ok.injEq] at h
    rw [List.append_nil, ← h]
    exact hb
  | cons a l ih =>
    intro seen b r hb h
    rw [List.foldlM_cons] at h
    cases h1 : pick fits cost b a with
    | error e => rw [h1] at h; simp [bind, Except.bind] at h
    | ok s =>
      rw [h1] at h
      rw [List.append_cons]
      refine ih (seen ++ [a]) s r ?_ h
      unfold pick at h1
      split_ifs at h1 with hf
      · cases hc : cost a with
        | error e => rw [hc] at h1; simp [bind, Except.bind] at h1
        | ok c =>
          rw [hc] at h1
          simp only [bind, Except.bind, pure, Except.pure, Except.ok.injEq] at h1
          rw [← h1]
          rcases b with _ | ⟨c0, a0⟩
          · simp only [better, if_true]
            refine ⟨by simp, hf, hc, fun a' ha' hf' => ?_⟩
            rcases List.mem_append.1 ha' with q | q
            · exact absurd hf' (hb a' q)
            · rw [List.mem_singleton.1 q]
              exact ⟨c, hc, le_rfl⟩
          · obtain ⟨g1, g2, g3, g4⟩ := hb
            simp only [better, decide_eq_true_eq]
            split_ifs with hlt
            · refine ⟨by simp, hf, hc, fun a' ha' hf' => ?_⟩
              rcases List.mem_append.1 ha' with q | q
              · obtain ⟨c', e1, e2⟩ := g4 a' q hf'
                exact ⟨c', e1, by omega⟩
              · rw [List.mem_singleton.1 q]
                exact ⟨c, hc, le_rfl⟩
            · refine ⟨List.mem_append_left _ g1, g2, g3, fun a' ha' hf' => ?_⟩
              rcases List.mem_append.1 ha' with q | q
              · exact g4 a' q hf'
              · rw [List.mem_singleton.1 q]
                exact ⟨c, hc, by omega⟩
      · simp only [Except.ok.injEq] at h1
        rw [← h1]
        rcases b with _ | ⟨c0, a0⟩
        · intro a' ha'
          rcases List.mem_append.1 ha' with q | q
          · exact hb a' q
          · rw [List.mem_singleton.1 q]
            exact hf
        · obtain ⟨g1, g2, g3, g4⟩ := hb
          refine ⟨List.mem_append_left _ g1, g2, g3, fun a' ha' hf' => ?_⟩
          rcases List.mem_append.1 ha' with q | q
          · exact g4 a' q hf'
          · rw [List.mem_singleton.1 q] at hf'
            exact absurd hf' hf

theorem pick_ok {α : Type} (fits : α → Prop) [DecidablePred fits] (cost : α → Py ℤ) : ∀ (l : List α) (b : Option (ℤ × α)),
    (∀ a ∈ l, fits a → ∃ c, cost a = .ok c) → ∃ r, l.foldlM (pick fits cost) b = .ok r := by
  intro l
  induction l with
  | nil => intro b _; exact ⟨b, rfl⟩
  | cons a l ih =>
    intro b h
    rw [List.foldlM_cons]
    have : ∃ s, pick fits cost b a = .ok s := by
      unfold pick
      split_ifs with hf
      · obtain ⟨c, hc⟩ := h a (List.mem_cons_self ..) hf
        rw [hc]
        exact ⟨_, rfl⟩
      · exact ⟨_, rfl⟩
    obtain ⟨s, hs⟩ := this
    rw [hs]
    exact ih s fun a' ha' => h a' (List.mem_cons_of_mem _ ha')

theorem tryTwo_pick (ec : ℤ → ℤ → Py ℤ) :
    tryTwo ec = pick (fun c : ℤ × ℤ × ℤ => c.1 = c.2.1 + c.2.2) (fun c => ec c.1 c.2.1) := by
  funext b a
  unfold tryTwo pick
  simp only [ne_eq, ite_not]

theorem tryOne_pick (ec : ℤ → ℤ → Py ℤ) : tryOne ec = pick (fun c : ℤ × ℤ => c.2 ≤ c.1) (fun c => ec c.1 c.2) := by
  funext b a
  unfold tryOne pick
  by_cases h : a.1 < a.2
  · rw [if_pos h, if_neg (by omega)]
  · rw [if_neg h, if_pos (by omega)]

theorem tryMerge_pick (targets : List ℤ) (b : Option (ℤ × List ℤ)) (a : List ℤ) :
    pick (fun c : List ℤ => c.sum ∈ targets) (fun c => .ok (Cost.mergeCost c.length 1)) b a = .ok (tryMerge targets b a) := by
  unfold tryMerge pick
  by_cases h : a.sum ∈ targets
  · rw [if_pos h]
    simp [bind, Except.bind, pure, Except.pure, h]
  · rw [if_neg h]
    simp [h]

theorem foldl_tryMerge (targets : List ℤ) : ∀ (l : List (List ℤ)) (b : Option (ℤ × List ℤ)),
    l.foldlM (pick (fun c : List ℤ => c.sum ∈ targets) (fun c => .ok (Cost.mergeCost c.length 1))) b = .ok (l.foldl (tryMerge targets) b) := by
  intro l
  induction l with
  | nil => intro b; rfl
  | cons a l ih =>
    intro b
    rw [List.foldlM_cons, tryMerge_pick, List.foldl_cons]
    exact ih _

theorem mem_combinations : ∀ (l : List ℤ) (r : ℕ) (c : List ℤ), c ∈ combinations r l ↔ c.Sublist l ∧ c.length = r := by
  intro l
  induction l with
  | nil =>
    intro r c
    cases r with
    | zero =>
      simp only [combinations, List.mem_singleton, List.sublist_nil]
      constructor
      · rintro rfl; exact ⟨rfl, rfl⟩
      · exact fun h => h.1
    | succ r =>
      simp only [combinations, List.not_mem_nil, List.sublist_nil, false_iff, not_and]
      rintro rfl
      simp
  | cons x l ih =>
    intro r c
    cases r with
    | zero =>
      simp only [combinations, List.mem_singleton, List.length_eq_zero_iff]
      constructor
      · rintro rfl; exact ⟨List.nil_sublist _, rfl⟩
      · exact fun h => h.2
    | succ r =>
      simp only [combinations, List.mem_append, List.mem_map, ih]
      constructor
      · rintro (⟨d, ⟨h1, h2⟩, rfl⟩ | ⟨h1, h2⟩)
        · exact ⟨h1.cons_cons x, by simp [h2]⟩
        · exact ⟨h1.cons x, h2⟩
      · rintro ⟨h1, h2⟩
        cases h1 with
        | cons _ h => exact .inr ⟨h, h2⟩
        | cons_cons _ h => exact .inl ⟨_, ⟨h, by simpa using h2⟩, rfl⟩

theorem mem_merges (l c : List ℤ) : c ∈ merges l ↔ c.Sublist l ∧ 2 ≤ c.length := by
  unfold merges
  simp only [List.mem_flatMap, List.mem_range'_1, mem_combinations]
  constructor
  · rintro ⟨r, h1, h2, h3⟩
    exact ⟨h2, by omega⟩
  · rintro ⟨h1, h2⟩
    have := h1.length_le
    exact ⟨c.length, by omega, h1, rfl⟩

/-- The merge: at least two sources that add up to a target, as cheap as any. -/
theorem mergeStep_facts (sources targets : List ℤ) : ∃ r, mergeStep sources targets = .ok r ∧
    (r = none → ∀ c : List ℤ, c.Sublist sources → 2 ≤ c.length → c.sum ∉ targets) ∧
    (∀ rest, r = some rest → ∃ c : List ℤ, c.Sublist sources ∧ 2 ≤ c.length ∧ c.sum ∈ targets ∧ sources.Perm (c ++ rest) ∧
      ∀ c' : List ℤ, c'.Sublist sources → 2 ≤ c'.length → c'.sum ∈ targets → Cost.mergeCost c.length 1 ≤ Cost.mergeCost c'.length 1) := by
  have hp := pick_cheapest _ _ (merges sources) [] none _ (by intro a ha; simp at ha) (foldl_tryMerge targets (merges sources) none)
  rw [List.nil_append] at hp
  unfold mergeStep
  generalize (merges sources).foldl (tryMerge targets) none = best at hp ⊢
  rcases best with _ | ⟨k, c⟩
  · refine ⟨none, rfl, fun _ c h1 h2 => hp c ((mem_merges _ _).2 ⟨h1, h2⟩), by simp⟩
  · obtain ⟨h1, h2, h3, h4⟩ := hp
    obtain ⟨g1, g2⟩ := (mem_merges _ _).1 h1
    have hne : c ≠ [] := by rintro rfl; simp at g2
    obtain ⟨w, hw⟩ := g1.exists_perm_append
    obtain ⟨r, hr, hrw⟩ := removes_of_perm hw
    simp only [if_neg hne, hr]
    refine ⟨some r, rfl, by simp, ?_⟩
    intro rest hrest
    simp only [Option.some.injEq] at hrest
    subst hrest
    refine ⟨c, g1, g2, h2, removes_eq hr, fun c' h1' h2' h3' => ?_⟩
    obtain ⟨k', e1, e2⟩ := h4 c' ((mem_merges _ _).2 ⟨h1', h2'⟩) h3'
    simp only [Except.ok.injEq] at h3 e1
    rw [← h3, ← e1] at e2
    exact_mod_cast e2

theorem mem_pairsOf_iff {l : List ℤ} {a b : ℤ} : (a, b) ∈ pairsOf l ↔ [a, b].Sublist l := by
  refine ⟨mem_pairsOf, fun h => ?_⟩
  induction l with
  | nil => simp at h
  | cons t ts ih =>
    rw [pairsOf, List.mem_append, List.mem_map]
    cases h with
    | cons _ h => exact .inr (ih h)
    | cons_cons _ h => exact .inl ⟨b, List.singleton_sublist.1 h, rfl⟩

/-- Two targets at once: a source that is their sum, as cheap as any. -/
theorem extractTwo_facts {ec : ℤ → ℤ → Py ℤ} {sources targets : List ℤ} {r : Option (List ℤ × List ℤ)}
    (h : extractTwo ec sources targets = .ok r) :
    (r = none → ∀ s ∈ sources, ∀ t1 t2, [t1, t2].Sublist targets → s ≠ t1 + t2) ∧
    (∀ s' t', r = some (s', t') → ∃ s t1 t2 k, s = t1 + t2 ∧ ec s t1 = .ok k ∧ sources.Perm (s :: s') ∧ targets.Perm (t1 :: t2 :: t') ∧
      ∀ a ∈ sources, ∀ b1 b2, [b1, b2].Sublist targets → a = b1 + b2 → ∃ k', ec a b1 = .ok k' ∧ k ≤ k') := by
  unfold extractTwo at h
  rw [tryTwo_pick] at h
  have hmem : ∀ (s t1 t2 : ℤ), (s, t1, t2) ∈ (sources.flatMap fun s => (pairsOf targets).map fun p => (s, p)) ↔
      s ∈ sources ∧ [t1, t2].Sublist targets := by
    intro s t1 t2
    simp only [List.mem_flatMap, List.mem_map, Prod.mk.injEq]
    constructor
    · rintro ⟨s', hs', p, hp, rfl, rfl⟩
      exact ⟨hs', mem_pairsOf hp⟩
    · rintro ⟨h1, h2⟩
      exact ⟨s, h1, (t1, t2), mem_pairsOf_iff.2 h2, rfl, rfl⟩
  generalize (sources.flatMap fun s => (pairsOf targets).map fun p => (s, p)) = cands at h hmem
  cases hb : cands.foldlM (pick (fun c : ℤ × ℤ × ℤ => c.1 = c.2.1 + c.2.2) fun c => ec c.1 c.2.1) none with
  | error e => rw [hb] at h; simp [bind, Except.bind] at h
  | ok best =>
    rw [hb] at h
    have hp := pick_cheapest _ _ cands [] none best (by intro a ha; simp at ha) hb
    rw [List.nil_append] at hp
    rcases best with _ | ⟨k, s, t1, t2⟩
    · simp only [bind, Except.bind, pure, Except.pure, Except.ok.injEq] at h
      subst h
      exact ⟨fun _ s hs t1 t2 ht => hp (s, t1, t2) ((hmem s t1 t2).2 ⟨hs, ht⟩), by simp⟩
    · simp only [bind, Except.bind, pure, Except.pure, Except.ok.injEq] at h
      subst h
      obtain ⟨h1, h2, h3, h4⟩ := hp
      obtain ⟨g1, g2⟩ := (hmem _ _ _).1 h1
      refine ⟨by simp, ?_⟩
      intro s' t' he
      simp only [Option.some.injEq, Prod.mk.injEq] at he
      obtain ⟨rfl, rfl⟩ := he
      exact ⟨s, t1, t2, k, h2, h3, List.perm_cons_erase g1, sublist_pair_perm g2,
        fun a ha b1 b2 hb e => h4 (a, b1, b2) ((hmem _ _ _).2 ⟨ha, hb⟩) e⟩

/-- One target: a source that is large enough, as cheap as any. -/
theorem extractOne_facts {ec : ℤ → ℤ → Py ℤ} {sources targets s' t' : List ℤ} (h : extractOne ec sources targets = .ok (s', t')) :
    ∃ s t k rest, t ≤ s ∧ ec s t = .ok k ∧ sources.Perm (s :: rest) ∧ s' = rest ++ [s - t] ∧ targets.Perm (t :: t') ∧
      ∀ a ∈ sources, ∀ b ∈ targets, b ≤ a → ∃ k', ec a b = .ok k' ∧ k ≤ k' := by
  unfold extractOne at h
  rw [tryOne_pick] at h
  have hmem : ∀ (s t : ℤ), (s, t) ∈ (sources.flatMap fun s => targets.map fun t => (s, t)) ↔ s ∈ sources ∧ t ∈ targets := by
    intro s t
    simp only [List.mem_flatMap, List.mem_map, Prod.mk.injEq]
    constructor
    · rintro ⟨s', hs', p, hp, rfl, rfl⟩
      exact ⟨hs', hp⟩
    · rintro ⟨h1, h2⟩
      exact ⟨s, h1, t, h2, rfl, rfl⟩
  generalize (sources.flatMap fun s => targets.map fun t => (s, t)) = cands at h hmem
  cases hb : cands.foldlM (pick (fun c : ℤ × ℤ => c.2 ≤ c.1) fun c => ec c.1 c.2) none with
  | error e => rw [hb] at h; simp [bind, Except.bind] at h
  | ok best =>
    rw [hb] at h
    have hp := pick_cheapest _ _ cands [] none best (by intro a ha; simp at ha) hb
    rw [List.nil_append] at hp
    rcases best with _ | ⟨k, s, t⟩
    · simp [bind, Except.bind] at h
    · simp only [bind, Except.bind, pure, Except.pure, Except.ok.injEq, Prod.mk.injEq] at h
      obtain ⟨rfl, rfl⟩ := h
      obtain ⟨h1, h2, h3, h4⟩ := hp
      obtain ⟨g1, g2⟩ := (hmem _ _).1 h1
      exact ⟨s, t, k, sources.erase s, h2, h3, List.perm_cons_erase g1, rfl, List.perm_cons_erase g2,
        fun a ha b hb e => h4 (a, b) ((hmem _ _).2 ⟨ha, hb⟩) e⟩

/-- Without a source as large as some target the last step raises. -/
theorem extractOne_raises {ec : ℤ → ℤ → Py ℤ} {sources targets : List ℤ} (h : ∀ s ∈ sources, ∀ t ∈ targets, s < t) :
    extractOne ec sources targets = .error .valueError := by
  unfold extractOne
  rw [tryOne_pick]
  have hmem : ∀ c ∈ (sources.flatMap fun s => targets.map fun t => (s, t)), ¬ c.2 ≤ c.1 := by
    intro c hc
    simp only [List.mem_flatMap, List.mem_map] at hc
    obtain ⟨s, hs, t, ht, rfl⟩ := hc
    have := h s hs t ht
    simp only
    omega
  generalize (sources.flatMap fun s => targets.map fun t => (s, t)) = cands at hmem
  obtain ⟨best, hb⟩ := pick_ok (fun c : ℤ × ℤ => c.2 ≤ c.1) (fun c => ec c.1 c.2) cands none (fun a ha hf => absurd hf (hmem a ha))
  rw [hb]
  have hp := pick_cheapest _ _ cands [] none best (by intro a ha; simp at ha) hb
  rw [List.nil_append] at hp
  rcases best with _ | ⟨k, c⟩
  · rfl
  · exact absurd hp.2.1 (hmem c hp.1)

/-- A step makes the lists shorter. -/
theorem step_shorter {ec : ℤ → ℤ → Py ℤ} {sources targets s' t' : List ℤ} (h : step ec sources targets = .ok (s', t')) :
    s'.length + t'.length < sources.length + targets.length := by
  unfold step at h
  obtain ⟨m, hm, -, m2⟩ := mergeStep_facts sources targets
  rw [hm] at h
  simp only [bind, Except.bind] at h
  rcases m with _ | rest
  · simp only at h
    cases ht : extractTwo ec sources targets with
    | error e => rw [ht] at h; simp at h
    | ok r =>
      rw [ht] at h
      rcases r with _ | ⟨a, b⟩
      · simp only at h
        obtain ⟨s, t, k, w, -, -, h1, rfl, h2, -⟩ := extractOne_facts h
        have e1 := h1.length_eq
        have e2 := h2.length_eq
        simp at e1 e2 ⊢
        omega
      · simp only [pure, Except.pure, Except.ok.injEq, Prod.mk.injEq] at h
        obtain ⟨rfl, rfl⟩ := h
        obtain ⟨s, t1, t2, k, -, -, h1, h2, -⟩ := (extractTwo_facts ht).2 _ _ rfl
        have e1 := h1.length_eq
        have e2 := h2.length_eq
        simp at e1 e2 ⊢
        omega
  · simp only [pure, Except.pure, Except.ok.injEq, Prod.mk.injEq] at h
    obtain ⟨rfl, rfl⟩ := h
    obtain ⟨c, -, h2, -, h3, -⟩ := m2 _ rfl
    have e1 := h3.length_eq
    simp at e1
    omega

theorem groupAll_length : ∀ (fuel : ℕ) (l : List ℤ) (r : List ℤ × List Op), groupAll fuel l = some r → r.1.length ≤ l.length := by
  intro fuel
  induction fuel with
  | zero => intro l r h; simp [groupAll] at h
  | succ fuel ih =>
    intro l r h
    obtain ⟨-, -, h3, h4⟩ := groupValues_facts l
    rw [groupAll] at h
    by_cases hd : (groupValues l).2 = []
    · simp only [hd, if_pos, Option.some.injEq] at h
      rw [← h]
      simp only
      rw [(h3 hd).1]
    · simp only [if_neg hd] at h
      cases hg : groupAll fuel (groupValues l).1 with
      | none => rw [hg] at h; simp at h
      | some s =>
        rw [hg] at h
        simp only [Option.map_some, Option.some.injEq] at h
        have := ih _ _ hg
        have := h4 hd
        rw [← h]
        simp only
        omega

/-- Without equal neighbours nothing is grouped. -/
theorem groupAll_chain {l : List ℤ} (h : l.IsChain (· ≠ ·)) (fuel : ℕ) : groupAll (fuel + 1) l = some (l, []) := by
  have hs : ∀ (l : List ℤ) (ref : ℤ), (ref :: l).IsChain (· ≠ ·) → scan ref 1 l = (ref :: l, []) := by
    intro l
    induction l with
    | nil => intro ref _; simp [scan, logged]
    | cons y l ih =>
      intro ref h
      rw [List.isChain_cons_cons] at h
      rw [scan, if_neg (Ne.symm h.1), ih y h.2]
      simp [logged]
  have hg : groupValues l = (l, []) := by
    cases l with
    | nil => rfl
    | cons ref l => exact hs l ref h
  rw [groupAll, hg]
  simp

/-- The loop ends. -/
theorem loop_ends (ec : ℤ → ℤ → Py ℤ) : ∀ (n : ℕ) (sources targets : List ℤ), sources.length + targets.length ≤ n →
    ∃ r, ∀ fuel, n < fuel → loop ec fuel sources targets = some r := by
  intro n
  induction n with
  | zero =>
    intro s t h
    have h1 : s = [] := List.length_eq_zero_iff.1 (by omega)
    have h2 : t = [] := List.length_eq_zero_iff.1 (by omega)
    subst h1 h2
    refine ⟨.error .valueError, fun fuel hf => ?_⟩
    obtain ⟨f, rfl⟩ := Nat.exists_eq_succ_of_ne_zero (show fuel ≠ 0 by omega)
    rfl
  | succ n ih =>
    intro s t h
    have hl : (Utils.removePairs s t).1.length ≤ s.length ∧ (Utils.removePairs s t).2.length ≤ t.length := by
      obtain ⟨c, h1, h2⟩ := Utils.removePairs_perm s t
      have e1 := h1.length_eq
      have e2 := h2.length_eq
      simp at e1 e2
      omega
    obtain ⟨g, d, hg, -⟩ := groupAll_facts (n + 1) (Utils.removePairs s t).2 (by omega)
    have hgl := groupAll_length _ _ _ (hg (n + 2) (by omega))
    simp only at hgl
    cases hst : step ec (Utils.removePairs s t).1 g with
    | error e =>
      by_cases c1 : ((Utils.removePairs s t).1.length = 0 ∧ (Utils.removePairs s t).2.length ≠ 0) ∨
          ((Utils.removePairs s t).1.length ≠ 0 ∧ (Utils.removePairs s t).2.length = 0)
      · refine ⟨.ok .oopsie, fun fuel hf => ?_⟩
        obtain ⟨f, rfl⟩ := Nat.exists_eq_succ_of_ne_zero (show fuel ≠ 0 by omega)
        rw [loop]
        simp only [if_pos c1]
      · by_cases c2 : (Utils.removePairs s t).2.length = 1
        · refine ⟨.ok .returned, fun fuel hf => ?_⟩
          obtain ⟨f, rfl⟩ := Nat.exists_eq_succ_of_ne_zero (show fuel ≠ 0 by omega)
          rw [loop]
          simp only [if_neg c1, if_pos c2]
        · refine ⟨.error e, fun fuel hf => ?_⟩
          obtain ⟨f, rfl⟩ := Nat.exists_eq_succ_of_ne_zero (show fuel ≠ 0 by omega)
          rw [loop]
          simp only [if_neg c1, if_neg c2, hg _ hf, hst]
    | ok r =>
      obtain ⟨s', t'⟩ := r
      have hlt := step_shorter hst
      obtain ⟨r, hr⟩ := ih s' t' (by omega)
      by_cases c1 : ((Utils.removePairs s t).1.length = 0 ∧ (Utils.removePairs s t).2.length ≠ 0) ∨
          ((Utils.removePairs s t).1.length ≠ 0 ∧ (Utils.removePairs s t).2.length = 0)
      · refine ⟨.ok .oopsie, fun fuel hf => ?_⟩
        obtain ⟨f, rfl⟩ := Nat.exists_eq_succ_of_ne_zero (show fuel ≠ 0 by omega)
        rw [loop]
        simp only [if_pos c1]
      · by_cases c2 : (Utils.removePairs s t).2.length = 1
        · refine ⟨.ok .returned, fun fuel hf => ?_⟩
          obtain ⟨f, rfl⟩ := Nat.exists_eq_succ_of_ne_zero (show fuel ≠ 0 by omega)
          rw [loop]
          simp only [if_neg c1, if_pos c2]
        · by_cases c3 : s' = t'
          · refine ⟨.ok .returned, fun fuel hf => ?_⟩
            obtain ⟨f, rfl⟩ := Nat.exists_eq_succ_of_ne_zero (show fuel ≠ 0 by omega)
            rw [loop]
            simp only [if_neg c1, if_neg c2, hg _ hf, hst, if_pos c3]
          · refine ⟨r, fun fuel hf => ?_⟩
            obtain ⟨f, rfl⟩ := Nat.exists_eq_succ_of_ne_zero (show fuel ≠ 0 by omega)
            rw [loop]
            simp only [if_neg c1, if_neg c2, hg _ hf, hst, if_neg c3]
            exact hr f (by omega)

/-- What a step does to the difference of the sums: only a merge changes it, by the target that should have been struck off. -/
theorem step_sum {ec : ℤ → ℤ → Py ℤ} {sources targets s' t' : List ℤ} (h : step ec sources targets = .ok (s', t')) :
    (∃ v, mergeStep sources targets = .ok (some s') ∧ t' = targets ∧ v ∈ targets ∧ s'.sum = sources.sum - v) ∨
      (mergeStep sources targets = .ok none ∧ s'.sum - t'.sum = sources.sum - targets.sum) := by
  unfold step at h
  obtain ⟨m, hm, -, m2⟩ := mergeStep_facts sources targets
  rw [hm] at h ⊢
  simp only [bind, Except.bind] at h
  rcases m with _ | rest
  · right
    refine ⟨rfl, ?_⟩
    simp only at h
    cases ht : extractTwo ec sources targets with
    | error e => rw [ht] at h; simp at h
    | ok r =>
      rw [ht] at h
      rcases r with _ | ⟨a, b⟩
      · simp only at h
        obtain ⟨s, t, k, w, -, -, h1, rfl, h2, -⟩ := extractOne_facts h
        have e1 := h1.sum_eq
        have e2 := h2.sum_eq
        simp at e1 e2 ⊢
        omega
      · simp only [pure, Except.pure, Except.ok.injEq, Prod.mk.injEq] at h
        obtain ⟨rfl, rfl⟩ := h
        obtain ⟨s, t1, t2, k, h0, -, h1, h2, -⟩ := (extractTwo_facts ht).2 _ _ rfl
        have e1 := h1.sum_eq
        have e2 := h2.sum_eq
        simp at e1 e2
        omega
  · left
    simp only [pure, Except.pure, Except.ok.injEq, Prod.mk.injEq] at h
    obtain ⟨rfl, rfl⟩ := h
    obtain ⟨c, -, -, h3, h4, -⟩ := m2 _ rfl
    have e1 := h4.sum_eq
    rw [List.sum_append] at e1
    exact ⟨c.sum, rfl, rfl, h3, by omega⟩

theorem extractTwo_ok {ec : ℤ → ℤ → Py ℤ} {sources targets : List ℤ}
    (h : ∀ s ∈ sources, ∀ t1 t2, [t1, t2].Sublist targets → s = t1 + t2 → ∃ k, ec s t1 = .ok k) : ∃ r, extractTwo ec sources targets = .ok r := by
  unfold extractTwo
  rw [tryTwo_pick]
  obtain ⟨best, hb⟩ := pick_ok (fun c : ℤ × ℤ × ℤ => c.1 = c.2.1 + c.2.2) (fun c => ec c.1 c.2.1)
    (sources.flatMap fun s => (pairsOf targets).map fun p => (s, p)) none (by
      intro a ha hf
      simp only [List.mem_flatMap, List.mem_map] at ha
      obtain ⟨s, hs, p, hp, rfl⟩ := ha
      exact h s hs p.1 p.2 (mem_pairsOf hp) hf)
  rw [hb]
  rcases best with _ | ⟨k, s, t1, t2⟩
  · exact ⟨_, rfl⟩
  · exact ⟨_, rfl⟩

theorem extractOne_ok {ec : ℤ → ℤ → Py ℤ} {sources targets : List ℤ} (h : ∀ s ∈ sources, ∀ t ∈ targets, t ≤ s → ∃ k, ec s t = .ok k)
    (he : ∃ s ∈ sources, ∃ t ∈ targets, t ≤ s) : ∃ r, extractOne ec sources targets = .ok r := by
  unfold extractOne
  rw [tryOne_pick]
  have hmem : ∀ (s t : ℤ), (s, t) ∈ (sources.flatMap fun s => targets.map fun t => (s, t)) ↔ s ∈ sources ∧ t ∈ targets := by
    intro s t
    simp only [List.mem_flatMap, List.mem_map, Prod.mk.injEq]
    constructor
    · rintro ⟨s', hs', p, hp, rfl, rfl⟩
      exact ⟨hs', hp⟩
    · rintro ⟨h1, h2⟩
      exact ⟨s, h1, t, h2, rfl, rfl⟩
  generalize (sources.flatMap fun s => targets.map fun t => (s, t)) = cands at hmem
  obtain ⟨best, hb⟩ := pick_ok (fun c : ℤ × ℤ => c.2 ≤ c.1) (fun c => ec c.1 c.2) cands none (by
      intro a ha hf
      obtain ⟨s, t⟩ := a
      obtain ⟨h1, h2⟩ := (hmem s t).1 ha
      exact h s h1 t h2 hf)
  rw [hb]
  have hp := pick_cheapest _ _ cands [] none best (by intro a ha; simp at ha) hb
  rw [List.nil_append] at hp
  rcases best with _ | ⟨k, s, t⟩
  · obtain ⟨s, hs, t, ht, hle⟩ := he
    exact absurd hle (hp (s, t) ((hmem s t).2 ⟨hs, ht⟩))
  · exact ⟨_, rfl⟩

theorem sum_pos_of {l : List ℤ} (h : ∀ a ∈ l, 0 < a) : 0 ≤ l.sum ∧ (l.sum = 0 → l = []) := by
  induction l with
  | nil => simp
  | cons a l ih =>
    obtain ⟨h1, -⟩ := ih fun b hb => h b (List.mem_cons_of_mem _ hb)
    have := h a (List.mem_cons_self ..)
    rw [List.sum_cons]
    exact ⟨by omega, fun q => by omega⟩

/-- One source and different targets that add up to it. -/
theorem loop_single {ec : ℤ → ℤ → Py ℤ} (hec : ∀ x c, 3 ≤ x → 0 < c → c < x → ∃ k, ec x c = .ok k) :
    ∀ (fuel : ℕ) (x : ℤ) (targets : List ℤ), targets.length < fuel → 2 ≤ targets.length → targets.Nodup → (∀ t ∈ targets, 0 < t) →
      targets.sum = x → loop ec fuel [x] targets = some (.ok .returned) := by
  intro fuel
  induction fuel with
  | zero => intro x t h; omega
  | succ fuel ih =>
    intro x t h1 h2 hnd hpos hsum
    have hlt : ∀ v ∈ t, v < x := fun v hv => by
      have e := List.perm_cons_erase hv
      have e1 := e.sum_eq
      have e2 := e.length_eq
      rw [List.sum_cons] at e1
      rw [List.length_cons] at e2
      obtain ⟨g1, g2⟩ := sum_pos_of (l := t.erase v) fun a ha => hpos a (List.mem_of_mem_erase ha)
      have : t.erase v ≠ [] := fun q => by rw [q] at e2; simp at e2; omega
      have : (t.erase v).sum ≠ 0 := fun q => this (g2 q)
      omega
    have hx : x ∉ t := fun q => lt_irrefl _ (hlt x q)
    have hx3 : 3 ≤ x := by
      rcases t with _ | ⟨a, _ | ⟨b, t⟩⟩
      · simp at h2
      · simp at h2
      · have p1 := hpos a (by simp)
        have p2 := hpos b (by simp)
        obtain ⟨p3, -⟩ := sum_pos_of (l := t) fun a ha => hpos a (by simp [ha])
        have p4 : a ≠ b := by
          rw [List.nodup_cons] at hnd
          intro q
          exact hnd.1 (by simp [q])
        simp only [List.sum_cons] at hsum
        omega
    obtain ⟨p, hp⟩ : ∃ p, p = Utils.removePairs [x] t := ⟨_, rfl⟩
    have hc := Utils.removePairs_count [x] t
    rw [← hp] at hc
    have hmin : ∀ y, min ([x].count y) (t.count y) = 0 := fun y => by
      by_cases q : y = x
      · rw [q, List.count_eq_zero.2 hx]
        omega
      · have : [x].count y = 0 := List.count_eq_zero.2 (by simpa using q)
        omega
    have hp1 : p.1 = [x] := by
      have : p.1.Perm [x] := List.perm_iff_count.2 fun y => by rw [(hc y).1, hmin]; omega
      exact List.perm_singleton.1 this
    have hp2 : p.2.Perm t := List.perm_iff_count.2 fun y => by rw [(hc y).2, hmin]; omega
    have hnd2 := hp2.nodup_iff.2 hnd
    have hlen := hp2.length_eq
    have hpos2 : ∀ v ∈ p.2, 0 < v := fun v hv => hpos v (hp2.mem_iff.1 hv)
    have hsum2 := hp2.sum_eq
    rw [loop, ← hp, hp1]
    rw [if_neg (by simp; intro q; rw [q] at hlen; simp at hlen; omega), if_neg (by omega),
      groupAll_chain (List.Pairwise.isChain hnd2)]
    simp only
    obtain ⟨m, hm, -, m2⟩ := mergeStep_facts [x] p.2
    have hmn : m = none := by
      rcases m with _ | rest
      · rfl
      · obtain ⟨c, q1, q2, -⟩ := m2 _ rfl
        have := q1.length_le
        simp at this
        omega
    have hst : step ec [x] p.2 = (do match ← extractTwo ec [x] p.2 with
      | some r => return r
      | none => extractOne ec [x] p.2) := by
      unfold step
      rw [hm, hmn]
      rfl
    obtain ⟨r, hr⟩ := extractTwo_ok (ec := ec) (sources := [x]) (targets := p.2) (by
      intro s hs t1 t2 ht _
      rw [List.mem_singleton.1 hs]
      have : t1 ∈ p.2 := ht.subset (by simp)
      exact hec x t1 hx3 (hpos2 _ this) (hlt _ (hp2.mem_iff.1 this)))
    obtain ⟨f1, f2⟩ := extractTwo_facts hr
    rw [hst, hr]
    rcases r with _ | ⟨s', t'⟩
    · have hno := f1 rfl
      obtain ⟨⟨s', t'⟩, hr1⟩ := extractOne_ok (ec := ec) (sources := [x]) (targets := p.2) (by
        intro s hs t1 ht _
        rw [List.mem_singleton.1 hs]
        exact hec x t1 hx3 (hpos2 _ ht) (hlt _ (hp2.mem_iff.1 ht))) (by
        obtain ⟨v, hv⟩ := List.exists_mem_of_length_pos (l := p.2) (by omega)
        exact ⟨x, by simp, v, hv, (hlt v (hp2.mem_iff.1 hv)).le⟩)
      obtain ⟨s, v, k, rest, -, -, e1, e2, e3, -⟩ := extractOne_facts hr1
      have hs : s = x ∧ rest = [] := by
        have q1 := e1.length_eq
        have q2 : s ∈ [x] := e1.mem_iff.2 (by simp)
        simp at q1 q2
        exact ⟨q2, q1⟩
      rw [hs.1, hs.2, List.nil_append] at e2
      have q1 := e3.length_eq
      have q2 := e3.sum_eq
      have q3 := e3.nodup_iff.1 hnd2
      rw [List.sum_cons] at q2
      rw [List.length_cons] at q1
      rw [List.nodup_cons] at q3
      have hpos3 : ∀ w ∈ t', 0 < w := fun w hw => hpos2 w (e3.mem_iff.2 (List.mem_cons_of_mem _ hw))
      have ht2 : 2 ≤ t'.length := by
        by_contra hlt2
        have h1' : t'.length = 1 := by omega
        obtain ⟨b, hb⟩ := List.length_eq_one_iff.1 h1'
        rw [hb] at e3 q2
        have : [v, b].Sublist p.2 ∨ [b, v].Sublist p.2 := by
          rcases hpp : p.2 with _ | ⟨a1, _ | ⟨a2, w⟩⟩
          · rw [hpp] at hlen; simp at hlen; omega
          · rw [hpp] at hlen; simp at hlen; omega
          · have hw : w = [] := by
              rw [hpp, h1'] at q1
              simpa using q1
            rw [hw] at hpp ⊢
            rw [hpp] at e3
            have z1 : v ∈ [a1, a2] := e3.mem_iff.2 (by simp)
            have z2 : b ∈ [a1, a2] := e3.mem_iff.2 (by simp)
            have z3 : v ≠ b := by
              rw [hb] at q3
              intro q
              exact q3.1 (by simp [q])
            simp at z1 z2
            rcases z1 with rfl | rfl <;> rcases z2 with rfl | rfl
            · exact absurd rfl z3
            · exact .inl (List.Sublist.refl _)
            · exact .inr (List.Sublist.refl _)
            · exact absurd rfl z3
        simp at q2
        rcases this with q | q
        · exact hno x (by simp) v b q (by omega)
        · exact hno x (by simp) b v q (by omega)
      simp only [bind, Except.bind, hr1]
      rw [if_neg (by
        intro q
        rw [e2] at q
        rw [← q] at ht2
        simp at ht2), e2]
      exact ih (x - v) t' (by omega) ht2 q3.2 hpos3 (by omega)
    · obtain ⟨s, t1, t2, k, e0, -, e1, e2, -⟩ := f2 _ _ rfl
      have hs : s = x ∧ s' = [] := by
        have q1 := e1.length_eq
        have q2 : s ∈ [x] := e1.mem_iff.2 (by simp)
        simp at q1 q2
        exact ⟨q2, q1⟩
      have q2 := e2.sum_eq
      simp only [List.sum_cons] at q2
      have ht' : t' = [] := (sum_pos_of (l := t') fun w hw => hpos2 w (e2.mem_iff.2 (by simp [hw]))).2 (by omega)
      simp [bind, Except.bind, pure, Except.pure, hs.2, ht']

end Satis.Sim
