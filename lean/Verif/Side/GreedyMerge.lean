import Verif.Side.GreedySteps

/-! The merge step of the greedy solver: when it finds something. -/

namespace Satis.Greedy
open Satis Utils Utils.Spec

theorem mergeCombos_none {t : ℤ} {srcs counted : List ℤ} : ∀ (combos : List (ℕ × List ℤ)) (best : BestMerge),
    mergeCombos t srcs counted combos best = none ↔ best = none ∧ ∀ c ∈ combos, sufficient c.2 srcs counted = false := by
  intro combos
  induction combos with
  | nil => intro best; simp [mergeCombos]
  | cons c combos ih =>
    intro best
    obtain ⟨k, coeffs⟩ := c
    rw [mergeCombos]
    by_cases h1 : sufficient coeffs srcs counted = true
    · rw [if_neg (by simpa using h1)]
      have : ¬ (best = none ∧ ∀ c ∈ (k, coeffs) :: combos, sufficient c.2 srcs counted = false) := fun w => by
        have := w.2 (k, coeffs) (by simp)
        simp only [h1] at this
        exact absurd this (by simp)
      simp only [this, iff_false]
      split_ifs with h2 h3
      · cases best with
        | none => simp [repeats] at h2
        | some b => simp
      · rw [ih]
        simp
      · cases best with
        | none => simp [better] at h3
        | some b =>
          rw [ih]
          simp
    · rw [if_pos (by simpa using h1), ih]
      constructor
      · rintro ⟨h2, h3⟩
        refine ⟨h2, fun c hc => ?_⟩
        rcases List.mem_cons.1 hc with rfl | hc
        · simpa using h1
        · exact h3 c hc
      · rintro ⟨h2, h3⟩
        exact ⟨h2, fun c hc => h3 c (by simp [hc])⟩

theorem ascending_complete {x : List ℤ} (hx : ∀ a ∈ x, 0 < a) (hs : x.Pairwise (· < ·)) (hne : x ≠ []) {t : ℤ} (ht : 0 ≤ t) {combos : List (List ℤ)}
    (h : findLinearCombinations x t = .ok combos) {v : List ℤ} (hv : Combination x t v) : v ∈ combos := by
  unfold findLinearCombinations at h
  rw [if_neg (by rw [not_or]; exact ⟨hne, by omega⟩)] at h
  obtain ⟨outs, tl', e1, _, _, e4, _⟩ := flc_ascending x hx hs t ht [] (List.replicate x.length 0) (by simp)
    (fun _ a ha => List.eq_of_mem_replicate ha)
  simp only [List.length_nil, List.nil_append] at e1 e4
  rw [e1] at h
  simp only [Except.map, Except.ok.injEq] at h
  rw [← h]
  exact (e4 v).mpr ⟨v, rfl, hv⟩

theorem dot_counts : ∀ (x vs : List ℤ), x.Nodup → (∀ v ∈ vs, v ∈ x) → dot (x.map fun a => (vs.count a : ℤ)) x = vs.sum := by
  intro x vs hnd
  have single : ∀ (x : List ℤ) (f : ℤ → ℤ) (v : ℤ), x.Nodup → v ∈ x →
      dot (x.map fun a => f a + if v = a then 1 else 0) x = dot (x.map f) x + v := by
    intro x
    induction x with
    | nil => intro f v _ h; simp at h
    | cons a x ih =>
      intro f v hnd hv
      rw [List.nodup_cons] at hnd
      rw [List.map_cons, List.map_cons, dot_cons, dot_cons]
      by_cases q : v = a
      · subst q
        have : (x.map fun a => f a + if v = a then 1 else 0) = x.map f := by
          apply List.map_congr_left
          intro b hb
          rw [if_neg (fun e : v = b => hnd.1 (e ▸ hb)), add_zero]
        rw [this]
        simp only [if_true]
        ring
      · rw [ih f v hnd.2 ((List.mem_cons.1 hv).resolve_left q), if_neg q]
        ring
  induction vs with
  | nil =>
    intro _
    clear hnd single
    induction x with
    | nil => simp [dot]
    | cons a x ih =>
      rw [List.map_cons, dot_cons, ih (by simp)]
      simp
  | cons v vs ih =>
    intro h
    have e : (x.map fun a => ((v :: vs).count a : ℤ)) = x.map fun a => (vs.count a : ℤ) + if v = a then 1 else 0 := by
      apply List.map_congr_left
      intro a _
      rw [List.count_cons]
      push_cast
      simp
    rw [e, single x _ v hnd (h v (by simp)), ih fun w hw => h w (by simp [hw]), List.sum_cons]
    ring

/-- The sources `vs` can be merged for the target `t`. -/
def Mergeable (sources : List ℤ) (t : ℤ) (vs : List ℤ) : Prop := vs.Subperm sources ∧ (∀ v ∈ vs, v < t) ∧ vs.sum = t

theorem mergeTarget_none {order : List ℤ → List ℤ} {sources : List ℤ} (hord : ∀ l, (order l).Pairwise (· < ·)) (hmem : ∀ l x, x ∈ order l ↔ x ∈ l)
    (hpos : ∀ s ∈ sources, 0 < s) {best r : BestMerge} {t : ℤ} (ht : 0 < t) (h : mergeTarget order sources best t = .ok r) :
    r = none ↔ best = none ∧ ¬ ∃ vs, Mergeable sources t vs := by
  obtain ⟨counted, hcn⟩ : ∃ c, c = sources.filter (fun s => decide (s < t)) := ⟨_, rfl⟩
  have small : ∀ vs, Mergeable sources t vs → vs.Subperm counted := by
    rintro vs ⟨h1, h2, -⟩
    rw [List.subperm_ext_iff]
    intro v hv
    rw [hcn, List.count_filter (by simpa using h2 v hv)]
    exact h1.count_le v
  have hp : ∀ a ∈ order counted, 0 < a := hcn ▸ order_pos hmem hpos t
  have hnd : (order counted).Nodup := (hord counted).imp fun h => ne_of_lt h
  unfold mergeTarget at h
  simp only [← hcn] at h
  by_cases hnil : counted = []
  · rw [if_pos hnil] at h
    simp only [Except.ok.injEq] at h
    rw [h]
    refine ⟨fun q => ⟨q, fun ⟨vs, w⟩ => ?_⟩, fun q => q.1⟩
    have := small vs w
    rw [hnil, List.subperm_nil] at this
    have e := w.2.2
    rw [this] at e
    simp at e
    omega
  · rw [if_neg hnil] at h
    cases hf : findLinearCombinations (order counted) t with
    | error e => rw [hf] at h; simp [bind, Except.bind] at h
    | ok combos =>
      rw [hf] at h
      simp only [bind, Except.bind, pure, Except.pure, Except.ok.injEq] at h
      rw [← h, mergeCombos_none]
      have key : (∀ c ∈ (combos.map fun c => ((order counted).length - c.count 0, c)).insertionSort (fun a b => b.1 ≤ a.1),
          sufficient c.2 (order counted) counted = false) ↔ ¬ ∃ vs, Mergeable sources t vs := by
        constructor
        · rintro q ⟨vs, w⟩
          have hsub := small vs w
          have hc : Combination (order counted) t ((order counted).map fun a => (vs.count a : ℤ)) := by
            refine ⟨by simp, fun a ha => ?_, ?_⟩
            · obtain ⟨b, -, rfl⟩ := List.mem_map.1 ha
              exact Int.natCast_nonneg _
            · rw [dot_counts _ _ hnd fun v hv => (hmem _ _).2 (hsub.subset hv), w.2.2]
          have hm := ascending_complete hp (hord _) (fun e => hnil (List.eq_nil_iff_forall_not_mem.2 fun a ha => by
            have := (hmem counted a).2 ha
            rw [e] at this
            simp at this)) ht.le hf hc
          have := q _ ((List.mem_insertionSort _).2 (List.mem_map.2 ⟨_, hm, rfl⟩))
          rw [← Bool.not_eq_true] at this
          apply this
          unfold sufficient
          rw [List.all_eq_true]
          rintro ⟨c, s⟩ hz
          rw [List.zip_map_left, List.mem_map] at hz
          obtain ⟨⟨a, b⟩, hab, e⟩ := hz
          simp only [Prod.map_apply, Prod.mk.injEq, id] at e
          obtain ⟨rfl, rfl⟩ := e
          have hab' : a = b := by
            obtain ⟨i, hi, he⟩ := List.mem_iff_getElem.1 hab
            rw [List.getElem_zip, Prod.mk.injEq] at he
            rw [← he.1, ← he.2]
          subst hab'
          simp only [decide_eq_true_eq, Nat.cast_le]
          exact hsub.count_le _
        · intro q c hc
          by_contra hs
          rw [Bool.not_eq_false] at hs
          have := (List.mem_insertionSort _).1 hc
          obtain ⟨v, hv, rfl⟩ := List.mem_map.1 this
          have hcomb := ascending_sound hp (hord _) hf hv
          refine q ⟨taken v (order counted), ?_, ?_, ?_⟩
          · rw [List.subperm_ext_iff]
            intro a _
            refine (count_flatMap_zip _ hnd v a counted hs).trans ?_
            rw [hcn]
            exact List.filter_sublist.count_le a
          · intro a ha
            unfold taken at ha
            obtain ⟨p, hp', ha⟩ := List.mem_flatMap.1 ha
            have := (hmem counted _).1 (List.of_mem_zip hp').2
            rw [hcn, List.mem_filter] at this
            rw [List.eq_of_mem_replicate ha]
            simpa using this.2
          · rw [taken_sum v _ hcomb.nonneg, hcomb.total]
      rw [key]

theorem best_none {order : List ℤ → List ℤ} {sources : List ℤ} (hord : ∀ l, (order l).Pairwise (· < ·)) (hmem : ∀ l x, x ∈ order l ↔ x ∈ l)
    (hpos : ∀ s ∈ sources, 0 < s) : ∀ (targets : List ℤ) (best r : BestMerge), (∀ t ∈ targets, 0 < t) →
    targets.foldlM (mergeTarget order sources) best = .ok r → (r = none ↔ best = none ∧ ∀ t ∈ targets, ¬ ∃ vs, Mergeable sources t vs) := by
  intro targets
  induction targets with
  | nil =>
    intro best r _ h
    simp only [List.foldlM_nil, pure, Except.pure, Except.ok.injEq] at h
    simp [h]
  | cons t ts ih =>
    intro best r hp h
    rw [List.foldlM_cons] at h
    cases hm : mergeTarget order sources best t with
    | error e => rw [hm] at h; simp [bind, Except.bind] at h
    | ok b =>
      rw [hm] at h
      rw [ih b r (fun t ht => hp t (by simp [ht])) h, mergeTarget_none hord hmem hpos (hp t (by simp)) hm]
      simp only [List.mem_cons, forall_eq_or_imp]
      tauto

theorem mergeStep_none {order : List ℤ → List ℤ} {sources targets : List ℤ} (hord : ∀ l, (order l).Pairwise (· < ·))
    (hmem : ∀ l x, x ∈ order l ↔ x ∈ l) (hpos : ∀ s ∈ sources, 0 < s) (htpos : ∀ t ∈ targets, 0 < t) :
    mergeStep order sources targets = .ok none ↔ ∀ t ∈ targets, ¬ ∃ vs, Mergeable sources t vs := by
  have hnd : ∀ l, (order l).Nodup := fun l => (hord l).imp fun h => ne_of_lt h
  unfold mergeStep
  cases hb : targets.foldlM (mergeTarget order sources) none with
  | error e =>
    obtain ⟨r, hr⟩ := mergeStep_ok (targets := targets) hnd hmem hpos
    unfold mergeStep at hr
    rw [hb] at hr
    simp [bind, Except.bind] at hr
  | ok best =>
    have main := best_none hord hmem hpos targets none best htpos hb
    simp only [true_and] at main
    rw [← main]
    cases best with
    | none => simp [bind, Except.bind, pure, Except.pure]
    | some b =>
      obtain ⟨cost, srcs, t, k⟩ := b
      have hsum := best_sum hord hmem hpos hb
      have ht := (best_count hnd hb).2
      simp only at hsum ht
      have hne : srcs ≠ [] := by
        rintro rfl
        have := htpos t ht
        simp at hsum
        omega
      simp only [bind, Except.bind, pure, Except.pure, if_neg hne, reduceCtorEq, iff_false]
      split <;> simp

end Satis.Greedy
