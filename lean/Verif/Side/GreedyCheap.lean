import Verif.Side.GreedyMerge

/-! The merge step of the greedy solver: when the merge that it applies is the cheapest one. -/

namespace Satis.Greedy
open Satis Utils Utils.Spec

/-- While no count of different sources comes up twice, the loop over the combinations keeps the cheapest. -/
theorem mergeCombos_min {t : ℤ} {srcs counted : List ℤ} : ∀ (combos : List (ℕ × List ℤ)) (best : BestMerge),
    (∀ c ∈ combos, sufficient c.2 srcs counted = true → repeats c.1 best = false) →
    ((combos.filter fun c => sufficient c.2 srcs counted).map Prod.fst).Nodup →
    (∀ b, best = some b → ∃ r, mergeCombos t srcs counted combos best = some r ∧ r.1 ≤ b.1) ∧
    (∀ c ∈ combos, sufficient c.2 srcs counted = true →
      ∃ r, mergeCombos t srcs counted combos best = some r ∧ r.1 ≤ Cost.mergeCost c.2.sum 1) ∧
    (mergeCombos t srcs counted combos best = best ∨ ∃ c ∈ combos, sufficient c.2 srcs counted = true ∧
      mergeCombos t srcs counted combos best = some ((Cost.mergeCost c.2.sum 1 : ℤ), taken c.2 srcs, t, c.1)) := by
  intro combos
  induction combos with
  | nil =>
    intro best _ _
    exact ⟨fun b h => ⟨b, h, le_rfl⟩, by simp, Or.inl rfl⟩
  | cons c combos ih =>
    intro best hrep hnd
    obtain ⟨k, coeffs⟩ := c
    rw [mergeCombos]
    by_cases h1 : sufficient coeffs srcs counted = true
    · rw [if_neg (by simpa using h1), if_neg (by rw [hrep (k, coeffs) (by simp) h1]; simp)]
      rw [List.filter_cons, if_pos h1, List.map_cons, List.nodup_cons] at hnd
      by_cases h2 : better (Cost.mergeCost coeffs.sum 1) best = true
      · rw [if_pos h2]
        obtain ⟨a1, a2, a3⟩ := ih (some ((Cost.mergeCost coeffs.sum 1 : ℤ), taken coeffs srcs, t, k)) (fun c hc hs => by
          have : c.1 ≠ k := fun e => hnd.1 (List.mem_map.2 ⟨c, List.mem_filter.2 ⟨hc, hs⟩, e⟩)
          simp [repeats, this]) hnd.2
        obtain ⟨r, b1, b2⟩ := a1 _ rfl
        refine ⟨fun b hb => ⟨r, b1, b2.trans ?_⟩, fun c hc hs => ?_, Or.inr ?_⟩
        · rw [hb] at h2
          simp only [better, decide_eq_true_eq] at h2
          exact h2.le
        · rcases List.mem_cons.1 hc with rfl | hc
          · exact ⟨r, b1, b2⟩
          · exact a2 c hc hs
        · rcases a3 with e | ⟨c, hc, e1, e2⟩
          · exact ⟨(k, coeffs), by simp, h1, e⟩
          · exact ⟨c, by simp [hc], e1, e2⟩
      · rw [if_neg h2]
        obtain ⟨a1, a2, a3⟩ := ih best (fun c hc => hrep c (by simp [hc])) hnd.2
        refine ⟨a1, fun c hc hs => ?_, ?_⟩
        · rcases List.mem_cons.1 hc with rfl | hc
          · cases best with
            | none => simp [better] at h2
            | some b =>
              obtain ⟨r, b1, b2⟩ := a1 b rfl
              simp only [better, decide_eq_true_eq, not_lt] at h2
              exact ⟨r, b1, b2.trans h2⟩
          · exact a2 c hc hs
        · rcases a3 with e | ⟨c, hc, e⟩
          · exact Or.inl e
          · exact Or.inr ⟨c, by simp [hc], e⟩
    · rw [if_pos (by simpa using h1)]
      rw [List.filter_cons, if_neg h1] at hnd
      obtain ⟨a1, a2, a3⟩ := ih best (fun c hc => hrep c (by simp [hc])) hnd
      refine ⟨a1, fun c hc hs => ?_, ?_⟩
      · rcases List.mem_cons.1 hc with rfl | hc
        · exact absurd hs h1
        · exact a2 c hc hs
      · rcases a3 with e | ⟨c, hc, e⟩
        · exact Or.inl e
        · exact Or.inr ⟨c, by simp [hc], e⟩

theorem taken_length : ∀ (coeffs srcs : List ℤ), coeffs.length = srcs.length → (∀ c ∈ coeffs, 0 ≤ c) →
    ((taken coeffs srcs).length : ℤ) = coeffs.sum := by
  intro coeffs
  induction coeffs with
  | nil => intro srcs _ _; simp [taken]
  | cons c coeffs ih =>
    intro srcs hl hn
    cases srcs with
    | nil => simp at hl
    | cons s srcs =>
      have := ih srcs (by simpa using hl) fun c hc => hn c (by simp [hc])
      have h0 := hn c (by simp)
      unfold taken at this ⊢
      rw [List.zip_cons_cons, List.flatMap_cons, List.length_append, List.length_replicate, List.sum_cons, Nat.cast_add, this,
        Int.toNat_of_nonneg h0]

theorem mem_taken {coeffs srcs : List ℤ} {a : ℤ} (h : a ∈ taken coeffs srcs) : a ∈ srcs := by
  unfold taken at h
  obtain ⟨p, hp, ha⟩ := List.mem_flatMap.1 h
  rw [List.eq_of_mem_replicate ha]
  exact (List.of_mem_zip hp).2

/-- The counts of the taken sources are the coefficients. -/
theorem taken_counts : ∀ (coeffs srcs : List ℤ), coeffs.length = srcs.length → srcs.Nodup → (∀ c ∈ coeffs, 0 ≤ c) →
    coeffs = srcs.map fun a => ((taken coeffs srcs).count a : ℤ) := by
  intro coeffs
  induction coeffs with
  | nil =>
    intro srcs hl _ _
    rw [List.length_eq_zero_iff.1 hl.symm]
    rfl
  | cons c coeffs ih =>
    intro srcs hl hnd hn
    cases srcs with
    | nil => simp at hl
    | cons s srcs =>
      rw [List.nodup_cons] at hnd
      have e := ih srcs (by simpa using hl) hnd.2 fun c hc => hn c (by simp [hc])
      have hs : taken (c :: coeffs) (s :: srcs) = List.replicate c.toNat s ++ taken coeffs srcs := by
        unfold taken
        rw [List.zip_cons_cons, List.flatMap_cons]
      rw [hs, List.map_cons]
      congr 1
      · rw [List.count_append, List.count_replicate_self, List.count_eq_zero.2 fun h => hnd.1 (mem_taken h)]
        simp [Int.toNat_of_nonneg (hn c (by simp))]
      · conv_lhs => rw [e]
        apply List.map_congr_left
        intro a ha
        rw [List.count_append, List.count_eq_zero.2 (fun h : a ∈ List.replicate c.toNat s => hnd.1 ((List.eq_of_mem_replicate h) ▸ ha)), zero_add]

theorem different_count {srcs vs : List ℤ} (hnd : srcs.Nodup) (hv : ∀ v ∈ vs, v ∈ srcs) :
    vs.dedup.length = srcs.length - (srcs.map fun a => (vs.count a : ℤ)).count 0 := by
  have h1 : vs.dedup.Perm (srcs.filter fun a => decide (vs.count a ≠ 0)) := by
    rw [List.perm_ext_iff_of_nodup vs.nodup_dedup (hnd.filter _)]
    intro a
    rw [List.mem_dedup, List.mem_filter]
    simp only [ne_eq, List.count_eq_zero, not_not, decide_eq_true_eq]
    exact ⟨fun h => ⟨hv a h, h⟩, fun h => h.2⟩
  rw [h1.length_eq]
  have h2 : (srcs.map fun a => (vs.count a : ℤ)).count 0 = (srcs.filter fun a => !decide (vs.count a ≠ 0)).length := by
    rw [List.count, List.countP_map, List.countP_eq_length_filter]
    congr 1
    apply List.filter_congr
    intro a _
    simp only [Function.comp, ne_eq, decide_not, Bool.not_not]
    rw [Bool.eq_iff_iff]
    simp
  rw [h2]
  have := List.length_eq_length_filter_add (l := srcs) fun a => decide (vs.count a ≠ 0)
  omega

/-- What the best merge so far has to do with the merges of the targets `ts` that were looked at. -/
def Cheapest (sources ts : List ℤ) (best : BestMerge) : Prop :=
  (∀ t ∈ ts, ∀ vs, Mergeable sources t vs → ∃ b, best = some b ∧ b.1 ≤ Cost.mergeCost vs.length 1) ∧
  ∀ b, best = some b → b.2.2.1 ∈ ts ∧ Mergeable sources b.2.2.1 b.2.1 ∧ b.1 = Cost.mergeCost b.2.1.length 1 ∧ b.2.2.2 = b.2.1.dedup.length

theorem mergeTarget_cheapest {order : List ℤ → List ℤ} {sources : List ℤ} (hord : ∀ l, (order l).Pairwise (· < ·)) (hmem : ∀ l x, x ∈ order l ↔ x ∈ l)
    (hpos : ∀ s ∈ sources, 0 < s) {best r : BestMerge} {ts : List ℤ} {t : ℤ} (ht : 0 < t) (hnew : t ∉ ts)
    (huniq : ∀ t' ∈ t :: ts, ∀ vs vs', Mergeable sources t vs → Mergeable sources t' vs' → vs.dedup.length = vs'.dedup.length → vs.Perm vs')
    (hb : Cheapest sources ts best) (h : mergeTarget order sources best t = .ok r) : Cheapest sources (t :: ts) r := by
  obtain ⟨counted, hcn⟩ : ∃ c, c = sources.filter (fun s => decide (s < t)) := ⟨_, rfl⟩
  have small : ∀ vs, Mergeable sources t vs → vs.Subperm counted := by
    rintro vs ⟨h1, h2, -⟩
    rw [List.subperm_ext_iff]
    intro v hv
    rw [hcn, List.count_filter (by simpa using h2 v hv)]
    exact h1.count_le v
  have hp : ∀ a ∈ order counted, 0 < a := hcn ▸ order_pos hmem hpos t
  have hnd : (order counted).Nodup := (hord counted).imp fun h => ne_of_lt h
  have keep : (¬ ∃ vs, Mergeable sources t vs) → Cheapest sources (t :: ts) best := fun hno =>
    ⟨fun t' ht' vs w => by
      rcases List.mem_cons.1 ht' with rfl | ht'
      · exact absurd ⟨vs, w⟩ hno
      · exact hb.1 t' ht' vs w, fun b e => ⟨List.mem_cons_of_mem _ (hb.2 b e).1, (hb.2 b e).2⟩⟩
  unfold mergeTarget at h
  simp only [← hcn] at h
  by_cases hnil : counted = []
  · rw [if_pos hnil] at h
    simp only [Except.ok.injEq] at h
    rw [← h]
    refine keep fun ⟨vs, w⟩ => ?_
    have := small vs w
    rw [hnil, List.subperm_nil] at this
    have e := w.2.2
    rw [this] at e
    simp at e
    omega
  · rw [if_neg hnil] at h
    cases hf : findLinearCombinations (order counted) t with
    | error e => rw [hf] at h; simp [bind, Except.bind] at h
    | ok combos =>
      rw [hf] at h
      simp only [bind, Except.bind, pure, Except.pure, Except.ok.injEq] at h
      have hne : order counted ≠ [] := fun e => hnil (List.eq_nil_iff_forall_not_mem.2 fun a ha => by
        have := (hmem counted a).2 ha
        rw [e] at this
        simp at this)
      have hcnd : combos.Nodup := by
        unfold findLinearCombinations at hf
        rw [if_neg (by rw [not_or]; exact ⟨hne, by omega⟩)] at hf
        obtain ⟨outs, tl', e1, _, e3, _, _⟩ := flc_ascending (order counted) hp (hord _) t ht.le [] (List.replicate (order counted).length 0) (by simp)
          (fun _ a ha => List.eq_of_mem_replicate ha)
        simp only [List.length_nil, List.nil_append] at e1
        rw [e1] at hf
        simp only [Except.map, Except.ok.injEq] at hf
        rw [← hf]
        exact e3
      obtain ⟨all, hall⟩ : ∃ a, a = (combos.map fun c => ((order counted).length - c.count 0, c)).insertionSort (fun a b => b.1 ≤ a.1) := ⟨_, rfl⟩
      rw [← hall] at h
      have hperm : all.Perm (combos.map fun c => ((order counted).length - c.count 0, c)) := hall ▸ List.perm_insertionSort _ _
      -- a sufficient combination is a merge
      have hmerge : ∀ v ∈ combos, sufficient v (order counted) counted = true → Mergeable sources t (taken v (order counted)) ∧
          (taken v (order counted)).dedup.length = (order counted).length - v.count 0 ∧ ((taken v (order counted)).length : ℤ) = v.sum := by
        intro v hv hs
        have hcomb := ascending_sound hp (hord _) hf hv
        refine ⟨⟨?_, ?_, ?_⟩, ?_, taken_length _ _ hcomb.length hcomb.nonneg⟩
        · rw [List.subperm_ext_iff]
          intro a _
          refine (count_flatMap_zip _ hnd v a counted hs).trans ?_
          rw [hcn]
          exact List.filter_sublist.count_le a
        · intro a ha
          have := (hmem counted _).1 (mem_taken ha)
          rw [hcn, List.mem_filter] at this
          simpa using this.2
        · rw [taken_sum v _ hcomb.nonneg, hcomb.total]
        · rw [different_count hnd fun a ha => mem_taken ha, ← taken_counts v _ hcomb.length hnd hcomb.nonneg]
      obtain ⟨a1, a2, a3⟩ := mergeCombos_min (t := t) (srcs := order counted) (counted := counted) all best (by
          intro c hc hs
          obtain ⟨v, hv, rfl⟩ := List.mem_map.1 (hperm.subset hc)
          obtain ⟨m1, m2, -⟩ := hmerge v hv hs
          cases hbe : best with
          | none => rfl
          | some b =>
            obtain ⟨q1, q2, -, q4⟩ := hb.2 b hbe
            by_contra hr
            simp only [repeats, Bool.not_eq_false, Bool.and_eq_true, decide_eq_true_eq] at hr
            have := huniq _ (List.mem_cons_of_mem _ q1) _ _ m1 q2 (by rw [m2, hr.2, q4])
            have e := this.sum_eq
            rw [m1.2.2, q2.2.2] at e
            exact hnew (e ▸ q1)) (by
          have hl : ((all.filter fun c => sufficient c.2 (order counted) counted).map Prod.fst).Perm
              ((combos.filter fun v => sufficient v (order counted) counted).map fun v => (order counted).length - v.count 0) := by
            have := (hperm.filter fun c => sufficient c.2 (order counted) counted).map Prod.fst
            rw [List.filter_map, List.map_map] at this
            exact this
          rw [hl.nodup_iff]
          apply List.Nodup.map_on _ (hcnd.filter _)
          intro v hv w hw e
          obtain ⟨hv, hvs⟩ := List.mem_filter.1 hv
          obtain ⟨hw, hws⟩ := List.mem_filter.1 hw
          have c1 := ascending_sound hp (hord _) hf hv
          have c2 := ascending_sound hp (hord _) hf hw
          obtain ⟨m1, m2, -⟩ := hmerge v hv hvs
          obtain ⟨n1, n2, -⟩ := hmerge w hw hws
          have := huniq t (by simp) _ _ m1 n1 (by rw [m2, n2]; exact e)
          rw [taken_counts v _ c1.length hnd c1.nonneg, taken_counts w _ c2.length hnd c2.nonneg]
          apply List.map_congr_left
          intro a _
          rw [this.count_eq])
      rw [h] at a1 a2 a3
      refine ⟨fun t' ht' vs w => ?_, fun b e => ?_⟩
      · rcases List.mem_cons.1 ht' with rfl | ht'
        · have hsub := small vs w
          have hc : Combination (order counted) t' ((order counted).map fun a => (vs.count a : ℤ)) := by
            refine ⟨by simp, fun a ha => ?_, ?_⟩
            · obtain ⟨b, -, rfl⟩ := List.mem_map.1 ha
              exact Int.natCast_nonneg _
            · rw [dot_counts _ _ hnd fun v hv => (hmem _ _).2 (hsub.subset hv), w.2.2]
          have hm := ascending_complete hp (hord _) hne ht.le hf hc
          have hsuf : sufficient ((order counted).map fun a => (vs.count a : ℤ)) (order counted) counted = true := by
            unfold sufficient
            rw [List.all_eq_true]
            rintro ⟨c, s⟩ hz
            rw [List.zip_map_left, List.mem_map] at hz
            obtain ⟨⟨a, b⟩, hab, e⟩ := hz
            simp only [Prod.map_apply, Prod.mk.injEq, id] at e
            obtain ⟨rfl, rfl⟩ := e
            have hab' : a = b := by
              obtain ⟨i, hi, he⟩ := List.mem_iff_getElem.1 hab
              rw [List.getElem_zip, Prod.mk.injEq] at he
              rw [← he.1, ← he.2]
            subst hab'
            simp only [decide_eq_true_eq, Nat.cast_le]
            exact hsub.count_le _
          obtain ⟨r', e1, e2⟩ := a2 _ (hperm.symm.subset (List.mem_map.2 ⟨_, hm, rfl⟩)) hsuf
          refine ⟨r', e1, e2.trans (le_of_eq ?_)⟩
          have hp2 : (taken ((order counted).map fun a => (vs.count a : ℤ)) (order counted)).Perm vs := by
            rw [List.perm_iff_count]
            intro a
            by_cases ha : a ∈ order counted
            · have := taken_counts _ _ hc.length hnd hc.nonneg
              have := List.map_inj_left.1 this a ha
              exact_mod_cast this.symm
            · rw [List.count_eq_zero.2 fun q => ha (mem_taken q), List.count_eq_zero.2 fun q => ha ((hmem _ _).2 (hsub.subset q))]
          rw [← taken_length _ _ hc.length hc.nonneg, hp2.length_eq]
        · obtain ⟨b, e1, e2⟩ := hb.1 t' ht' vs w
          obtain ⟨r', e3, e4⟩ := a1 b e1
          exact ⟨r', e3, e4.trans e2⟩
      · rcases a3 with e' | ⟨c, hc, e1, e2⟩
        · obtain ⟨q1, q2⟩ := hb.2 b (e' ▸ e)
          exact ⟨List.mem_cons_of_mem _ q1, q2⟩
        · rw [e] at e2
          simp only [Option.some.injEq] at e2
          subst e2
          obtain ⟨v, hv, rfl⟩ := List.mem_map.1 (hperm.subset hc)
          obtain ⟨m1, m2, m3⟩ := hmerge v hv e1
          exact ⟨by simp, m1, by simp only [m3], m2.symm⟩

theorem best_cheapest {order : List ℤ → List ℤ} {sources : List ℤ} (hord : ∀ l, (order l).Pairwise (· < ·)) (hmem : ∀ l x, x ∈ order l ↔ x ∈ l)
    (hpos : ∀ s ∈ sources, 0 < s) : ∀ (targets ts : List ℤ) (best r : BestMerge), (∀ t ∈ targets, 0 < t) → (targets ++ ts).Nodup →
    (∀ t ∈ targets ++ ts, ∀ t' ∈ targets ++ ts, ∀ vs vs', Mergeable sources t vs → Mergeable sources t' vs' →
      vs.dedup.length = vs'.dedup.length → vs.Perm vs') →
    Cheapest sources ts best → targets.foldlM (mergeTarget order sources) best = .ok r → ∃ ts', ts'.Perm (targets ++ ts) ∧ Cheapest sources ts' r := by
  intro targets
  induction targets with
  | nil =>
    intro ts best r _ _ _ hb h
    simp only [List.foldlM_nil, pure, Except.pure, Except.ok.injEq] at h
    exact ⟨ts, List.Perm.refl _, h ▸ hb⟩
  | cons t targets ih =>
    intro ts best r hp hnd hu hb h
    rw [List.foldlM_cons] at h
    cases hm : mergeTarget order sources best t with
    | error e => rw [hm] at h; simp [bind, Except.bind] at h
    | ok b =>
      rw [hm] at h
      have hperm : (targets ++ t :: ts).Perm (t :: targets ++ ts) := List.perm_middle
      have hn : t ∉ ts := by
        rw [List.cons_append, List.nodup_cons, List.mem_append, not_or] at hnd
        exact hnd.1.2
      have hb' := mergeTarget_cheapest hord hmem hpos (hp t (by simp)) hn (fun t' ht' => hu t (by simp) t' (by
        rcases List.mem_cons.1 ht' with rfl | ht'
        · simp
        · simp [ht'])) hb hm
      obtain ⟨ts', h1, h2⟩ := ih (t :: ts) b r (fun t ht => hp t (by simp [ht])) (hperm.nodup_iff.2 hnd)
        (fun t1 h1 t2 h2 => hu t1 (hperm.subset h1) t2 (hperm.subset h2)) hb' h
      exact ⟨ts', h1.trans hperm, h2⟩

end Satis.Greedy
