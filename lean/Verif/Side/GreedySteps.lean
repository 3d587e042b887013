import Verif.Side.GreedyFacts
import Verif.Utils.Ascending

/-! The greedy steps of `test.py`: what is removed is accounted for by the operation that is logged. -/

namespace Satis.Greedy
open Utils Utils.Spec

/-- Running the operation on the sources gives the sources afterwards and the targets that were struck off. -/
def Accounts (sources targets sources' targets' : List ℤ) (op : Op) : Prop :=
  ∃ done r, targets.Perm (done ++ targets') ∧ apply op sources = some r ∧ r.Perm (sources' ++ done)

theorem foldlM_ok_inv {α β : Type} (f : β → α → Py β) (P : β → Prop) : ∀ (l : List α) (b r : β),
    (∀ b a r, a ∈ l → P b → f b a = .ok r → P r) → P b → l.foldlM f b = .ok r → P r := by
  intro l
  induction l with
  | nil =>
    intro b r _ hb h
    simp only [List.foldlM_nil, pure, Except.pure, Except.ok.injEq] at h
    exact h ▸ hb
  | cons a l ih =>
    intro b r hf hb h
    rw [List.foldlM_cons] at h
    cases h1 : f b a with
    | error e => rw [h1] at h; simp [bind, Except.bind] at h
    | ok c =>
      rw [h1] at h
      exact ih c r (fun b a r ha => hf b a r (List.mem_cons_of_mem _ ha)) (hf b a c (List.mem_cons_self ..) hb h1) h

theorem mem_pairsOf {l : List ℤ} {p : ℤ × ℤ} (h : p ∈ pairsOf l) : [p.1, p.2].Sublist l := by
  induction l with
  | nil => simp [pairsOf] at h
  | cons t ts ih =>
    rw [pairsOf, List.mem_append, List.mem_map] at h
    rcases h with ⟨u, hu, rfl⟩ | h
    · exact List.Sublist.cons_cons t (List.singleton_sublist.mpr hu)
    · exact (ih h).cons t

theorem sublist_pair_perm {l : List ℤ} {a b : ℤ} (h : [a, b].Sublist l) : l.Perm ([a, b] ++ (l.erase a).erase b) := by
  have ha : a ∈ l := h.subset (by simp)
  have h2 := (List.Sublist.erase a h)
  rw [List.erase_cons_head] at h2
  have hb : b ∈ l.erase a := List.singleton_sublist.mp h2
  exact (List.perm_cons_erase ha).trans ((List.perm_cons_erase hb).cons a)

theorem extractTwo_accounts {ec : ℤ → ℤ → Py ℤ} {sources targets sources' targets' : List ℤ} {op : Op}
    (h : extractTwo ec sources targets = .ok (some (sources', targets', op))) :
    Accounts sources targets sources' targets' op ∧ ∃ s t1 t2, op = .extract s [t1, t2] ∧ s = t1 + t2 ∧ s ∈ sources := by
  unfold extractTwo at h
  cases hm : targets.min? with
  | none => rw [hm] at h; simp at h
  | some least =>
    rw [hm] at h
    simp only at h
    generalize hc : ((sources.filter (fun s => decide (least < s))).flatMap
      (fun s => (pairsOf targets).map (fun p => (s, p)))) = cands at h
    cases hb : cands.foldlM (tryTwo ec) none with
    | error e => rw [hb] at h; simp [bind, Except.bind] at h
    | ok best =>
      rw [hb] at h
      have hP : ∀ b, best = some b → b.2 ∈ cands ∧ b.2.1 = b.2.2.1 + b.2.2.2 := by
        refine foldlM_ok_inv (tryTwo ec) (fun best => ∀ b, best = some b → b.2 ∈ cands ∧ b.2.1 = b.2.2.1 + b.2.2.2)
          cands none best ?_ (by simp) hb
        intro b a r ha hb' hr c hc'
        unfold tryTwo at hr
        split_ifs at hr with hcond
        · simp only [Except.ok.injEq] at hr
          exact hb' c (hr.trans hc')
        · cases he : ec a.1 a.2.1 with
          | error e => rw [he] at hr; simp [bind, Except.bind] at hr
          | ok cost =>
            rw [he] at hr
            simp only [bind, Except.bind, pure, Except.pure, Except.ok.injEq] at hr
            rw [hc'] at hr
            split_ifs at hr with hbet
            · simp only [Option.some.injEq] at hr
              subst hr
              refine ⟨ha, ?_⟩
              by_contra hne
              exact hcond (Or.inl hne)
            · exact hb' c hr
      cases best with
      | none => simp [bind, Except.bind, pure, Except.pure] at h
      | some b =>
        obtain ⟨cost, s, t1, t2⟩ := b
        obtain ⟨hmem, hsum⟩ := hP _ rfl
        simp only [bind, Except.bind, pure, Except.pure, Except.ok.injEq, Option.some.injEq, Prod.mk.injEq] at h
        obtain ⟨rfl, rfl, rfl⟩ := h
        rw [← hc, List.mem_flatMap] at hmem
        obtain ⟨s', hs', hmem⟩ := hmem
        rw [List.mem_map] at hmem
        obtain ⟨p, hp, heq⟩ := hmem
        simp only [Prod.mk.injEq] at heq
        obtain ⟨rfl, rfl⟩ := heq
        have hs : s' ∈ sources := (List.mem_filter.mp hs').1
        refine ⟨⟨[t1, t2], sources.erase s' ++ [t1, t2], sublist_pair_perm (mem_pairsOf hp), ?_, List.Perm.refl _⟩,
          s', t1, t2, rfl, hsum, hs⟩
        simp [apply, remove, hs]

theorem extractOne_accounts {ec : ℤ → ℤ → Py ℤ} {sources targets sources' targets' : List ℤ} {op : Op}
    (h : extractOne ec sources targets = .ok (some (sources', targets', op))) :
    Accounts sources targets sources' targets' op ∧
      ∃ s t, op = .extract s [t, s - t] ∧ t < s ∧ t ≠ s - t ∧ s ∈ sources ∧ t ∈ targets := by
  unfold extractOne at h
  generalize hc : (sources.flatMap (fun s => targets.map (fun t => (s, t)))) = cands at h
  cases hb : cands.foldlM (tryOne ec) none with
  | error e => rw [hb] at h; simp [bind, Except.bind] at h
  | ok best =>
    rw [hb] at h
    have hP : ∀ b, best = some b → b.2 ∈ cands ∧ b.2.2 < b.2.1 := by
      refine foldlM_ok_inv (tryOne ec) (fun best => ∀ b, best = some b → b.2 ∈ cands ∧ b.2.2 < b.2.1)
        cands none best ?_ (by simp) hb
      intro b a r ha hb' hr c hc'
      unfold tryOne at hr
      split_ifs at hr with hcond
      · simp only [Except.ok.injEq] at hr
        exact hb' c (hr.trans hc')
      · cases he : ec a.1 a.2 with
        | error e => rw [he] at hr; simp [bind, Except.bind] at hr
        | ok cost =>
          rw [he] at hr
          simp only [bind, Except.bind, pure, Except.pure, Except.ok.injEq] at hr
          rw [hc'] at hr
          split_ifs at hr with hbet
          · simp only [Option.some.injEq] at hr
            subst hr
            exact ⟨ha, by simpa using hcond⟩
          · exact hb' c hr
    cases best with
    | none => simp [bind, Except.bind, pure, Except.pure] at h
    | some b =>
      obtain ⟨cost, s, t⟩ := b
      obtain ⟨hmem, hlt⟩ := hP _ rfl
      simp only [bind, Except.bind, pure, Except.pure] at h
      rw [ite_eq_iff] at h
      rcases h with ⟨_, h⟩ | ⟨_, h⟩
      · simp at h
      rw [ite_eq_iff] at h
      rcases h with ⟨_, h⟩ | ⟨h1, h⟩
      · simp at h
      simp only [Except.ok.injEq, Option.some.injEq, Prod.mk.injEq] at h
      obtain ⟨rfl, rfl, rfl⟩ := h
      rw [← hc, List.mem_flatMap] at hmem
      obtain ⟨s', hs', hmem⟩ := hmem
      rw [List.mem_map] at hmem
      obtain ⟨t', ht', heq⟩ := hmem
      simp only [Prod.mk.injEq] at heq
      obtain ⟨rfl, rfl⟩ := heq
      refine ⟨⟨[t'], sources.erase s' ++ [t', s' - t'], ?_, ?_, ?_⟩, s', t', rfl, hlt, h1, hs', ht'⟩
      · exact List.perm_cons_erase ht'
      · simp [apply, remove, hs']
      · rw [List.append_assoc]
        exact List.Perm.append_left _ (List.Perm.swap _ _ _)

/-! ### Merging -/

theorem count_flatMap_zip (srcs : List ℤ) (hnd : srcs.Nodup) (coeffs : List ℤ) (x : ℤ) (counted : List ℤ)
    (h : sufficient coeffs srcs counted = true) : (taken coeffs srcs).count x ≤ counted.count x := by
  unfold sufficient at h
  rw [List.all_eq_true] at h
  unfold taken
  induction srcs generalizing coeffs with
  | nil => simp
  | cons s srcs ih =>
    cases coeffs with
    | nil => simp
    | cons c coeffs =>
      rw [List.nodup_cons] at hnd
      simp only [List.zip_cons_cons, List.flatMap_cons, List.count_append]
      have hrec := ih hnd.2 coeffs (fun p hp => h p (by simp [hp]))
      have hc := h (c, s) (by simp)
      simp only [decide_eq_true_eq] at hc
      by_cases hx : x = s
      · subst hx
        have h0 : ((List.zip coeffs srcs).flatMap (fun p => List.replicate p.1.toNat p.2)).count x = 0 := by
          rw [List.count_eq_zero]
          intro hm
          rw [List.mem_flatMap] at hm
          obtain ⟨p, hp, hm⟩ := hm
          have := List.eq_of_mem_replicate hm
          exact hnd.1 (this ▸ (List.of_mem_zip hp).2)
        rw [h0, List.count_replicate_self]
        omega
      · rw [List.count_replicate, if_neg (by simpa using fun h => hx h.symm)]
        omega

theorem taken_sum (coeffs srcs : List ℤ) (hn : ∀ c ∈ coeffs, 0 ≤ c) : (taken coeffs srcs).sum = dot coeffs srcs := by
  unfold taken
  induction coeffs generalizing srcs with
  | nil => simp [dot]
  | cons c coeffs ih =>
    cases srcs with
    | nil => simp [dot]
    | cons s srcs =>
      rw [dot_cons]
      simp only [List.zip_cons_cons, List.flatMap_cons, List.sum_append, List.sum_replicate]
      rw [ih srcs (fun d hd => hn d (by simp [hd]))]
      have := hn c (by simp)
      rw [nsmul_eq_mul]
      congr 2
      simp [this]

theorem mergeCombos_from {t : ℤ} {srcs counted : List ℤ} : ∀ (combos : List (ℕ × List ℤ)) (best : BestMerge)
    (b : ℤ × List ℤ × ℤ × ℕ), mergeCombos t srcs counted combos best = some b →
      best = some b ∨ ∃ c ∈ combos, sufficient c.2 srcs counted = true ∧ b.2.1 = taken c.2 srcs ∧ b.2.2.1 = t := by
  intro combos
  induction combos with
  | nil => intro best b h; exact Or.inl h
  | cons c combos ih =>
    intro best b h
    obtain ⟨k, coeffs⟩ := c
    have lift : (best = some b ∨ ∃ c ∈ combos, sufficient c.2 srcs counted = true ∧ b.2.1 = taken c.2 srcs ∧ b.2.2.1 = t) →
        (best = some b ∨ ∃ c ∈ (k, coeffs) :: combos, sufficient c.2 srcs counted = true ∧ b.2.1 = taken c.2 srcs ∧
          b.2.2.1 = t) := by
      rintro (h | ⟨c, h1, h2⟩)
      · exact Or.inl h
      · exact Or.inr ⟨c, by simp [h1], h2⟩
    rw [mergeCombos] at h
    split_ifs at h with h1 h2 h3
    · exact Or.inl h
    · rcases ih _ b h with h | ⟨c, hc, h⟩
      · simp only [Option.some.injEq] at h
        subst h
        exact Or.inr ⟨(k, coeffs), by simp, by simpa using h1, rfl, rfl⟩
      · exact Or.inr ⟨c, by simp [hc], h⟩
    · exact lift (ih best b h)
    · exact lift (ih best b h)

/-- Where a merge comes from. -/
theorem mergeTarget_from {order : List ℤ → List ℤ} {sources : List ℤ} {best r : BestMerge} {t : ℤ}
    {b : ℤ × List ℤ × ℤ × ℕ} (h : mergeTarget order sources best t = .ok r) (hb : r = some b) :
    best = some b ∨ ∃ combos coeffs, findLinearCombinations (order (sources.filter (fun s => decide (s < t)))) t = .ok combos ∧
      coeffs ∈ combos ∧
      sufficient coeffs (order (sources.filter (fun s => decide (s < t)))) (sources.filter (fun s => decide (s < t))) = true ∧
      b.2.1 = taken coeffs (order (sources.filter (fun s => decide (s < t)))) ∧ b.2.2.1 = t := by
  unfold mergeTarget at h
  simp only at h
  generalize hcn : sources.filter (fun s => decide (s < t)) = counted at h
  split_ifs at h with hnil
  · simp only [Except.ok.injEq] at h
    exact Or.inl (h.trans hb)
  · cases hf : findLinearCombinations (order counted) t with
    | error e => rw [hf] at h; simp [bind, Except.bind] at h
    | ok combos =>
      rw [hf] at h
      simp only [bind, Except.bind, pure, Except.pure, Except.ok.injEq] at h
      rcases mergeCombos_from _ _ b (h.trans hb) with h1 | ⟨c, h1, h2, h3⟩
      · exact Or.inl h1
      · have := (List.mem_insertionSort _).mp h1
        rw [List.mem_map] at this
        obtain ⟨v, hv, rfl⟩ := this
        exact Or.inr ⟨combos, v, rfl, hv, h2, h3⟩

theorem order_pos {order : List ℤ → List ℤ} {sources : List ℤ} (hmem : ∀ l x, x ∈ order l ↔ x ∈ l)
    (hpos : ∀ s ∈ sources, 0 < s) (t : ℤ) : ∀ a ∈ order (sources.filter (fun s => decide (s < t))), 0 < a :=
  fun a ha => hpos a (List.mem_filter.mp ((hmem _ a).mp ha)).1

theorem best_count {order : List ℤ → List ℤ} {sources targets : List ℤ} {b : ℤ × List ℤ × ℤ × ℕ}
    (hnd : ∀ l, (order l).Nodup) (h : targets.foldlM (mergeTarget order sources) none = .ok (some b)) :
    (∀ x, b.2.1.count x ≤ sources.count x) ∧ b.2.2.1 ∈ targets := by
  refine foldlM_ok_inv (mergeTarget order sources) (fun best => ∀ b, best = some b →
    (∀ x, b.2.1.count x ≤ sources.count x) ∧ b.2.2.1 ∈ targets) targets none (some b) ?_ (by simp) h b rfl
  intro best t r ht hb hr c hc
  rcases mergeTarget_from hr hc with h1 | ⟨combos, coeffs, _, _, h3, h4, h5⟩
  · exact hb c h1
  · refine ⟨fun x => ?_, by rw [h5]; exact ht⟩
    rw [h4]
    exact (count_flatMap_zip _ (hnd _) coeffs x _ h3).trans (List.Sublist.count_le x List.filter_sublist)

theorem ascending_sound {x : List ℤ} (hx : ∀ a ∈ x, 0 < a) (hs : x.Pairwise (· < ·)) {t : ℤ} {combos : List (List ℤ)}
    (h : findLinearCombinations x t = .ok combos) {v : List ℤ} (hv : v ∈ combos) : Combination x t v := by
  unfold findLinearCombinations at h
  split_ifs at h with hcond
  · simp only [Except.ok.injEq] at h
    rw [← h] at hv
    simp at hv
  · rw [not_or] at hcond
    obtain ⟨outs, tl', e1, _, _, e4, _⟩ := flc_ascending x hx hs t (by omega) [] (List.replicate x.length 0) (by simp)
      (fun _ a ha => List.eq_of_mem_replicate ha)
    simp only [List.length_nil, List.nil_append] at e1 e4
    rw [e1] at h
    simp only [Except.map, Except.ok.injEq] at h
    rw [← h] at hv
    obtain ⟨c, rfl, hc⟩ := (e4 v).mp hv
    exact hc

theorem best_sum {order : List ℤ → List ℤ} {sources targets : List ℤ} {b : ℤ × List ℤ × ℤ × ℕ}
    (hord : ∀ l, (order l).Pairwise (· < ·)) (hmem : ∀ l x, x ∈ order l ↔ x ∈ l) (hpos : ∀ s ∈ sources, 0 < s)
    (h : targets.foldlM (mergeTarget order sources) none = .ok (some b)) : b.2.1.sum = b.2.2.1 := by
  refine foldlM_ok_inv (mergeTarget order sources) (fun best => ∀ b, best = some b → b.2.1.sum = b.2.2.1) targets none
    (some b) ?_ (by simp) h b rfl
  intro best t r _ hb hr c hc
  rcases mergeTarget_from hr hc with h1 | ⟨combos, coeffs, h1, h2, _, h4, h5⟩
  · exact hb c h1
  · have := ascending_sound (order_pos hmem hpos t) (hord _) h1 h2
    rw [h4, h5, taken_sum coeffs _ this.nonneg, this.total]

theorem mergeTarget_ok {order : List ℤ → List ℤ} {sources : List ℤ} (hmem : ∀ l x, x ∈ order l ↔ x ∈ l)
    (hpos : ∀ s ∈ sources, 0 < s) (best : BestMerge) (t : ℤ) : ∃ r, mergeTarget order sources best t = .ok r := by
  unfold mergeTarget
  simp only
  split_ifs with hnil
  · exact ⟨best, rfl⟩
  · have hp := order_pos hmem hpos t
    generalize hcn : order (sources.filter (fun s => decide (s < t))) = x at hp ⊢
    have : ∃ combos, findLinearCombinations x t = .ok combos := by
      unfold findLinearCombinations
      split_ifs with hcond
      · exact ⟨[], rfl⟩
      · rw [not_or] at hcond
        obtain ⟨outs, tl', e1, _⟩ := flc_spec x hp t (by omega) [] (List.replicate x.length 0) (by simp)
          (fun a ha => (List.eq_of_mem_replicate ha).ge)
        simp only [List.length_nil, List.nil_append] at e1
        exact ⟨outs, by rw [e1]; rfl⟩
    obtain ⟨combos, h⟩ := this
    rw [h]
    exact ⟨_, rfl⟩

/-- On positive sources the merge never raises: it removes only what is there. -/
theorem mergeStep_ok {order : List ℤ → List ℤ} {sources targets : List ℤ} (hnd : ∀ l, (order l).Nodup)
    (hmem : ∀ l x, x ∈ order l ↔ x ∈ l) (hpos : ∀ s ∈ sources, 0 < s) : ∃ r, mergeStep order sources targets = .ok r := by
  have hfold : ∀ (ts : List ℤ) (best : BestMerge), ∃ r, ts.foldlM (mergeTarget order sources) best = .ok r := by
    intro ts
    induction ts with
    | nil => intro best; exact ⟨best, rfl⟩
    | cons t ts ih =>
      intro best
      rw [List.foldlM_cons]
      obtain ⟨r, hr⟩ := mergeTarget_ok hmem hpos best t
      rw [hr]
      exact ih r
  obtain ⟨best, hb⟩ := hfold targets none
  unfold mergeStep
  rw [hb]
  simp only [bind, Except.bind, pure, Except.pure]
  cases best with
  | none => exact ⟨none, rfl⟩
  | some b =>
    obtain ⟨cost, srcs, t, k⟩ := b
    simp only
    split_ifs with hnil
    · exact ⟨none, rfl⟩
    · have hc := (best_count hnd hb).1
      have hsub : srcs.Subperm sources := List.subperm_ext_iff.mpr (fun x _ => hc x)
      obtain ⟨l, hl1, hl2⟩ := hsub
      obtain ⟨r, hr⟩ := hl2.exists_perm_append
      have hp : sources.Perm (srcs ++ r) := hr.trans (hl1.append_right r)
      obtain ⟨r', h1, _⟩ := removes_of_perm hp
      rw [h1]
      exact ⟨_, rfl⟩

theorem mergeStep_accounts {order : List ℤ → List ℤ} {sources targets sources' targets' : List ℤ} {op : Op}
    (hord : ∀ l, (order l).Pairwise (· < ·)) (hmem : ∀ l x, x ∈ order l ↔ x ∈ l) (hpos : ∀ s ∈ sources, 0 < s)
    (h : mergeStep order sources targets = .ok (some (sources', targets', op))) :
    Accounts sources targets sources' targets' op ∧ ∃ srcs, op = .merge srcs ∧ srcs.sum ∈ targets := by
  unfold mergeStep at h
  cases hb : targets.foldlM (mergeTarget order sources) none with
  | error e => rw [hb] at h; simp [bind, Except.bind] at h
  | ok best =>
    rw [hb] at h
    simp only [bind, Except.bind, pure, Except.pure] at h
    cases best with
    | none => simp at h
    | some b =>
      obtain ⟨cost, srcs, t, k⟩ := b
      have ht := (best_count (fun l => (hord l).imp (fun h => ne_of_lt h)) hb).2
      have hsum := best_sum hord hmem hpos hb
      simp only at ht hsum h
      rw [ite_eq_iff] at h
      rcases h with ⟨_, h⟩ | ⟨_, h⟩
      · simp at h
      cases hr : srcs.foldlM remove sources with
      | none => rw [hr] at h; simp at h
      | some rest =>
        rw [hr] at h
        simp only [Except.ok.injEq, Option.some.injEq, Prod.mk.injEq] at h
        obtain ⟨rfl, rfl, rfl⟩ := h
        refine ⟨⟨[t], rest ++ [t], List.perm_cons_erase ht, ?_, List.Perm.refl _⟩, srcs, rfl, by rw [hsum]; exact ht⟩
        rw [← hsum]
        simp [apply, hr]

/-- Steps one after the other: the operations account for all the targets struck off. -/
theorem accounts_trans {s t s1 t1 : List ℤ} {op : Op} (h : Accounts s t s1 t1 op) {ops : List Op} {s2 t2 : List ℤ}
    (h' : ∃ done r, t1.Perm (done ++ t2) ∧ run ops s1 = some r ∧ r.Perm (s2 ++ done)) :
    ∃ done r, t.Perm (done ++ t2) ∧ run (op :: ops) s = some r ∧ r.Perm (s2 ++ done) := by
  obtain ⟨d1, r1, a1, a2, a3⟩ := h
  obtain ⟨d2, r2, b1, b2, b3⟩ := h'
  obtain ⟨q, c1, c2⟩ := run_more b2 d1
  obtain ⟨q2, c3, c4⟩ := run_perm a3.symm c1
  refine ⟨d1 ++ d2, q2, ?_, ?_, ?_⟩
  · rw [List.append_assoc]
    exact a1.trans (List.Perm.append_left d1 b1)
  · rw [run_cons, a2]
    exact c3
  · refine c4.symm.trans (c2.trans ((b3.append_right d1).trans ?_))
    rw [List.append_assoc]
    exact List.Perm.append_left s2 List.perm_append_comm

end Satis.Greedy
