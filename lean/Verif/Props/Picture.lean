import Verif.Graph.Again
import Verif.Props.Conclude
/-!
# C99 — the pictures that are saved

What the user gets to see are pictures: of each solution, and of the network it stands for. `Shows` (`Graph/PictureSpec.lean`) reads a network off the arrows of
a picture.
-/

namespace Satis
open Satis.Utils Satis.Graph Satis.Solver Satis.Solver.Example Satis.Cost Satis.Spec Satis.Graph.Example Satis.Utils.Spec

variable {cfg : Config} {input : Str} {a : Attrs} {h : Heap Int} {sv tv : List ℚ} {O : Oracle} {s : Search} {t : TreeObj Int}

/-- The levels of a solution with the targets attached. -/
theorem Solver.attached_levels (hcfg : cfg.speeds.Pairwise (· ≤ ·)) (hp : Parsed input sv tv) (hs : ∀ v ∈ sv, 0 < v) (ht : ∀ v ∈ tv, 0 < v)
    (e : (load cfg input a h).result = .ok true)
    (hr : Reached ((load cfg input a h).attrs.problem cfg) O (load cfg input a h).heap (load cfg input a h).attrs.treeSource
      (load cfg input a h).attrs.bestSize s) (hsol : t ∈ s.solutions) :
    ∃ n h₁ t₁, (∀ n', n ≤ n' → t.toRat.attachLeaves n' s.heap.toRat (load cfg input a h).attrs.leaves = .ok (h₁, t₁)) ∧
      (∀ r ∈ t₁.roots, ∃ l, (h₁.get r).level = some l ∧ 0 ≤ l) ∧ t₁.roots ≠ [] := by
  obtain ⟨hP, hsrc, hB, -⟩ := C22_search_assumptions hcfg hp hs ht e
  obtain ⟨inner, leaves, S, -⟩ := separate hcfg hp hs ht e hr hsol
  have hW := C27_states_well_formed hP hsrc hB hr (Or.inr hsol)
  have hL := C29_states_layered hP hsrc hB hr (Or.inr hsol)
  have hFl := (C33_solutions_correct hP hsrc hB hr hsol).1
  obtain ⟨n, h', t', q1, q2, q3, q4, q5, q6, q7, q8, -⟩ := attachLeaves_spec S hW hL hFl hsrc.nonempty
  refine ⟨n, h'.toRat, t'.toRat, fun n' hn' => by rw [attachLeaves_toRat, q1 n' hn']; rfl, fun r hr => ?_, ?_⟩
  · obtain ⟨l, w1, w2, -⟩ := q3.range r (.root hr)
    exact ⟨l, w1, w2⟩
  · show t'.roots ≠ []
    intro w
    have := q4.roots
    rw [w] at this
    exact hsrc.nonempty this.symm

/-- A solution that is saved alone. -/
theorem Solver.pictured (hcfg : cfg.speeds.Pairwise (· ≤ ·)) (hp : Parsed input sv tv) (hs : ∀ v ∈ sv, 0 < v) (ht : ∀ v ∈ tv, 0 < v)
    (e : (load cfg input a h).result = .ok true)
    (hr : Reached ((load cfg input a h).attrs.problem cfg) O (load cfg input a h).heap (load cfg input a h).attrs.treeSource
      (load cfg input a h).attrs.bestSize s) (hsol : t ∈ s.solutions) {S T : List ℚ} (hST : Remains sv tv S T) :
    ∃ n h₁ t₁, (∀ n', n ≤ n' → t.toRat.attachLeaves n' s.heap.toRat (load cfg input a h).attrs.leaves = .ok (h₁, t₁)) ∧
      (((∀ v ∈ sv ++ tv, Integral v) ∨ Even h₁ t₁.roots) → Roomy h₁ t₁.roots → Light h₁ t₁.roots → Tidy h₁ t₁.roots →
        WithinLimit cfg h₁ (Reach h₁ t₁.roots) →
        ∃ h₃ x, Settles (fun fuel => concludeAll cfg fuel (load cfg input a h).attrs.leaves s.heap.toRat [t.toRat]) (.ok (h₃, [x])) ∧
          Shows cfg.speeds x.2.1 x.1.1 (load cfg input a h).attrs.unitFlowRatio S T) := by
  obtain ⟨n, h₁, t₁, q1, q2, -, -, q4, q5, R, q6, q7⟩ := C67_solutions_sound hcfg hp hs ht e hr hsol
  obtain ⟨n', h₁', t₁', q1', p1, p2⟩ := Solver.attached_levels hcfg hp hs ht e hr hsol
  have e1 := (q1 (max n n') (le_max_left _ _)).symm.trans (q1' _ (le_max_right _ _))
  simp only [Except.ok.injEq, Prod.mk.injEq] at e1
  obtain ⟨rfl, rfl⟩ := e1
  have hk : (1 : ℚ) ≤ ((load cfg input a h).attrs.unitFlowRatio : ℚ) := by
    obtain ⟨s', t', -, -, -, -, L⟩ := load_accepted e
    rw [L.ratio]
    exact_mod_cast ratio_pos s' t'
  refine ⟨n, h₁, t₁, q1, fun hi hR hL hTd hW => ?_⟩
  have hun := q6.unique hST
  obtain ⟨h₂, x, w1, -, -, w2⟩ := saveTree_shows (cfg := cfg) (k := (load cfg input a h).attrs.unitFlowRatio) (S := S) (T := T) (sources := t₁.sources) q2 p1 p2 hk
    (hi.imp_left fun hi => Solver.unit_ratio hp e hi) hR hL hTd hW q4 q5 hun.1 (q7.trans hun.2)
  refine ⟨setLevels h₂ t₁.roots 0, x, ?_, ?_⟩
  · obtain ⟨F, hF⟩ := w1
    refine ⟨max n F, fun fuel hf => ?_⟩
    rw [max_le_iff] at hf
    have g1 := hF fuel hf.2
    simp only at g1
    unfold concludeAll
    simp only [q1 fuel hf.1, bind, Except.bind, g1, pure, Except.pure, concludeAll]
  · have := w2 id (fun _ _ e => e) fun _ _ => rfl
    rwa [Drawing.rename_id] at this

/-- A solution that can be pictured after other solutions. -/
theorem Solver.fit (hcfg : cfg.speeds.Pairwise (· ≤ ·)) (hp : Parsed input sv tv) (hs : ∀ v ∈ sv, 0 < v) (ht : ∀ v ∈ tv, 0 < v)
    (e : (load cfg input a h).result = .ok true)
    (hr : Reached ((load cfg input a h).attrs.problem cfg) O (load cfg input a h).heap (load cfg input a h).attrs.treeSource
      (load cfg input a h).attrs.bestSize s) (hsol : t ∈ s.solutions) {S T : List ℚ} (hST : Remains sv tv S T) :
    ∃ n h₁ t₁, (∀ n', n ≤ n' → t.toRat.attachLeaves n' s.heap.toRat (load cfg input a h).attrs.leaves = .ok (h₁, t₁)) ∧
      (((∀ v ∈ sv ++ tv, Integral v) ∨ Even h₁ t₁.roots) → Roomy h₁ t₁.roots → Light h₁ t₁.roots → Tidy h₁ t₁.roots →
        WithinLimit cfg h₁ (Reach h₁ t₁.roots) →
        Fit cfg s.heap.toRat (load cfg input a h).attrs.leaves (Reach s.heap t.roots) (Hanging (load cfg input a h))
          (load cfg input a h).attrs.unitFlowRatio S T t.toRat h₁ t₁) := by
  obtain ⟨n, h₁, t₁, q1, -, -, -, q4, q5, R, q6, q7⟩ := C67_solutions_sound hcfg hp hs ht e hr hsol
  have hun := q6.unique hST
  obtain ⟨h', t', M, S, L⟩ := Solver.mount hcfg hp hs ht e hr hsol
  have e1 := M.attach.unique ⟨n, q1⟩
  simp only [Except.ok.injEq, Prod.mk.injEq] at e1
  obtain ⟨rfl, rfl⟩ := e1
  exact ⟨n, h', t', q1, fun hi hRo hLi hTd hWi => ⟨M, S, L, hi.imp_left fun hi => Solver.unit_ratio hp e hi, hRo, hLi, hTd, hWi, q4, q5, hun.1, q7.trans hun.2⟩⟩

/-- Concluding a run whose solutions can all be pictured, where nothing is pending inside of the groups of targets. -/
theorem Solver.concluded (hcfg : cfg.speeds.Pairwise (· ≤ ·)) (hp : Parsed input sv tv) (hs : ∀ v ∈ sv, 0 < v) (ht : ∀ v ∈ tv, 0 < v)
    (e : (load cfg input a h).result = .ok true)
    (hr : Reached ((load cfg input a h).attrs.problem cfg) O (load cfg input a h).heap (load cfg input a h).attrs.treeSource
      (load cfg input a h).attrs.bestSize s) {S T : List ℚ} (hST : Remains sv tv S T)
    (hquiet : ∀ x, Reach (load cfg input a h).heap (load cfg input a h).attrs.leaves x → x ∉ (load cfg input a h).attrs.leaves →
      ((load cfg input a h).heap.get x).children.length ≤ 3)
    (H : ∀ t ∈ s.solutions, ∃ n h₁ t₁, (∀ n', n ≤ n' → t.toRat.attachLeaves n' s.heap.toRat (load cfg input a h).attrs.leaves = .ok (h₁, t₁)) ∧
      ((∀ v ∈ sv ++ tv, Integral v) ∨ Even h₁ t₁.roots) ∧ Roomy h₁ t₁.roots ∧ Light h₁ t₁.roots ∧ Tidy h₁ t₁.roots ∧
        WithinLimit cfg h₁ (Reach h₁ t₁.roots)) :
    ∃ h' l, Settles (fun fuel => concludeAll cfg fuel (load cfg input a h).attrs.leaves s.heap.toRat (s.solutions.map TreeObj.toRat)) (.ok (h', l)) ∧
      l.length = s.solutions.length ∧ ∀ x ∈ l, Shows cfg.speeds x.2.1 x.1.1 (load cfg input a h).attrs.unitFlowRatio S T := by
  obtain ⟨hP, hsrc, hB, -⟩ := C22_search_assumptions hcfg hp hs ht e
  have hinv := hr.inv hP hsrc hB
  have hk : (1 : ℚ) ≤ ((load cfg input a h).attrs.unitFlowRatio : ℚ) := by
    obtain ⟨s', t', -, -, -, -, L⟩ := load_accepted e
    rw [L.ratio]
    exact_mod_cast ratio_pos s' t'
  have hfit : ∀ t ∈ s.solutions.map TreeObj.toRat, ∃ h₁ t₁, Fit cfg s.heap.toRat (load cfg input a h).attrs.leaves (Reach s.heap t.roots)
      (Hanging (load cfg input a h)) (load cfg input a h).attrs.unitFlowRatio S T t h₁ t₁ := by
    intro t ht'
    obtain ⟨u, hu, rfl⟩ := List.mem_map.1 ht'
    obtain ⟨n, h₁, t₁, q1, q2⟩ := Solver.fit hcfg hp hs ht e hr hu hST
    obtain ⟨n', h₁', t₁', q1', c1, c2, c3, c4, c5⟩ := H u hu
    have e1 := (q1 (max n n') (le_max_left _ _)).symm.trans (q1' _ (le_max_right _ _))
    simp only [Except.ok.injEq, Prod.mk.injEq] at e1
    obtain ⟨rfl, rfl⟩ := e1
    exact ⟨h₁, t₁, q2 c1 c2 c3 c4 c5⟩
  have hapart : (s.solutions.map TreeObj.toRat).Pairwise fun t t' => ∀ x, Reach s.heap t.roots x → ¬ Reach s.heap t'.roots x :=
    List.pairwise_map.2 hinv.apart
  obtain ⟨g', l, w1, w2, w3⟩ := concludeAll_fit hk (Solver.quiet hcfg hp hs ht e hr hquiet) (fun t => Reach s.heap t.roots) _ s.heap.toRat hfit hapart (.refl ..) (fun _ _ _ _ => rfl)
  exact ⟨g', l, w1, by rw [w2, List.length_map], w3⟩

/-- Targets that all differ are not grouped. -/
theorem Solver.ungrouped (hp : Parsed input sv tv) (hs : ∀ v ∈ sv, 0 < v) (ht : ∀ v ∈ tv, 0 < v) (e : (load cfg input a h).result = .ok true)
    {S T : List ℚ} (hST : Remains sv tv S T) (hnd : T.Nodup) :
    ∀ l ∈ (load cfg input a h).attrs.leaves, ((load cfg input a h).heap.get l).children = [] := by
  obtain ⟨s', t', hp', -, -, -, L⟩ := load_accepted e
  obtain ⟨rfl, rfl⟩ : s' = sv ∧ t' = tv := by
    have := hp'.symm.trans hp.1
    simpa using this
  obtain ⟨hg, inner, I, -, -, hextg, -⟩ := L.grouped
  have hF := I.forest (scaled_pos hs ht).2
  have hv : (valuesOf hg (List.range' h.next (scaledTargets s' t').length)).Nodup := by
    have e1 : valuesOf hg (List.range' h.next (scaledTargets s' t').length) = scaledTargets s' t' := I.values
    rw [e1]
    have h1 : ((reduced s' t').2).Nodup := (((reduced_remains s' t').unique hST).2.nodup_iff).2 hnd
    have h2 : ((scaledTargets s' t').map fun (z : ℤ) => (z : ℚ)).Nodup := by
      rw [(scaled_cast s' t').2]
      refine h1.map fun x y hxy => ?_
      exact mul_right_cancel₀ (ne_of_gt (ratio_pos' s' t')) hxy
    exact h2.of_map
  have hin : inner = [] := by
    by_contra hne
    obtain ⟨m, hm, hmin⟩ := Finset.exists_min_image inner.toFinset (fun x => (hg.get x).value) (by rwa [List.toFinset_nonempty_iff])
    rw [List.mem_toFinset] at hm
    simp only [List.mem_toFinset] at hmin
    obtain ⟨c2, cnd⟩ := hF.fan m hm
    have hleaf : ∀ c ∈ (hg.get m).children, c ∈ List.range' h.next (scaledTargets s' t').length := fun c hc => by
      have hcm : c ∈ inner ++ List.range' h.next (scaledTargets s' t').length :=
        (hF.nodes c).1 (((hF.nodes m).2 (List.mem_append_left _ hm)).child hc)
      refine (List.mem_append.1 hcm).resolve_left fun w => ?_
      have h1 := hmin c w
      have h2 := hF.equal m hm c hc
      have h3 := hF.positive c hcm
      have : (2 : Int) ≤ ((hg.get m).children.length : Int) := by exact_mod_cast c2
      nlinarith
    match hcs : (hg.get m).children, c2, cnd with
    | [], c2, _ => simp at c2
    | [_], c2, _ => simp at c2
    | x :: y :: rest, _, cnd =>
      have hx : x ∈ (hg.get m).children := by rw [hcs]; simp
      have hy : y ∈ (hg.get m).children := by rw [hcs]; simp
      have h1 := hF.equal m hm x hx
      have h2 := hF.equal m hm y hy
      have h3 : (hg.get x).value = (hg.get y).value := by
        have : (2 : Int) ≤ ((hg.get m).children.length : Int) := by exact_mod_cast c2
        exact mul_left_cancel₀ (by omega) (h1.symm.trans h2)
      have := List.inj_on_of_nodup_map hv (hleaf x hx) (hleaf y hy) h3
      subst this
      simp at cnd
  intro l hl
  have hm := (hF.nodes l).1 (.root hl)
  rw [hin, List.nil_append] at hm
  rw [hextg.get l (I.node_range l (List.mem_append_right _ hm)).2]
  exact hF.leaf l hm

/-- Then no group has a member that is a group. -/
theorem Solver.flat (hp : Parsed input sv tv) (hs : ∀ v ∈ sv, 0 < v) (ht : ∀ v ∈ tv, 0 < v) (e : (load cfg input a h).result = .ok true)
    {S T : List ℚ} (hST : Remains sv tv S T) (hnd : T.Nodup) :
    ∀ x, Reach (load cfg input a h).heap (load cfg input a h).attrs.leaves x → x ∈ (load cfg input a h).attrs.leaves := by
  have hl := Solver.ungrouped hp hs ht e hST hnd
  intro x hx
  induction hx with
  | root hx => exact hx
  | child _ hc ih =>
    rw [hl _ ih] at hc
    simp at hc

/-- A group of more than three inside of another one, where there are at most `8` units altogether: four targets of one unit out of `8`. -/
theorem Solver.nested_small {hg : Heap Int} {vs : List Int} {tops inner : List Addr} {cost : Int} (I : GroupInv cfg h vs hg tops inner cost)
    (hpos : ∀ v ∈ vs, 0 < v) (h8 : vs.sum ≤ 8) {x : Addr} (hx : Reach hg tops x) (hn : x ∉ tops) (h4 : 3 < (hg.get x).children.length) :
    vs.sum = 8 ∧ 4 ≤ vs.count 1 := by
  have hF := I.forest hpos
  have hle : ∀ y, Reach hg tops y → (hg.get y).value ≤ vs.sum := by
    intro y hy
    induction hy with
    | @root y hy =>
      rw [← I.total]
      exact List.single_le_sum (fun v hv => by
        obtain ⟨z, hz, rfl⟩ := List.mem_map.1 hv
        exact (hF.positive z ((hF.nodes z).1 (.root hz))).le) _ (List.mem_map_of_mem hy)
    | @child p c hp hc ih =>
      rcases List.mem_append.1 ((hF.nodes p).1 hp) with w | w
      · have h1 := hF.equal p w c hc
        have h2 : (2 : Int) ≤ ((hg.get p).children.length : Int) := by exact_mod_cast (hF.fan p w).1
        have h3 := hF.positive c ((hF.nodes c).1 (hp.child hc))
        nlinarith
      · rw [hF.leaf p w] at hc
        simp at hc
  have hin : ∀ y ∈ inner ++ List.range' h.next vs.length, (hg.get y).children ≠ [] → y ∈ inner := fun y hy hne =>
    (List.mem_append.1 hy).resolve_right fun w => hne (hF.leaf y w)
  have hxm := hin x ((hF.nodes x).1 hx) (by rintro w; rw [w] at h4; simp at h4)
  have h4' : (4 : Int) ≤ ((hg.get x).children.length : Int) := by exact_mod_cast h4
  cases hx with
  | root w => exact absurd w hn
  | @child p _ hp hc =>
    have hpm := hin p ((hF.nodes p).1 hp) (List.ne_nil_of_mem hc)
    have h1 := hF.equal p hpm x hc
    have h2 : (2 : Int) ≤ ((hg.get p).children.length : Int) := by exact_mod_cast (hF.fan p hpm).1
    have h3 := hle p hp
    have hkid : ∀ c ∈ (hg.get x).children, (hg.get c).value = 1 ∧ c ∈ List.range' h.next vs.length := fun c hc' => by
      have hcm := (hF.nodes c).1 ((hp.child hc).child hc')
      have h5 := hF.equal x hxm c hc'
      have h6 := hF.positive c hcm
      have h7 : (hg.get c).value = 1 := by
        by_contra hne
        have h7 : 2 ≤ (hg.get c).value := by omega
        have h8' : 8 ≤ (hg.get x).value := by nlinarith
        nlinarith
      refine ⟨h7, (List.mem_append.1 hcm).resolve_left fun w => ?_⟩
      obtain ⟨f1, -⟩ := hF.fan c w
      obtain ⟨d, hd⟩ := List.exists_mem_of_ne_nil (hg.get c).children (by rintro w; rw [w] at f1; simp at f1)
      have h8' := hF.equal c w d hd
      have h9 := hF.positive d ((hF.nodes d).1 (((hp.child hc).child hc').child hd))
      have : (2 : Int) ≤ ((hg.get c).children.length : Int) := by exact_mod_cast f1
      nlinarith
    obtain ⟨c, hc'⟩ := List.exists_mem_of_ne_nil (hg.get x).children (by rintro w; rw [w] at h4; simp at h4)
    have h5 := hF.equal x hxm c hc'
    rw [(hkid c hc').1] at h5
    refine ⟨by nlinarith, ?_⟩
    have hsub : (hg.get x).children ⊆ (List.range' h.next vs.length).filter fun y => (hg.get y).value == 1 := fun c hc' => by
      rw [List.mem_filter]
      exact ⟨(hkid c hc').2, by simpa using (hkid c hc').1⟩
    have hcnt : vs.count 1 = ((List.range' h.next vs.length).filter fun y => (hg.get y).value == 1).length := by
      conv_lhs => rw [← I.values]
      rw [List.count, List.countP_map, List.countP_eq_length_filter]
      rfl
    rw [hcnt]
    exact (Nat.succ_le_of_lt h4).trans ((hF.fan x hxm).2.subperm hsub).length_le

/-- Where little is requested, only four or more targets of an eighth of the total are grouped inside of another group. -/
theorem Solver.small_groups (hp : Parsed input sv tv) (hs : ∀ v ∈ sv, 0 < v) (ht : ∀ v ∈ tv, 0 < v) (e : (load cfg input a h).result = .ok true)
    {S T : List ℚ} (hST : Remains sv tv S T) {k : Nat} (hk : 0 < k) (hi : ∀ v ∈ S ++ T, Integral (v * k)) (hsmall : S.sum * k ≤ 8)
    (hfew : ∀ v ∈ T, 8 * v = S.sum → T.count v ≤ 3) :
    ∀ x, Reach (load cfg input a h).heap (load cfg input a h).attrs.leaves x → x ∉ (load cfg input a h).attrs.leaves →
      ((load cfg input a h).heap.get x).children.length ≤ 3 := by
  have hratio := Solver.ratio_le hp e hST hk hi
  obtain ⟨s', t', hp', -, -, -, L⟩ := load_accepted e
  obtain ⟨rfl, rfl⟩ : s' = sv ∧ t' = tv := by
    have := hp'.symm.trans hp.1
    simpa using this
  rw [L.ratio] at hratio
  obtain ⟨u1, u2⟩ := (reduced_remains s' t').unique hST
  have hpos := scaled_pos hs ht
  have hr0 := ratio_pos' s' t'
  have hsum : (((scaledTargets s' t').sum : Int) : ℚ) = S.sum * ratio s' t' := by
    have h1 : (((scaledSources s' t').sum : Int) : ℚ) = (((scaledSources s' t').map fun (z : ℤ) => (z : ℚ)).sum) := by
      generalize scaledSources s' t' = l
      induction l with
      | nil => simp
      | cons x l ih => simp [ih]
    rw [← scaled_sum, h1, (scaled_cast s' t').1, List.sum_map_mul_right, List.map_id', u1.sum_eq]
  have h8 : (scaledTargets s' t').sum ≤ 8 := by
    have h1 : (0 : ℚ) ≤ S.sum := List.sum_nonneg fun v hv => ((reduced_pos hs ht).1 v (u1.mem_iff.2 hv)).le
    have h2 : S.sum * ratio s' t' ≤ S.sum * k := mul_le_mul_of_nonneg_left (by exact_mod_cast hratio) h1
    exact_mod_cast (hsum ▸ (h2.trans hsmall) : (((scaledTargets s' t').sum : Int) : ℚ) ≤ 8)
  obtain ⟨hg, inner, I, -, -, hextg, -⟩ := L.grouped
  intro x hx hn
  have hF := I.forest hpos.2
  have hF' := hF.ext hextg (fun x hx => (I.node_range x hx).2)
  have hm := (hF'.nodes x).1 hx
  rw [hextg.get x (I.node_range x hm).2]
  by_contra hlt
  obtain ⟨w1, w2⟩ := Solver.nested_small I hpos.2 h8 ((hF.nodes x).2 hm) hn (by omega)
  have hc : (scaledTargets s' t').count 1 = T.count (1 / (ratio s' t' : ℚ)) := by
    rw [← u2.count_eq]
    have h1 : ((scaledTargets s' t').map fun (z : ℤ) => (z : ℚ)).count ((1 : ℤ) : ℚ) = (scaledTargets s' t').count 1 :=
      List.count_map_of_injective _ _ Int.cast_injective _
    have h2 := List.count_map_of_injective (reduced s' t').2 (fun f => f * (ratio s' t' : ℚ)) (fun x y hxy => mul_right_cancel₀ hr0.ne' hxy)
      (1 / (ratio s' t' : ℚ))
    rw [← h1, (scaled_cast s' t').2, ← h2]
    congr 1
    field_simp
    norm_num
  have hmem : 1 / (ratio s' t' : ℚ) ∈ T := List.count_pos_iff.1 (by omega)
  have := hfew _ hmem (by
    rw [w1] at hsum
    field_simp
    rw [mul_comm, ← hsum]
    norm_num)
  omega

/-- C99 for requests without fractions, or solutions that use no conveyor of a given speed, where expansion of no solution loses belts or merges belts from the
same machine by different mergers, and a group of equal targets has at most three members if it is itself the member of a group: concluding saves two pictures
of every solution. The second shows a network that takes in the requested sources and brings the requested targets, after balancing and cancelling, and can do
nothing else; its labels tell what passes, except at the machines at which the solution divides or extracts, which keep the label that they have in the first
picture. Missing: see `C67_request_delivered_partial` and `C98_labels_partial`. A larger group inside of another one is expanded by the first solution, for all
the others (`C41_conclude_false` shows that they need not finish). -/
theorem C99_pictures_partial (hcfg : cfg.speeds.Pairwise (· ≤ ·)) (hp : Parsed input sv tv) (hs : ∀ v ∈ sv, 0 < v) (ht : ∀ v ∈ tv, 0 < v)
    (e : (load cfg input a h).result = .ok true)
    (hr : Reached ((load cfg input a h).attrs.problem cfg) O (load cfg input a h).heap (load cfg input a h).attrs.treeSource
      (load cfg input a h).attrs.bestSize s) {S T : List ℚ} (hST : Remains sv tv S T)
    (hquiet : ∀ x, Reach (load cfg input a h).heap (load cfg input a h).attrs.leaves x → x ∉ (load cfg input a h).attrs.leaves →
      ((load cfg input a h).heap.get x).children.length ≤ 3)
    (hplain : ∀ t ∈ s.solutions, ∀ n h₁ t₁, t.toRat.attachLeaves n s.heap.toRat (load cfg input a h).attrs.leaves = .ok (h₁, t₁) →
      ((∀ v ∈ sv ++ tv, Integral v) ∨ Even h₁ t₁.roots) ∧ Roomy h₁ t₁.roots ∧ Light h₁ t₁.roots ∧ Tidy h₁ t₁.roots ∧
        WithinLimit cfg h₁ (Reach h₁ t₁.roots)) :
    ∃ h' l, Settles (fun fuel => concludeAll cfg fuel (load cfg input a h).attrs.leaves s.heap.toRat (s.solutions.map TreeObj.toRat)) (.ok (h', l)) ∧
      l.length = s.solutions.length ∧ ∀ x ∈ l, Shows cfg.speeds x.2.1 x.1.1 (load cfg input a h).attrs.unitFlowRatio S T := by
  refine Solver.concluded hcfg hp hs ht e hr hST hquiet fun t hsol => ?_
  obtain ⟨n, h₁, t₁, q1, -⟩ := Solver.fit hcfg hp hs ht e hr hsol hST
  exact ⟨n, h₁, t₁, q1, hplain t hsol n h₁ t₁ (q1 n le_rfl)⟩

/-- The condition on the groups of `C99_pictures_partial` holds where no two of the remaining targets are equal. -/
example (hp : Parsed input sv tv) (hs : ∀ v ∈ sv, 0 < v) (ht : ∀ v ∈ tv, 0 < v) (e : (load cfg input a h).result = .ok true)
    {S T : List ℚ} (hST : Remains sv tv S T) (hnd : T.Nodup) :
    ∀ x, Reach (load cfg input a h).heap (load cfg input a h).attrs.leaves x → x ∉ (load cfg input a h).attrs.leaves →
      ((load cfg input a h).heap.get x).children.length ≤ 3 :=
  fun x hx hn => absurd (Solver.flat hp hs ht e hST hnd x hx) hn

/-- C99 for a solution that is saved alone, with any groups. -/
theorem C99_picture_partial (hcfg : cfg.speeds.Pairwise (· ≤ ·)) (hp : Parsed input sv tv) (hs : ∀ v ∈ sv, 0 < v) (ht : ∀ v ∈ tv, 0 < v)
    (e : (load cfg input a h).result = .ok true)
    (hr : Reached ((load cfg input a h).attrs.problem cfg) O (load cfg input a h).heap (load cfg input a h).attrs.treeSource
      (load cfg input a h).attrs.bestSize s) (hsol : t ∈ s.solutions) {S T : List ℚ} (hST : Remains sv tv S T)
    (hplain : ∀ n h₁ t₁, t.toRat.attachLeaves n s.heap.toRat (load cfg input a h).attrs.leaves = .ok (h₁, t₁) →
      ((∀ v ∈ sv ++ tv, Integral v) ∨ Even h₁ t₁.roots) ∧ Roomy h₁ t₁.roots ∧ Light h₁ t₁.roots ∧ Tidy h₁ t₁.roots ∧
        WithinLimit cfg h₁ (Reach h₁ t₁.roots)) :
    ∃ h₃ x, Settles (fun fuel => concludeAll cfg fuel (load cfg input a h).attrs.leaves s.heap.toRat [t.toRat]) (.ok (h₃, [x])) ∧
      Shows cfg.speeds x.2.1 x.1.1 (load cfg input a h).attrs.unitFlowRatio S T := by
  obtain ⟨n, h₁, t₁, q1, q2⟩ := Solver.pictured hcfg hp hs ht e hr hsol hST
  obtain ⟨w1, w2, w3, w4, w5⟩ := hplain n h₁ t₁ (q1 n le_rfl)
  exact q2 w1 w2 w3 w4 w5

/-- Solutions of small requests. -/
theorem Solver.small_plain (hcfg : cfg.speeds.Pairwise (· ≤ ·)) (h20 : ∀ s ∈ cfg.speeds, 20 ≤ s) (hne : cfg.speeds ≠ [])
    (hp : Parsed input sv tv) (hs : ∀ v ∈ sv, 0 < v) (ht : ∀ v ∈ tv, 0 < v)
    {S T : List ℚ} (hR : Remains sv tv S T) {k : Nat} (hk : 0 < k) (hi : ∀ v ∈ S ++ T, Integral (v * k)) (hsmall : S.sum * k ≤ 8)
    (e : (load cfg input a h).result = .ok true)
    (hr : Reached ((load cfg input a h).attrs.problem cfg) O (load cfg input a h).heap (load cfg input a h).attrs.treeSource
      (load cfg input a h).attrs.bestSize s) (hsol : t ∈ s.solutions) :
    ∃ n h₁ t₁, (∀ n', n ≤ n' → t.toRat.attachLeaves n' s.heap.toRat (load cfg input a h).attrs.leaves = .ok (h₁, t₁)) ∧
      Even h₁ t₁.roots ∧ Roomy h₁ t₁.roots ∧ Light h₁ t₁.roots ∧ Tidy h₁ t₁.roots ∧ WithinLimit cfg h₁ (Reach h₁ t₁.roots) := by
  obtain ⟨n, h', t', q1, q2, q3, -, -, qT, -, -, qS, R, q6, -⟩ := Solver.attached_solution hcfg hp hs ht e hr hsol
  have hle := Solver.total_le hp e hR hk hi q3 q6 qS
  obtain ⟨n'', h₁'', t₁'', q1'', q5⟩ := Solver.attached_values hcfg hp hs ht hR hk hi e hr hsol
  have e2 := (q1 (max n n'') (le_max_left _ _)).symm.trans (q1'' _ (le_max_right _ _))
  simp only [Except.ok.injEq, Prod.mk.injEq] at e2
  obtain ⟨rfl, rfl⟩ := e2
  have hlim : 20 ≤ cfg.limit := by
    unfold Config.limit
    rw [List.getLast?_eq_some_getLast hne]
    exact h20 _ (List.getLast_mem hne)
  have M : Petty h'.toRat t'.toRat.roots := Solver.TypedH.petty (t := t') qT q3
    (fun x hx => by exact_mod_cast (hle x hx).trans (hsmall.trans (by norm_num : (8 : ℚ) ≤ 10))) h20 fun x hx e9 => by
      have := q5 x hx
      rw [e9] at this
      exact absurd (this.trans hsmall) (by norm_num)
  exact ⟨n, h'.toRat, t'.toRat, q1, M.even q2 fun s hs => by have := h20 s hs; omega, M.roomy q2, M.light q2, M.tidy q2, M.limit q2 hlim⟩

/-- C99 from the text that is entered to the pictures that are saved, without further conditions, where the belts carry at least `20`: a request of a total of at
most `8`, in a unit in which all that remains after cancelling is whole, that leaves no four targets of an eighth of the total and is none of the problems that
`load` cannot bound, is loaded and solved, and every picture that is saved then shows a network that brings the targets. -/
theorem C99_small_pictures (hcfg : cfg.speeds.Pairwise (· ≤ ·)) (h20 : ∀ s ∈ cfg.speeds, 20 ≤ s) (hne : cfg.speeds ≠ [])
    (a : Attrs) (h : Heap Int) (hp : Parsed input sv tv) (hs : ∀ v ∈ sv, 0 < v) (ht : ∀ v ∈ tv, 0 < v)
    {S T : List ℚ} (hR : Remains sv tv S T) (hS : S ≠ []) (htiny : ∀ (n : Nat) (S' T' : List ℚ), 1 ≤ n → S'.Perm S → T'.Perm T → ¬ Tiny S' T' (1 / n : ℚ))
    {k : Nat} (hk : 0 < k) (hi : ∀ v ∈ S ++ T, Integral (v * k)) (hsmall : S.sum * k ≤ 8)
    (hfew : ∀ v ∈ T, 8 * v = S.sum → T.count v ≤ 3) (hO : O.stopAt = none) :
    (load cfg input a h).result = .ok true ∧
    ∃ f h' l, Settles (fun fuel => solve ((load cfg input a h).attrs.problem cfg) O fuel (load cfg input a h).heap
        (load cfg input a h).attrs.treeSource (load cfg input a h).attrs.bestSize) (.ok f) ∧
      Settles (fun fuel => concludeAll cfg fuel (load cfg input a h).attrs.leaves f.heap.toRat (f.solutions.map TreeObj.toRat)) (.ok (h', l)) ∧
      l ≠ [] ∧ l.length = f.solutions.length ∧ ∀ x ∈ l, Shows cfg.speeds x.2.1 x.1.1 (load cfg input a h).attrs.unitFlowRatio S T := by
  obtain ⟨e, fuel, f, hf, hne', -⟩ := C97_small_requests_answered (O := O) hcfg h20 hne a h hp hs ht hR hS htiny hk hi hsmall hO
  have hr := solveLoop_visited O .start (hf fuel le_rfl)
  obtain ⟨h', l, w1, w2, w3⟩ := Solver.concluded hcfg hp hs ht e hr hR (Solver.small_groups hp hs ht e hR hk hi hsmall hfew) fun t hsol => by
    obtain ⟨n, h₁, t₁, q1, w1, w⟩ := Solver.small_plain hcfg h20 hne hp hs ht hR hk hi hsmall e hr hsol
    exact ⟨n, h₁, t₁, q1, .inr w1, w⟩
  refine ⟨e, f, h', l, ⟨fuel, hf⟩, w1, fun w => hne' ?_, w2, w3⟩
  rw [w] at w2
  exact List.eq_nil_of_length_eq_zero w2.symm

/-- The hypotheses of `C99_small_pictures` hold for `"8 to 3 3 1 1"`; by `Solver.small_plain` and `Solver.small_groups` those of `C99_pictures_partial` hold too. -/
example : Parsed "8 to 3 3 1 1".toList [8] [3, 3, 1, 1] ∧ Remains [8] [3, 3, 1, 1] [8] [3, 3, 1, 1] ∧
    (∀ (n : Nat) (S' T' : List ℚ), 1 ≤ n → S'.Perm [8] → T'.Perm [3, 3, 1, 1] → ¬ Tiny S' T' (1 / n : ℚ)) ∧
    (∀ v ∈ [8] ++ [3, 3, 1, 1], Integral ((v : ℚ) * (1 : Nat))) ∧ ([8] : List ℚ).sum * (1 : Nat) ≤ 8 ∧
    ∀ v ∈ ([3, 3, 1, 1] : List ℚ), 8 * v = ([8] : List ℚ).sum → ([3, 3, 1, 1] : List ℚ).count v ≤ 3 := by
  refine ⟨⟨by decide +kernel, by decide, by decide⟩, ⟨⟨[], by decide +kernel, by decide +kernel⟩, by decide +kernel⟩, ?_, ?_, by norm_num, by decide +kernel⟩
  · intro n S' T' _ _ h hT
    have := h.length_eq
    rcases hT with ⟨-, w⟩ | ⟨-, w⟩ | ⟨-, w⟩ <;> rw [w] at this <;> simp at this
  · intro v hv
    simp only [List.cons_append, List.nil_append, List.mem_cons, List.not_mem_nil, or_false] at hv
    rcases hv with rfl | rfl | rfl | rfl | rfl
    · exact ⟨8, by norm_num⟩
    · exact ⟨3, by norm_num⟩
    · exact ⟨3, by norm_num⟩
    · exact ⟨1, by norm_num⟩
    · exact ⟨1, by norm_num⟩

/-- The four pictures then. Both solutions end in the targets `0` to `3`. The first extracts `2` from `8`, by a division into four; the second divides twice. -/
example : (saved "8 to 3 3 1 1" 100).toOption.map (fun l => l.map fun x => [x.1.1, x.2.1].map fun d => d.nodes.map fun n => (n.1, n.2.1)) =
      some [[[(6, 8), (7, 2), (0, 1), (1, 1), (8, 6), (2, 3), (3, 3)],
          [(6, 8), (20, 4), (7, 2), (0, 1), (1, 1), (8, 6), (2, 3), (3, 3)]],
        [[(6, 8), (9, 4), (16, 2), (0, 1), (1, 1), (15, 2), (19, 6), (2, 3), (3, 3), (10, 4)],
          [(6, 8), (9, 4), (16, 2), (0, 1), (1, 1), (15, 2), (19, 6), (2, 3), (3, 3), (10, 4)]]] ∧
    (saved "8 to 3 3 1 1" 100).toOption.map (fun l => l.map fun x => [x.1.1.edges, x.2.1.edges]) =
      some [[[(6, 7), (6, 8), (7, 0), (7, 1), (8, 2), (8, 3)],
          [(6, 20), (6, 8), (20, 7), (20, 8), (7, 0), (7, 1), (8, 2), (8, 3)]],
        [[(6, 9), (6, 10), (9, 16), (9, 15), (16, 0), (16, 1), (15, 19), (19, 2), (19, 3), (10, 19)],
          [(6, 9), (6, 10), (9, 16), (9, 15), (16, 0), (16, 1), (15, 19), (19, 2), (19, 3), (10, 19)]]] := by
  decide +kernel

/-- Where four targets are an eighth of the total, the group of them is divided when the first solution is saved, so that the other solutions are shown with it
already divided before they are expanded. -/
example : (saved "2 2 2 2 to 4 1 1 1 1" 100).toOption.map (fun l => l.map fun x => [x.1.1, x.2.1].map fun d => d.nodes.length) =
    some [[11, 14], [14, 14], [14, 14]] := by
  decide +kernel

end Satis
