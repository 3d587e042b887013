import Verif.Graph.Outline
import Verif.Props.Picture
/-!
# C100 — the picture of a solution before expansion

`Outline` (`Graph/OutlineSpec.lean`) reads the flows off the labels and the arrows.
-/

namespace Satis
open Satis.Utils Satis.Graph Satis.Solver Satis.Solver.Example Satis.Cost Satis.Spec Satis.Graph.Example Satis.Utils.Spec

variable {cfg : Config} {input : Str} {a : Attrs} {h : Heap Int} {sv tv : List ℚ} {O : Oracle} {s : Search} {t : TreeObj Int}

/-- The roots of a solution are different nodes. -/
theorem Solver.roots_nodup (hcfg : cfg.speeds.Pairwise (· ≤ ·)) (hp : Parsed input sv tv) (hs : ∀ v ∈ sv, 0 < v) (ht : ∀ v ∈ tv, 0 < v)
    (e : (load cfg input a h).result = .ok true)
    (hr : Reached ((load cfg input a h).attrs.problem cfg) O (load cfg input a h).heap (load cfg input a h).attrs.treeSource
      (load cfg input a h).attrs.bestSize s) (hsol : t ∈ s.solutions) : t.roots.Nodup := by
  obtain ⟨hP, hsrc, hB, -⟩ := C22_search_assumptions hcfg hp hs ht e
  obtain ⟨-, g, loc, hn, hR⟩ := ((hr.inv hP hsrc hB).sols t hsol).2.2
  have hg := hn.wf hP hsrc.wf
  rw [hR.roots]
  refine List.nodup_range.map_on fun i hi j hj w => ?_
  rw [List.mem_range] at hi hj
  exact hR.nodes.loc_inj (lt_of_lt_of_le hi hg.rootsLe) (lt_of_lt_of_le hj hg.rootsLe) w

/-- C100 for any solution, with the targets attached to it before others are saved: it can be pictured, whether or not it can then be expanded. -/
theorem C100_outline (hcfg : cfg.speeds.Pairwise (· ≤ ·)) (hp : Parsed input sv tv) (hs : ∀ v ∈ sv, 0 < v) (ht : ∀ v ∈ tv, 0 < v)
    (e : (load cfg input a h).result = .ok true)
    (hr : Reached ((load cfg input a h).attrs.problem cfg) O (load cfg input a h).heap (load cfg input a h).attrs.treeSource
      (load cfg input a h).attrs.bestSize s) (hsol : t ∈ s.solutions) {S T : List ℚ} (hST : Remains sv tv S T) :
    ∃ h₁ t₁ h₂ x, Settles (fun fuel => t.toRat.attachLeaves fuel s.heap.toRat (load cfg input a h).attrs.leaves) (.ok (h₁, t₁)) ∧
      Settles (fun fuel => saveNodes fuel h₁ t₁.roots) (.ok (h₂, x)) ∧ ∃ flow, Outline x.1 (load cfg input a h).attrs.unitFlowRatio S T flow := by
  obtain ⟨n, h₁, t₁, q1, q2, -, -, q4, q5, R, q6, q7⟩ := C67_solutions_sound hcfg hp hs ht e hr hsol
  obtain ⟨n', h₁', t₁', q1', p1, p2⟩ := Solver.attached_levels hcfg hp hs ht e hr hsol
  have e1 := (q1 (max n n') (le_max_left _ _)).symm.trans (q1' _ (le_max_right _ _))
  simp only [Except.ok.injEq, Prod.mk.injEq] at e1
  obtain ⟨rfl, rfl⟩ := e1
  have hk : 0 < (load cfg input a h).attrs.unitFlowRatio := by
    obtain ⟨s', t', -, -, -, -, L⟩ := load_accepted e
    rw [L.ratio]
    exact ratio_pos s' t'
  have hrn : t₁.roots.Nodup := by
    have : t₁.roots = t.roots := by
      obtain ⟨hP, hsrc, hB, -⟩ := C22_search_assumptions hcfg hp hs ht e
      obtain ⟨inner, leaves, Se, hF, -⟩ := separate hcfg hp hs ht e hr hsol
      obtain ⟨n', h', t', p1, -, -, -, p5, -⟩ := attachLeaves_spec Se (C27_states_well_formed hP hsrc hB hr (Or.inr hsol))
        (C29_states_layered hP hsrc hB hr (Or.inr hsol)) (C33_solutions_correct hP hsrc hB hr hsol).1 hsrc.nonempty
      have e1 : t.toRat.attachLeaves (max n n') s.heap.toRat (load cfg input a h).attrs.leaves = .ok (h'.toRat, t'.toRat) := by
        rw [attachLeaves_toRat, p1 _ (le_max_right _ _)]; rfl
      rw [q1 _ (le_max_left _ _)] at e1
      simp only [Except.ok.injEq, Prod.mk.injEq] at e1
      obtain ⟨-, rfl⟩ := e1
      exact p5
    rw [this]
    exact Solver.roots_nodup hcfg hp hs ht e hr hsol
  have hun := q6.unique hST
  have P := q2.relevel p1
  have Rl := setLevels_relevelled h₁ t₁.roots 0
  obtain ⟨r, rs, hrs⟩ := List.exists_cons_of_ne_nil p2
  obtain ⟨shown, order, w1, w2, -, -, w3⟩ := saveNodes_settles q2.region r rs (by rw [← hrs]; exact fun r hr => .root hr)
  rw [← hrs] at w2 w3
  refine ⟨h₁, t₁, _, _, ⟨n, q1⟩, w3, ?_⟩
  refine P.outline hrn hk w1 (fun a => by rw [w2, Rl.reach]) q4 (fun x => by rw [q5, Rl.reach, Rl.children]) ?_ ?_
  · simp only [Rl.value]
    exact hun.1
  · simp only [Rl.value]
    exact q7.trans hun.2

/-- Saving a solution first pictures it as it is with the targets attached. -/
theorem Solver.first_picture {leaves : List Addr} {h₀ h₁ h₂ h' : Heap ℚ} {t t₁ : TreeObj ℚ} {ts : List (TreeObj ℚ)} {x : Saved ℚ} {y : Saved ℚ × Saved ℚ}
    {l : List (Saved ℚ × Saved ℚ)} (q1 : Settles (fun fuel => t.attachLeaves fuel h₀ leaves) (.ok (h₁, t₁)))
    (q2 : Settles (fun fuel => saveNodes fuel h₁ t₁.roots) (.ok (h₂, x)))
    (q3 : Settles (fun fuel => concludeAll cfg fuel leaves h₀ (t :: ts)) (.ok (h', y :: l))) : y.1 = x := by
  obtain ⟨F, hF⟩ := q1
  obtain ⟨G, hG⟩ := q2
  obtain ⟨K, hK⟩ := q3
  have w1 := hF (F + G + K) (by omega)
  have w2 := hG (F + G + K) (by omega)
  have w3 := hK (F + G + K) (by omega)
  simp only at w1 w2 w3
  unfold concludeAll saveTree at w3
  simp only [w1, w2, bind, Except.bind, pure, Except.pure] at w3
  split at w3
  · simp at w3
  · rename_i v hv
    split at hv
    · simp at hv
    · split at hv
      · simp at hv
      · simp only [Except.ok.injEq] at hv
        subst hv
        split at w3
        · simp at w3
        · simp only [Except.ok.injEq, Prod.mk.injEq, List.cons.injEq] at w3
          rw [← w3.2.1]

/-- C100 for the solution that is saved first, with any groups. -/
theorem C100_first (hcfg : cfg.speeds.Pairwise (· ≤ ·)) (hp : Parsed input sv tv) (hs : ∀ v ∈ sv, 0 < v) (ht : ∀ v ∈ tv, 0 < v)
    (e : (load cfg input a h).result = .ok true)
    (hr : Reached ((load cfg input a h).attrs.problem cfg) O (load cfg input a h).heap (load cfg input a h).attrs.treeSource
      (load cfg input a h).attrs.bestSize s) (hsol : t ∈ s.solutions) {S T : List ℚ} (hST : Remains sv tv S T) {ts : List (TreeObj ℚ)}
    {h' : Heap ℚ} {x : Saved ℚ × Saved ℚ} {l : List (Saved ℚ × Saved ℚ)}
    (hx : Settles (fun fuel => concludeAll cfg fuel (load cfg input a h).attrs.leaves s.heap.toRat (t.toRat :: ts)) (.ok (h', x :: l))) :
    ∃ flow, Outline x.1.1 (load cfg input a h).attrs.unitFlowRatio S T flow := by
  obtain ⟨h₁, t₁, h₂, y, w1, w2, w3⟩ := C100_outline hcfg hp hs ht e hr hsol hST
  rw [Solver.first_picture w1 w2 hx]
  exact w3

/-- C100 for all solutions of a run, at whatever point it was interrupted, if all could be saved. Missing are runs of several solutions where a group of more
than three targets is inside of another group: it is expanded with the solution that is saved first, so that the others are pictured with it expanded. -/
theorem C100_outlines_partial (hcfg : cfg.speeds.Pairwise (· ≤ ·)) (hp : Parsed input sv tv) (hs : ∀ v ∈ sv, 0 < v) (ht : ∀ v ∈ tv, 0 < v)
    (e : (load cfg input a h).result = .ok true)
    (hr : Reached ((load cfg input a h).attrs.problem cfg) O (load cfg input a h).heap (load cfg input a h).attrs.treeSource
      (load cfg input a h).attrs.bestSize s) {S T : List ℚ} (hST : Remains sv tv S T)
    (hquiet : ∀ x, Reach (load cfg input a h).heap (load cfg input a h).attrs.leaves x → x ∉ (load cfg input a h).attrs.leaves →
      ((load cfg input a h).heap.get x).children.length ≤ 3) {h' : Heap ℚ} {l : List (Saved ℚ × Saved ℚ)}
    (hl : Settles (fun fuel => concludeAll cfg fuel (load cfg input a h).attrs.leaves s.heap.toRat (s.solutions.map TreeObj.toRat)) (.ok (h', l))) :
    l.length = s.solutions.length ∧ ∀ x ∈ l, ∃ flow, Outline x.1.1 (load cfg input a h).attrs.unitFlowRatio S T flow := by
  obtain ⟨r, w1, -, w2, -⟩ := C41_independent_partial hcfg hp hs ht e hr hquiet
  have := w2 h' l (w1.unique hl)
  refine ⟨by rw [← this.length_eq, List.length_map], fun x hx => ?_⟩
  obtain ⟨t, ht', h'', y, w3, w4, -⟩ : ∃ t ∈ s.solutions.map TreeObj.toRat, ∃ h'' y,
      Settles (fun fuel => concludeAll cfg fuel (load cfg input a h).attrs.leaves s.heap.toRat [t]) (.ok (h'', [y])) ∧ y.1 = x.1 ∧
          SameUpTo s.heap.nextUid y.2 x.2 := by
    clear w1 w2 hl
    generalize s.solutions.map TreeObj.toRat = us at this ⊢
    induction this with
    | nil => simp at hx
    | cons q _ ih =>
      rcases List.mem_cons.1 hx with rfl | hx
      · exact ⟨_, List.mem_cons_self, q⟩
      · obtain ⟨t, ht, w⟩ := ih hx
        exact ⟨t, List.mem_cons_of_mem _ ht, w⟩
  obtain ⟨u, hu, rfl⟩ := List.mem_map.1 ht'
  rw [← w4]
  exact C100_first hcfg hp hs ht e hr hu hST w3

/-- The hypotheses hold for `"3.5 to 0.5 1 2"`, which is solved in halves. -/
example : Parsed "3.5 to 0.5 1 2".toList [7 / 2] [1 / 2, 1, 2] ∧ (∀ v ∈ [7 / 2, 1 / 2, 1, (2 : ℚ)], 0 < v) ∧ Remains [7 / 2] [1 / 2, 1, 2] [7 / 2] [1 / 2, 1, 2] ∧
    (loaded "3.5 to 0.5 1 2").result.toOption = some true ∧ (loaded "3.5 to 0.5 1 2").attrs.unitFlowRatio = 2 ∧
    ∀ x ∈ (loaded "3.5 to 0.5 1 2").attrs.leaves, ((loaded "3.5 to 0.5 1 2").heap.get x).children = [] := by
  exact ⟨⟨by decide +kernel, by decide, by decide⟩, by norm_num, ⟨⟨[], by decide +kernel, by decide +kernel⟩, by decide +kernel⟩, by decide +kernel,
    by decide +kernel, by decide +kernel⟩

/-- The pictures of its four solutions before expansion. In the second, a third of `3` halves is handed on, and two more thirds are merged. -/
example : (saved "3.5 to 0.5 1 2" 100).toOption.map (fun l => l.map fun x => x.1.1.nodes.map fun n => (n.1, n.2.1)) = some
      [[(3, 7), (9, 4), (8, 3), (17, 1), (18, 2)], [(3, 7), (8, 3), (21, 1), (20, 1), (22, 2), (19, 1), (9, 4)],
        [(3, 7), (5, 6), (23, 2), (24, 4), (4, 1)], [(3, 7), (4, 1), (5, 6), (29, 2), (28, 2), (32, 4), (27, 2)]] ∧
    (saved "3.5 to 0.5 1 2" 100).toOption.map (fun l => l.map fun x => x.1.1.edges) = some
      [[(3, 9), (3, 8), (8, 17), (8, 18)], [(3, 8), (3, 9), (8, 21), (8, 20), (8, 19), (20, 22), (19, 22)],
        [(3, 5), (3, 4), (5, 23), (5, 24)], [(3, 4), (3, 5), (5, 29), (5, 28), (5, 27), (28, 32), (27, 32)]] := by
  decide +kernel

/-- A picture where something gets lost is not an outline of anything. -/
example (k : Nat) (hk : 0 < k) (S T : List ℚ) (flow : Uid → ℚ) : ¬ Outline ⟨[(0, 2, some 0), (1, 1, some 1)], [(0, 1)]⟩ k S T flow := by
  intro P
  have h0 : flow 0 = 2 / k := P.label 0 2 (some 0) (by simp)
  have h1 : flow 1 = 1 / k := P.label 1 1 (some 1) (by simp)
  have hkq : (0 : ℚ) < k := by exact_mod_cast hk
  have hne : flow 0 ≠ flow 1 := by
    rw [h0, h1]
    intro w
    field_simp at w
    norm_num at w
  rcases P.balance 0 (by decide) (by decide) with ⟨-, w⟩ | ⟨j, w1, -, -, w⟩
  · have e1 : Drawing.outs ⟨[(0, 2, some 0), (1, 1, some 1)], [(0, 1)]⟩ 0 = [1] := by decide
    rw [e1] at w
    exact hne (by simpa using w.symm)
  · have e1 : Drawing.outs ⟨[(0, 2, some 0), (1, 1, some 1)], [(0, 1)]⟩ 0 = [1] := by decide
    rw [e1] at w1
    obtain rfl : 1 = j := by simpa using w1
    have e2 : Drawing.ins ⟨[(0, 2, some 0), (1, 1, some 1)], [(0, 1)]⟩ 1 = [0] := by decide
    rw [e2] at w
    exact hne (by simpa using w)

end Satis
