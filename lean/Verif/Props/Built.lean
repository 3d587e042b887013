import Verif.Props.Announced
/-!
# What is built for a request, from end to end
-/

namespace Satis
open Satis.Utils Satis.Graph Satis.Solver Satis.Solver.Example Satis.Cost Satis.Utils.Spec

variable {cfg : Config} {input : Str} {a : Attrs} {h : Heap Int} {sv tv : List ℚ} {O : Oracle} {s : Search} {t : TreeObj Int}

/-! ## C95 -/

/-- C95 for requests without fractions, or solutions that use no conveyor of a given speed, where at most three belts will lead back to a node, at most three to a node below an extraction, and
none carries more than the limit. Nothing is assumed about how the belts will be merged, and nothing is left pending: `expand_roots` makes of the solution
a network whose leaves are the targets and that carries the requested flows and no others, within the limit if the sources are, with as many machines
as announced, less those that loops save. Missing: the requests for which C66, C67 or C94 is false. -/
theorem C95_built_partial (hcfg : cfg.speeds.Pairwise (· ≤ ·)) (hp : Parsed input sv tv) (hs : ∀ v ∈ sv, 0 < v) (ht : ∀ v ∈ tv, 0 < v)
    (e : (load cfg input a h).result = .ok true)
    (hr : Reached ((load cfg input a h).attrs.problem cfg) O (load cfg input a h).heap (load cfg input a h).attrs.treeSource
      (load cfg input a h).attrs.bestSize s) (hsol : t ∈ s.solutions) :
    ∃ n h₁ t₁, (∀ n', n ≤ n' → t.toRat.attachLeaves n' s.heap.toRat (load cfg input a h).attrs.leaves = .ok (h₁, t₁)) ∧
      (((∀ v ∈ sv ++ tv, Integral v) ∨ Even h₁ t₁.roots) → Modest h₁ t₁.roots → WithinLimit cfg h₁ (Reach h₁ t₁.roots) →
        ∃ h₂ supply T f R, Settles (fun fuel => expandRoots cfg fuel h₁ t₁.roots) (.ok h₂) ∧
          t₁.sources.Nodup ∧ (∀ x, x ∈ t₁.sources ↔ Reach h₂ t₁.roots x ∧ (h₂.get x).children = []) ∧
          (∀ x, Reach h₂ t₁.roots x → (h₂.get x).expands = []) ∧
          Carries cfg.speeds h₂ t₁.roots supply T f ∧ Forced cfg.speeds h₂ t₁.roots supply T f ∧ (∀ x, x ∉ t₁.roots → supply x = 0) ∧
          ((∀ r ∈ t₁.roots, supply r ≤ cfg.limit) → ∀ x, Reach h₂ t₁.roots x → T x ≤ cfg.limit) ∧
          Remains sv tv (t₁.roots.map supply) R ∧ (t₁.sources.map T).Perm R ∧
          (machineCount h₂ t₁.roots : Int) + joinCount h₁ t₁.roots = s.bestSize + (load cfg input a h).attrs.sizeOffset) := by
  obtain ⟨n, h₁, t₁, q1, q2, -⟩ := C67_solutions_sound hcfg hp hs ht e hr hsol
  obtain ⟨n', h₁', t₁', q1', q3⟩ := C67_request_delivered_partial hcfg hp hs ht e hr hsol
  obtain ⟨n'', h₁'', t₁'', q1'', q4⟩ := C94_announced_size_partial hcfg hp hs ht e hr hsol
  have e1 := (q1 (max n (max n' n'')) (le_max_left _ _)).symm.trans (q1' _ ((le_max_left _ _).trans (le_max_right _ _)))
  have e2 := (q1 (max n (max n' n'')) (le_max_left _ _)).symm.trans (q1'' _ ((le_max_right _ _).trans (le_max_right _ _)))
  simp only [Except.ok.injEq, Prod.mk.injEq] at e1 e2
  obtain ⟨rfl, rfl⟩ := e1
  obtain ⟨rfl, rfl⟩ := e2
  refine ⟨n, h₁, t₁, q1, fun hi hM hW => ?_⟩
  have hR := hM.roomy q2
  obtain ⟨h₂, w1, w2, w3, w4, w5⟩ := q3 hi hR hW
  obtain ⟨h₂', w1', -, w6⟩ := q4 hR hW
  have := w1.unique w1'
  simp only [Except.ok.injEq] at this
  subst this
  have hd := w4 hM.light
  obtain ⟨supply, T, f, v1, v2, v3, v4, R, v5, v6⟩ := w5 hd
  exact ⟨h₂, supply, T, f, R, w1, w2, w3, hd, v1, v2, v3, v4 _ le_rfl, v5, v6, (w6 hd).1⟩

/-- The hypotheses hold for `"3 2 to 1 1 1 1 1"`, where the sources are merged and one belt leads back, and for `"13 to 1 12"`, where three belts lead back, two
of them from the same splitter. -/
example : Parsed "3 2 to 1 1 1 1 1".toList [3, 2] [1, 1, 1, 1, 1] ∧ (Example.loaded "3 2 to 1 1 1 1 1").result = .ok true ∧
    ∃ h t, attached "3 2 to 1 1 1 1 1" = .ok (h, t) ∧ Modest h t.roots ∧ WithinLimit config h (Reach h t.roots) := by
  refine ⟨⟨by decide +kernel, by decide, by decide⟩, by decide +kernel, (attachedOf "3 2 to 1 1 1 1 1").1, (attachedOf "3 2 to 1 1 1 1 1").2,
    attachedOf_eq (by decide +kernel), ?_⟩
  have C : Checked config.speeds (attachedOf "3 2 to 1 1 1 1 1").1 (attachedOf "3 2 to 1 1 1 1 1").2.roots
      (closure (attachedOf "3 2 to 1 1 1 1 1").1 3 (attachedOf "3 2 to 1 1 1 1 1").2.roots) := by
    decide +kernel
  exact ⟨C.modest (by decide +kernel) (by decide +kernel), C.limit (by decide +kernel)⟩

example : Parsed "13 to 1 12".toList [13] [1, 12] ∧ (Example.loaded "13 to 1 12").result = .ok true ∧
    ∃ h t, attached "13 to 1 12" = .ok (h, t) ∧ Modest h t.roots ∧ WithinLimit config h (Reach h t.roots) := by
  refine ⟨⟨by decide +kernel, by decide, by decide⟩, by decide +kernel, (attachedOf "13 to 1 12").1, (attachedOf "13 to 1 12").2,
    attachedOf_eq (by decide +kernel), ?_⟩
  have C : Checked config.speeds (attachedOf "13 to 1 12").1 (attachedOf "13 to 1 12").2.roots
      (closure (attachedOf "13 to 1 12").1 2 (attachedOf "13 to 1 12").2.roots) := by
    decide +kernel
  exact ⟨C.modest (by decide +kernel) (by decide +kernel), C.limit (by decide +kernel)⟩

end Satis
