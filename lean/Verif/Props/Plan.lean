import Verif.Solver.Plan
import Verif.Props.Load
/-!
# The initial size bound
-/

namespace Satis
open Satis.Utils Satis.Graph Satis.Solver Satis.Cost

/-! ## C59 -/

variable {cfg : Config} {input : Str} {a : Attrs} {h : Heap Int} {s t : List ℚ}

/-- C59. The bound computed by `load` is the cost of turning the sources into the targets, by merging all of them and then extracting
the targets one by one, plus the cost of the grouped targets. -/
theorem C59_bound_is_plan (hp : Parsed input s t) (hs : ∀ v ∈ s, 0 < v) (ht : ∀ v ∈ t, 0 < v)
    (e : (load cfg input a h).result = .ok true) :
    ∃ targets, targets.Perm (load cfg input a h).attrs.targetValues ∧
      Converts cfg (load cfg input a h).attrs.treeSource.sourceValues
        ((load cfg input a h).attrs.bestSize - (load cfg input a h).attrs.sizeOffset) targets := by
  obtain ⟨s', t', hp', -, -, -, L⟩ := load_accepted e
  obtain ⟨rfl, rfl⟩ : s' = s ∧ t' = t := by
    have := hp'.symm.trans hp.1
    simpa using this
  generalize load cfg input a h = r at L e ⊢
  obtain ⟨k, h1, h2, h3⟩ := L.bound
  have hne : r.attrs.targetValues ≠ [] := by
    intro hnil
    have := L.minTarget.1
    rw [hnil] at this
    simp at this
  have hc : Converts cfg (scaledSources s' t') (0 + (mergeCost (scaledSources s' t').length 1 : Nat)) ((scaledSources s' t').sum :: []) :=
    Converts.merge (by rw [List.append_nil]; exact Converts.start)
  rw [← L.targets_sum] at hc h1
  have := extractAll_converts _ _ _ [] hne L.targets_sorted (L.targets_pos hs ht) h1 hc
  refine ⟨r.attrs.targetValues.reverse, List.reverse_perm _, ?_⟩
  · rw [L.sources, h3]
    have heq : (mergeCost (scaledSources s' t').length 1 : Nat) + k + r.attrs.sizeOffset - r.attrs.sizeOffset =
        0 + ((mergeCost (scaledSources s' t').length 1 : Nat) : Int) + k := by ring
    rw [heq]
    simpa using this

/-- C59. When that plan consists of permitted moves — merging everything stays within the belt limit, and no source has the value of
a target or of what remains after extracting some of them — then it is a play of the search that costs exactly the bound, and the
search, unless stopped, does not end without a solution. -/
theorem C59_search_succeeds (hcfg : cfg.speeds.Pairwise (· ≤ ·)) (hp : Parsed input s t) (hs : ∀ v ∈ s, 0 < v) (ht : ∀ v ∈ t, 0 < v)
    (e : (load cfg input a h).result = .ok true)
    (hfit : PlanFits cfg.limit (load cfg input a h).attrs.treeSource.sourceValues (load cfg input a h).attrs.targetValues) :
    (∃ h' t' hist costs, Play ((load cfg input a h).attrs.problem cfg) (load cfg input a h).attrs.bestSize
      (load cfg input a h).attrs.treeSource.sourceValues h' t' hist costs ∧
      t'.sourceValues = (load cfg input a h).attrs.targetValues ∧
      costs.sum + (load cfg input a h).attrs.sizeOffset = (load cfg input a h).attrs.bestSize) ∧
    ∀ (O : Oracle) (fuel : Nat) (f : Search), O.stopAt = none →
      solve ((load cfg input a h).attrs.problem cfg) O fuel (load cfg input a h).heap (load cfg input a h).attrs.treeSource
        (load cfg input a h).attrs.bestSize = .ok f → f.solutions ≠ [] := by
  obtain ⟨hP, hsrc, hB0, hmin, _, hlim, hdvd, _⟩ := C22_search_assumptions hcfg hp hs ht e
  obtain ⟨s', t', hp', -, -, -, L⟩ := load_accepted e
  obtain ⟨rfl, rfl⟩ : s' = s ∧ t' = t := by
    have := hp'.symm.trans hp.1
    simpa using this
  generalize load cfg input a h = r at *
  have hne : r.attrs.targetValues ≠ [] := by
    intro hnil
    have := L.minTarget.1
    rw [hnil] at this
    simp at this
  obtain ⟨k, h1, h2, h3⟩ := L.bound
  have hoff := L.cost_nonneg hs ht
  rw [← L.sources] at h1 h3
  obtain ⟨g, g1, g2, g3⟩ := plan_play (P := r.attrs.problem cfg) (B := r.attrs.bestSize) (values := r.attrs.treeSource.sourceValues)
    hP hsrc.nonempty hsrc.pos hsrc.sorted hne L.targets_sorted (L.targets_pos hs ht) L.minTarget.2 (fun v hv => (hdvd v hv).2)
    (by rw [L.sources]; exact L.targets_sum)
    (by change PlanFits r.attrs.limit _ _; rw [hlim]; exact hfit) h1 h2 (by omega)
  obtain ⟨h', t1, loc, hist, costs, p1, p2⟩ := g1.play hP hsrc
  have hreach : t1.sourceValues = r.attrs.targetValues := by rw [p2.vals]; exact g2
  refine ⟨⟨h', t1, hist, costs, p1, hreach, ?_⟩, ?_⟩
  · have := (p1.history hP).2.2.1
    rw [← this, p2.size, g3, h3]
  · intro O fuel f hO hsolve
    exact (C38_optimal_partial hP hsrc hB0 hO hsolve p1 hreach).1

/-- `"2 4 to 1 5"`: the bound is 1 + 3 (merge, extract 1 out of 6). -/
example : Parsed "2 4 to 1 5".toList [2, 4] [1, 5] ∧ (Example.loaded "2 4 to 1 5").result = .ok true ∧
    (Example.loaded "2 4 to 1 5").attrs.bestSize = 4 ∧
    PlanFits config.limit (Example.loaded "2 4 to 1 5").attrs.treeSource.sourceValues (Example.loaded "2 4 to 1 5").attrs.targetValues := by
  have h1 : (Example.loaded "2 4 to 1 5").attrs.treeSource.sourceValues = [2, 4] := by decide +kernel
  have h2 : (Example.loaded "2 4 to 1 5").attrs.targetValues = [1, 5] := by decide +kernel
  have h3 : (config.limit : Int) = 1200 := by decide +kernel
  refine ⟨⟨by decide +kernel, by decide, by decide⟩, by decide +kernel, by decide +kernel, ?_⟩
  rw [h1, h2, h3]
  intro _
  decide

end Satis
