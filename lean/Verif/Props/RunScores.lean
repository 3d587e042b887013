import Verif.Props.Load
import Verif.Props.Score
/-!
# The scores of a run (C58)
-/

namespace Satis
open Satis.Utils Satis.Graph Satis.Solver Satis.Solver.Example Satis.Cost Satis.Solver.Score

variable {cfg : Config} {input : Str} {a : Attrs} {h : Heap Int} {sv tv : List ℚ} {O : Oracle} {s : Search}

/-- C58 for whole runs: whatever was asked for, and however the search went, every tree that waits in the queue has a score: computing it raises nothing. It is
not negative, at least the square of the number of targets that are reached, and below that of a solution by at least 2/3. (The search itself is modelled with
arbitrary scores.) -/
theorem C58_run_scores (hcfg : cfg.speeds.Pairwise (· ≤ ·)) (hp : Parsed input sv tv) (hs : ∀ v ∈ sv, 0 < v) (ht : ∀ v ∈ tv, 0 < v)
    (e : (load cfg input a h).result = .ok true)
    (hr : Reached ((load cfg input a h).attrs.problem cfg) O (load cfg input a h).heap (load cfg input a h).attrs.treeSource
      (load cfg input a h).attrs.bestSize s) : ∀ q ∈ s.queue, ∃ x, compute cfg (load cfg input a h).attrs.targetValues q.1.sourceValues = .ok x ∧ 0 ≤ x ∧
        (matched q.1.sourceValues (load cfg input a h).attrs.targetValues : ℚ) ^ 2 ≤ x ∧
        x ≤ ((load cfg input a h).attrs.nTargets : ℚ) ^ 2 - 2 / 3 := by
  intro q hq
  obtain ⟨hP, hsrc, hB, -, hn, -⟩ := C22_search_assumptions hcfg hp hs ht e
  have hW := C27_states_well_formed hP hsrc hB hr (t := q.1) (Or.inl ⟨q, hq, rfl⟩)
  have hne := ((hr.inv hP hsrc hB).queue q hq).1
  have hne : q.1.sourceValues ≠ (load cfg input a h).attrs.targetValues := hne
  obtain ⟨s', t', hp', -, -, -, L⟩ := load_accepted e
  have hsum := L.targets_sum
  have hsrt := L.targets_sorted
  have hsv := L.sources
  generalize load cfg input a h = r at *
  have hpos : ∀ v ∈ q.1.sourceValues, 0 < v := by
    intro v hv
    rw [hW.cached] at hv
    obtain ⟨b, hb, rfl⟩ := List.mem_map.1 hv
    exact hW.positive b ((hW.leaves b).1 hb).1
  have htot : q.1.sourceValues.sum = r.attrs.targetValues.sum := by
    rw [hW.cached, hW.total, hsum, hsv]
  have hperm : ¬ q.1.sourceValues.Perm r.attrs.targetValues := fun w =>
    hne (w.eq_of_pairwise (fun a b _ _ h1 h2 => le_antisymm h1 h2) (by rw [hW.cached]; exact hW.sorted) (hsrt.imp fun w => le_of_lt w))
  obtain ⟨x, e1, e2, e3⟩ := C58_score_defined cfg (targets := r.attrs.targetValues) hpos
  obtain ⟨y, f1, f2⟩ := C58_full_score_partial cfg hpos htot hperm
  rw [e1] at f1
  cases f1
  exact ⟨x, e1, e3, e2, by rw [hn]; exact f2⟩

/-- After one round for `"10 to 1 2 7"` seven trees wait, with these sources and scores. -/
example : (loaded "10 to 1 2 7").result.toOption = some true ∧
    (match Solver.round ((loaded "10 to 1 2 7").attrs.problem config) (oracle [1, 2, 7] none)
        (enqueue ((loaded "10 to 1 2 7").attrs.problem config) (oracle [1, 2, 7] none) (initial (loaded "10 to 1 2 7").heap (loaded "10 to 1 2 7").attrs.bestSize)
          (loaded "10 to 1 2 7").attrs.treeSource) with
      | .error _ => []
      | .ok (_, s) => s.queue.map fun (q : TreeObj Int × ℚ) => (q.1.sourceValues, (compute config [1, 2, 7] q.1.sourceValues).toOption)) =
    [([5, 5], some (1 / 6)), ([4, 6], some (3 / 4)), ([1, 1, 1, 1, 1, 1, 1, 1, 1, 1], some (12373 / 12264)), ([2, 2, 2, 2, 2], some (73 / 60)),
      ([1, 9], some (3 / 2)), ([2, 8], some (3 / 2)), ([3, 7], some 2)] := by
  decide +kernel

end Satis
