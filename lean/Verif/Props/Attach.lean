import Verif.Solver.AttachFacts
import Verif.Props.Load
import Verif.Props.Solver
/-!
# Attaching the grouped targets to the solutions
-/

namespace Satis
open Satis.Utils Satis.Graph Satis.Solver Satis.Cost

section
variable {P : Problem} {O : Oracle} {h0 : Heap Int} {t0 : TreeObj Int} {values : List Int} {B : Int} {s : Search}

/-- The search leaves older objects as they are. -/
theorem Solver.Reached.ext (hP : P.WF) (hs : Source h0 t0 values) (hB : 0 ≤ B) (h : Reached P O h0 t0 B s) : Heap.Ext h0 s.heap := by
  induction h with
  | start =>
    have : (enqueue P O (initial h0 B) t0).heap = h0 := by
      unfold enqueue
      dsimp only
      split
      · rfl
      · split
        · split
          · rfl
          · unfold solutionFound
            split
            · rfl
            · split
              · split <;> rfl
              · rfl
        · rfl
    rw [this]; exact .refl _
  | @next s1 s2 b hv hr ih =>
    have hi1 := Reached.inv hP hs hB hv
    rcases round_ok hP hs.wf O hi1 with ⟨b', s', e, _, hround⟩ | ⟨e, _⟩
    · rw [e] at hr
      injection hr with hr; injection hr with _ hr
      subst hr
      cases hround with
      | over e1 _ => subst e1; exact ih
      | step _ e q n hperm ht _ => exact ih.trans ht.adv.ext
    · rw [e] at hr; simp at hr

theorem Solver.Reached.good (hP : P.WF) (hs : Source h0 t0 values) (hB : 0 ≤ B) (h : Reached P O h0 t0 B s) {t : TreeObj Int}
    (ht : s.Holds t) : Good s.heap (Reach s.heap t.roots) := by
  have hi := h.inv hP hs hB
  have : Made P B (Net.ofValues values) 0 s.heap t := by
    rcases ht with ⟨e, he, rfl⟩ | ht
    · exact (hi.queue e he).2.1
    · exact (hi.sols t ht).2.2.1
  obtain ⟨-, g, loc, hg, hr, -⟩ := this
  exact hr.good hg

end

variable {cfg : Config} {input : Str} {a : Attrs} {h : Heap Int} {sv tv : List ℚ} {O : Oracle} {s : Search} {t : TreeObj Int}

/-- The nodes of a solution and the grouped targets do not touch. -/
theorem Solver.separate (hcfg : cfg.speeds.Pairwise (· ≤ ·)) (hp : Parsed input sv tv) (hs : ∀ v ∈ sv, 0 < v) (ht : ∀ v ∈ tv, 0 < v)
    (e : (load cfg input a h).result = .ok true)
    (hr : Reached ((load cfg input a h).attrs.problem cfg) O (load cfg input a h).heap (load cfg input a h).attrs.treeSource
      (load cfg input a h).attrs.bestSize s) (hsol : t ∈ s.solutions) :
    ∃ inner leaves, Separate s.heap t (load cfg input a h).attrs.leaves inner leaves ∧
      Forest (load cfg input a h).heap (load cfg input a h).attrs.leaves inner leaves ∧
      Tagged (load cfg input a h).heap inner leaves ∧
      DivideCosts cfg s.heap inner (load cfg input a h).attrs.sizeOffset ∧
      Heap.Ext (load cfg input a h).heap s.heap ∧
      valuesOf s.heap leaves = valuesOf (load cfg input a h).heap leaves ∧
      Remains sv tv ((load cfg input a h).attrs.treeSource.sourceValues.map
          fun (z : ℤ) => (z : ℚ) / ((load cfg input a h).attrs.unitFlowRatio : ℚ))
        ((valuesOf (load cfg input a h).heap leaves).map fun (z : ℤ) => (z : ℚ) / ((load cfg input a h).attrs.unitFlowRatio : ℚ)) := by
  obtain ⟨hP, hsrc, hB, -⟩ := C22_search_assumptions hcfg hp hs ht e
  obtain ⟨s', t', hp', -, -, -, L⟩ := load_accepted e
  obtain ⟨rfl, rfl⟩ : s' = sv ∧ t' = tv := by
    have := hp'.symm.trans hp.1
    simpa using this
  have hext := hr.ext hP hsrc hB
  have hgood := hr.good hP hsrc hB (Or.inr hsol)
  have hvals := (C33_solutions_correct hP hsrc hB hr hsol).2.1
  have hwf := (C27_states_well_formed hP hsrc hB hr (Or.inr hsol))
  generalize load cfg input a h = r at *
  obtain ⟨hg, inner, I, hst, etv, hextg, h1, rts, e1, e2⟩ := L.grouped
  have hrange := I.node_range
  have hext2 : Heap.Ext hg s.heap := hextg.trans hext
  have hget : ∀ x ∈ inner ++ List.range' h.next (scaledTargets s' t').length, r.heap.get x = hg.get x :=
    fun x hx => hextg.get x (hrange x hx).2
  have hget2 : ∀ x ∈ inner ++ List.range' h.next (scaledTargets s' t').length, s.heap.get x = hg.get x :=
    fun x hx => hext2.get x (hrange x hx).2
  have hids : ∀ x, Reach r.heap r.attrs.treeSource.roots x → hg.nextUid ≤ (r.heap.get x).id := by
    obtain ⟨h', q, en, eu, _, enew⟩ := newNodes_spec [] none (scaledSources s' t') hg (fun v hv => le_of_lt ((scaled_pos hs ht).1 v hv))
    rw [e1] at q
    injection q with q; injection q with q3 q4
    subst q3; subst q4
    unfold newTree at e2
    injection e2 with q3 q4
    rw [q3, q4]
    have hfresh : ∀ x ∈ List.range' hg.next (scaledSources s' t').length,
        ((setLevels h1 (List.range' hg.next (scaledSources s' t').length) 0).get x).children = [] ∧
        hg.nextUid ≤ ((setLevels h1 (List.range' hg.next (scaledSources s' t').length) 0).get x).id := by
      intro x hx
      rw [setLevels_get, if_pos hx]
      rw [List.mem_range'_1] at hx
      obtain ⟨i, rfl⟩ : ∃ i, x = hg.next + i := ⟨x - hg.next, by omega⟩
      rw [enew i (by omega)]
      exact ⟨rfl, Nat.le_add_right _ _⟩
    intro x hx
    have : x ∈ List.range' hg.next (scaledSources s' t').length := by
      induction hx with
      | root hm => exact hm
      | @child x y _ hy ih => rw [(hfresh x ih).1] at hy; simp at hy
    exact (hfresh x this).2
  have hF := I.forest (scaled_pos hs ht).2
  have hvl : ∀ l, (∀ x ∈ l, x ∈ inner ++ List.range' h.next (scaledTargets s' t').length) →
      valuesOf s.heap l = valuesOf hg l := fun l hl => List.map_congr_left (fun x hx => by rw [hget2 x (hl x hx)])
  have hvl2 : ∀ l, (∀ x ∈ l, x ∈ inner ++ List.range' h.next (scaledTargets s' t').length) →
      valuesOf r.heap l = valuesOf hg l := fun l hl => List.map_congr_left (fun x hx => by rw [hget x (hl x hx)])
  refine ⟨inner, List.range' h.next (scaledTargets s' t').length, ⟨hgood, hF.ext hext2 (fun x hx => (hrange x hx).2), I.tops_nodup,
    fun x hx => lt_of_lt_of_le (hrange x hx).2 hext2.next, ?_, ?_, ?_, ?_⟩, hF.ext hextg (fun x hx => (hrange x hx).2),
    I.tagged.ext hget, I.costs.ext (fun x hx => hget2 x (List.mem_append_left _ hx)), hext, ?_, ?_⟩
  · intro x hx
    rw [hget2 x hx]
    exact (I.bare x (hrange x hx).1 (hrange x hx).2).1
  · intro x hx y hy exy
    rw [hget2 x hx, hget2 y hy] at exy
    have q1 := I.id x (hrange x hx).1 (hrange x hx).2
    have q2 := I.id y (hrange y hy).1 (hrange y hy).2
    omega
  · intro x hx y hy exy
    have q1 := I.id x (hrange x hx).1 (hrange x hx).2
    have q2 := hr.ids hP hsrc hB hids (Or.inr hsol) hy
    have q3 := I.uid
    have q4 := (hrange x hx).2
    rw [hget2 x hx] at exy
    omega
  · rw [hwf.cached, hvals]
    show r.attrs.targetValues = _
    rw [etv]
    exact List.map_congr_left (fun x hx => by rw [hext2.get x (I.tops_range x hx).2])
  · rw [hvl _ (fun x hx => List.mem_append_right _ hx), hvl2 _ (fun x hx => List.mem_append_right _ hx)]
  · rw [hvl2 _ (fun x hx => List.mem_append_right _ hx)]
    have : valuesOf hg (List.range' h.next (scaledTargets s' t').length) = scaledTargets s' t' := I.values
    rw [this, L.sources, L.ratio]
    have hd : (fun (z : ℤ) => (z : ℚ) / (ratio s' t' : ℚ)) = fun (z : ℤ) => (z : ℚ) * (1 / (ratio s' t' : ℚ)) := by
      funext z; ring
    rw [hd]
    rw [← of_cast (ratio_pos' s' t') (scaled_cast s' t').1, ← of_cast (ratio_pos' s' t') (scaled_cast s' t').2]
    exact reduced_remains s' t'

/-! ## C40 -/

/-- C40. Attaching the grouped targets to a solution ends without exception (the assertion on the number of leaves holds). The
result is a graph that conserves flow, without cycles, with the same roots and the same size; its sources are the nodes without
children, sorted by value, and their values are those of the leaves below the targets; it has the nodes of the solution and the
nodes of the grouped targets except for the roots of the groups, whose place is taken by the sources of the solution. -/
theorem C40_attached (hcfg : cfg.speeds.Pairwise (· ≤ ·)) (hp : Parsed input sv tv) (hs : ∀ v ∈ sv, 0 < v) (ht : ∀ v ∈ tv, 0 < v)
    (e : (load cfg input a h).result = .ok true)
    (hr : Reached ((load cfg input a h).attrs.problem cfg) O (load cfg input a h).heap (load cfg input a h).attrs.treeSource
      (load cfg input a h).attrs.bestSize s) (hsol : t ∈ s.solutions) :
    ∃ inner leaves fuel h' t', Forest (load cfg input a h).heap (load cfg input a h).attrs.leaves inner leaves ∧
      (∀ fuel', fuel ≤ fuel' → t.attachLeaves fuel' s.heap (load cfg input a h).attrs.leaves = .ok (h', t')) ∧
      FlowGraph h' t' (load cfg input a h).attrs.treeSource.sourceValues ∧ Layered h' t' ∧
      WellFormed h' t' (load cfg input a h).attrs.treeSource.sourceValues.sum ∧
      (valuesOf h' t'.sources).Perm (valuesOf (load cfg input a h).heap leaves) ∧ t'.roots = t.roots ∧ t'.size = t.size ∧
      ∀ x, Reach h' t'.roots x ↔ Reach s.heap t.roots x ∨ (x ∈ inner ++ leaves ∧ x ∉ (load cfg input a h).attrs.leaves) := by
  obtain ⟨hP, hsrc, hB, -⟩ := C22_search_assumptions hcfg hp hs ht e
  obtain ⟨inner, leaves, S, hF, -, -, -, hv, -⟩ := separate hcfg hp hs ht e hr hsol
  obtain ⟨fuel, h', t', q1, q2, q3, q4, q5, q6, q7, q8, -⟩ := attachLeaves_spec S
    (C27_states_well_formed hP hsrc hB hr (Or.inr hsol)) (C29_states_layered hP hsrc hB hr (Or.inr hsol))
    (C33_solutions_correct hP hsrc hB hr hsol).1 hsrc.nonempty
  exact ⟨inner, leaves, fuel, h', t', hF, q1, q4, q3, q2, by rw [← hv]; exact q7, q5, q6, q8⟩

/-! ## C61 -/

/-- C61. From an accepted input with positive values, a run that is not stopped ends, and every solution it reports becomes, with the
targets attached, a graph without cycles that conserves flow, from the sources that remain of the request to the targets that remain
of it: what enters at the roots and what leaves at the nodes without children, in the unit of the request, are the requested
values, after one value has been added on the side of smaller total and equal values have been cancelled. -/
theorem C61_request_answered (hcfg : cfg.speeds.Pairwise (· ≤ ·)) (hp : Parsed input sv tv) (hs : ∀ v ∈ sv, 0 < v)
    (ht : ∀ v ∈ tv, 0 < v) (e : (load cfg input a h).result = .ok true) (hO : O.stopAt = none) :
    ∃ fuel f, (∀ fuel', fuel ≤ fuel' → solve ((load cfg input a h).attrs.problem cfg) O fuel' (load cfg input a h).heap
        (load cfg input a h).attrs.treeSource (load cfg input a h).attrs.bestSize = .ok f) ∧
      ∀ t ∈ f.solutions, ∃ n h' t' values, (∀ n', n ≤ n' → t.attachLeaves n' f.heap (load cfg input a h).attrs.leaves = .ok (h', t')) ∧
        FlowGraph h' t' values ∧ Layered h' t' ∧ t'.sources.Nodup ∧
        (∀ x, x ∈ t'.sources ↔ Reach h' t'.roots x ∧ (h'.get x).children = []) ∧
        ∃ T, Remains sv tv (values.map fun (z : ℤ) => (z : ℚ) / ((load cfg input a h).attrs.unitFlowRatio : ℚ)) T ∧
          (t'.sources.map fun x => (((h'.get x).value : ℤ) : ℚ) / ((load cfg input a h).attrs.unitFlowRatio : ℚ)).Perm T := by
  obtain ⟨hP, hsrc, hB, -⟩ := C22_search_assumptions hcfg hp hs ht e
  obtain ⟨fuel, f, hf⟩ := C35_terminates (O := O) hP hsrc hB hO
  refine ⟨fuel, f, hf, ?_⟩
  intro t hsol
  have hr : Reached ((load cfg input a h).attrs.problem cfg) O (load cfg input a h).heap (load cfg input a h).attrs.treeSource
      (load cfg input a h).attrs.bestSize f := solveLoop_visited O .start (hf fuel le_rfl)
  obtain ⟨inner, leaves, S, hF, -, -, -, hv, hrem⟩ := separate hcfg hp hs ht e hr hsol
  obtain ⟨n, h', t', q1, q2, q3, q4, q5, q6, q7, q8, -⟩ := attachLeaves_spec S
    (C27_states_well_formed hP hsrc hB hr (Or.inr hsol)) (C29_states_layered hP hsrc hB hr (Or.inr hsol))
    (C33_solutions_correct hP hsrc hB hr hsol).1 hsrc.nonempty
  refine ⟨n, h', t', _, q1, q4, q3, q2.distinct, q2.leaves, _, hrem, ?_⟩
  rw [← hv]
  have := q7.map fun (z : ℤ) => (z : ℚ) / ((load cfg input a h).attrs.unitFlowRatio : ℚ)
  unfold valuesOf at this ⊢
  rw [List.map_map] at this
  exact this

/-- What attaching yields for the solutions of a run: the loaded sources and targets, and the values of the sources of each solution
after attaching. -/
def Solver.Example.attachedValues (input : String) (fuel : Nat) : Py (List Int × List Int × List (List Int)) :=
  let r := Example.loaded input
  match solve (r.attrs.problem config) (Example.oracle r.attrs.targetValues none) fuel r.heap r.attrs.treeSource r.attrs.bestSize with
  | .error e => .error e
  | .ok s => .ok (r.attrs.treeSource.sourceValues, r.attrs.targetValues, s.solutions.map fun t =>
      match t.attachLeaves 100 s.heap r.attrs.leaves with
      | .error _ => []
      | .ok (h, t) => valuesOf h t.sources)

/-- `"2 4 to 1 1 1 3"`: the target 6 stands for two threes, one of which stands for three ones; the sources are merged. -/
example : Parsed "2 4 to 1 1 1 3".toList [2, 4] [1, 1, 1, 3] ∧ (Example.loaded "2 4 to 1 1 1 3").result = .ok true ∧
    Example.attachedValues "2 4 to 1 1 1 3" 100 = .ok ([2, 4], [6], [[1, 1, 1, 3]]) :=
  ⟨⟨by decide +kernel, by decide, by decide⟩, by decide +kernel, by decide +kernel⟩

end Satis
