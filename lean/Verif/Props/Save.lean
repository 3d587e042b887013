import Verif.Graph.Conclude
import Verif.Graph.ExpandExample
import Verif.Props.Load
/-!
# Saving solutions
-/

namespace Satis
open Satis.Graph Satis.Graph.Example Satis.Solver Satis.Solver.Example

/-! ## C48 — saved data can be loaded -/

/-- C48. Loading what was saved rebuilds the graph: there is a one-to-one correspondence `f` between the nodes linked to the saved one
(by children and parents) and the new nodes, which have the same ids, values, levels and pending expansions, and `f` of the parents
and children in the same order. The result is the list of the new nodes of level 0. Nothing that existed before is changed. -/
theorem C48_round_trip (h : Heap ℚ) (U : Addr → Prop) (H : Region h U) (root : Addr) (hr : U root) (hv : ∀ a, U a → 0 ≤ (h.get a).value)
    (h0 : Heap ℚ) :
    ∃ data h' roots f, Settles (fun fuel => wrap fuel h root) (.ok data) ∧ unwrap h0 data = .ok (h', roots) ∧
      (∀ a b, Connected h root a → Connected h root b → f a = f b → a = b) ∧
      (∀ x, h0.next ≤ x ∧ x < h'.next ↔ ∃ a, Connected h root a ∧ f a = x) ∧
      (∀ a, Connected h root a → (h'.get (f a)).id = (h.get a).id ∧ (h'.get (f a)).value = (h.get a).value ∧
        (h'.get (f a)).level = (h.get a).level ∧ (h'.get (f a)).expands = (h.get a).expands ∧
        (h'.get (f a)).parents = (h.get a).parents.map f ∧ (h'.get (f a)).children = (h.get a).children.map f) ∧
      roots.Nodup ∧ (∀ x, x ∈ roots ↔ ∃ a, Connected h root a ∧ (h.get a).level = some 0 ∧ f a = x) ∧
      ∀ x, x < h0.next → h'.get x = h0.get x := by
  obtain ⟨order, hnd, hmem, hset⟩ := wrap_settles H root hr
  have hU : ∀ a ∈ order, U a := fun a ha => ((hmem a).1 ha).inside H hr
  obtain ⟨h', e, hn, -, hold, hget⟩ := unwrap_spec h h0 order hnd (fun a ha => not_lt.2 (hv a (hU a ha)))
    (fun a ha b hb => H.ids a b (hU a ha) (hU b hb)) (fun a ha c hc => (hmem c).2 (((hmem a).1 ha).child hc))
    (fun a ha c hc => (hmem c).2 (((hmem a).1 ha).parent hc))
  have inj : ∀ a b, a ∈ order → b ∈ order → h0.next + order.idxOf a = h0.next + order.idxOf b → a = b := by
    intro a b ha hb e
    exact (List.idxOf_inj ha).1 (by omega)
  refine ⟨_, h', _, fun a => h0.next + order.idxOf a, hset, e, fun a b ha hb => inj a b ((hmem a).2 ha) ((hmem b).2 hb), ?_, ?_, ?_, ?_, hold⟩
  · intro x
    rw [hn]
    constructor
    · rintro ⟨h1, h2⟩
      have hlt : x - h0.next < order.length := by omega
      refine ⟨order[x - h0.next], (hmem _).1 (List.getElem_mem hlt), ?_⟩
      simp only [hnd.idxOf_getElem]
      omega
    · rintro ⟨a, ha, rfl⟩
      simp only
      have := List.idxOf_lt_length_of_mem ((hmem a).2 ha)
      omega
  · intro a ha
    rw [hget a ((hmem a).2 ha)]
    exact ⟨rfl, rfl, rfl, rfl, rfl, rfl⟩
  · refine List.Nodup.map_on (fun a ha b hb => inj a b ?_ ?_) (hnd.filter _)
    · exact (List.mem_filter.1 ha).1
    · exact (List.mem_filter.1 hb).1
  · intro x
    simp only [List.mem_map, List.mem_filter, decide_eq_true_eq, hmem, and_assoc]

/-- Something to save: `5` extracted from `8`, with the extraction pending; its data, and how it looks when it is loaded into a heap that
holds it already. -/
example : Region (extracted 8 5) (· < (extracted 8 5).next) ∧ (∀ a, a < (extracted 8 5).next → 0 ≤ ((extracted 8 5).get a).value) ∧
    (wrap 10 (extracted 8 5) 0).toOption = some
      [⟨8, 0, some 0, [], [1, 2], [.extract 5]⟩, ⟨3, 1, some 1, [0], [], []⟩, ⟨5, 2, some 1, [0], [], []⟩] ∧
    ((unwrap (extracted 8 5) ((wrap 10 (extracted 8 5) 0).toOption.getD [])).toOption.map fun r => (shape r.1, r.2)) = some
      ([(8, [], [1, 2]), (3, [0], []), (5, [0], []), (8, [], [4, 5]), (3, [3], []), (5, [3], [])], [3]) :=
  ⟨region_all (by decide +kernel), by decide +kernel, by decide +kernel, by decide +kernel⟩

/-! ## C49 — saved data is complete -/

/-- C49 for networks in one part: saving ends, and if all roots are linked to the first then the data holds one entry for each node of
the network (and nothing else, if what is linked to the first root can be reached). Missing: networks of several parts, for which the
claim is false. -/
theorem C49_data_complete_partial (h : Heap ℚ) (U : Addr → Prop) (H : Region h U) (root : Addr) (roots : List Addr)
    (hr : ∀ r ∈ root :: roots, U r) (hc : ∀ r ∈ roots, Connected h root r) :
    ∃ h' g data, Settles (fun fuel => saveNodes fuel h (root :: roots)) (.ok (h', g, data)) ∧ (data.map fun d => d.id).Nodup ∧
      (∀ a, Reach h (root :: roots) a → nodeData h' a ∈ data) ∧ ∀ d ∈ data, ∃ a, Connected h root a ∧ nodeData h' a = d := by
  have H' := (setLevels_same h (root :: roots) 0).region H
  obtain ⟨shown, order, -, -, hnd, hmem, hset⟩ := saveNodes_settles H root roots hr
  have hU : ∀ a ∈ order, U a := fun a ha => ((hmem a).1 ha).inside H (hr root (by simp))
  refine ⟨_, _, _, hset, ?_, ?_, ?_⟩
  · rw [List.map_map]
    exact hnd.map_on fun a ha b hb => H'.ids a b (hU a ha) (hU b hb)
  · intro a ha
    have : Connected h root a := by
      induction ha with
      | root hm =>
        rcases List.mem_cons.1 hm with rfl | hm
        · exact .root
        · exact hc _ hm
      | child _ hb ih => exact ih.child hb
    exact List.mem_map_of_mem ((hmem a).2 this)
  · intro d hd
    obtain ⟨a, ha, rfl⟩ := List.mem_map.1 hd
    exact ⟨a, (hmem a).1 ha, rfl⟩

/-- The whole way of a request: loading and searching (with enough fuel). The result: the heap, the leaves of the grouped targets, and the
solutions. -/
def found (input : String) (fuel : Nat) : Py (Heap ℚ × List Addr × List (TreeObj ℚ)) :=
  let r := Example.loaded input
  match solve (r.attrs.problem config) (Example.oracle r.attrs.targetValues none) fuel r.heap r.attrs.treeSource r.attrs.bestSize with
  | .error e => .error e
  | .ok s => .ok (s.heap.toRat, r.attrs.leaves, s.solutions.map TreeObj.toRat)

/-- What is written for each solution. -/
def saved (input : String) (fuel : Nat) : Py (List (Saved ℚ × Saved ℚ)) := do
  let (h, leaves, ts) ← found input fuel
  let x ← concludeAll config fuel leaves h ts
  return x.2

example : (saved "8 to 5 3" 100).toOption.map (fun l => l.map fun x => (x.1.1.nodes.length, x.1.2.length, x.2.1.nodes.length, x.2.2.length)) =
    some [(3, 3, 4, 4)] := by decide +kernel

/-- C49 is false for networks of several parts: for `"4 6 to 2 2 3 3"` the solution divides each source by two; the drawing shows all six
nodes, the data holds the three nodes of the first part. -/
theorem C49_data_complete_false : (saved "4 6 to 2 2 3 3" 100).toOption.map (fun l => l.map fun x =>
      (x.1.1.nodes.map fun n => n.2.1, x.1.2.map fun d => d.value)) = some [([4, 2, 2, 6, 3, 3], [4, 2, 2])] := by
  decide +kernel

/-! ## C41 — several solutions -/

/-- The checks on the run below, in one: three solutions are found, each of them can be saved alone, and after the first has been saved
the nodes 7 and 178, below the second, are children of each other. -/
def cyclic (x : Heap ℚ × List Addr × List (TreeObj ℚ)) : Bool :=
  match x with
  | (h, leaves, [t₁, t₂, t₃]) =>
    match concludeAll config 100 leaves h [t₁], concludeAll config 100 leaves h [t₂], concludeAll config 100 leaves h [t₃] with
    | .ok (h₁, _), .ok _, .ok _ =>
      let s := ((t₂.sources.take t₂.nSources).zip leaves).foldl attachOne (h₁, [])
      decide (leaves.length = t₂.nSources) && decide (t₂.nSources ≤ t₂.sources.length) &&
        decide (178 ∈ (s.1.get 7).children) && decide (7 ∈ (s.1.get 178).children) && decide (t₂.levels ≠ []) &&
        s.2.all (fun l => decide (l ≠ [])) && s.2.any fun l => decide (7 ∈ l)
    | _, _, _ => false
  | _ => false

theorem cyclic_run : (match found "12 to 1 1 1 1 1 5 2" 100 with | .ok x => cyclic x | .error _ => false) = true := by decide +kernel

/-- C41 is false: for `"12 to 1 1 1 1 1 5 2"` the search finds three solutions. Each of them can be saved alone, but saving them one after
the other does not end: the grouped targets are shared, the first time they are expanded a cycle is made among them (the splitter that
loops one of six branches back), and attaching them to the second solution follows it forever. -/
theorem C41_conclude_false : ∃ h leaves ts, found "12 to 1 1 1 1 1 5 2" 100 = .ok (h, leaves, ts) ∧ ts.length = 3 ∧
    (∀ t ∈ ts, ∃ x, Settles (fun fuel => concludeAll config fuel leaves h [t]) (.ok x)) ∧
    ∀ fuel, concludeAll config fuel leaves h ts = .error .diverge := by
  have key := cyclic_run
  cases hf : found "12 to 1 1 1 1 1 5 2" 100 with
  | error e => rw [hf] at key; cases key
  | ok x =>
    rw [hf] at key
    simp only at key
    clear hf
    obtain ⟨h, leaves, ts⟩ := x
    match ts, key with
    | [t₁, t₂, t₃], key =>
      refine ⟨h, leaves, [t₁, t₂, t₃], rfl, rfl, ?_⟩
      unfold cyclic at key
      simp only at key
      split at key
      · next h₁ s₁ x₂ x₃ e1 e2 e3 =>
        simp only [Bool.and_eq_true, decide_eq_true_eq, List.all_eq_true, List.any_eq_true] at key
        obtain ⟨⟨⟨⟨⟨⟨k1, k2⟩, k3⟩, k4⟩, k5⟩, k6⟩, l, k7, k8⟩ := key
        refine ⟨?_, fun fuel => concludeAll_diverges e1 (fun fuel => ?_) fuel⟩
        · intro t ht
          simp only [List.mem_cons, List.not_mem_nil, or_false] at ht
          rcases ht with rfl | rfl | rfl
          · exact ⟨_, (concludeAll_stable _ _ _ _).settles (by simp) e1⟩
          · exact ⟨_, (concludeAll_stable _ _ _ _).settles (by simp) e2⟩
          · exact ⟨_, (concludeAll_stable _ _ _ _).settles (by simp) e3⟩
        · unfold TreeObj.attachLeaves
          rw [if_neg (by simpa using k1), if_neg (by omega)]
          refine attachLoop_diverges [7, 178] fuel _ _ _ ?_ k5 k6 ⟨l, k7, 7, k8, by simp⟩
          intro a ha
          simp only [List.mem_cons, List.not_mem_nil, or_false] at ha
          rcases ha with rfl | rfl
          · exact ⟨178, k3, by simp⟩
          · exact ⟨7, k4, by simp⟩
      · cases key

end Satis
