import Verif.Graph.Model
import Mathlib.Data.List.Perm.Subperm
import Mathlib.Data.List.Dedup
import Mathlib.Data.Set.Function
/-!
# Transcription of `Tree.to_nx_graph` and `Tree.__eq__`

`networkx.Graph()` is an undirected graph without repeated edges whose nodes are compared like dictionary keys, that is by
`node_id`. It is represented by the list of the edges added. `networkx.is_isomorphic` is not transcribed: it is specified by
`Isomorphic`, and decided by exhaustive search (`isoTest`, proved correct in `isoTest_iff`).
-/

namespace Satis.Graph
open Satis

/-- The edges of an undirected graph. -/
abbrev Edges := List (Uid × Uid)

variable {V : Type}

/-- `src/tree.py:33-36` `add_edges(node)` (second argument: fuel; on a cycle the code would raise `RecursionError`). -/
def addEdges (h : Heap V) : Nat → Addr → Py Edges
  | 0, _ => .error .diverge
  | fuel + 1, a => do
    let ess ← (h.get a).children.mapM fun c => do
      let es ← addEdges h fuel c
      return ((h.get a).id, (h.get c).id) :: es
    return ess.flatten

/-- `src/tree.py:29-41` `to_nx_graph()`. On a graph without cycles no path is longer than the number of objects. -/
def nxEdges (h : Heap V) (t : TreeObj V) : Py Edges := do
  let ess ← t.roots.mapM (addEdges h (h.next + 1))
  return ess.flatten

/-- The nodes of the graph: `add_edge` adds both ends. -/
def Edges.nodes (e : Edges) : List Uid := (e.flatMap fun p => [p.1, p.2]).dedup

/-- There is an edge between `x` and `y`. -/
def Edges.Adj (e : Edges) (x y : Uid) : Prop := (x, y) ∈ e ∨ (y, x) ∈ e

instance (e : Edges) (x y : Uid) : Decidable (e.Adj x y) := inferInstanceAs (Decidable (_ ∨ _))

/-- What `networkx.is_isomorphic` decides. -/
def Isomorphic (e1 e2 : Edges) : Prop :=
  ∃ f : Uid → Uid, Set.BijOn f {x | x ∈ e1.nodes} {x | x ∈ e2.nodes} ∧
    ∀ x ∈ e1.nodes, ∀ y ∈ e1.nodes, e1.Adj x y ↔ e2.Adj (f x) (f y)

/-- Extends the partial assignment `m` to the nodes in the first list, using the nodes in the second one. -/
def isoSearch (e1 e2 : Edges) : List Uid → List Uid → List (Uid × Uid) → Bool
  | [], l, _ => l.isEmpty
  | a :: as, l, m => l.any fun b =>
      ((decide (e1.Adj a a) == decide (e2.Adj b b)) && m.all fun p => decide (e1.Adj a p.1) == decide (e2.Adj b p.2)) &&
        isoSearch e1 e2 as (l.erase b) ((a, b) :: m)

/-- Decides `Isomorphic`. -/
def isoTest (e1 e2 : Edges) : Bool := isoSearch e1 e2 e1.nodes e2.nodes []

/-- `src/tree.py:43-45` `__eq__`. -/
def treeEq (h : Heap V) (t1 t2 : TreeObj V) : Py Bool := do
  let e1 ← nxEdges h t1
  let e2 ← nxEdges h t2
  return isoTest e1 e2

/-! ### The search for an isomorphism is exhaustive -/

theorem Edges.adj_comm (e : Edges) (x y : Uid) : e.Adj x y ↔ e.Adj y x := or_comm

theorem Edges.nodup_nodes (e : Edges) : e.nodes.Nodup := List.nodup_dedup _

/-- Two assignments agree with the edges. -/
def Agree (e1 e2 : Edges) (p q : Uid × Uid) : Prop := e1.Adj p.1 q.1 ↔ e2.Adj p.2 q.2

theorem Agree.symm {e1 e2 : Edges} {p q : Uid × Uid} (h : Agree e1 e2 p q) : Agree e1 e2 q p := by
  unfold Agree at *
  rw [e1.adj_comm, e2.adj_comm]; exact h

theorem isoSearch_iff (e1 e2 : Edges) : ∀ (as l : List Uid) (m : List (Uid × Uid)),
    isoSearch e1 e2 as l m = true ↔ ∃ bs : List Uid, bs.Perm l ∧ bs.length = as.length ∧
      (∀ p ∈ as.zip bs, ∀ q ∈ as.zip bs ++ m, Agree e1 e2 p q) := by
  intro as
  induction as with
  | nil =>
    intro l m
    simp only [isoSearch, List.isEmpty_iff]
    constructor
    · rintro rfl; exact ⟨[], List.Perm.refl _, rfl, by simp⟩
    · rintro ⟨bs, h1, h2, _⟩
      have : bs = [] := List.length_eq_zero_iff.1 h2
      subst this
      exact List.Perm.eq_nil h1.symm
  | cons a as ih =>
    intro l m
    simp only [isoSearch, List.any_eq_true, Bool.and_eq_true, beq_iff_eq, decide_eq_decide, List.all_eq_true, ih]
    constructor
    · rintro ⟨b, hb, ⟨h1, h2⟩, bs, h3, h4, h5⟩
      refine ⟨b :: bs, (h3.cons b).trans (List.perm_cons_erase hb).symm, by simp [h4], ?_⟩
      intro p hp q hq
      simp only [List.zip_cons_cons, List.mem_cons, List.cons_append, List.mem_append] at hp hq
      rcases hp with rfl | hp
      · rcases hq with rfl | hq | hq
        · exact h1
        · exact (h5 q hq (a, b) (by simp)).symm
        · exact h2 q hq
      · rcases hq with rfl | hq | hq
        · exact h5 p hp _ (by simp)
        · exact h5 p hp _ (by simp [hq])
        · exact h5 p hp _ (by simp [hq])
    · rintro ⟨bs, h1, h2, h3⟩
      match bs, h2 with
      | b :: bs, h2 =>
        have hb : b ∈ l := h1.subset (by simp)
        refine ⟨b, hb, ⟨h3 (a, b) (by simp) (a, b) (by simp), fun p hp => h3 (a, b) (by simp) p (by simp [hp])⟩, bs, ?_, ?_, ?_⟩
        · have := h1.trans (List.perm_cons_erase hb)
          exact this.cons_inv
        · simpa using h2
        · intro p hp q hq
          refine h3 p (by simp [hp]) q ?_
          simp only [List.mem_append, List.mem_cons, List.zip_cons_cons] at hq ⊢
          tauto

theorem isoTest_iff (e1 e2 : Edges) : isoTest e1 e2 = true ↔ Isomorphic e1 e2 := by
  unfold isoTest
  rw [isoSearch_iff]
  constructor
  · rintro ⟨bs, h1, h2, h3⟩
    have hn1 := e1.nodup_nodes
    have hnb : bs.Nodup := h1.nodup_iff.2 e2.nodup_nodes
    refine ⟨fun x => bs.getD (e1.nodes.idxOf x) 0, ?_, ?_⟩
    · have hget : ∀ x ∈ e1.nodes, ∃ i, ∃ (hi : i < e1.nodes.length) (hi' : i < bs.length), e1.nodes[i] = x ∧
          bs.getD (e1.nodes.idxOf x) 0 = bs[i] := by
        intro x hx
        have hi := List.idxOf_lt_length_iff.2 hx
        refine ⟨e1.nodes.idxOf x, hi, by omega, List.getElem_idxOf hi, ?_⟩
        rw [List.getD_eq_getElem?_getD, List.getElem?_eq_getElem (by omega), Option.getD_some]
      refine ⟨?_, ?_, ?_⟩
      · intro x hx
        obtain ⟨i, hi, hi', _, e⟩ := hget x hx
        show bs.getD (e1.nodes.idxOf x) 0 ∈ e2.nodes
        rw [e]
        exact h1.subset (List.getElem_mem _)
      · intro x hx y hy hxy
        obtain ⟨i, hi, hi', ei, e⟩ := hget x hx
        obtain ⟨j, hj, hj', ej, e'⟩ := hget y hy
        simp only [e, e'] at hxy
        have := (hnb.getElem_inj_iff).1 hxy
        subst this
        rw [← ei, ← ej]
      · intro y hy
        obtain ⟨i, hi, e⟩ := List.getElem_of_mem (h1.symm.subset hy)
        have hi' : i < e1.nodes.length := by omega
        refine ⟨e1.nodes[i], List.getElem_mem _, ?_⟩
        simp only [hn1.idxOf_getElem i hi']
        rw [List.getD_eq_getElem?_getD, List.getElem?_eq_getElem (by omega), Option.getD_some, e]
    · intro x hx y hy
      have hi := List.idxOf_lt_length_iff.2 hx
      have hj := List.idxOf_lt_length_iff.2 hy
      have hz : ∀ z ∈ e1.nodes, (z, bs.getD (e1.nodes.idxOf z) 0) ∈ e1.nodes.zip bs := by
        intro z hz
        have hi := List.idxOf_lt_length_iff.2 hz
        rw [List.getD_eq_getElem?_getD, List.getElem?_eq_getElem (by omega), Option.getD_some]
        have : (z, bs[e1.nodes.idxOf z]) = (e1.nodes.zip bs)[e1.nodes.idxOf z]'(by simp; omega) := by
          rw [List.getElem_zip, List.getElem_idxOf hi]
        rw [this]
        exact List.getElem_mem _
      exact h3 _ (hz x hx) (y, _) (by rw [List.append_nil]; exact hz y hy)
  · rintro ⟨f, ⟨h1, h2, h3⟩, h4⟩
    refine ⟨e1.nodes.map f, ?_, by simp, ?_⟩
    · refine (List.perm_ext_iff_of_nodup ?_ e2.nodup_nodes).2 ?_
      · exact List.Nodup.map_on (fun x hx y hy e => h2 hx hy e) e1.nodup_nodes
      · intro y
        rw [List.mem_map]
        constructor
        · rintro ⟨x, hx, rfl⟩; exact h1 hx
        · intro hy; obtain ⟨x, hx, e⟩ := h3 hy; exact ⟨x, hx, e⟩
    · intro p hp q hq
      simp only [List.append_nil] at hq
      have hz : ∀ p ∈ e1.nodes.zip (e1.nodes.map f), p.1 ∈ e1.nodes ∧ p.2 = f p.1 := by
        intro p hp
        obtain ⟨i, hi, e⟩ := List.getElem_of_mem hp
        rw [List.getElem_zip, List.getElem_map] at e
        rw [← e]
        exact ⟨List.getElem_mem _, rfl⟩
      obtain ⟨p1, p2⟩ := hz p hp
      obtain ⟨q1, q2⟩ := hz q hq
      have := h4 p.1 p1 q.1 q1
      unfold Agree
      rw [p2, q2]; exact this

end Satis.Graph
