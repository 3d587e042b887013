import Verif.Graph.Descent
import Verif.Props.Duplicates
/-!
# How often `to_nx_graph` enters a node
-/

namespace Satis
open Satis.Graph Satis.Solver

/-! ## C106 — one call for each way down -/

/-- C106, one root: with room for `n` nested calls `add_edges` returns if and only if every way down has fewer than `n` steps, and otherwise raises. If it
returns then it has added one edge for each way down of at least one step. -/
theorem C106_calls {V : Type} (h : Heap V) (n : Nat) (a : Addr) :
    ((∀ p b, Descent h a p b → p.length < n) → ∃ (e : Edges) (R : List (List Nat)), addEdges h n a = .ok e ∧ R.Nodup ∧
      (∀ p, p ∈ R ↔ p ≠ [] ∧ ∃ b, Descent h a p b) ∧ e.length = R.length) ∧
    ((∃ p b, Descent h a p b ∧ n ≤ p.length) → addEdges h n a = .error .diverge) := by
  constructor
  · intro hd
    obtain ⟨e, he⟩ := (addEdges_ok_iff h n a).2 hd
    obtain ⟨n, rfl⟩ : ∃ m, n = m + 1 := ⟨n - 1, by have := hd [] a .here; omega⟩
    refine ⟨e, descents h n a, he, descents_nodup h n a, fun p => ?_, addEdges_length h n a e he⟩
    rw [mem_descents]
    exact ⟨fun ⟨h1, _, h2⟩ => ⟨h1, h2⟩, fun ⟨h1, b, h2⟩ => ⟨h1, by have := hd p b h2; omega, b, h2⟩⟩
  · rintro ⟨p, b, hp, hn⟩
    cases he : addEdges h n a with
    | ok e => exact absurd ((addEdges_ok_iff h n a).1 ⟨e, he⟩ p b hp) (by omega)
    | error x => rw [addEdges_error h n a x he]

theorem Descent.trans {V : Type} {h : Heap V} {a b c : Addr} {p q : List Nat} (h1 : Descent h a p b) (h2 : Descent h b q c) : Descent h a (p ++ q) c := by
  induction h1 with
  | here => exact h2
  | down hc _ ih => exact .down hc (ih h2)

/-- C106, cycles: if a way down leads round a cycle then `add_edges` raises, whatever the room for nested calls. -/
theorem C106_cycle {V : Type} (h : Heap V) (a b : Addr) (p q : List Nat) (hp : Descent h a p b) (hq : Descent h b q b) (hne : q ≠ []) (n : Nat) :
    addEdges h n a = .error .diverge := by
  have key : ∀ k, ∃ q', Descent h b q' b ∧ k ≤ q'.length := by
    intro k
    induction k with
    | zero => exact ⟨[], .here, Nat.zero_le _⟩
    | succ k ih =>
      obtain ⟨q', h1, h2⟩ := ih
      refine ⟨q ++ q', Descent.trans hq h1, ?_⟩
      have := List.length_pos_iff.2 hne
      rw [List.length_append]
      omega
  obtain ⟨q', h1, h2⟩ := key n
  refine (C106_calls h n a).2 ⟨p ++ q', b, Descent.trans hp h1, ?_⟩
  rw [List.length_append]
  omega

/-- C106, the trees that are compared: `to_nx_graph` adds one edge for each way down of at least one step from a root. -/
theorem C106_search {P : Problem} {B : Int} {values : List Int} (hP : P.WF) {h : Heap Int} {t : TreeObj Int} {hist : List (List Int)} {costs : List Int}
    (hp : Play P B values h t hist costs) :
    ∃ (e : Edges) (R : List (Nat × List Nat)), nxEdges h t = .ok e ∧ R.Nodup ∧
      (∀ i p, (i, p) ∈ R ↔ p ≠ [] ∧ ∃ r b, t.roots[i]? = some r ∧ Descent h r p b) ∧ e.length = R.length := by
  obtain ⟨e, he, -⟩ := hp.edges hP
  refine ⟨e, t.roots.zipIdx.flatMap fun x => (descents h h.next x.1).map (Prod.mk x.2), he, ?_, fun i p => ?_, ?_⟩
  · rw [List.nodup_flatMap]
    refine ⟨fun x _ => (descents_nodup h _ _).map fun p q e => (Prod.mk.inj e).2, ?_⟩
    have hnd : (t.roots.zipIdx.map Prod.snd).Nodup := by
      rw [List.zipIdx_map_snd]
      exact List.nodup_range'
    refine (List.pairwise_map.1 hnd).imp ?_
    rintro ⟨c, i⟩ ⟨d, j⟩ hij x hx hy
    obtain ⟨p, -, rfl⟩ := List.mem_map.1 hx
    obtain ⟨q, -, e⟩ := List.mem_map.1 hy
    exact hij (Prod.mk.inj e).1.symm
  · have he' : ∀ r ∈ t.roots, ∃ e, addEdges h (h.next + 1) r = .ok e := by
      unfold nxEdges at he
      cases hm : t.roots.mapM (addEdges h (h.next + 1)) with
      | error x => rw [hm] at he; cases he
      | ok ess =>
        have := (mapM_ok_iff _ _ _).1 hm
        clear hm he
        generalize t.roots = rs at this
        induction this with
        | nil => simp
        | cons h1 _ ih => exact fun r hr => (List.mem_cons.1 hr).elim (fun e => ⟨_, e ▸ h1⟩) (ih r)
    rw [List.mem_flatMap]
    constructor
    · rintro ⟨⟨r, j⟩, hr, hm⟩
      obtain ⟨q, hq, e⟩ := List.mem_map.1 hm
      cases e
      obtain ⟨h1, -, b, h2⟩ := (mem_descents h _ _ _).1 hq
      exact ⟨h1, r, b, List.mem_zipIdx_iff_getElem?.1 hr, h2⟩
    · rintro ⟨h1, r, b, hr, h2⟩
      refine ⟨(r, i), List.mem_zipIdx_iff_getElem?.2 hr, List.mem_map_of_mem ((mem_descents h _ _ _).2 ⟨h1, ?_, b, h2⟩)⟩
      have := (addEdges_ok_iff h _ r).1 (he' r (List.mem_of_getElem? hr)) p b h2
      omega
  · unfold nxEdges at he
    cases hm : t.roots.mapM (addEdges h (h.next + 1)) with
    | error x => rw [hm] at he; cases he
    | ok ess =>
      rw [hm] at he
      cases he
      have := (mapM_ok_iff _ _ _).1 hm
      clear hm
      have key : ∀ (rs : List Addr) (ess : List Edges) (k : Nat), List.Forall₂ (fun r es => addEdges h (h.next + 1) r = .ok es) rs ess →
          ess.flatten.length = ((rs.zipIdx k).flatMap fun x => (descents h h.next x.1).map (Prod.mk x.2)).length := by
        intro rs ess k hf
        induction hf generalizing k with
        | nil => rfl
        | cons h1 _ ih =>
          rw [List.zipIdx_cons, List.flatten_cons, List.flatMap_cons, List.length_append, List.length_append, ih (k + 1), List.length_map,
            addEdges_length h _ _ _ h1]
      exact key _ _ 0 this

theorem NPlay.cur {P : Problem} (hP : P.WF) {B : Int} {g0 g : Net} (hg0 : g0.WF) (h0 : g0.cur = g0.past.items.length) (hn : NPlay P B g0 g) :
    g.cur = g.past.items.length := by
  induction hn with
  | start => exact h0
  | @move g1 g2 hpl hs ih =>
    obtain ⟨op, cost, -, -, rfl, -⟩ := hs
    have hc : (g1.child P.cfg op cost).cur = g1.cur + 1 := by cases op <;> rfl
    rw [child_past_items (hpl.wf hP hg0), hc, ih, List.length_append]
    simp

theorem Play.costs_pos {P : Problem} {B : Int} {values : List Int} (hP : P.WF) {h : Heap Int} {t : TreeObj Int} {hist : List (List Int)}
    {costs : List Int} (hp : Play P B values h t hist costs) : ∀ c ∈ costs, 1 ≤ c := by
  induction hp with
  | start => simp
  | move hp h1 _ _ _ ih =>
    obtain ⟨g, loc, hn, hr, hg0⟩ := hp.net hP
    have hg := hn.wf hP hg0
    rw [hr.vals, Permitted.congr (fun i v => hr.pastOf_iff hg i v)] at h1
    intro c hc
    rcases List.mem_append.1 hc with hc | hc
    · exact ih c hc
    · rw [List.mem_singleton.1 hc]; exact (h1.adm hP hg).2
  | other _ _ ih => exact ih

theorem Play.moves {P : Problem} {B : Int} {values : List Int} (hP : P.WF) {h : Heap Int} {t : TreeObj Int} {hist : List (List Int)} {costs : List Int}
    (hp : Play P B values h t hist costs) : t.currentLevel = costs.length ∧ (costs.length : Int) ≤ t.size := by
  obtain ⟨h1, -, h2, h3⟩ := hp.history hP
  constructor
  · obtain ⟨g, loc, hn, hr, hg0⟩ := hp.net hP
    rw [hr.cur, NPlay.cur hP hg0 rfl hn, ← hr.past]
    rw [h1, List.length_append] at h3
    simpa using h3
  · rw [h2]
    have key : ∀ l : List Int, (∀ c ∈ l, 1 ≤ c) → (l.length : Int) ≤ l.sum := by
      intro l
      induction l with
      | nil => simp
      | cons x xs ih =>
        intro hl
        have h4 := ih fun c hc => hl c (List.mem_cons_of_mem _ hc)
        have h5 := hl x List.mem_cons_self
        simp only [List.length_cons, List.sum_cons, Nat.cast_add, Nat.cast_one]
        omega
    exact key costs (Play.costs_pos hP hp)

/-- C106, how deep: no way down in a tree of the search has more steps than moves were made, and those are at most the size of the tree. So
`add_edges` nests at most one call more than there were moves, and at most one more than the size. -/
theorem C106_depth {P : Problem} {B : Int} {values : List Int} (hP : P.WF) {h : Heap Int} {t : TreeObj Int} {hist : List (List Int)} {costs : List Int}
    (hp : Play P B values h t hist costs) :
    (costs.length : Int) ≤ t.size ∧ (∀ r ∈ t.roots, ∀ p b, Descent h r p b → p.length ≤ costs.length) ∧
    ∀ n, costs.length < n → ∀ r ∈ t.roots, ∃ e, addEdges h n r = .ok e := by
  obtain ⟨hcur, hsize⟩ := Play.moves hP hp
  have hL := (hp.facts hP).2.1
  have key : ∀ a p b, Descent h a p b → Reach h t.roots a → ∀ l, (h.get a).level = some l → l + p.length ≤ t.currentLevel := by
    intro a p b hd
    induction hd with
    | here =>
      intro hr l hl
      obtain ⟨m, e1, -, e2⟩ := hL.range _ hr
      rw [hl] at e1
      cases e1
      simpa using e2
    | down hc _ ih =>
      intro hr l hl
      have hm := List.mem_of_getElem? hc
      obtain ⟨l', m, e1, e2, e3⟩ := hL.edge _ _ hr hm
      rw [hl] at e1
      cases e1
      have := ih (.child hr hm) m e2
      rw [List.length_cons]
      push_cast
      omega
  have hlen : ∀ r ∈ t.roots, ∀ p b, Descent h r p b → p.length ≤ costs.length := by
    intro r hr p b hd
    obtain ⟨l, e1, e2, -⟩ := hL.range r (.root hr)
    have := key r p b hd (.root hr) l e1
    omega
  exact ⟨hsize, hlen, fun n hn r hr => (addEdges_ok_iff h n r).2 fun p b hd => Nat.lt_of_le_of_lt (hlen r hr p b hd) hn⟩

/-- C106, how many that are: a node that is `k` times divided by two and merged again gives a network of `3 k + 1` nodes, and `to_nx_graph` adds
`4 * 2 ^ k - 4` edges. -/
theorem C106_doubling (k : Nat) (h : Heap Int) (r : Addr) (hr : r < h.next) (hc : (h.get r).children = []) (hl : (h.get r).level.isSome)
    (hv : 0 ≤ (h.get r).value) :
    ∃ h' a, divideMerges k h r = .ok (h', a) ∧ h'.next = h.next + 3 * k ∧
      ∀ t : TreeObj Int, t.roots = [r] → ∃ e, nxEdges h' t = .ok e ∧ e.length = 4 * 2 ^ k - 4 := by
  obtain ⟨h', a, e, hn, H⟩ := divideMerges_spec k h 0 r r (.leaf hr hc) hr hl hv
  rw [Nat.zero_add] at H
  refine ⟨h', a, e, hn, fun t ht => ?_⟩
  obtain ⟨es, he, hlen⟩ := H.edges (h'.next + 1) (by omega)
  refine ⟨es, ?_, by omega⟩
  unfold nxEdges
  rw [ht, List.mapM_cons, he]
  show Except.ok _ = _
  simp

/-- Three rounds from a single source of 8: ten nodes, 28 edges added, 12 of them different. -/
example : (do
    let (h, _) ← divideMerges 3 (Example.fresh [8]).1 0
    let e ← nxEdges h (Example.fresh [8]).2
    return (h.next, e.length, e.dedup.length) : Py (Nat × Nat × Nat)).toOption = some (10, 28, 12) := by decide +kernel

/-- The solutions of "1 1 1 2 to 5" meet the hypotheses of `C106_search`. -/
example : ∃ (s : Search) (t : TreeObj Int) (hist : List (List Int)) (costs : List Int), t ∈ s.solutions ∧
    Play Example.P5 3 [1, 1, 1, 2] s.heap t hist costs := by
  have hd := Example.discarded5
  unfold Example.discarded at hd
  split at hd
  · rename_i s hs
    split at hd
    · rename_i t ht
      have hR : Reached Example.P5 (Example.oracle [5] none) (Example.fresh [1, 1, 1, 2]).1 (Example.fresh [1, 1, 1, 2]).2 3 s :=
        solveLoop_visited _ .start hs
      obtain ⟨hist, costs, h⟩ := hR.play Example.P5_wf Example.source5 (by decide) (.inr (List.mem_of_getElem? ht))
      exact ⟨s, t, hist, costs, List.mem_of_getElem? ht, h⟩
    · cases hd
  · cases hd

end Satis
