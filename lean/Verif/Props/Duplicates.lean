import Verif.Props.Solver
import Verif.Graph.IsoLemmas
/-!
# Duplicate solutions (C50)
-/

namespace Satis
open Graph Solver

section
variable {P : Problem} {B : Int} {values : List Int}

/-- `==` on trees as the search uses it (`src/solver.py:293`). -/
def Solver.realIso (h : Heap Int) (t1 t2 : TreeObj Int) : Bool :=
  match treeEq h t1 t2 with
  | .ok b => b
  | .error _ => false

theorem Graph.mem_nodes {h : Heap Int} {t : TreeObj Int} {e : Edges} (he : ∀ p, p ∈ e ↔ EdgeOf h t.roots p.1 p.2) (x : Uid) :
    x ∈ e.nodes ↔ ∃ y, Joined h t.roots x y := by
  unfold Edges.nodes
  rw [List.mem_dedup, List.mem_flatMap]
  constructor
  · rintro ⟨⟨a, b⟩, h1, h2⟩
    have h3 := (he _).1 h1
    simp only [List.mem_cons, List.not_mem_nil, or_false] at h2
    rcases h2 with rfl | rfl
    · exact ⟨b, .inl h3⟩
    · exact ⟨a, .inr h3⟩
  · rintro ⟨y, h1 | h1⟩
    · exact ⟨(x, y), (he (x, y)).2 h1, by simp⟩
    · exact ⟨(y, x), (he (y, x)).2 h1, by simp⟩

theorem Graph.adj_iff {h : Heap Int} {t : TreeObj Int} {e : Edges} (he : ∀ p, p ∈ e ↔ EdgeOf h t.roots p.1 p.2) (x y : Uid) :
    e.Adj x y ↔ Joined h t.roots x y := by
  unfold Edges.Adj Joined
  rw [he, he]

theorem Graph.isomorphic_iff {h1 h2 : Heap Int} {t1 t2 : TreeObj Int} {e1 e2 : Edges}
    (he1 : ∀ p, p ∈ e1 ↔ EdgeOf h1 t1.roots p.1 p.2) (he2 : ∀ p, p ∈ e2 ↔ EdgeOf h2 t2.roots p.1 p.2) :
    Isomorphic e1 e2 ↔ SameShape h1 t1 h2 t2 := by
  unfold Isomorphic SameShape
  have e3 : {x | x ∈ e1.nodes} = {x | ∃ y, Joined h1 t1.roots x y} := Set.ext fun x => mem_nodes he1 x
  have e4 : {x | x ∈ e2.nodes} = {x | ∃ y, Joined h2 t2.roots x y} := Set.ext fun x => mem_nodes he2 x
  rw [e3, e4]
  refine exists_congr fun f => and_congr_right fun _ => ?_
  constructor
  · intro h x y hx hy
    rw [← adj_iff he1, ← adj_iff he2]
    exact h x ((mem_nodes he1 x).2 hx) y ((mem_nodes he1 y).2 hy)
  · intro h x hx y hy
    rw [adj_iff he1, adj_iff he2]
    exact h x y ((mem_nodes he1 x).1 hx) ((mem_nodes he1 y).1 hy)

theorem Solver.Play.edges (hP : P.WF) {h : Heap Int} {t : TreeObj Int} {hist : List (List Int)} {costs : List Int}
    (hp : Play P B values h t hist costs) : ∃ e, nxEdges h t = .ok e ∧ ∀ p, p ∈ e ↔ EdgeOf h t.roots p.1 p.2 := by
  obtain ⟨g, loc, hn, hr, hg0⟩ := hp.net hP
  exact nxEdges_spec h t (hp.facts hP).2.1.acyclic (hr.good (hn.wf hP hg0)).lt

/-- C50, the test: on the trees the search builds `==` never fails, and it says whether the two trees have the same shape. -/
theorem C50_test_exact (hP : P.WF) {h : Heap Int} {t1 t2 : TreeObj Int} {hist1 hist2 : List (List Int)} {costs1 costs2 : List Int}
    (hp1 : Play P B values h t1 hist1 costs1) (hp2 : Play P B values h t2 hist2 costs2) :
    ∃ b, treeEq h t1 t2 = .ok b ∧ (b = true ↔ SameShape h t1 h t2) := by
  obtain ⟨e1, h1, h1'⟩ := hp1.edges hP
  obtain ⟨e2, h2, h2'⟩ := hp2.edges hP
  refine ⟨isoTest e1 e2, ?_, ?_⟩
  · unfold treeEq; rw [h1, h2]; rfl
  · rw [isoTest_iff, isomorphic_iff h1' h2']

/-- C50, as far as it goes: a solution of the best size that is not recorded has the shape of a recorded one. Missing: that it is the
same network, which is false (`C50_duplicates_false`). -/
theorem C50_duplicates_partial (hP : P.WF) {O : Oracle} (hO : O.iso = realIso) {s : Search} {t : TreeObj Int}
    (ht : ∃ hist costs, Play P B values s.heap t hist costs)
    (hs : ∀ t' ∈ s.solutions, ∃ hist costs, Play P B values s.heap t' hist costs) (hc : s.solutionsCount ≠ 0)
    (hb : t.size = s.bestSize) (hd : t ∉ (solutionFound O s t).2.solutions) : ∃ t' ∈ s.solutions, SameShape s.heap t' s.heap t := by
  unfold solutionFound at hd
  rw [if_neg (by omega), if_pos hb] at hd
  split at hd
  · rename_i hany
    obtain ⟨t', ht', hi⟩ := List.any_eq_true.1 hany
    refine ⟨t', ht', ?_⟩
    obtain ⟨hist, costs, hp⟩ := ht
    obtain ⟨hist', costs', hp'⟩ := hs t' ht'
    obtain ⟨b, h1, h2⟩ := C50_test_exact hP hp' hp
    rw [hO] at hi
    unfold realIso at hi
    rw [h1] at hi
    exact h2.1 hi
  · exact absurd (by simp) hd

/-- C50, the other direction: a solution that is the same network as a recorded one is recognised. -/
theorem C50_equal_recognised (hP : P.WF) {h : Heap Int} {t1 t2 : TreeObj Int} {hist1 hist2 : List (List Int)} {costs1 costs2 : List Int}
    (hp1 : Play P B values h t1 hist1 costs1) (hp2 : Play P B values h t2 hist2 costs2) (hsame : SameNetwork h t1 h t2) :
    treeEq h t1 t2 = .ok true := by
  obtain ⟨b, h1, h2⟩ := C50_test_exact hP hp1 hp2
  rw [h1]
  refine congrArg Except.ok (h2.2 ?_)
  obtain ⟨f, ⟨hf1, hf2, hf3⟩, _, hf5⟩ := hsame
  have inj : ∀ {t : TreeObj Int} {hist costs}, Play P B values h t hist costs →
      ∀ a b, Reach h t.roots a → Reach h t.roots b → (h.get a).id = (h.get b).id → a = b := by
    intro t hist costs hp
    obtain ⟨g, loc, hn, hr, hg0⟩ := hp.net hP
    exact (hr.good (hn.wf hP hg0)).inj
  have inj1 := inj hp1
  have inj2 := inj hp2
  classical
  let F : Uid → Uid := fun x => if hx : ∃ a, Reach h t1.roots a ∧ (h.get a).id = x then (h.get (f hx.choose)).id else 0
  have hF : ∀ a, Reach h t1.roots a → F (h.get a).id = (h.get (f a)).id := by
    intro a ha
    have hx : ∃ a', Reach h t1.roots a' ∧ (h.get a').id = (h.get a).id := ⟨a, ha, rfl⟩
    have : hx.choose = a := inj1 _ _ hx.choose_spec.1 ha hx.choose_spec.2
    show (if hx : _ then _ else _) = _
    rw [dif_pos hx, this]
  have hedge : ∀ a b, Reach h t1.roots a → Reach h t1.roots b → (b ∈ (h.get a).children ↔ f b ∈ (h.get (f a)).children) := by
    intro a b ha hb
    rw [← List.count_pos_iff, ← List.count_pos_iff, hf5 a b ha hb]
  have hE : ∀ a b, Reach h t1.roots a → Reach h t1.roots b →
      (EdgeOf h t1.roots (h.get a).id (h.get b).id ↔ EdgeOf h t2.roots (h.get (f a)).id (h.get (f b)).id) := by
    intro a b ha hb
    constructor
    · rintro ⟨a', b', h3, h4, h5, h6⟩
      have e1 := inj1 _ _ ha h3 h5
      have e2 := inj1 _ _ hb (.child h3 h4) h6
      subst e1; subst e2
      exact ⟨f a, f b, hf1 ha, (hedge a b ha hb).1 h4, rfl, rfl⟩
    · rintro ⟨a', b', h3, h4, h5, h6⟩
      have e1 := inj2 _ _ (hf1 ha) h3 h5
      have e2 := inj2 _ _ (hf1 hb) (.child h3 h4) h6
      subst e1; subst e2
      exact ⟨a, b, ha, (hedge a b ha hb).2 h4, rfl, rfl⟩
  have hJ : ∀ a b, Reach h t1.roots a → Reach h t1.roots b →
      (Joined h t1.roots (h.get a).id (h.get b).id ↔ Joined h t2.roots (h.get (f a)).id (h.get (f b)).id) := fun a b ha hb =>
    or_congr (hE a b ha hb) (hE b a hb ha)
  have ends : ∀ {t : TreeObj Int} {x y}, Joined h t.roots x y → ∃ a b, Reach h t.roots a ∧ Reach h t.roots b ∧
      x = (h.get a).id ∧ y = (h.get b).id := by
    rintro t x y (⟨a, b, h3, h4, h5, h6⟩ | ⟨a, b, h3, h4, h5, h6⟩)
    · exact ⟨a, b, h3, .child h3 h4, h5, h6⟩
    · exact ⟨b, a, .child h3 h4, h3, h6, h5⟩
  refine ⟨F, ⟨?_, ?_, ?_⟩, ?_⟩
  · rintro x ⟨y, hxy⟩
    obtain ⟨a, b, ha, hb, rfl, rfl⟩ := ends hxy
    show ∃ y, Joined h t2.roots (F _) y
    rw [hF a ha]
    exact ⟨_, (hJ a b ha hb).1 hxy⟩
  · rintro x ⟨x', hx⟩ y ⟨y', hy⟩ hxy
    obtain ⟨a, _, ha, _, rfl, _⟩ := ends hx
    obtain ⟨b, _, hb, _, rfl, _⟩ := ends hy
    rw [hF a ha, hF b hb] at hxy
    rw [hf2 ha hb (inj2 _ _ (hf1 ha) (hf1 hb) hxy)]
  · rintro x ⟨y, hxy⟩
    obtain ⟨a, b, ha, hb, rfl, rfl⟩ := ends hxy
    obtain ⟨a', ha', rfl⟩ := hf3 ha
    obtain ⟨b', hb', rfl⟩ := hf3 hb
    exact ⟨(h.get a').id, ⟨_, (hJ a' b' ha' hb').2 hxy⟩, hF a' ha'⟩
  · rintro x y ⟨x', hx⟩ ⟨y', hy⟩
    obtain ⟨a, _, ha, _, rfl, _⟩ := ends hx
    obtain ⟨b, _, hb, _, rfl, _⟩ := ends hy
    rw [hF a ha, hF b hb]
    exact hJ a b ha hb

end

/-! ### The counterexample "1 1 1 2 to 5" -/

namespace Solver.Example

/-- "1 1 1 2 to 5". -/
def P5 : Problem := problem [1, 1, 1, 2] [5]

theorem P5_wf : P5.WF where
  gcd := by decide +kernel
  speeds := by decide +kernel
  counts := by
    intro v
    have h : P5.targetCounts = [(5, 1)] := by decide +kernel
    have h' : P5.targetValues = [5] := rfl
    rw [h, h']
    by_cases h5 : v = 5
    · subst h5; decide +kernel
    · have e5 : ¬ (5 = v) := fun h => h5 h.symm
      simp [Dict.get?, e5]

theorem source5 : Source (fresh [1, 1, 1, 2]).1 (fresh [1, 1, 1, 2]).2 [1, 1, 1, 2] where
  nonempty := by decide
  sorted := by decide
  pos := by decide
  made := ⟨emptyHeap, _, _, rfl, rfl⟩

/-- Everything reachable is in the list. -/
def closedList (h : Heap Int) (t : TreeObj Int) (l : List Addr) : Bool :=
  t.roots.all (fun a => decide (a ∈ l)) && l.all fun a => (h.get a).children.all fun b => decide (b ∈ l)

theorem closedList_reach {h : Heap Int} {t : TreeObj Int} {l : List Addr} (hc : closedList h t l = true) {a : Addr}
    (ha : Reach h t.roots a) : a ∈ l := by
  unfold closedList at hc
  rw [Bool.and_eq_true, List.all_eq_true, List.all_eq_true] at hc
  induction ha with
  | root hb => simpa using hc.1 _ hb
  | child _ hb ih =>
    have := List.all_eq_true.1 (hc.2 _ ih) _ hb
    simpa using this

/-- All nodes of a tree are in one of its levels; the list of levels as a candidate for `closedList`. -/
def nodesList (t : TreeObj Int) : List Addr := t.levels.flatten

/-- An edge from a node of value 1 to a node of value 2. -/
def edge12 (h : Heap Int) (l : List Addr) : Bool :=
  l.any fun a => decide ((h.get a).value = 1) && (h.get a).children.any fun b => decide ((h.get b).value = 2)

/-- What the counterexample needs to know about a run: best size, queue, and for every solution whether all its nodes were listed and
whether it has an edge from 1 to 2 (anywhere, below a root). -/
def summary5 (r : Py Search) : Option (Int × List (Bool × Bool × Bool)) :=
  match r with
  | .ok s => some (s.bestSize, s.solutions.map fun t =>
      (closedList s.heap t (nodesList t), edge12 s.heap (nodesList t), edge12 s.heap t.roots))
  | .error _ => none

theorem run5_real : summary5 (solve P5 { oracle [5] none with iso := realIso } 100 (fresh [1, 1, 1, 2]).1 (fresh [1, 1, 1, 2]).2 3) =
    some (2, [(true, false, false), (true, false, false), (true, false, false)]) := by decide +kernel

theorem run5_never : summary5 (solve P5 (oracle [5] none) 100 (fresh [1, 1, 1, 2]).1 (fresh [1, 1, 1, 2]).2 3) =
    some (2, [(true, false, false), (true, false, false), (true, false, false), (true, false, false), (true, true, true)]) := by decide +kernel

/-- A reachable edge from 1 to 2. -/
theorem edge12_spec {h : Heap Int} {t : TreeObj Int} (hc : closedList h t (nodesList t) = true) (he : edge12 h (nodesList t) = false)
    {a b : Addr} (ha : Reach h t.roots a) (hb : b ∈ (h.get a).children) (h1 : (h.get a).value = 1) (h2 : (h.get b).value = 2) :
    False := by
  have h3 := closedList_reach hc ha
  unfold edge12 at he
  rw [List.any_eq_false] at he
  refine he a h3 ?_
  rw [Bool.and_eq_true, decide_eq_true_iff, List.any_eq_true]
  exact ⟨h1, b, hb, by simpa using h2⟩

end Solver.Example

/-- C50 is false: in "1 1 1 2 to 5" the duplicate test discards a solution of the best size (merge 1 and 1, then everything) that is
not the same network as any recorded one: with a test that discards nothing the search records it, with the real one it records
three others. -/
theorem C50_duplicates_false : ∃ (O : Oracle) (s s' : Search) (t : TreeObj Int), O.iso = realIso ∧
    solve Example.P5 O 100 (Example.fresh [1, 1, 1, 2]).1 (Example.fresh [1, 1, 1, 2]).2 3 = .ok s ∧
    solve Example.P5 { O with iso := fun _ _ _ => false } 100 (Example.fresh [1, 1, 1, 2]).1 (Example.fresh [1, 1, 1, 2]).2 3 = .ok s' ∧
    s.solutions.length = 3 ∧ t ∈ s'.solutions ∧ t.size = s.bestSize ∧ ∀ t' ∈ s.solutions, ¬ SameNetwork s'.heap t s.heap t' := by
  have hr := Example.run5_real
  have hn := Example.run5_never
  unfold Example.summary5 at hr hn
  split at hr
  · rename_i s hs
    split at hn
    · rename_i s' hs'
      simp only [Option.some.injEq, Prod.mk.injEq] at hr hn
      obtain ⟨hb, hl⟩ := hr
      obtain ⟨hb', hl'⟩ := hn
      have hlen : s.solutions.length = 3 := by simpa using congrArg List.length hl
      have hlen' : s'.solutions.length = 5 := by simpa using congrArg List.length hl'
      have hR : Reached Example.P5 (Example.oracle [5] none) (Example.fresh [1, 1, 1, 2]).1 (Example.fresh [1, 1, 1, 2]).2 3 s' :=
        solveLoop_visited _ .start hs'
      obtain ⟨t, ht⟩ : ∃ t, s'.solutions[4]? = some t := ⟨_, List.getElem?_eq_getElem (by omega)⟩
      have htm : t ∈ s'.solutions := List.mem_of_getElem? ht
      refine ⟨{ Example.oracle [5] none with iso := realIso }, s, s', t, rfl, hs, hs', hlen, htm, ?_, ?_⟩
      · rw [((C34_best_size Example.P5_wf Example.source5 (by decide) hR).1 t htm).1, hb, hb']
      · rintro t' ht' ⟨f, hf1, hf2, hf3⟩
        have h4 : (s'.solutions.map fun t => (Example.closedList s'.heap t (Example.nodesList t),
            Example.edge12 s'.heap (Example.nodesList t), Example.edge12 s'.heap t.roots))[4]? = some (true, true, true) := by
          rw [hl']; rfl
        rw [List.getElem?_map, ht] at h4
        simp only [Option.map_some, Option.some.injEq, Prod.mk.injEq] at h4
        have h5 := h4.2.2
        unfold Example.edge12 at h5
        rw [List.any_eq_true] at h5
        obtain ⟨a, ha, h6⟩ := h5
        rw [Bool.and_eq_true, decide_eq_true_iff, List.any_eq_true] at h6
        obtain ⟨h7, b, hb, h8⟩ := h6
        have h8 : (s'.heap.get b).value = 2 := by simpa using h8
        have ha' : Reach s'.heap t.roots a := .root ha
        have hb' : Reach s'.heap t.roots b := .child ha' hb
        have hm : (Example.closedList s.heap t' (Example.nodesList t'), Example.edge12 s.heap (Example.nodesList t'),
            Example.edge12 s.heap t'.roots) ∈ [(true, false, false), (true, false, false), (true, false, false)] := by
          rw [← hl]; exact List.mem_map_of_mem ht'
        have hm' : Example.closedList s.heap t' (Example.nodesList t') = true ∧
            Example.edge12 s.heap (Example.nodesList t') = false := by
          simp only [List.mem_cons, List.not_mem_nil, or_false, or_self, Prod.mk.injEq] at hm
          exact ⟨hm.1, hm.2.1⟩
        refine Example.edge12_spec hm'.1 hm'.2 (a := f a) (b := f b) (hf1.1 ha') ?_ (by rw [hf2 a ha', h7])
          (by rw [hf2 b hb', h8])
        rw [← List.count_pos_iff, hf3 a b ha' hb', List.count_pos_iff]
        exact hb
    · cases hn
  · cases hr

/-- The fifth solution of that run is discarded when it is presented to a search that has recorded the first four. -/
def Solver.Example.discarded (r : Py Search) : Bool :=
  match r with
  | .ok s => match s.solutions[4]? with
    | some t => decide (t.size = s.bestSize ∧ t ∉ (solutionFound { Example.oracle [5] none with iso := realIso }
        { s with solutions := s.solutions.take 4, solutionsCount := 4 } t).2.solutions)
    | none => false
  | .error _ => false

theorem Solver.Example.discarded5 : Example.discarded (solve Example.P5 (Example.oracle [5] none) 100
    (Example.fresh [1, 1, 1, 2]).1 (Example.fresh [1, 1, 1, 2]).2 3) = true := by decide +kernel

/-- The hypotheses of `C50_duplicates_partial` are met there. -/
example : ∃ (s : Search) (t t' : TreeObj Int), t' ∈ s.solutions ∧
    t ∉ (solutionFound { Example.oracle [5] none with iso := realIso } s t).2.solutions ∧ SameShape s.heap t' s.heap t := by
  have hd := Example.discarded5
  unfold Example.discarded at hd
  split at hd
  · rename_i s hs
    split at hd
    · rename_i t ht
      rw [decide_eq_true_iff] at hd
      have hR : Reached Example.P5 (Example.oracle [5] none) (Example.fresh [1, 1, 1, 2]).1 (Example.fresh [1, 1, 1, 2]).2 3 s :=
        solveLoop_visited _ .start hs
      have hplay : ∀ t' ∈ s.solutions, ∃ hist costs, Play Example.P5 3 [1, 1, 1, 2] s.heap t' hist costs := fun t' ht' =>
        hR.play Example.P5_wf Example.source5 (by decide) (.inr ht')
      obtain ⟨t', h1, h2⟩ := C50_duplicates_partial Example.P5_wf (s := { s with solutions := s.solutions.take 4, solutionsCount := 4 })
        rfl (hplay t (List.mem_of_getElem? ht)) (fun t' ht' => hplay t' (List.mem_of_mem_take ht')) (by simp) hd.1 hd.2
      exact ⟨_, t, t', h1, hd.2, h2⟩
    · cases hd
  · cases hd

end Satis
