import Verif.Solver.Gen
import Mathlib.Data.List.Perm.Subperm
/-!
# Invariants of the search
-/

namespace Satis.Solver
open Satis Satis.Graph Satis.Cost Satis.Utils

/-- `t` was built by permitted moves, and no id in it is below `lo`. -/
def Made (P : Problem) (B : Int) (g0 : Net) (lo : Nat) (h : Heap Int) (t : TreeObj Int) : Prop :=
  (∃ values hist costs, g0 = Net.ofValues values ∧ Play P B values h t hist costs) ∧
  ∃ g loc, g.WF ∧ Rep h t g loc ∧ ∀ i, i < g.n → lo ≤ (h.get (loc i)).id

/-- `t` was built by permitted moves, and looks like a net. -/
def Built (P : Problem) (B : Int) (g0 : Net) (lo : Nat) (h : Heap Int) (t : TreeObj Int) : Prop :=
  Made P B g0 lo h t ∧ ∃ g loc, NPlay P B g0 g ∧ Rep h t g loc

theorem Made.ext {P B g0 lo} {h h' : Heap Int} {t} (hb : Made P B g0 lo h t) (he : Heap.Ext h h') : Made P B g0 lo h' t := by
  obtain ⟨⟨v, hi, c, h1, h2⟩, g, loc, h3, h4, h5⟩ := hb
  exact ⟨⟨v, hi, c, h1, h2.other he⟩, g, loc, h3, h4.ext he, fun i hi => by rw [he.get _ (h4.nodes.lt i hi)]; exact h5 i hi⟩

theorem Made.reach {P B g0 lo} {h h' : Heap Int} {t} (hb : Made P B g0 lo h t) (he : Heap.Ext h h') (a : Addr) :
    Reach h' t.roots a ↔ Reach h t.roots a := by
  obtain ⟨_, g, loc, h3, h4, _⟩ := hb
  rw [(h4.ext he).reach_iff h3, h4.reach_iff h3]

theorem Made.lt {P B g0 lo} {h : Heap Int} {t} (hb : Made P B g0 lo h t) {a : Addr} (ha : Reach h t.roots a) : a < h.next := by
  obtain ⟨_, g, loc, h3, h4, _⟩ := hb
  obtain ⟨i, hi, rfl⟩ := (h4.reach_iff h3 a).1 ha
  exact h4.nodes.lt i hi

theorem Made.ids {P B g0 lo} {h : Heap Int} {t} (hb : Made P B g0 lo h t) {a : Addr} (ha : Reach h t.roots a) : lo ≤ (h.get a).id := by
  obtain ⟨_, g, loc, h3, h4, h5⟩ := hb
  obtain ⟨i, hi, rfl⟩ := (h4.reach_iff h3 a).1 ha
  exact h5 i hi

/-- What holds at every moment of a search. -/
structure Inv (P : Problem) (B : Int) (g0 : Net) (lo : Nat) (s : Search) : Prop where
  stopped : s.stopped = false
  count : s.solutionsCount = s.solutions.length
  best0 : s.solutions = [] → s.bestSize = B
  bestLe : s.bestSize ≤ B
  sols : ∀ t ∈ s.solutions, t.size = s.bestSize ∧ t.sourceValues = P.targetValues ∧ Built P B g0 lo s.heap t
  queue : ∀ e ∈ s.queue, e.1.sourceValues ≠ P.targetValues ∧ Built P B g0 lo s.heap e.1
  apart : s.solutions.Pairwise fun t t' => ∀ a, Reach s.heap t.roots a → ¬ Reach s.heap t'.roots a

/-- Progress from `s` to `s'`. -/
structure Adv (s s' : Search) : Prop where
  ext : Heap.Ext s.heap s'.heap
  keep : ∀ e ∈ s.queue, e ∈ s'.queue ∨ (0 < s'.solutionsCount ∧ s'.bestSize ≤ e.1.size)
  mono : s'.bestSize ≤ s.bestSize
  count : 0 < s.solutionsCount → 0 < s'.solutionsCount

theorem Adv.refl (s : Search) : Adv s s := ⟨.refl _, fun _ h => Or.inl h, le_rfl, id⟩

theorem Adv.trans {a b c : Search} (h1 : Adv a b) (h2 : Adv b c) : Adv a c where
  ext := h1.ext.trans h2.ext
  keep := by
    intro e he
    rcases h1.keep e he with h | ⟨h, h'⟩
    · exact h2.keep e h
    · exact Or.inr ⟨h2.count h, le_trans h2.mono h'⟩
  mono := le_trans h2.mono h1.mono
  count := fun h => h2.count (h1.count h)

theorem Built.ext {P B g0 lo} {h h' : Heap Int} {t} (hb : Built P B g0 lo h t) (he : Heap.Ext h h') : Built P B g0 lo h' t := by
  obtain ⟨h0, g, loc, h1, h2⟩ := hb
  exact ⟨h0.ext he, g, loc, h1, h2.ext he⟩

/-- The queue of `s'` is part of that of `s` and of trees larger than `k`. -/
def Grows (k B : Int) (s s' : Search) : Prop :=
  ∃ l : List (TreeObj Int × ℚ), (∀ e ∈ l, k < e.1.size ∧ e.1.size ≤ B) ∧ s'.queue.Subperm (l ++ s.queue)

theorem Grows.refl (k B : Int) (s : Search) : Grows k B s s := ⟨[], by simp, List.Subperm.refl _⟩

theorem Grows.trans {k B : Int} {a b c : Search} (h1 : Grows k B a b) (h2 : Grows k B b c) : Grows k B a c := by
  obtain ⟨l1, p1, q1⟩ := h1
  obtain ⟨l2, p2, q2⟩ := h2
  refine ⟨l2 ++ l1, ?_, ?_⟩
  · intro e he
    rcases List.mem_append.1 he with h | h
    · exact p2 e h
    · exact p1 e h
  · rw [List.append_assoc]
    exact q2.trans ((List.subperm_append_left l2).2 q1)

/-! ### Reading the flag -/

theorem read_snd (O : Oracle) (s : Search) : (s.read O).2 = { s with reads := s.reads + 1 } := rfl

theorem read_true {O : Oracle} {s : Search} (hs : s.stopped = false) (ho : O.stopAt = none) : (s.read O).1 = true := by
  unfold Search.read; simp [hs, ho]

theorem inv_read {P B g0 lo s} (O : Oracle) (h : Inv P B g0 lo s) : Inv P B g0 lo (s.read O).2 :=
  ⟨h.stopped, h.count, h.best0, h.bestLe, h.sols, h.queue, h.apart⟩

theorem adv_read (O : Oracle) (s : Search) : Adv s (s.read O).2 := ⟨.refl _, fun _ h => Or.inl h, le_rfl, id⟩

theorem grows_read (k B : Int) (O : Oracle) (s : Search) : Grows k B s (s.read O).2 := ⟨[], by simp, List.Subperm.refl _⟩

/-- The heap grows. -/
theorem inv_heap {P B g0 lo s} {h : Heap Int} (hi : Inv P B g0 lo s) (he : Heap.Ext s.heap h) : Inv P B g0 lo { s with heap := h } :=
  ⟨hi.stopped, hi.count, hi.best0, hi.bestLe, fun t ht => ⟨(hi.sols t ht).1, (hi.sols t ht).2.1, (hi.sols t ht).2.2.ext he⟩,
    fun e h' => ⟨(hi.queue e h').1, (hi.queue e h').2.ext he⟩,
    List.Pairwise.imp_of_mem (fun {t t'} ht ht' hd a => by
      rw [((hi.sols t ht).2.2).1.reach he, ((hi.sols t' ht').2.2).1.reach he]
      exact hd a) hi.apart⟩

theorem adv_heap {s : Search} {h : Heap Int} (he : Heap.Ext s.heap h) : Adv s { s with heap := h } :=
  ⟨he, fun _ h => Or.inl h, le_rfl, id⟩

/-! ### `is_solution` -/

theorem isSolution_iff (P : Problem) (h : Heap Int) (sources : List Addr) :
    isSolution P h sources = true ↔ sources.map (fun a => (h.get a).value) = P.targetValues := by
  unfold isSolution
  by_cases hl : sources.length = P.targetValues.length
  · rw [if_neg (not_not.2 hl), List.all_eq_true]
    simp only [List.mem_range, decide_eq_true_eq]
    constructor
    · intro hall
      apply List.ext_getElem?
      intro i
      rw [List.getElem?_map]
      by_cases hi : i < sources.length
      · exact hall i hi
      · rw [List.getElem?_eq_none (by omega), List.getElem?_eq_none (by omega)]; rfl
    · intro e i _
      rw [← e, List.getElem?_map]
  · rw [if_pos hl]
    simp only [Bool.false_eq_true, false_iff]
    intro e
    rw [← e] at hl
    simp at hl

theorem Rep.values {h t g loc} (hr : Rep h t g loc) (hg : g.WF) : t.sources.map (fun a => (h.get a).value) = t.sourceValues := by
  rw [hr.sources, hr.vals, List.map_map]
  apply List.map_congr_left
  intro i hi
  exact hr.nodes.value i ((hg.memSrcs i).1 hi).1

/-! ### `purge_queue` -/

theorem purgeRev_spec (O : Oracle) : ∀ (q : List (TreeObj Int × ℚ)) (s : Search),
    (purgeRev O q s).1.Sublist q ∧ (∀ e ∈ q, e ∈ (purgeRev O q s).1 ∨ s.bestSize ≤ e.1.size) ∧
    ∃ n, (purgeRev O q s).2 = { s with reads := n } := by
  intro q
  induction q with
  | nil => intro s; exact ⟨List.Sublist.refl _, by simp, s.reads, rfl⟩
  | cons e q ih =>
    intro s
    unfold purgeRev
    simp only
    by_cases hr : (s.read O).1 = false
    · rw [if_pos hr]
      exact ⟨List.Sublist.refl _, fun x hx => Or.inl hx, s.reads + 1, rfl⟩
    · rw [if_neg hr]
      obtain ⟨i1, i2, n, i3⟩ := ih (s.read O).2
      by_cases hs : e.1.size ≥ s.bestSize
      · rw [if_pos hs]
        refine ⟨i1.trans (List.sublist_cons_self _ _), ?_, n, by rw [i3]; rfl⟩
        intro x hx
        rcases List.mem_cons.1 hx with rfl | hx
        · exact Or.inr hs
        · exact i2 x hx
      · rw [if_neg hs]
        refine ⟨i1.cons_cons _, ?_, n, by simp only; rw [i3]; rfl⟩
        intro x hx
        rcases List.mem_cons.1 hx with rfl | hx
        · exact Or.inl (by simp)
        · rcases i2 x hx with h | h
          · exact Or.inl (by simp [h])
          · exact Or.inr h

theorem purgeQueue_spec (O : Oracle) (s : Search) : ∃ n q, purgeQueue O s = { s with reads := n, queue := q } ∧
    q.Sublist s.queue ∧ ∀ e ∈ s.queue, e ∈ q ∨ s.bestSize ≤ e.1.size := by
  obtain ⟨h1, h2, n, h3⟩ := purgeRev_spec O s.queue.reverse s
  refine ⟨n, (purgeRev O s.queue.reverse s).1.reverse, ?_, ?_, ?_⟩
  · unfold purgeQueue
    simp only
    rw [h3]
  · have := h1.reverse
    rwa [List.reverse_reverse] at this
  · intro e he
    rcases h2 e (by simpa using he) with h | h
    · exact Or.inl (by simpa using h)
    · exact Or.inr h

/-! ### `enqueue` -/

/-- Effect of `enqueue`. -/
structure Enqueued (P : Problem) (B : Int) (g0 : Net) (lo : Nat) (O : Oracle) (t : TreeObj Int) (s s' : Search) : Prop where
  inv : Inv P B g0 lo s'
  adv : Adv s s'
  heap : s'.heap = s.heap
  best : s'.bestSize = s.bestSize ∨ s'.bestSize = t.size
  grows : ∃ l : List (TreeObj Int × ℚ), (∀ e ∈ l, e.1 = t) ∧ s'.queue.Subperm (l ++ s.queue)
  done : O.stopAt = none → (∃ e ∈ s'.queue, e.1 = t) ∨ (0 < s'.solutionsCount ∧ s'.bestSize ≤ t.size)

theorem enqueue_spec {P : Problem} (hP : P.WF) {B : Int} {g0 : Net} {lo : Nat} (hg0 : g0.WF) (O : Oracle) {s : Search} {t : TreeObj Int}
    (hi : Inv P B g0 lo s) (hb : Built P B g0 lo s.heap t) (hsz : t.size ≤ s.bestSize)
    (hnew : ∀ t' ∈ s.solutions, ∀ a, Reach s.heap t'.roots a → ¬ Reach s.heap t.roots a) :
    Enqueued P B g0 lo O t s (enqueue P O s t) := by
  have hb' := hb
  obtain ⟨_, g, loc, hpl, hr⟩ := hb
  have hg := hpl.wf hP hg0
  have hvals := hr.values hg
  unfold enqueue
  simp only
  by_cases hread : (s.read O).1 = false
  · rw [if_pos hread]
    refine ⟨inv_read O hi, adv_read O s, rfl, Or.inl rfl, ⟨[], by simp, List.Subperm.refl _⟩, ?_⟩
    intro ho
    rw [read_true hi.stopped ho] at hread
    simp at hread
  · rw [if_neg hread]
    by_cases hsol : isSolution P (s.read O).2.heap t.sources = true
    · rw [if_pos hsol]
      rw [isSolution_iff] at hsol
      have hsv : t.sourceValues = P.targetValues := by rw [← hvals]; exact hsol
      unfold solutionFound
      by_cases h1 : (s.read O).2.solutionsCount = 0 ∨ t.size < (s.read O).2.bestSize
      · rw [if_pos h1]
        simp only [if_true]
        obtain ⟨n, q, e, hq1, hq2⟩ := purgeQueue_spec O { (s.read O).2 with solutions := [t], bestSize := t.size, solutionsCount := 1 }
        rw [e]
        have hq1' : q.Sublist s.queue := hq1
        refine ⟨⟨hi.stopped, rfl, ?_, ?_, ?_, ?_, List.pairwise_singleton _ _⟩, ⟨.refl _, ?_, hsz, fun _ => Nat.one_pos⟩, rfl, Or.inr rfl, ?_, ?_⟩
        · intro h; simp at h
        · exact le_trans hsz hi.bestLe
        · intro t' ht'
          simp at ht'; subst ht'
          exact ⟨rfl, hsv, hb'⟩
        · intro e' he'; exact hi.queue e' (hq1'.subset he')
        · intro e' he'
          rcases hq2 e' he' with h | h
          · exact Or.inl h
          · exact Or.inr ⟨Nat.one_pos, h⟩
        · exact ⟨[], by simp, hq1'.subperm⟩
        · intro _; exact Or.inr ⟨Nat.one_pos, le_rfl⟩
      · rw [if_neg h1]
        push Not at h1
        have hc0 : s.solutionsCount ≠ 0 := h1.1
        have h1' : s.bestSize ≤ t.size := h1.2
        have h2 : t.size = (s.read O).2.bestSize := le_antisymm hsz h1'
        have h2' : t.size = s.bestSize := h2
        rw [if_pos h2]
        split
        · simp only [Bool.false_eq_true, if_false]
          refine ⟨inv_read O hi, adv_read O s, rfl, Or.inl rfl, ⟨[], by simp, List.Subperm.refl _⟩, ?_⟩
          intro _; right; exact ⟨Nat.pos_of_ne_zero hc0, h1'⟩
        · simp only [Bool.false_eq_true, if_false]
          refine ⟨⟨hi.stopped, ?_, ?_, hi.bestLe, ?_, hi.queue, List.pairwise_append.2 ⟨hi.apart, List.pairwise_singleton _ _, fun t' ht' x hx => by
            rw [List.mem_singleton.1 hx]; exact hnew t' ht'⟩⟩, ⟨.refl _, fun _ h => Or.inl h, le_rfl, fun _ => Nat.succ_pos _⟩, rfl,
            Or.inl rfl, ⟨[], by simp, List.Subperm.refl _⟩, ?_⟩
          · show s.solutionsCount + 1 = (s.solutions ++ [t]).length
            rw [hi.count]; simp
          · intro h; exact absurd h (by show s.solutions ++ [t] ≠ []; simp)
          · intro t' ht'
            have ht'' : t' ∈ s.solutions ++ [t] := ht'
            rcases List.mem_append.1 ht'' with h | h
            · exact hi.sols t' h
            · simp at h; subst h
              exact ⟨h2', hsv, hb'⟩
          · intro _; right; exact ⟨Nat.succ_pos _, h1'⟩
    · rw [if_neg hsol]
      rw [isSolution_iff] at hsol
      have hsv : t.sourceValues ≠ P.targetValues := by rw [← hvals]; exact hsol
      refine ⟨⟨hi.stopped, hi.count, hi.best0, hi.bestLe, hi.sols, ?_, hi.apart⟩, ⟨.refl _, ?_, le_rfl, id⟩, rfl, Or.inl rfl, ?_, ?_⟩
      · intro e he
        have he' : e ∈ insort queueKey s.queue (t, O.score (s.read O).2.reads t.sourceValues) := he
        rw [mem_insort] at he'
        rcases he' with rfl | h
        · exact ⟨hsv, hb'⟩
        · exact hi.queue e h
      · intro e he; left
        show e ∈ insort queueKey s.queue _
        rw [mem_insort]; exact Or.inr he
      · refine ⟨[(t, O.score (s.read O).2.reads t.sourceValues)], by simp, ?_⟩
        exact (insort_perm queueKey s.queue _).subperm
      · intro _; left
        refine ⟨(t, O.score (s.read O).2.reads t.sourceValues), ?_, rfl⟩
        show _ ∈ insort queueKey s.queue _
        rw [mem_insort]; exact Or.inl rfl

/-! ### Generators driven by `try_op` -/

/-- `g'` needs no more attention: it is in the queue, or cannot improve on a solution that was found, or was dropped because a
recorded solution went through the same state. -/
def Handled (P : Problem) (B : Int) (g0 : Net) (s : Search) (g' : Net) : Prop :=
  (∃ e ∈ s.queue, ∃ loc, Rep s.heap e.1 g' loc) ∨
  (0 < s.solutionsCount ∧ (s.bestSize ≤ g'.size ∨
    ∃ gq, NPlay P B g0 gq ∧ gq.vals = P.targetValues ∧ g'.vals ∈ gq.past.items ∧ s.bestSize ≤ gq.size))

theorem Handled.adv {P B g0} {s s' : Search} {g' : Net} (h : Handled P B g0 s g') (ha : Adv s s') : Handled P B g0 s' g' := by
  rcases h with ⟨e, he, loc, hr⟩ | ⟨h1, h2⟩
  · rcases ha.keep e he with h | ⟨h, h'⟩
    · exact Or.inl ⟨e, h, loc, hr.ext ha.ext⟩
    · exact Or.inr ⟨h, Or.inl (by rw [← hr.size]; exact h')⟩
  · refine Or.inr ⟨ha.count h1, ?_⟩
    rcases h2 with h2 | ⟨gq, q1, q2, q3, q4⟩
    · exact Or.inl (le_trans ha.mono h2)
    · exact Or.inr ⟨gq, q1, q2, q3, le_trans ha.mono q4⟩

theorem seen_iff {P : Problem} (hP : P.WF) {B g0} (hg0 : g0.WF) {s : Search} (hi : Inv P B g0 lo s) {t : TreeObj Int} {g : Net}
    {loc} (hr : Rep s.heap t g loc) (hg : g.WF) (sim : List Int) :
    seenState s t sim = true ↔ sim ∈ g.past.items ∨
      ∃ q ∈ s.solutions, ∃ gq loc, NPlay P B g0 gq ∧ Rep s.heap q gq loc ∧ sim ∈ gq.past.items := by
  unfold seenState
  rw [Bool.or_eq_true, List.any_eq_true, hr.past, hg.pastWF.contains_iff]
  apply or_congr_right
  constructor
  · rintro ⟨q, hq, h⟩
    obtain ⟨_, _, _, gq, lq, h1, h2⟩ := hi.sols q hq
    refine ⟨q, hq, gq, lq, h1, h2, ?_⟩
    rwa [h2.past, (h1.wf hP hg0).pastWF.contains_iff] at h
  · rintro ⟨q, hq, gq, lq, h1, h2, h⟩
    refine ⟨q, hq, ?_⟩
    rwa [h2.past, (h1.wf hP hg0).pastWF.contains_iff]

/-- Outcome of a loop over candidates. -/
structure Tried (P : Problem) (B : Int) (g0 : Net) (lo : Nat) (k : Int) (s s' : Search) : Prop where
  inv : Inv P B g0 lo s'
  adv : Adv s s'
  grows : Grows k B s s'

theorem Tried.trans {P B g0 lo k} {a b c : Search} (h1 : Tried P B g0 lo k a b) (h2 : Tried P B g0 lo k b c) : Tried P B g0 lo k a c :=
  ⟨h2.inv, h1.adv.trans h2.adv, h1.grows.trans h2.grows⟩

theorem Tried.read {P B g0 lo k} {s : Search} (O : Oracle) (h : Inv P B g0 lo s) : Tried P B g0 lo k s (s.read O).2 :=
  ⟨inv_read O h, adv_read O s, grows_read k B O s⟩

theorem Tried.refl {P B g0 lo k} {s : Search} (h : Inv P B g0 lo s) : Tried P B g0 lo k s s := ⟨h, .refl s, .refl k B s⟩

/-- One candidate move. -/
structure Candidate where
  op : Op
  cost : Int
  perm : Prop

theorem tryLoop_spec {C K : Type} [DecidableEq K] {P : Problem} (hP : P.WF) {B : Int} {g0 : Net} {lo : Nat} (hg0 : g0.WF) (O : Oracle)
    {t : TreeObj Int} {g : Net} {loc : Nat → Addr} (hpl : NPlay P B g0 g)
    (key : C → K) (test : Search → C → Py (Option Move)) (cand : C → Candidate) (fixed : Option Int) :
    ∀ (cs : List C) (seen : List K) (s : Search), Inv P B g0 lo s → Rep s.heap t g loc → Made P B g0 lo s.heap t →
    (∀ k, fixed = some k → t.size + k ≤ s.bestSize ∧ ∀ c ∈ cs, (cand c).cost = k) →
    (∀ c ∈ cs, ∀ s, Rep s.heap t g loc → (∀ k, fixed = some k → t.size + k ≤ s.bestSize) →
      Yields (test s c) ((cand c).perm ∧ t.size + (cand c).cost ≤ s.bestSize ∧
        ¬ seenState s t (g.child P.cfg (cand c).op (cand c).cost).vals)
        ⟨(g.child P.cfg (cand c).op (cand c).cost).vals, (cand c).op, (cand c).cost⟩) →
    (∀ pre c post, cs = pre ++ c :: post → key c ∉ seen → (∀ x ∈ pre, key x ≠ key c) → (cand c).perm →
      Permitted P g.vals g.pastOf (cand c).op (cand c).cost) →
    ∃ b s', tryLoop P O t key test cs seen s = .ok (b, s') ∧ Tried P B g0 lo t.size s s' ∧
      (∀ k, fixed = some k → t.size + k ≤ s'.bestSize) ∧
      (O.stopAt = none → b = true ∧ ∀ pre c post, cs = pre ++ c :: post → key c ∉ seen → (∀ x ∈ pre, key x ≠ key c) →
        (cand c).perm → NStep P B g (g.child P.cfg (cand c).op (cand c).cost) →
        Handled P B g0 s' (g.child P.cfg (cand c).op (cand c).cost)) := by
  have hg := hpl.wf hP hg0
  intro cs
  induction cs with
  | nil =>
    intro seen s hi _ _ hfix _ _
    refine ⟨true, s, rfl, .refl hi, fun k hk => (hfix k hk).1, ?_⟩
    intro _
    refine ⟨rfl, ?_⟩
    intro pre c post h; simp at h
  | cons c cs ih =>
    intro seen s hi hr hmade hfix hy hperm
    unfold tryLoop
    simp only
    have hi1 := inv_read O hi
    have hr1 : Rep (s.read O).2.heap t g loc := hr
    by_cases hread : (s.read O).1 = false
    · rw [if_pos hread]
      refine ⟨false, _, rfl, .read O hi, fun k hk => (hfix k hk).1, ?_⟩
      intro ho
      rw [read_true hi.stopped ho] at hread
      simp at hread
    · rw [if_neg hread]
      by_cases hseen : key c ∈ seen
      · rw [if_pos hseen]
        obtain ⟨b, s', e, t1, t2, t3⟩ := ih seen (s.read O).2 hi1 hr1 hmade
          (fun k hk => ⟨(hfix k hk).1, fun c' hc' => (hfix k hk).2 c' (by simp [hc'])⟩) (fun c' hc' => hy c' (by simp [hc']))
          (by intro pre c' post h1 h2 h3 h4
              refine hperm (c :: pre) c' post (by simp [h1]) h2 ?_ h4
              intro x hx
              rcases List.mem_cons.1 hx with rfl | hx
              · intro e; exact h2 (e ▸ hseen)
              · exact h3 x hx)
        refine ⟨b, s', e, (Tried.read O hi).trans t1, t2, ?_⟩
        intro ho
        obtain ⟨t4, t5⟩ := t3 ho
        refine ⟨t4, ?_⟩
        intro pre c' post h1 h2 h3 h4 h5
        cases pre with
        | nil => simp at h1; exact absurd (h1.1 ▸ hseen) h2
        | cons x pre =>
          simp at h1
          exact t5 pre c' post h1.2 h2 (fun y hy => h3 y (by simp [hy])) h4 h5
      · rw [if_neg hseen]
        have hyc := hy c (by simp) (s.read O).2 hr1 (fun k hk => (hfix k hk).1)
        -- continuing with the remaining candidates from some state
        have cont : ∀ s1 : Search, Tried P B g0 lo t.size s s1 →
            (∀ k, fixed = some k → t.size + k ≤ s1.bestSize) →
            (O.stopAt = none → (cand c).perm → NStep P B g (g.child P.cfg (cand c).op (cand c).cost) →
              Handled P B g0 s1 (g.child P.cfg (cand c).op (cand c).cost)) →
            ∃ b s', tryLoop P O t key test cs (key c :: seen) s1 = .ok (b, s') ∧ Tried P B g0 lo t.size s s' ∧
              (∀ k, fixed = some k → t.size + k ≤ s'.bestSize) ∧
              (O.stopAt = none → b = true ∧ ∀ pre c' post, c :: cs = pre ++ c' :: post → key c' ∉ seen →
                (∀ x ∈ pre, key x ≠ key c') → (cand c').perm → NStep P B g (g.child P.cfg (cand c').op (cand c').cost) →
                Handled P B g0 s' (g.child P.cfg (cand c').op (cand c').cost)) := by
          intro s1 ht1 hfix1 hh1
          obtain ⟨b, s', e, t1, t2, t3⟩ := ih (key c :: seen) s1 ht1.inv (hr.ext ht1.adv.ext)
            (hmade.ext ht1.adv.ext)
            (fun k hk => ⟨hfix1 k hk, fun c' hc' => (hfix k hk).2 c' (by simp [hc'])⟩) (fun c' hc' => hy c' (by simp [hc']))
            (by intro pre c' post h1 h2 h3 h4
                refine hperm (c :: pre) c' post (by simp [h1]) (fun h => h2 (by simp [h])) ?_ h4
                intro x hx
                rcases List.mem_cons.1 hx with rfl | hx
                · intro e; exact h2 (by simp [e])
                · exact h3 x hx)
          refine ⟨b, s', e, ht1.trans t1, t2, ?_⟩
          intro ho
          obtain ⟨t4, t5⟩ := t3 ho
          refine ⟨t4, ?_⟩
          intro pre c' post h1 h2 h3 h4 h5
          cases pre with
          | nil =>
            simp at h1
            obtain ⟨h1, _⟩ := h1
            subst h1
            exact (hh1 ho h4 h5).adv t1.adv
          | cons x pre =>
            simp at h1
            obtain ⟨rfl, h1⟩ := h1
            refine t5 pre c' post h1 ?_ (fun y hy => h3 y (by simp [hy])) h4 h5
            intro hm
            rcases List.mem_cons.1 hm with h | h
            · exact h3 c (by simp) h.symm
            · exact h2 h
        by_cases hcond : (cand c).perm ∧ t.size + (cand c).cost ≤ (s.read O).2.bestSize ∧
            ¬ seenState (s.read O).2 t (g.child P.cfg (cand c).op (cand c).cost).vals
        · rw [hyc.1 hcond]
          simp only
          have hi2 := inv_read O hi1
          by_cases hread2 : ((s.read O).2.read O).1 = false
          · rw [if_pos hread2]
            refine ⟨false, _, rfl, (Tried.read O hi).trans (.read O hi1), fun k hk => (hfix k hk).1, ?_⟩
            intro ho
            rw [read_true hi1.stopped ho] at hread2
            simp at hread2
          · rw [if_neg hread2]
            have hpm := hperm [] c cs rfl hseen (by simp) hcond.1
            obtain ⟨hadm, hcpos⟩ := hpm.adm hP hg
            obtain ⟨h', t', loc', e, hext, hids, hrep'⟩ := makeChild_rep (cfg := P.cfg)
              (h := ((s.read O).2.read O).2.heap) hr1 hg
              (cand c).cost hadm
            unfold tryMove
            simp only
            rw [e]
            simp only
            have hsize' : t'.size = t.size + (cand c).cost := by rw [hrep'.size, child_size, ← hr.size]
            have hcs : t.size + (cand c).cost ≤ s.bestSize := hcond.2.1
            have hnotpast : (g.child P.cfg (cand c).op (cand c).cost).vals ∉ g.past.items := by
              intro hm
              exact hcond.2.2 ((seen_iff hP hg0 hi1 hr1 hg _).2 (Or.inl hm))
            have hstep : NStep P B g (g.child P.cfg (cand c).op (cand c).cost) :=
              ⟨_, _, hpm, by rw [← hr.size]; exact le_trans hcs hi.bestLe, rfl, hnotpast⟩
            have hi3 : Inv P B g0 lo { ((s.read O).2.read O).2 with heap := h' } := inv_heap hi2 hext
            have hmade' : Made P B g0 lo h' t' := by
              have hlo : ∀ i, i < g.n → lo ≤ (s.heap.get (loc i)).id := fun i hi => hmade.ids ((hr.reach_iff hg _).2 ⟨i, hi, rfl⟩)
              have hlo0 : lo ≤ s.heap.nextUid := le_trans (hlo 0 (lt_of_lt_of_le hg.rootsPos hg.rootsLe)) (hr.nodes.uid 0 (lt_of_lt_of_le hg.rootsPos hg.rootsLe)).le
              obtain ⟨⟨v, hi0, co, m1, m2⟩, -⟩ := hmade
              refine ⟨⟨v, _, _, m1, m2.move (op := (cand c).op) (cost := (cand c).cost) ?_ (le_trans hcs hi.bestLe) e ?_⟩,
                _, loc', (hpl.move hstep).wf hP hg0, hrep', fun i hi => (hids i hi).2 lo hlo0 hlo⟩
              · rw [hr.vals, Permitted.congr (fun i v => hr.pastOf_iff hg i v)]; exact hpm
              · rw [hrep'.vals, hr.past]; exact hnotpast
            have henq := enqueue_spec hP hg0 O hi3 (t := t') ⟨hmade', _, loc', hpl.move hstep, hrep'⟩ (by rw [hsize']; exact hcs) (by
              intro q hq a ha hb
              obtain ⟨i, hi', rfl⟩ := (hrep'.reach_iff ((hpl.move hstep).wf hP hg0) a).1 hb
              have hq' := ((hi2.sols q hq).2.2).1
              have := hq'.lt ((hq'.reach hext _).1 ha)
              exact absurd (hids i hi').1 (not_le.2 this))
            have hadv : Adv s (enqueue P O { ((s.read O).2.read O).2 with heap := h' } t') :=
              (adv_read O s).trans ((adv_read O _).trans ((adv_heap hext).trans henq.adv))
            apply cont
            · refine ⟨henq.inv, hadv, ?_⟩
              obtain ⟨l, hl1, hl2⟩ := henq.grows
              refine ⟨l, ?_, hl2⟩
              intro x hx
              rw [hl1 x hx, hsize']
              have := hi.bestLe
              omega
            · intro k hk
              have h1 := hfix k hk
              have h2 := h1.2 c (by simp)
              rcases henq.best with h | h
              · rw [h]; exact h1.1
              · rw [h, hsize', h2]
            · intro ho _ _
              rcases henq.done ho with ⟨x, hx, hxt⟩ | ⟨h1, h2⟩
              · left
                refine ⟨x, hx, loc', ?_⟩
                rw [hxt, henq.heap]; exact hrep'
              · right
                refine ⟨h1, Or.inl ?_⟩
                rw [← hrep'.size]; exact h2
        · rw [hyc.2 hcond]
          simp only
          apply cont _ (Tried.read O hi) (fun k hk => (hfix k hk).1)
          intro _ hpm hstep
          right
          have hsz : g.size + (cand c).cost ≤ B := by
            have := (hstep.size hP hg).2
            rwa [child_size] at this
          rw [← hr.size] at hsz
          by_cases h1 : t.size + (cand c).cost ≤ (s.read O).2.bestSize
          · have h2 : seenState (s.read O).2 t (g.child P.cfg (cand c).op (cand c).cost).vals = true := by
              by_contra h3; exact hcond ⟨hpm, h1, h3⟩
            rw [seen_iff hP hg0 hi1 hr1 hg] at h2
            obtain ⟨_, _, _, _, _, hnp⟩ := hstep
            rcases h2 with h2 | ⟨q, hq, gq, lq, q1, q2, q3⟩
            · exact absurd h2 hnp
            · obtain ⟨w1, w2, _⟩ := hi1.sols q hq
              refine ⟨?_, Or.inr ⟨gq, q1, ?_, q3, ?_⟩⟩
              · rw [hi1.count]; exact List.length_pos_of_mem hq
              · rw [← q2.vals]; exact w2
              · rw [← q2.size]; exact le_of_eq w1.symm
          · have hne : (s.read O).2.solutions ≠ [] := by
              intro h; rw [hi1.best0 h] at h1; exact h1 hsz
            refine ⟨?_, Or.inl ?_⟩
            · rw [hi1.count]; exact List.length_pos_of_ne_nil hne
            · rw [child_size, ← hr.size]; omega

end Satis.Solver
