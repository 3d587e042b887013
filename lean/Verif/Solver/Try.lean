import Verif.Solver.Search
import Mathlib.Data.List.Lex
/-!
# The generators driven by `try_op`
-/

namespace Satis.Solver
open Satis Satis.Graph Satis.Cost Satis.Utils

/-! ### First candidates -/

theorem exists_first {C K : Type} [DecidableEq K] (key : C → K) : ∀ (L : List C) (k : K), (∃ x ∈ L, key x = k) →
    ∃ pre c post, L = pre ++ c :: post ∧ key c = k ∧ ∀ y ∈ pre, key y ≠ k := by
  intro L k
  induction L with
  | nil => simp
  | cons a L ih =>
    rintro ⟨x, hx, hk⟩
    by_cases ha : key a = k
    · exact ⟨[], a, L, rfl, ha, by simp⟩
    · rcases List.mem_cons.1 hx with rfl | hx
      · exact absurd hk ha
      · obtain ⟨pre, c, post, h1, h2, h3⟩ := ih ⟨x, hx, hk⟩
        refine ⟨a :: pre, c, post, by rw [h1]; rfl, h2, ?_⟩
        intro y hy
        rcases List.mem_cons.1 hy with rfl | hy
        · exact ha
        · exact h3 y hy

theorem mem_pre {C R : Type} [LinearOrder R] (rank : C → R) {L pre post : List C} {c : C}
    (hs : L.Pairwise fun x y => rank x ≤ rank y) (hL : L = pre ++ c :: post) {x : C} (hx : x ∈ L) (hlt : rank x < rank c) : x ∈ pre := by
  rw [hL] at hx hs
  rcases List.mem_append.1 hx with h | h
  · exact h
  · exfalso
    have h2 := (List.pairwise_append.1 hs).2.1
    rcases List.mem_cons.1 h with rfl | h
    · exact lt_irrefl _ hlt
    · exact absurd ((List.pairwise_cons.1 h2).1 x h) (not_le.2 hlt)

theorem FirstAt.unique {vals : List Int} {i j : Nat} {v : Int} (h1 : FirstAt vals i v) (h2 : FirstAt vals j v) : i = j := by
  by_contra hne
  rcases Nat.lt_or_gt_of_ne hne with h | h
  · exact h2.2 i h h1.1
  · exact h1.2 j h h2.1

section rows
variable {D : Type} (srcs : List Addr) (val : Addr → Int) (row : Int → List D)

/-- The candidates of a generator with two nested loops. -/
def rowCands : List (Nat × Addr × D) :=
  srcs.zipIdx.flatMap fun p => (row (val p.1)).map fun d => (p.2, p.1, d)

theorem mem_rowCands {x : Nat × Addr × D} : x ∈ rowCands srcs val row ↔ srcs[x.1]? = some x.2.1 ∧ x.2.2 ∈ row (val x.2.1) := by
  obtain ⟨i, a, d⟩ := x
  unfold rowCands
  simp only [List.mem_flatMap, List.mem_map, Prod.exists, Prod.mk.injEq, List.mem_zipIdx_iff_getElem?]
  constructor
  · rintro ⟨a', i', h, d', hd, rfl, rfl, rfl⟩
    exact ⟨h, hd⟩
  · rintro ⟨h, hd⟩
    exact ⟨a, i, h, d, hd, rfl, rfl, rfl⟩

theorem zipIdx_pairwise (l : List Addr) : l.zipIdx.Pairwise fun x y => x.2 ≤ y.2 := by
  rw [List.pairwise_iff_getElem]
  intro i j hi hj hij
  simp only [List.getElem_zipIdx]
  omega

theorem rowCands_pairwise : (rowCands srcs val row).Pairwise fun x y => x.1 ≤ y.1 := by
  unfold rowCands
  rw [List.pairwise_flatMap]
  constructor
  · intro p _
    rw [List.pairwise_map]
    exact List.pairwise_of_forall (fun _ _ => le_rfl)
  · refine (zipIdx_pairwise srcs).imp ?_
    intro p q hpq x hx y hy
    obtain ⟨d, _, rfl⟩ := List.mem_map.1 hx
    obtain ⟨d', _, rfl⟩ := List.mem_map.1 hy
    exact hpq

theorem rowCands_first {pre post : List (Nat × Addr × D)} {c : Nat × Addr × D} (hL : rowCands srcs val row = pre ++ c :: post)
    (hk : ∀ x ∈ pre, (val x.2.1, x.2.2) ≠ (val c.2.1, c.2.2)) : FirstAt (srcs.map val) c.1 (val c.2.1) := by
  have hc : c ∈ rowCands srcs val row := by rw [hL]; simp
  rw [mem_rowCands] at hc
  refine ⟨by rw [List.getElem?_map, hc.1]; rfl, ?_⟩
  intro j hj hv
  rw [List.getElem?_map] at hv
  cases ha : srcs[j]? with
  | none => rw [ha] at hv; simp at hv
  | some a =>
    rw [ha] at hv
    simp at hv
    have hx : ((j, a, c.2.2) : Nat × Addr × D) ∈ rowCands srcs val row := by
      rw [mem_rowCands]; exact ⟨ha, by simp only; rw [hv]; exact hc.2⟩
    have := mem_pre (fun x : Nat × Addr × D => x.1) (rowCands_pairwise srcs val row) hL hx hj
    exact hk _ this (by simp [hv])

theorem rowCands_exists [DecidableEq D] {i : Nat} {a : Addr} {d : D} (hf : FirstAt (srcs.map val) i (val a)) (ha : srcs[i]? = some a)
    (hd : d ∈ row (val a)) : ∃ pre post, rowCands srcs val row = pre ++ (i, a, d) :: post ∧
      ∀ x ∈ pre, (val x.2.1, x.2.2) ≠ (val a, d) := by
  obtain ⟨pre, c, post, h1, h2, h3⟩ := exists_first (fun x : Nat × Addr × D => (val x.2.1, x.2.2)) (rowCands srcs val row) (val a, d)
    ⟨(i, a, d), by rw [mem_rowCands]; exact ⟨ha, hd⟩, rfl⟩
  have hc : c ∈ rowCands srcs val row := by rw [h1]; simp
  have hf' := rowCands_first srcs val row h1 (by intro x hx; rw [h2]; exact h3 x hx)
  injection h2 with h4 h5
  rw [h4] at hf'
  have hi := hf.unique hf'
  rw [mem_rowCands, ← hi, ha] at hc
  have hce : c = (i, a, d) := by
    obtain ⟨c1, c2, c3⟩ := c
    simp only at hi h5 hc
    have := Option.some.inj hc.1
    simp [hi, h5, this]
  exact ⟨pre, post, by rw [← hce]; exact h1, h3⟩

end rows

/-! ### Specification of one `try_op` call -/

/-- `f` adds to the search what the permitted moves among `ops` lead to. -/
def TryOK (P : Problem) (B : Int) (g0 : Net) (lo : Nat) (O : Oracle) (t : TreeObj Int) (g : Net) (loc : Nat → Addr) (f : Search → Py Search)
    (ops : Op → Prop) : Prop :=
  ∀ s, Inv P B g0 lo s → Rep s.heap t g loc → Made P B g0 lo s.heap t → ∃ s', f s = .ok s' ∧ Tried P B g0 lo t.size s s' ∧
    (O.stopAt = none → ∀ op cost, ops op → Permitted P g.vals g.pastOf op cost → NStep P B g (g.child P.cfg op cost) →
      Handled P B g0 s' (g.child P.cfg op cost))

section
variable {P : Problem} (hP : P.WF) {B : Int} {g0 : Net} {lo : Nat} (hg0 : g0.WF) (O : Oracle) {t : TreeObj Int} {g : Net} {loc : Nat → Addr}
  (hpl : NPlay P B g0 g) {cu : List Int} (hcu : ∀ v, v ∈ cu ↔ Needed P.targetValues g.vals v)
include hP hg0 hpl hcu

omit hP hg0 hpl hcu in
theorem Rep.src_loc {h : Heap Int} (hr : Rep h t g loc) {i : Nat} {a : Addr} (ha : t.sources[i]? = some a) :
    i < g.srcs.length ∧ a = loc (g.src i) := by
  rw [hr.sources, List.getElem?_map] at ha
  by_cases hi : i < g.srcs.length
  · rw [Net.src_get hi] at ha
    simp at ha
    exact ⟨hi, ha.symm⟩
  · rw [List.getElem?_eq_none (by omega)] at ha
    simp at ha

theorem tryExtract_ok (hgate : ∃ w ∈ g.vals, P.minTarget < w) :
    TryOK P B g0 lo O t g loc (tryExtract P O t cu) (fun op => ∃ i c, op = .extract i c) := by
  intro s hi hr hmade
  have hg := hpl.wf hP hg0
  have hmap : t.sources.map (fun a => (s.heap.get a).value) = g.vals := by rw [hr.values hg, hr.vals]
  let row : Int → List Int := fun v => (List.range ((v - 1) / 2).toNat).map fun (k : Nat) => (k : Int) + 1
  have hrow : ∀ v c, c ∈ row v ↔ 0 < c ∧ 2 * c < v := by
    intro v c
    simp only [row, List.mem_map, List.mem_range]
    constructor
    · rintro ⟨k, hk, rfl⟩; omega
    · intro h; exact ⟨(c - 1).toNat, by omega, by omega⟩
  have hcands : extractCands s.heap t = rowCands t.sources (fun a => (s.heap.get a).value) row := by
    unfold extractCands rowCands
    simp only [row, List.map_map]; rfl
  have hval : ∀ i, i < g.srcs.length → (s.heap.get (loc (g.src i))).value = (g.node (g.src i)).value := fun i hi =>
    hr.nodes.value _ ((hg.memSrcs _).1 (Net.src_mem hi)).1
  have hmem : ∀ c ∈ extractCands s.heap t, c.1 < g.srcs.length ∧ c.2.1 = loc (g.src c.1) ∧ 0 < c.2.2 ∧
      2 * c.2.2 < (g.node (g.src c.1)).value := by
    intro c hc
    rw [hcands, mem_rowCands] at hc
    obtain ⟨h1, h2⟩ := hr.src_loc hc.1
    have h3 := (hrow _ _).1 hc.2
    rw [h2, hval _ h1] at h3
    exact ⟨h1, h2, h3.1, h3.2⟩
  let cand : Nat × Addr × Int → Candidate := fun x =>
    ⟨.extract x.1 x.2.2, okVal (extractCost P.cfg (g.node (g.src x.1)).value x.2.2),
      ¬ Needed P.targetValues g.vals (g.node (g.src x.1)).value ∧ P.gcd ≤ x.2.2 ∧ ¬ g.pastOf x.1 x.2.2 ∧
        ¬ g.pastOf x.1 ((g.node (g.src x.1)).value - x.2.2)⟩
  obtain ⟨b, s', e, t1, _, t3⟩ := tryLoop_spec hP hg0 O hpl (fun (x : Nat × Addr × Int) => ((s.heap.get x.2.1).value, x.2.2))
    (fun s x => extractMove P t cu s x.1 x.2.1 x.2.2) cand none (extractCands s.heap t) [] s hi hr hmade (by simp)
    (by
      intro c hc s1 hr1 _
      obtain ⟨h1, h2, h3, h4⟩ := hmem c hc
      rw [h2]
      exact extractMove_yields hr1 hg hcu h1 h3 h4)
    (by
      intro pre c post h1 _ h3 h4
      obtain ⟨m1, m2, m3, m4⟩ := hmem c (by rw [h1]; simp)
      rw [hcands] at h1
      have hf := rowCands_first _ _ _ h1 h3
      rw [hmap, m2, hval _ m1] at hf
      obtain ⟨cost, hcost, _⟩ := extractCost_pos P.cfg (g.node (g.src c.1)).value c.2.2 (by omega) m3 (by omega)
      refine ⟨_, hf, h4.1, hgate, m3, m4, h4.2.1, h4.2.2.1, h4.2.2.2, ?_⟩
      simp only [cand]; rw [hcost]; rfl)
  refine ⟨s', by unfold tryExtract; rw [e]; rfl, t1, ?_⟩
  rintro ho _ cost ⟨i, c, rfl⟩ hp hst
  obtain ⟨_, h5⟩ := t3 ho
  obtain ⟨v, hf, n1, _, n3, n4, n5, n6, n7, n8⟩ := hp
  obtain ⟨f1, f2⟩ := Net.lt_of_vals hf.1
  have hsrc : t.sources[i]? = some (loc (g.src i)) := by rw [hr.sources, List.getElem?_map, Net.src_get f1]; rfl
  obtain ⟨pre, post, p1, p2⟩ := rowCands_exists t.sources (fun a => (s.heap.get a).value) row (i := i) (a := loc (g.src i)) (d := c)
    (by rw [hmap, hval _ f1, f2]; exact hf) hsrc (by rw [hrow]; rw [hval _ f1, f2]; exact ⟨n3, n4⟩)
  rw [← hcands] at p1
  have := h5 pre (i, loc (g.src i), c) post p1 (by simp) p2
  simp only [cand, f2, n8, okVal] at this
  exact this ⟨n1, n5, n6, n7⟩ hst

theorem tryDivide_ok (hgate : ∃ w ∈ g.vals, P.minTarget < w) :
    TryOK P B g0 lo O t g loc (tryDivide P O t cu) (fun op => ∃ i d, op = .divide i d) := by
  intro s hi hr hmade
  have hg := hpl.wf hP hg0
  have hmap : t.sources.map (fun a => (s.heap.get a).value) = g.vals := by rw [hr.values hg, hr.vals]
  have hval : ∀ i, i < g.srcs.length → (s.heap.get (loc (g.src i))).value = (g.node (g.src i)).value := fun i hi =>
    hr.nodes.value _ ((hg.memSrcs _).1 (Net.src_mem hi)).1
  have hpos : ∀ i, i < g.srcs.length → 0 < (g.node (g.src i)).value := fun i hi =>
    hg.pos _ ((hg.memSrcs _).1 (Net.src_mem hi)).1
  have hrow : ∀ v, 0 < v → ∀ d : Nat, d ∈ getDivisors v ↔ 2 ≤ d ∧ (d : Int) ∣ v := by
    intro v hv d
    simp only [getDivisors, List.mem_filter, List.mem_range'_1, decide_eq_true_eq, ← Int.dvd_iff_emod_eq_zero]
    constructor
    · rintro ⟨⟨h1, h2⟩, h3⟩; exact ⟨h1, h3⟩
    · rintro ⟨h1, h2⟩
      have := Int.le_of_dvd hv h2
      exact ⟨⟨h1, by omega⟩, h2⟩
  have hcands : divideCands s.heap t = rowCands t.sources (fun a => (s.heap.get a).value) getDivisors := rfl
  have hmem : ∀ c ∈ divideCands s.heap t, c.1 < g.srcs.length ∧ c.2.1 = loc (g.src c.1) ∧ 2 ≤ c.2.2 ∧
      (c.2.2 : Int) ∣ (g.node (g.src c.1)).value := by
    intro c hc
    rw [hcands, mem_rowCands] at hc
    obtain ⟨h1, h2⟩ := hr.src_loc hc.1
    have h3 := hc.2
    rw [h2, hval _ h1, hrow _ (hpos _ h1)] at h3
    exact ⟨h1, h2, h3.1, h3.2⟩
  let cand : Nat × Addr × Nat → Candidate := fun x =>
    ⟨.divide x.1 x.2.2, okVal (divideCost P.cfg (g.node (g.src x.1)).value x.2.2),
      ¬ Needed P.targetValues g.vals (g.node (g.src x.1)).value ∧ P.gcd ≤ (g.node (g.src x.1)).value / x.2.2 ∧
        ¬ g.pastOf x.1 ((g.node (g.src x.1)).value / x.2.2)⟩
  obtain ⟨b, s', e, t1, _, t3⟩ := tryLoop_spec hP hg0 O hpl (fun (x : Nat × Addr × Nat) => ((s.heap.get x.2.1).value, x.2.2))
    (fun s x => divideMove P t cu s x.1 x.2.1 x.2.2) cand none (divideCands s.heap t) [] s hi hr hmade (by simp)
    (by
      intro c hc s1 hr1 _
      obtain ⟨h1, h2, h3, h4⟩ := hmem c hc
      rw [h2]
      exact divideMove_yields hr1 hg hcu h1 h3 h4)
    (by
      intro pre c post h1 _ h3 h4
      obtain ⟨m1, m2, m3, m4⟩ := hmem c (by rw [h1]; simp)
      rw [hcands] at h1
      have hf := rowCands_first _ _ _ h1 h3
      rw [hmap, m2, hval _ m1] at hf
      have hdle := Int.le_of_dvd (hpos _ m1) m4
      obtain ⟨_, _, cost, -, -, -, -, hcost, _, -⟩ := divideCost_core P.cfg (g.node (g.src c.1)).value c.2.2 (by omega) m3 hdle
      refine ⟨_, hf, h4.1, hgate, m3, m4, h4.2.1, h4.2.2, ?_⟩
      simp only [cand]; rw [hcost]; rfl)
  refine ⟨s', by unfold tryDivide; rw [e]; rfl, t1, ?_⟩
  rintro ho _ cost ⟨i, c, rfl⟩ hp hst
  obtain ⟨_, h5⟩ := t3 ho
  obtain ⟨v, hf, n1, _, n3, n4, n5, n6, n8⟩ := hp
  obtain ⟨f1, f2⟩ := Net.lt_of_vals hf.1
  have hsrc : t.sources[i]? = some (loc (g.src i)) := by rw [hr.sources, List.getElem?_map, Net.src_get f1]; rfl
  obtain ⟨pre, post, p1, p2⟩ := rowCands_exists t.sources (fun a => (s.heap.get a).value) getDivisors (i := i) (a := loc (g.src i))
    (d := c) (by rw [hmap, hval _ f1, f2]; exact hf) hsrc
    (by rw [hval _ f1, hrow _ (hpos _ f1), f2]; exact ⟨n3, n4⟩)
  rw [← hcands] at p1
  have := h5 pre (i, loc (g.src i), c) post p1 (by simp) p2
  simp only [cand, f2, n8, okVal] at this
  exact this ⟨n1, n5, n6⟩ hst

omit hcu in
/-- Too expensive moves need no attention. -/
theorem handled_of_cost {s : Search} (hi : Inv P B g0 lo s) (hr : Rep s.heap t g loc) {op : Op} {cost : Int}
    (hc : s.bestSize < t.size + cost) (hst : NStep P B g (g.child P.cfg op cost)) : Handled P B g0 s (g.child P.cfg op cost) := by
  have hg := hpl.wf hP hg0
  have hsz := (hst.size hP hg).2
  rw [child_size, ← hr.size] at hsz
  have hne : s.solutions ≠ [] := by
    intro h; rw [hi.best0 h] at hc; omega
  refine Or.inr ⟨?_, Or.inl ?_⟩
  · rw [hi.count]; exact List.length_pos_of_ne_nil hne
  · rw [child_size, ← hr.size]; omega

theorem trySplit_ok (hgate : ∃ w ∈ g.vals, P.minTarget < w) :
    TryOK P B g0 lo O t g loc (trySplit P O t cu) (fun op => ∃ i c, op = .split i c) := by
  intro s hi hr hmade
  have hg := hpl.wf hP hg0
  unfold trySplit
  by_cases hsz : t.size + splitCost > s.bestSize
  · rw [if_pos hsz]
    refine ⟨s, rfl, .refl hi, ?_⟩
    rintro _ _ cost ⟨i, c, rfl⟩ hp hst
    obtain ⟨v, -, -, -, -, -, -, -, -, -, hcost⟩ := hp
    subst hcost
    exact handled_of_cost hP hg0 hpl hi hr hsz hst
  · rw [if_neg hsz]
    have hmap : t.sources.map (fun a => (s.heap.get a).value) = g.vals := by rw [hr.values hg, hr.vals]
    have hval : ∀ i, i < g.srcs.length → (s.heap.get (loc (g.src i))).value = (g.node (g.src i)).value := fun i hi =>
      hr.nodes.value _ ((hg.memSrcs _).1 (Net.src_mem hi)).1
    have hmem : ∀ c ∈ t.sources.zipIdx, c.2 < g.srcs.length ∧ c.1 = loc (g.src c.2) := by
      intro c hc
      rw [List.mem_zipIdx_iff_getElem?] at hc
      exact hr.src_loc hc
    have hfirst : ∀ pre c post, t.sources.zipIdx = pre ++ c :: post →
        (∀ x ∈ pre, (s.heap.get x.1).value ≠ (s.heap.get c.1).value) → FirstAt g.vals c.2 (g.node (g.src c.2)).value := by
      intro pre c post h1 h3
      obtain ⟨m1, m2⟩ := hmem c (by rw [h1]; simp)
      refine ⟨Net.vals_get m1, ?_⟩
      intro j hj hv
      obtain ⟨v1, v2⟩ := Net.lt_of_vals hv
      have hx : (loc (g.src j), j) ∈ t.sources.zipIdx := by
        rw [List.mem_zipIdx_iff_getElem?]
        show t.sources[j]? = some (loc (g.src j))
        rw [hr.sources, List.getElem?_map, Net.src_get v1]; rfl
      have := mem_pre (fun x : Addr × Nat => x.2) (zipIdx_pairwise t.sources) h1 hx hj
      apply h3 _ this
      rw [m2, hval _ m1, hval _ v1, v2]
    let cand : Addr × Nat → Candidate := fun x =>
      ⟨.split x.2 (splitSpeed P (g.node (g.src x.2)).value), 3,
        ¬ Needed P.targetValues g.vals (g.node (g.src x.2)).value ∧
        NextSpeed P.cfg (g.node (g.src x.2)).value (splitSpeed P (g.node (g.src x.2)).value) ∧
        P.gcd ≤ splitSpeed P (g.node (g.src x.2)).value / 3 ∧
        P.gcd ≤ (g.node (g.src x.2)).value - 2 * (splitSpeed P (g.node (g.src x.2)).value / 3) ∧
        0 ≤ (g.node (g.src x.2)).value - 2 * (splitSpeed P (g.node (g.src x.2)).value / 3) ∧
        ¬ g.pastOf x.2 (splitSpeed P (g.node (g.src x.2)).value / 3) ∧
        ¬ g.pastOf x.2 ((g.node (g.src x.2)).value - 2 * (splitSpeed P (g.node (g.src x.2)).value / 3))⟩
    obtain ⟨b, s', e, t1, _, t3⟩ := tryLoop_spec hP hg0 O hpl (fun (x : Addr × Nat) => (s.heap.get x.1).value)
      (fun s x => splitMove P t cu s x.2 x.1) cand (some 3) t.sources.zipIdx [] s hi hr hmade
      (by
        intro k hk
        injection hk with hk; subst hk
        exact ⟨by unfold splitCost at hsz; omega, fun _ _ => rfl⟩)
      (by
        intro c hc s1 hr1 hb
        obtain ⟨h1, h2⟩ := hmem c hc
        rw [h2]
        have hy := splitMove_yields hP hr1 hg hcu h1
        have hb' : t.size + 3 ≤ s1.bestSize := hb 3 rfl
        constructor
        · intro h; exact hy.1 ⟨h.1, h.2.2⟩
        · intro h; exact hy.2 (fun h' => h ⟨h'.1, hb', h'.2⟩))
      (by
        intro pre c post h1 _ h3 h4
        exact ⟨_, hfirst pre c post h1 h3, h4.1, hgate, h4.2.1, h4.2.2.1, h4.2.2.2.1, h4.2.2.2.2.1, h4.2.2.2.2.2.1,
          h4.2.2.2.2.2.2, rfl⟩)
    refine ⟨s', by rw [e]; rfl, t1, ?_⟩
    rintro ho _ cost ⟨i, c, rfl⟩ hp hst
    obtain ⟨_, h5⟩ := t3 ho
    obtain ⟨v, hf, n1, _, n2, n3, n4, n5, n6, n7, rfl⟩ := hp
    obtain ⟨f1, f2⟩ := Net.lt_of_vals hf.1
    have hsrc : t.sources[i]? = some (loc (g.src i)) := by rw [hr.sources, List.getElem?_map, Net.src_get f1]; rfl
    obtain ⟨pre, c', post, p1, p2, p3⟩ := exists_first (fun x : Addr × Nat => (s.heap.get x.1).value) t.sources.zipIdx v
      ⟨(loc (g.src i), i), by rw [List.mem_zipIdx_iff_getElem?]; exact hsrc, by simp only; rw [hval _ f1, f2]⟩
    obtain ⟨m1, m2⟩ := hmem c' (by rw [p1]; simp)
    have hf' := hfirst pre c' post p1 (by rw [p2]; exact p3)
    have hv' : (g.node (g.src c'.2)).value = v := by rw [← hval _ m1, ← m2]; exact p2
    rw [hv'] at hf'
    have hi' := hf.unique hf'
    have hspeed : splitSpeed P v = c := by
      obtain ⟨⟨w, hw, rfl⟩, q2, q3⟩ := n2
      unfold splitSpeed
      rw [(find_speed hP.speeds v w).2 ⟨hw, q2, q3⟩]; rfl
    have := h5 pre c' post p1 (by simp) (by rw [p2]; exact p3)
    simp only [cand, ← hi', f2, hspeed] at this
    exact this ⟨n1, n2, n3, n4, n5, n6, n7⟩ hst

end

/-! ### Merges -/

theorem mem_combinations {α : Type} (L : List α) (k : Nat) (l : List α) : l ∈ combinations L k ↔ l.Sublist L ∧ l.length = k := by
  induction L generalizing k l with
  | nil =>
    cases k with
    | zero =>
      simp only [combinations, List.mem_singleton, List.sublist_nil]
      constructor
      · rintro rfl; simp
      · exact fun h => h.1
    | succ k =>
      simp only [combinations, List.not_mem_nil, List.sublist_nil, false_iff]
      rintro ⟨rfl, h⟩; simp at h
  | cons x xs ih =>
    cases k with
    | zero =>
      simp only [combinations, List.mem_singleton]
      constructor
      · rintro rfl; simp
      · exact fun h => List.length_eq_zero_iff.1 h.2
    | succ k =>
      simp only [combinations, List.mem_append, List.mem_map, ih]
      constructor
      · rintro (⟨l', ⟨h1, h2⟩, rfl⟩ | ⟨h1, h2⟩)
        · exact ⟨h1.cons_cons x, by simp [h2]⟩
        · exact ⟨h1.cons x, h2⟩
      · rintro ⟨h1, h2⟩
        cases h1 with
        | cons _ h => exact Or.inr ⟨h, h2⟩
        | cons_cons _ h => exact Or.inl ⟨_, ⟨h, by simpa using h2⟩, rfl⟩

theorem combinations_sorted (L : List Nat) (hL : L.Pairwise (· < ·)) (k : Nat) : (combinations L k).Pairwise (· < ·) := by
  induction L generalizing k with
  | nil => cases k <;> simp [combinations]
  | cons x xs ih =>
    obtain ⟨h1, h2⟩ := List.pairwise_cons.1 hL
    cases k with
    | zero => simp [combinations]
    | succ k =>
      simp only [combinations]
      rw [List.pairwise_append]
      refine ⟨?_, ih h2 (k + 1), ?_⟩
      · rw [List.pairwise_map]
        exact (ih h2 k).imp (fun h => List.cons_lt_cons_self.2 h)
      · intro a ha b hb
        obtain ⟨a', _, rfl⟩ := List.mem_map.1 ha
        obtain ⟨hb1, hb2⟩ := (mem_combinations _ _ _).1 hb
        cases b with
        | nil => simp at hb2
        | cons y ys =>
          exact List.cons_lt_cons_iff.2 (Or.inl (h1 y (hb1.subset (by simp))))

theorem mapM_ok {α β : Type} (f : α → Py β) (g : α → β) : ∀ l : List α, (∀ x ∈ l, f x = .ok (g x)) → l.mapM f = .ok (l.map g) := by
  intro l
  induction l with
  | nil => intro _; rfl
  | cons x xs ih =>
    intro h
    rw [List.mapM_cons, h x (by simp), ih (fun y hy => h y (by simp [hy]))]
    rfl

theorem pick_vals {g : Net} : ∀ idx : List Nat, (∀ i ∈ idx, i < g.srcs.length) →
    pick g.vals idx = .ok (idx.map fun i => (g.node (g.src i)).value) := by
  intro idx
  induction idx with
  | nil => intro _; rfl
  | cons i is ih =>
    intro h
    unfold pick
    rw [Net.vals_get (h i (by simp)), ih (fun j hj => h j (by simp [hj]))]
    rfl

section
variable {P : Problem} (hP : P.WF) {B : Int} {g0 : Net} {lo : Nat} (hg0 : g0.WF) (O : Oracle) {t : TreeObj Int} {g : Net} {loc : Nat → Addr}
  (hpl : NPlay P B g0 g) {cu : List Int} (hcu : ∀ v, v ∈ cu ↔ Needed P.targetValues g.vals v)
include hP hg0 hpl hcu

theorem tryMergeCounts_ok : ∀ ks : List Nat, (∀ k ∈ ks, 2 ≤ k) →
    TryOK P B g0 lo O t g loc (tryMergeCounts P O t cu ks) (fun op => ∃ idx, op = .merge idx ∧ idx.length ∈ ks) := by
  have hg := hpl.wf hP hg0
  intro ks
  induction ks with
  | nil =>
    intro _ s hi _ _
    refine ⟨s, rfl, .refl hi, ?_⟩
    rintro _ op cost ⟨idx, _, h⟩; simp at h
  | cons k ks ih =>
    intro hks s hi hr hmade
    have hk := hks k (by simp)
    have ih' := ih (fun k' hk' => hks k' (by simp [hk']))
    have hcost : ((mergeCost (k : Int) 1 : Nat) : Int) = (k / 2 : Nat) := by
      rw [mergeCost_eq]
      congr 1
      omega
    unfold tryMergeCounts
    simp only
    rw [hcost]
    by_cases hsz : t.size + ((k / 2 : Nat) : Int) > s.bestSize
    · rw [if_pos hsz]
      obtain ⟨s', e, t1, t2⟩ := ih' s hi hr hmade
      refine ⟨s', e, t1, ?_⟩
      rintro ho _ cost ⟨idx, rfl, hm⟩ hp hst
      rcases List.mem_cons.1 hm with h | h
      · have hc : cost = (idx.length / 2 : Nat) := by
          obtain ⟨vs, -, -, -, -, -, -, -, -, hc⟩ := hp
          exact hc
        rw [h] at hc
        subst hc
        exact (handled_of_cost hP hg0 hpl hi hr hsz hst).adv t1.adv
      · exact t2 ho _ cost ⟨idx, rfl, h⟩ hp hst
    · rw [if_neg hsz]
      have hlts : ∀ idx ∈ combinations (List.range t.nSources) k, idx.Sublist (List.range g.srcs.length) ∧ idx.length = k := by
        intro idx h
        rw [mem_combinations, hr.nSources] at h
        exact h
      have hc1 : mergeCands t k = .ok ((combinations (List.range t.nSources) k).map fun idx =>
          (idx, idx.map fun i => (g.node (g.src i)).value)) := by
        unfold mergeCands
        apply mapM_ok
        intro idx h
        rw [hr.vals, pick_vals idx (sublist_range_lt (hlts idx h).1)]
      rw [hc1]
      simp only
      set cands := (combinations (List.range t.nSources) k).map fun idx =>
          (idx, idx.map fun i => (g.node (g.src i)).value) with hcands
      have hmem : ∀ c ∈ cands, c.1.Sublist (List.range g.srcs.length) ∧ c.1.length = k ∧
          c.2 = c.1.map fun i => (g.node (g.src i)).value := by
        intro c hc
        obtain ⟨idx, h1, rfl⟩ := List.mem_map.1 hc
        exact ⟨(hlts idx h1).1, (hlts idx h1).2, rfl⟩
      have hsorted : cands.Pairwise fun x y => x.1 ≤ y.1 := by
        rw [hcands, List.pairwise_map]
        exact (combinations_sorted _ List.pairwise_lt_range k).imp (fun h => le_of_lt h)
      have hin : ∀ idx, idx.Pairwise (· < ·) → (∀ i ∈ idx, i < g.srcs.length) → idx.length = k →
          (idx, idx.map fun i => (g.node (g.src i)).value) ∈ cands := by
        intro idx h1 h2 h3
        rw [hcands]
        apply List.mem_map.2
        refine ⟨idx, ?_, rfl⟩
        rw [mem_combinations, hr.nSources]
        exact ⟨sublist_range_iff.2 ⟨h1, h2⟩, h3⟩
      let cand : List Nat × List Int → Candidate := fun x =>
        ⟨.merge x.1, ((k / 2 : Nat) : Int),
          (∀ i ∈ x.1, ¬ Needed P.targetValues g.vals (g.node (g.src i)).value) ∧
          P.gcd ≤ (x.1.map fun i => (g.node (g.src i)).value).sum ∧
          (x.1.map fun i => (g.node (g.src i)).value).sum ≤ P.limit ∧
          ∀ i ∈ x.1, ¬ g.pastOf i (x.1.map fun i => (g.node (g.src i)).value).sum⟩
      obtain ⟨b, s1, e, t1, _, t3⟩ := tryLoop_spec hP hg0 O hpl (fun (x : List Nat × List Int) => x.2)
        (fun s x => mergeMove P t cu ((k / 2 : Nat) : Int) s x.1 x.2) cand (some ((k / 2 : Nat) : Int)) cands [] s hi hr hmade
        (by
          intro k' hk'
          injection hk' with hk'; subst hk'
          exact ⟨by omega, fun _ _ => rfl⟩)
        (by
          intro c hc s1 hr1 hb
          obtain ⟨h1, h2, h3⟩ := hmem c hc
          rw [h3]
          have hy := mergeMove_yields (P := P) hr1 hg hcu (idx := c.1) ⟨h1, by omega⟩ ((k / 2 : Nat) : Int)
          have hb' := hb _ rfl
          constructor
          · intro h; exact hy.1 ⟨h.1, h.2.2⟩
          · intro h; exact hy.2 (fun h' => h ⟨h'.1, hb', h'.2⟩))
        (by
          intro pre c post h1 _ h3 h4
          obtain ⟨m1, m2, m3⟩ := hmem c (by rw [h1]; simp)
          have hltc := sublist_range_lt m1
          refine ⟨c.1.map fun i => (g.node (g.src i)).value, merge_values' hltc, (sublist_range_iff.1 m1).1, by omega, ?_, ?_,
            h4.2.1, h4.2.2.1, h4.2.2.2, by simp only [cand]; rw [m2]⟩
          · intro idx' q1 q2 q3
            obtain ⟨w1, w2⟩ := merge_values q2
            have hlen : idx'.length = k := by
              have := congrArg List.length w2
              simp at this
              omega
            have hx := hin idx' q1 w1 hlen
            have := mem_pre (fun x : List Nat × List Int => x.1) hsorted h1 hx q3
            refine h3 _ this ?_
            simp only
            rw [m3, w2]
          · intro v hv
            obtain ⟨i, hi', rfl⟩ := List.mem_map.1 hv
            exact h4.1 i hi')
      rw [e]
      cases b with
      | false =>
        refine ⟨s1, rfl, t1, ?_⟩
        intro ho
        have := (t3 ho).1
        simp at this
      | true =>
        simp only
        obtain ⟨s', e', t1', t2'⟩ := ih' s1 t1.inv (hr.ext t1.adv.ext) (hmade.ext t1.adv.ext)
        refine ⟨s', e', t1.trans t1', ?_⟩
        rintro ho _ cost ⟨idx, rfl, hm⟩ hp hst
        by_cases hlen : idx.length = k
        · refine Handled.adv ?_ t1'.adv
          obtain ⟨vs, n1, n2, n3, n4, n5, n6, n7, n8, n9⟩ := hp
          obtain ⟨w1, w2⟩ := merge_values n1
          obtain ⟨pre, c, post, p1, p2, p3⟩ := exists_first (fun x : List Nat × List Int => x.2) cands vs
            ⟨(idx, vs), by rw [w2]; exact hin idx n2 w1 hlen, rfl⟩
          obtain ⟨m1, m2, m3⟩ := hmem c (by rw [p1]; simp)
          have hcidx : c.1 = idx := by
            rcases lt_trichotomy c.1 idx with h | h | h
            · exfalso
              refine n4 c.1 (sublist_range_iff.1 m1).1 ?_ h
              rw [merge_values' (sublist_range_lt m1), ← m3, p2]
            · exact h
            · exfalso
              have hx : (idx, vs) ∈ cands := by rw [w2]; exact hin idx n2 w1 hlen
              have := mem_pre (fun x : List Nat × List Int => x.1) hsorted p1 hx h
              exact p3 _ this rfl
          have := (t3 ho).2 pre c post p1 (by simp) (by rw [p2]; exact p3)
          simp only [cand, hcidx, ← w2] at this
          rw [hlen] at n9
          subst n9
          refine this ⟨?_, n6, n7, n8⟩ hst
          intro i hi'
          apply n5
          rw [w2]
          exact List.mem_map_of_mem hi'
        · rcases List.mem_cons.1 hm with h | h
          · exact absurd h hlen
          · exact t2' ho _ cost ⟨idx, rfl, h⟩ hp hst

theorem tryMerge_ok : TryOK P B g0 lo O t g loc (tryMerge P O t cu) (fun op => ∃ idx, op = .merge idx) := by
  intro s hi hr hmade
  obtain ⟨s', e, t1, t2⟩ := tryMergeCounts_ok hP hg0 O hpl hcu (t := t) (loc := loc) (List.range' 2 (t.nSources - 1))
    (by intro k hk; rw [List.mem_range'_1] at hk; exact hk.1) s hi hr hmade
  refine ⟨s', e, t1, ?_⟩
  rintro ho _ cost ⟨idx, rfl⟩ hp hst
  refine t2 ho _ cost ⟨idx, rfl, ?_⟩ hp hst
  have ha := (hp.adm hP (hpl.wf hP hg0)).1
  have hle := ha.1.length_le
  simp at hle
  rw [List.mem_range'_1, hr.nSources]
  have := ha.2
  omega

end

end Satis.Solver
