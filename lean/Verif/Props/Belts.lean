import Verif.Props.DepthSolution
/-!
# How large a network is and how many belts it joins
-/

namespace Satis
open Satis.Utils Satis.Cost Satis.Graph Satis.Solver Satis.Solver.Example

/-! ## C107 — each unit of the size stands for at most two belts more or less -/

/-- A selection of subtrees with fewer leaves than the whole tree: its splitters against its leaves. -/
theorem Cost.two_tot_Sat (n m : Nat) (sel : List Nat) (hl : tot (Lat n m) sel < L n m) :
    2 * tot (Sat n m) sel + 1 ≤ tot (Lat n m) sel + 2 ^ n := by
  obtain ⟨w, h1, h2⟩ : ∃ w, 2 * tot (Sat n m) sel ≤ tot (Lat n m) sel + w ∧ 3 ^ m * w ≤ tot (Lat n m) sel := by
    clear hl
    induction sel with
    | nil => exact ⟨0, by simp [tot], by simp [tot]⟩
    | cons j sel ih =>
      obtain ⟨w, h1, h2⟩ := ih
      have e1 : tot (Sat n m) (j :: sel) = Sat n m j + tot (Sat n m) sel := by simp [tot]
      have e2 : tot (Lat n m) (j :: sel) = Lat n m j + tot (Lat n m) sel := by simp [tot]
      have h3 := two_S (n - j) (m - (j - n))
      have e3 : Lat n m j = 2 ^ (n - j) * 3 ^ (m - (j - n)) := rfl
      have e4 : Sat n m j = S (n - j) (m - (j - n)) := rfl
      rw [Nat.mul_add, Nat.mul_add, Nat.mul_one, Nat.mul_one, ← e3, ← e4] at h3
      rw [e1, e2]
      by_cases hj : j ≤ n
      · refine ⟨2 ^ (n - j) + w, by omega, ?_⟩
        have e5 : Lat n m j = 3 ^ m * 2 ^ (n - j) := by rw [e3, show m - (j - n) = m by omega, Nat.mul_comm]
        rw [Nat.mul_add]
        omega
      · refine ⟨w, ?_, by omega⟩
        rw [show n - j = 0 by omega, pow_zero] at h3
        omega
  have h3 : 3 ^ m * w < 3 ^ m * 2 ^ n := by
    have : L n m = 3 ^ m * 2 ^ n := Nat.mul_comm _ _
    omega
  have := Nat.lt_of_mul_lt_mul_left h3
  omega

/-- C107, a division: `divide_cost` announces at least half as many machines as belts are gained. -/
theorem C107_divide (cfg : Config) (x r : Int) (d : Nat) (hd : 2 ≤ d) (hdx : (d : Int) ≤ x) (e : divideCost cfg x d = .ok r) :
    (d : Int) ≤ 2 * r + 1 := by
  obtain ⟨n, m, r', -, hle, -, -, e', -, h1, h2⟩ := divideCost_core cfg x d (by omega) hd hdx
  rw [e] at e'
  cases e'
  have h3 := two_S n m
  rw [Nat.mul_add, Nat.mul_add, Nat.mul_one, Nat.mul_one, show 2 ^ n * 3 ^ m = L n m from rfl] at h3
  by_cases h : L n m - d = 0 ∨ 3 ≤ L n m - d
  · have e1 := h1 (by omega)
    unfold divideFormula at e1
    have h4 := gsel_total n m (L n m - d)
    have h5 := two_tot_Sat n m (gsel n m (L n m - d) (L n m - d)) (by omega)
    rw [h4] at h5
    generalize (if L n m - d = 0 then 0 else loopCharge (codeBelt x n m (L n m - d) > cfg.limit) (gsel n m (L n m - d) (L n m - d)).length n) = q at e1
    omega
  · have e1 := h2 (by omega) (by omega)
    have : 0 < 2 ^ n := Nat.pow_pos (by norm_num)
    generalize 2 ^ n = q at h3 this
    omega

/-- The bound is met: dividing by 3 takes one splitter, by 9 four. -/
example : divideCost Example.P5.cfg 9 3 = .ok 1 ∧ divideCost Example.P5.cfg 9 9 = .ok 4 ∧ divideCost Example.P5.cfg 35 7 = .ok 5 := by decide +kernel

theorem Net.grow_counts {g : Net} (hg : g.WF) {old : List Nat} {vs : List Int} (hc : g.CanGrow old vs) (tagOld tagNew : List (Expand Int)) (cost : Int) :
    (g.grow old vs tagOld tagNew cost).srcs.length + old.length = g.srcs.length + vs.length := by
  have h1 := (Net.srcs_perm hg hc).length_eq
  have h2 : (g.newSrcs old vs).length = _ := (insortAll_perm _ _ _).length_eq
  rw [List.length_append] at h1 h2
  rw [List.length_range'] at h2
  show (g.newSrcs old vs).length + _ = _
  omega

/-- One permitted move. -/
theorem Net.child_counts {P : Problem} (hP : P.WF) {g : Net} (hg : g.WF) {op : Op} {cost : Int} (hp : Permitted P g.vals g.pastOf op cost) :
    ((g.child P.cfg op cost).srcs.length : Int) ≤ g.srcs.length + 2 * cost ∧ (g.srcs.length : Int) ≤ (g.child P.cfg op cost).srcs.length + 2 * cost ∧
      ((g.child P.cfg op cost).n : Int) ≤ g.n + 3 * cost := by
  obtain ⟨ha, hpos⟩ := hp.adm hP hg
  cases op with
  | extract i c =>
    have h1 := Net.grow_counts hg (canGrow_extract hg ha) (if isSpeed P.cfg c then [] else [.extract c]) [] cost
    have h2 := List.length_insertionSort (· ≤ ·) [c, (g.node (g.src i)).value - c]
    simp only [List.length_cons, List.length_nil] at h1 h2
    have h3 : (g.child P.cfg (.extract i c) cost).n = g.n + _ := rfl
    rw [h3]
    unfold Net.child
    dsimp only
    rw [h2] at h1 ⊢
    omega
  | divide i d =>
    have h1 := Net.grow_counts hg (canGrow_divide hg ha) (if d > 3 then [.divide d] else []) [] cost
    simp only [List.length_cons, List.length_nil, List.length_replicate] at h1
    have h3 : (g.child P.cfg (.divide i d) cost).n = g.n + _ := rfl
    rw [h3, List.length_replicate]
    obtain ⟨v, ⟨h4, _⟩, _, _, h5, h6, _, _, h7⟩ := hp
    obtain ⟨h8, h9⟩ := Net.lt_of_vals h4
    have hv : 0 < v := h9 ▸ hg.pos _ ((hg.memSrcs _).1 (Net.src_mem h8)).1
    have := C107_divide P.cfg v cost d h5 (Int.le_of_dvd hv h6) h7
    unfold Net.child
    dsimp only
    omega
  | split i c =>
    have h1 := Net.grow_counts hg (canGrow_split hg ha) [.split c] [] cost
    have h2 := List.length_insertionSort (· ≤ ·) [c / 3, c / 3, (g.node (g.src i)).value - c / 3 * 2]
    simp only [List.length_cons, List.length_nil] at h1 h2
    have h3 : (g.child P.cfg (.split i c) cost).n = g.n + _ := rfl
    rw [h3]
    unfold Net.child
    dsimp only
    rw [h2] at h1 ⊢
    omega
  | merge idx =>
    have h1 := Net.grow_counts hg (canGrow_merge hg ha) [] (if idx.length > 3 then [.merge 3] else []) cost
    simp only [List.length_cons, List.length_nil, List.length_map] at h1
    have h3 : (g.child P.cfg (.merge idx) cost).n = g.n + 1 := rfl
    rw [h3]
    obtain ⟨vs, -, -, h4, -, -, -, -, -, h5⟩ := hp
    unfold Net.child
    dsimp only
    omega

theorem NPlay.counts {P : Problem} (hP : P.WF) {B : Int} {g0 g : Net} (hg0 : g0.WF) (hn : NPlay P B g0 g) :
    g.nRoots = g0.nRoots ∧ (g.srcs.length : Int) ≤ g0.srcs.length + 2 * (g.size - g0.size) ∧
      (g0.srcs.length : Int) ≤ g.srcs.length + 2 * (g.size - g0.size) ∧ (g.n : Int) ≤ g0.n + 3 * (g.size - g0.size) := by
  induction hn with
  | start => simp
  | @move g1 g2 hpl hs ih =>
    obtain ⟨op, cost, h1, -, rfl, -⟩ := hs
    have hg1 := hpl.wf hP hg0
    have h2 := Net.child_counts hP hg1 h1
    have h3 : (g1.child P.cfg op cost).size = g1.size + cost := by cases op <;> rfl
    have h4 : (g1.child P.cfg op cost).nRoots = g1.nRoots := by cases op <;> rfl
    rw [h3, h4]
    omega

/-- C107, the trees of the search: the numbers of sources and of roots differ by at most twice the size, and there are at most as many nodes as roots and three
times the size together. -/
theorem C107_search {P : Problem} {B : Int} {values : List Int} (hP : P.WF) {h : Heap Int} {t : TreeObj Int} {hist : List (List Int)} {costs : List Int}
    (hp : Play P B values h t hist costs) :
    (t.sources.length : Int) ≤ values.length + 2 * t.size ∧ (values.length : Int) ≤ t.sources.length + 2 * t.size ∧
    ∃ nodes : List Addr, (∀ a, a ∈ nodes ↔ Reach h t.roots a) ∧ (nodes.length : Int) ≤ values.length + 3 * t.size := by
  obtain ⟨g, loc, hn, hr, hg0⟩ := hp.net hP
  have hg := hn.wf hP hg0
  obtain ⟨-, h1, h2, h3⟩ := NPlay.counts hP hg0 hn
  have e1 : (Net.ofValues values).srcs.length = values.length := List.length_range
  have e2 : (Net.ofValues values).n = values.length := rfl
  have e3 : (Net.ofValues values).size = 0 := rfl
  rw [e1, e3] at h1 h2
  rw [e2, e3] at h3
  rw [hr.sources, List.length_map, hr.size]
  refine ⟨by omega, by omega, (List.range g.n).map loc, fun a => ?_, by rw [List.length_map, List.length_range]; omega⟩
  rw [hr.reach_iff hg, List.mem_map]
  exact ⟨fun ⟨i, h4, h5⟩ => ⟨i, List.mem_range.1 h4, h5.symm⟩, fun ⟨i, h4, h5⟩ => ⟨i, List.mem_range.2 h4, h5.symm⟩⟩

/-- C107, the solutions: no solution is smaller than half the difference between the numbers of sources and of targets, however the throughputs are chosen. -/
theorem C107_solution {P : Problem} {O : Oracle} {h0 : Heap Int} {t0 t : TreeObj Int} {B : Int} {values : List Int} {s : Search} (hP : P.WF)
    (hs : Source h0 t0 values) (hB : 0 ≤ B) (hr : Reached P O h0 t0 B s) (ht : t ∈ s.solutions) :
    (P.targetValues.length : Int) ≤ values.length + 2 * t.size ∧ (values.length : Int) ≤ P.targetValues.length + 2 * t.size := by
  obtain ⟨hist, costs, hp⟩ := hr.play hP hs hB (.inr ht)
  obtain ⟨h1, h2, -⟩ := C107_search hP hp
  have h3 := congrArg List.length (C33_solutions_correct hP hs hB hr ht).2.1
  rw [List.length_map] at h3
  rw [← h3]
  exact ⟨h1, h2⟩

/-- The solutions of "1 1 1 2 to 5" meet the hypotheses; four belts become one, so no solution has a size below 2 (their size is 2). -/
example : ∃ (s : Search) (t : TreeObj Int), t ∈ s.solutions ∧
    Reached Example.P5 (Example.oracle [5] none) (Example.fresh [1, 1, 1, 2]).1 (Example.fresh [1, 1, 1, 2]).2 3 s ∧
    (Source (Example.fresh [1, 1, 1, 2]).1 (Example.fresh [1, 1, 1, 2]).2 [1, 1, 1, 2]) ∧ Example.P5.targetValues = [5] ∧ 2 ≤ t.size := by
  have hd := Example.discarded5
  unfold Example.discarded at hd
  split at hd
  · rename_i s hs
    split at hd
    · rename_i t ht
      have hR : Reached Example.P5 (Example.oracle [5] none) (Example.fresh [1, 1, 1, 2]).1 (Example.fresh [1, 1, 1, 2]).2 3 s :=
        solveLoop_visited _ .start hs
      have hm := List.mem_of_getElem? ht
      have h5 : Example.P5.targetValues = [5] := rfl
      have := (C107_solution Example.P5_wf Example.source5 (by decide) hR hm).2
      rw [h5] at this
      simp only [List.length_cons, List.length_nil] at this
      exact ⟨s, t, hm, hR, Example.source5, h5, by omega⟩
    · cases hd
  · cases hd

/-- The leaves of a forest: no fewer than its roots, and no more than two for each unit of the cost besides. -/
theorem Graph.Forest.leaf_count {cfg : Config} {h : Heap Int} {roots inner leaves : List Addr} {cost : Int} (F : Forest h roots inner leaves)
    (hr : roots.Nodup) (D : DivideCosts cfg h inner cost) : roots.length ≤ leaves.length ∧ (leaves.length : Int) ≤ roots.length + 2 * cost := by
  have hkid : ∀ a ∈ inner, ∀ c ∈ (h.get a).children, c ∈ inner ++ leaves := fun a ha c hc =>
    (F.nodes c).1 (.child ((F.nodes a).2 (List.mem_append_left _ ha)) hc)
  have hin : inner.Nodup := (List.nodup_append.1 F.distinct).1
  have hnd : (roots ++ inner.flatMap fun a => (h.get a).children).Nodup := by
    rw [List.nodup_append]
    refine ⟨hr, List.nodup_flatMap.2 ⟨fun a ha => (F.fan a ha).2, ?_⟩, ?_⟩
    · refine hin.imp_of_mem fun {a b} ha hb hab c hc hc' => hab ?_
      have h1 := F.parent a ha c hc
      rw [F.parent b hb c hc'] at h1
      exact (List.singleton_inj.1 h1).symm
    · rintro r hr' c hc rfl
      obtain ⟨a, ha, hc⟩ := List.mem_flatMap.1 hc
      have h1 := F.parent a ha r hc
      rw [F.top r hr'] at h1
      cases h1
  have hperm : (roots ++ inner.flatMap fun a => (h.get a).children).Perm (inner ++ leaves) := by
    refine (List.perm_ext_iff_of_nodup hnd F.distinct).2 fun x => ?_
    constructor
    · intro hx
      rcases List.mem_append.1 hx with hx | hx
      · exact (F.nodes x).1 (.root hx)
      · obtain ⟨a, ha, hc⟩ := List.mem_flatMap.1 hx
        exact hkid a ha x hc
    · intro hx
      have hR := (F.nodes x).2 hx
      cases hR with
      | root hx => exact List.mem_append_left _ hx
      | @child a _ ha hc =>
        refine List.mem_append_right _ (List.mem_flatMap.2 ⟨a, ?_, hc⟩)
        rcases List.mem_append.1 ((F.nodes a).1 ha) with h1 | h1
        · exact h1
        · rw [F.leaf a h1] at hc
          cases hc
  have hlen := hperm.length_eq
  rw [List.length_append, List.length_append, List.length_flatMap] at hlen
  obtain ⟨cs, hcs, hsum⟩ := D
  have key : ∀ (l : List Addr) (cs : List Int), (∀ a ∈ l, a ∈ inner) →
      l.map (fun a => divideCost cfg (h.get a).value (h.get a).children.length) = cs.map .ok →
      2 * l.length ≤ (l.map fun a => (h.get a).children.length).sum ∧
      ((l.map fun a => (h.get a).children.length).sum : Int) ≤ 2 * cs.sum + l.length := by
    intro l
    induction l with
    | nil => intro cs _ e; cases cs with
      | nil => simp
      | cons => cases e
    | cons a l ih =>
      intro cs hl e
      cases cs with
      | nil => cases e
      | cons c cs =>
        rw [List.map_cons, List.map_cons, List.cons.injEq] at e
        obtain ⟨i1, i2⟩ := ih cs (fun b hb => hl b (List.mem_cons_of_mem _ hb)) e.2
        have ha := hl a List.mem_cons_self
        have h2 := (F.fan a ha).1
        have hdx : (((h.get a).children.length : Nat) : Int) ≤ (h.get a).value := by
          obtain ⟨k, hk⟩ := List.exists_mem_of_length_pos (show 0 < (h.get a).children.length by omega)
          have h3 := F.equal a ha k hk
          have h4 := F.positive k (hkid a ha k hk)
          rw [h3]
          nlinarith
        have h3 := C107_divide cfg _ c _ h2 hdx e.1
        simp only [List.length_cons, List.map_cons, List.sum_cons]
        omega
  obtain ⟨k1, k2⟩ := key inner cs (fun _ h => h) hcs
  rw [hsum] at k2
  omega

variable {cfg : Config} {input : Str} {a : Attrs} {h : Heap Int} {sv tv : List ℚ} {O : Oracle} {s : Search} {t : TreeObj Int}

/-- C107, the request: no solution is announced with a size below half the difference between the numbers of requested sources and targets, including the belt
that is added when the totals differ. -/
theorem C107_request (hcfg : cfg.speeds.Pairwise (· ≤ ·)) (hp : Parsed input sv tv) (hs : ∀ v ∈ sv, 0 < v) (ht : ∀ v ∈ tv, 0 < v)
    (e : (load cfg input a h).result = .ok true)
    (hr : Reached ((load cfg input a h).attrs.problem cfg) O (load cfg input a h).heap (load cfg input a h).attrs.treeSource
      (load cfg input a h).attrs.bestSize s) (hsol : t ∈ s.solutions) :
    ((tv ++ extra tv.sum sv.sum).length : Int) ≤ (sv ++ extra sv.sum tv.sum).length + 2 * (t.size + (load cfg input a h).attrs.sizeOffset) ∧
    ((sv ++ extra sv.sum tv.sum).length : Int) ≤ (tv ++ extra tv.sum sv.sum).length + 2 * (t.size + (load cfg input a h).attrs.sizeOffset) := by
  obtain ⟨values, inner, leaves, -, hval, F, -, D, htv, hlt, ⟨c, p1, p2⟩, -⟩ := C22_loaded_problem hp hs ht e
  obtain ⟨hP, hsrc, hB, -⟩ := C22_search_assumptions hcfg hp hs ht e
  obtain ⟨h1, h2⟩ := C107_solution hP hsrc hB hr hsol
  have hnd : (load cfg input a h).attrs.leaves.Nodup := by
    rw [htv] at hlt
    exact (List.pairwise_map.1 hlt).imp fun h e => absurd h (by rw [e]; exact lt_irrefl _)
  obtain ⟨h3, h4⟩ := F.leaf_count hnd D
  have h5 : ((load cfg input a h).attrs.problem cfg).targetValues.length = (load cfg input a h).attrs.leaves.length := by
    show (load cfg input a h).attrs.targetValues.length = _
    rw [htv, List.length_map]
  have e1 := p1.length_eq
  have e2 := p2.length_eq
  rw [List.length_append, List.length_map] at e1 e2
  rw [← e1, ← e2]
  rw [h5] at h1 h2
  rw [hval] at h1 h2
  push_cast
  omega

/-- The hypotheses hold for `"8 to 3 3 1 1"`: four belts from one, so the announced size is at least 2. -/
example : Parsed "8 to 3 3 1 1".toList [8] [3, 3, 1, 1] ∧ (Example.loaded "8 to 3 3 1 1").result = .ok true ∧
    (∃ s t, Reached ((Example.loaded "8 to 3 3 1 1").attrs.problem config)
      (Example.oracle (Example.loaded "8 to 3 3 1 1").attrs.targetValues none) (Example.loaded "8 to 3 3 1 1").heap
      (Example.loaded "8 to 3 3 1 1").attrs.treeSource (Example.loaded "8 to 3 3 1 1").attrs.bestSize s ∧ t ∈ s.solutions) ∧
    extra ([8] : List ℚ).sum [3, 3, 1, 1].sum = [] ∧ extra ([3, 3, 1, 1] : List ℚ).sum [8].sum = [] := by
  refine ⟨⟨by decide +kernel, by decide, by decide⟩, by decide +kernel, ?_, by decide +kernel, by decide +kernel⟩
  obtain ⟨s, t, h1, h2, -⟩ := attached_reached (attachedOf_eq (input := "8 to 3 3 1 1") (by decide +kernel))
  exact ⟨s, t, h1, h2⟩

end Satis
