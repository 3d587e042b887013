import Verif.Graph.Divide
import Verif.Graph.Steady
import Verif.Graph.Machines
/-!
# `expand_divide` as a whole
-/

namespace Satis.Graph
open Satis Satis.Cost Spec

theorem loopFlow_same {n m l : Nat} {p : Plan} (P : PlanOK n m l (fun j => (p (key n j)).1) fun j => (p (key n j)).2) (node : Addr) (V : ℚ)
    (x : Addr) : loopFlow n node node (fun j => (p (key n j)).1) V (n + m) x = if node = x then V * l / (L n m : ℚ) else 0 := by
  unfold loopFlow
  have : ∀ j, loopTarget n node node j = node := fun j => by unfold loopTarget; split <;> rfl
  simp only [this]
  split
  · exact loop_total P
  · simp

theorem loopCount_same {n m l : Nat} {p : Plan} (P : PlanOK n m l (fun j => (p (key n j)).1) fun j => (p (key n j)).2) (node : Addr) :
    loopCount n node node (fun j => (p (key n j)).1) (n + m) node = ∑ j ∈ Finset.range (n + m + 1), (p (key n j)).1 := by
  unfold loopCount
  have h1 : ∀ j, loopTarget n node node j = node := fun j => by unfold loopTarget; split <;> rfl
  have h2 := P.first
  simp only [h1, if_true]
  rw [Finset.sum_range_succ', h2, Nat.add_zero]

/-- With more leaves to spare than a branch below the root has, a smaller tree would do. -/
theorem bestShape_spare {d n m : Nat} (hb : BestShape d n m) (hnm : 0 < n + m) : L n m - d < Lat n m 1 := by
  obtain ⟨h1, h2, h3⟩ := (bestShape_iff d n m).1 hb
  by_contra hge
  rw [not_lt] at hge
  rcases Nat.eq_zero_or_pos n with rfl | hn
  · obtain ⟨k, rfl⟩ : ∃ k, m = k + 1 := ⟨m - 1, by omega⟩
    have e0 : Lat 0 (k + 1) 1 = 3 ^ k := by simp [Lat, L]
    have e1 : L 0 (k + 1) = 3 * 3 ^ k := by simp [L, pow_succ]; ring
    have e2 : L 1 k = 2 * 3 ^ k := by simp [L]
    have e3 := two_S 0 (k + 1)
    have e4 := two_S 1 k
    have hp : 0 < 3 ^ k := by positivity
    have e5 : 3 ^ (k + 1) = 3 * 3 ^ k := by ring
    have hd : d ≤ L 1 k := by omega
    have q1 := h2 1 k hd
    have q2 := h3 1 k hd
    simp only [pow_zero, pow_one, one_mul] at e3 e4
    have := q2 (by omega)
    omega
  · have e0 : L n m = 2 * Lat n m 1 := (Lat_zero n m).symm.trans (Lat_succ_n n m 0 hn)
    obtain ⟨k, rfl⟩ : ∃ k, n = k + 1 := ⟨n - 1, by omega⟩
    have e1 : Lat (k + 1) m 1 = L k m := by simp [Lat]
    have e2 := S_succ k m
    have := h2 k m (by omega)
    omega

section
variable {cfg : Config} {h : Heap ℚ} {node : Addr} {d n m l s : Nat} {lvl : Int}

theorem shape_pos (hd : 2 ≤ d) (hL : d ≤ L n m) : 0 < n + m := by
  by_contra hc
  have h1 : n = 0 := by omega
  have h2 : m = 0 := by omega
  subst h1 h2
  simp [L] at hL
  omega

theorem expandDivide_under (H : DivideInput h node d) (hf : findNML d = .ok (n, m, l, s)) (hl : d + l = L n m) (hlevel : (h.get node).level = some lvl)
    (hunder : (h.get node).value + l * (h.get node).value / d ≤ cfg.limit) :
    ∃ h', expandDivide cfg h node d = .ok (h', (lvl + 1, n + m)) ∧
      SplitterNetwork h h' node ((h.get node).value + l * (h.get node).value / d) (h.get node).children ∧
      (0 < (h.get node).value → ∀ T, Steady h h' node T → T node = (h.get node).value + l * (h.get node).value / d ∧
        ∀ a, h.next ≤ a → a < h'.next → T a = (h'.get a).value) ∧
      (∀ a, h.next ≤ a → a < h'.next → (h'.get a).value ≤ ((h.get node).value + l * (h.get node).value / d) / 2) ∧
      (∀ c ∈ (h.get node).children, (h'.get c).parents.length = 1) ∧
      (∀ t, t = (if (h.get node).parents = [] then 2 else 3) →
        (h'.get node).expands = (h.get node).expands ++ if t < (h'.get node).parents.length then [.merge t] else []) ∧
      machines h h' node (h.get node).children + savedSplitters n m (gsel n m l l) = S n m + toOne (1 + (gsel n m l l).length) ∧
      belts h' (made h h' node) node = (gsel n m l l).length ∧
      (∀ a, h.next ≤ a → a < h'.next → belts h' (made h h' node) a = 1 ∧ (h'.get a).expands = []) ∧
      (∀ c ∈ (h.get node).children, (h'.get c).expands = (h.get c).expands) := by
  obtain ⟨v, hv⟩ : ∃ v, v = (h.get node).value := ⟨_, rfl⟩
  obtain ⟨cs, hcs⟩ : ∃ cs, cs = (h.get node).children := ⟨_, rfl⟩
  have hd0 : (0 : ℚ) < d := by exact_mod_cast (by have := H.two; omega : 0 < d)
  have hlL : l < L n m := by have := H.two; omega
  obtain ⟨p, ep, P⟩ := loopingBranches_plan n m l hlL
  have hn := H.nonneg
  rw [← hv] at hunder hn ⊢
  rw [← hcs]
  obtain ⟨V, hV⟩ : ∃ V, V = v + l * v / d := ⟨_, rfl⟩
  rw [← hV] at hunder ⊢
  have hLQ : (L n m : ℚ) = d + l := by exact_mod_cast hl.symm
  have hV' : V / (L n m : ℚ) = v / d := by
    rw [hV, hLQ]
    field_simp
  obtain ⟨s1, s2, E, S, e1, e2, I, hin, hnx, hct, -⟩ := divide_layers (hb := h.modify node fun o => { o with children := [] }) (node := node) (loop := node)
    (V := V) (cs := cs) P hlL.le (by rw [hV]; positivity) H.inside H.inside
    (fun c hc => by rw [hcs] at hc; exact ⟨H.lt c hc, H.ne c hc, H.ne c hc⟩) (by rw [hcs]; exact H.nodup) (by rw [hcs, H.count, hl])
    (shape_pos H.two (by omega)) (n + m) (lvl + 1)
  have hflow : ∀ x, loopFlow n node node (fun j => (p (key n j)).1) V (n + m) x + (cs.count x : ℚ) * (V / (L n m : ℚ)) =
      (if node = x then l * v / d else 0) + (cs.count x : ℚ) * (v / d) := fun x => by
    rw [loopFlow_same P, hV', show V * l / (L n m : ℚ) = l * (V / (L n m : ℚ)) by ring, hV']
    split <;> ring
  have hnc : node ∉ cs := fun q => H.ne node (hcs ▸ q) rfl
  have N : SplitterNetwork h s2.1 node V cs := by
    refine Net.network (h := h) (cs := cs) I H.inside (fun c hc => by rw [hcs] at hc; exact ⟨H.lt c hc, H.ne c hc⟩) ?_ ?_ ?_
    · intro t ht
      simp at ht
      tauto
    · rw [hflow, if_pos rfl, List.count_eq_zero.2 hnc, hV, ← hv]
      simp
    · intro c hc
      have h1 : node ≠ c := fun q => hnc (q ▸ hc)
      rw [hflow, if_neg h1, List.count_eq_one_of_mem (hcs ▸ H.nodup) hc, H.share c (hcs ▸ hc), ← hv]
      simp
  have hpar : ∀ c ∈ cs, (s2.1.get c).parents.length = 1 := fun c hc => by
    have h1 := H.lt c (hcs ▸ hc)
    have wp : ∀ a, a < s2.1.next → (s2.1.get a).parents = (if a < h.next then ((detach h node cs).get a).parents else []) ++ insOf E a :=
      I.wired.parents
    rw [wp c (by have := N.next; omega), if_pos h1, detach_get, List.length_append, hin c hc]
    simp [hc]
  have hb : ∀ x, belts (tagMerge s2.1 node (if (h.get node).parents = [] then 2 else 3))
      (made h (tagMerge s2.1 node (if (h.get node).parents = [] then 2 else 3)) node) x = (insOf E x).length := fun x => by
    rw [belts_congr fun a => tagMerge_children _ _ _ a]
    unfold made
    rw [tagMerge_next]
    exact I.belts H.inside x
  have hback : belts (tagMerge s2.1 node (if (h.get node).parents = [] then 2 else 3))
      (made h (tagMerge s2.1 node (if (h.get node).parents = [] then 2 else 3)) node) node = (gsel n m l l).length := by
    rw [hb, hct node H.inside, loopCount_same P, (loopingBranches_counts ep).1, List.count_eq_zero.2 hnc, Nat.add_zero]
  have hone : ∀ a, h.next ≤ a → a < (tagMerge s2.1 node (if (h.get node).parents = [] then 2 else 3)).next →
      belts (tagMerge s2.1 node (if (h.get node).parents = [] then 2 else 3))
        (made h (tagMerge s2.1 node (if (h.get node).parents = [] then 2 else 3)) node) a = 1 ∧
      ((tagMerge s2.1 node (if (h.get node).parents = [] then 2 else 3)).get a).expands = [] := fun a h1 h2 => by
    rw [tagMerge_next] at h2
    obtain ⟨q, hq, -⟩ := I.single a h1 h2
    have hne : a ≠ node := by have := H.inside; omega
    refine ⟨by rw [hb, hq]; rfl, ?_⟩
    rw [tagMerge_get, if_neg fun q => hne q.1]
    exact (I.wired.fresh a h1 h2).2.1
  have hsame : ∀ c ∈ cs, ((tagMerge s2.1 node (if (h.get node).parents = [] then 2 else 3)).get c).expands = (h.get c).expands := fun c hc => by
    have wk : ∀ a, a < h.next → s2.1.get a = { (detach h node cs).get a with
      children := (s2.1.get a).children, parents := (s2.1.get a).parents } := I.wired.keep
    rw [tagMerge_get, if_neg fun q => H.ne c (hcs ▸ hc) q.1, wk c (H.lt c (hcs ▸ hc)), detach_get]
  have hcost : machines h (tagMerge s2.1 node (if (h.get node).parents = [] then 2 else 3)) node cs + savedSplitters n m (gsel n m l l) =
      Cost.S n m + toOne (1 + (gsel n m l l).length) := by
    obtain ⟨c1, c2⟩ := loopingBranches_counts ep
    have c3 := P.splitters hlL.le
    have hn2 : h.next ≤ s2.1.next := I.wired.next
    have hnx' : s2.1.next + 1 = h.next + ∑ j ∈ Finset.range (n + m), (width n j - ((p (key n j)).1 + (p (key n j)).2)) := hnx
    rw [machines_single (by rw [tagMerge_next]; exact hn2) fun a h1 h2 => by
      rw [tagMerge_next] at h2
      obtain ⟨q, hq, -⟩ := I.single a h1 h2
      rw [hb, hq]
      rfl]
    have h4 : (cs.map fun a => toOne (belts (tagMerge s2.1 node (if (h.get node).parents = [] then 2 else 3))
        (made h (tagMerge s2.1 node (if (h.get node).parents = [] then 2 else 3)) node) a)).sum = 0 := by
      rw [List.sum_eq_zero]
      intro y hy
      simp only [List.mem_map] at hy
      obtain ⟨a, ha, rfl⟩ := hy
      rw [hb, hin a ha]
      rfl
    rw [h4, hb, hct node H.inside, loopCount_same P, c1, List.count_eq_zero.2 hnc, tagMerge_next, Nat.add_zero, Nat.add_zero (gsel n m l l).length]
    rw [c2] at c3
    omega
  refine ⟨tagMerge s2.1 node (if (h.get node).parents = [] then 2 else 3), ?_, N.tagMerge (.inl rfl) _, ?_, ?_, ?_, ?_, hcost, hback, hone, hsame⟩
  · unfold expandDivide
    rw [hf]
    simp only [bind, Except.bind, pure, Except.pure]
    rw [← hv, ← hV, decide_eq_false (not_lt.2 hunder)]
    simp only [Bool.false_eq_true, if_false, ep]
    rw [show levelSucc (h.get node) = .ok (lvl + 1) by unfold levelSucc; rw [hlevel]]
    rw [← hcs]
    simp only
    rw [e1]
    simp only
    rw [e2]
    simp
  · intro hv0 T hT
    rw [steady_tagMerge] at hT
    obtain ⟨u1, u2⟩ := Net.unique (h := h) (cs := cs) I H.inside (by rw [← hv]; exact hv0) (by rw [hV]; positivity)
      (by rw [hflow, if_pos rfl, List.count_eq_zero.2 hnc, hV, ← hv]; simp) hT
    refine ⟨u1, fun a h1 h2 => ?_⟩
    rw [tagMerge_next] at h2
    rw [tagMerge_value]
    exact u2 a h1 h2
  · intro a h1 h2
    rw [tagMerge_next] at h2
    rw [tagMerge_value]
    exact (I.bound (by rw [hV]; positivity) a h1 h2).2
  · intro c hc
    rw [tagMerge_parents]
    exact hpar c hc
  · intro t ht
    have hx : (s2.1.get node).expands = (h.get node).expands := by
      have wk : ∀ a, a < h.next → s2.1.get a = { (detach h node cs).get a with
          children := (s2.1.get a).children, parents := (s2.1.get a).parents } := I.wired.keep
      rw [wk node H.inside, detach_get]
    rw [← ht, tagMerge_get]
    by_cases q : t < (s2.1.get node).parents.length
    · simp [q, hx]
    · simp [q, hx]

/-- No branch right below the root leads back. -/
theorem plan_first {p : Plan} (P : PlanOK n m l (fun j => (p (key n j)).1) fun j => (p (key n j)).2) (hnm : 0 < n + m) (hlt : l < Lat n m 1) :
    (p (key n 1)).1 = 0 := by
  have h3 : (p (key n 1)).1 * Lat n m 1 ≤ l := by
    rw [← P.total]
    exact Finset.single_le_sum (f := fun j => (p (key n (j + 1))).1 * Lat n m (j + 1)) (fun _ _ => Nat.zero_le _) (Finset.mem_range.2 hnm)
  rcases Nat.eq_zero_or_pos (p (key n 1)).1 with q | q
  · exact q
  · have := Nat.le_mul_of_pos_left (Lat n m 1) q
    omega

/-- The machines that lead back, in the order of the belts: those at the places. -/
theorem expandDivide_order (H : DivideInput h node d) (hf : findNML d = .ok (n, m, l, s)) (hl : d + l = L n m) (hlevel : (h.get node).level = some lvl)
    (hunder : (h.get node).value + l * (h.get node).value / d ≤ cfg.limit) {h' : Heap ℚ} {u : Int × Int} (hrun : expandDivide cfg h node d = .ok (h', u)) :
    ∃ at_ : Nat × Nat → Addr, (h'.get node).parents = (h.get node).parents ++ (places n m [] (gsel n m l l)).map at_ ∧
      (∀ x ∈ places n m [] (gsel n m l l), ∀ y ∈ places n m [] (gsel n m l l), at_ x = at_ y → x = y) ∧
      ∀ x ∈ places n m [] (gsel n m l l), h.next ≤ at_ x ∧ at_ x < h'.next := by
  obtain ⟨v, hv⟩ : ∃ v, v = (h.get node).value := ⟨_, rfl⟩
  obtain ⟨cs, hcs⟩ : ∃ cs, cs = (h.get node).children := ⟨_, rfl⟩
  have hd0 : (0 : ℚ) < d := by exact_mod_cast (by have := H.two; omega : 0 < d)
  have hlL : l < L n m := by have := H.two; omega
  obtain ⟨p, ep, P⟩ := loopingBranches_plan n m l hlL
  have hn := H.nonneg
  rw [← hv] at hunder hn
  obtain ⟨V, hV⟩ : ∃ V, V = v + l * v / d := ⟨_, rfl⟩
  rw [← hV] at hunder
  have hnm := shape_pos H.two (by omega : d ≤ L n m)
  obtain ⟨s1, s2, E, S, e1, e2, I, hin, hnx, hct, hroot, lay, hrows, hord⟩ := divide_layers (hb := h.modify node fun o => { o with children := [] }) (node := node) (loop := node)
    (V := V) (cs := cs) P hlL.le (by rw [hV]; positivity) H.inside H.inside
    (fun c hc => by rw [hcs] at hc; exact ⟨H.lt c hc, H.ne c hc, H.ne c hc⟩) (by rw [hcs]; exact H.nodup) (by rw [hcs, H.count, hl])
    hnm (n + m) (lvl + 1)
  have hnc : node ∉ cs := fun q => H.ne node (hcs ▸ q) rfl
  have ee : expandDivide cfg h node d = .ok (tagMerge s2.1 node (if (h.get node).parents = [] then 2 else 3), (lvl + 1, n + m)) := by
    unfold expandDivide
    rw [hf]
    simp only [bind, Except.bind, pure, Except.pure]
    rw [← hv, ← hV, decide_eq_false (not_lt.2 hunder)]
    simp only [Bool.false_eq_true, if_false, ep]
    rw [show levelSucc (h.get node) = .ok (lvl + 1) by unfold levelSucc; rw [hlevel]]
    rw [← hcs]
    simp only
    rw [e1]
    simp only
    rw [e2]
    simp
  rw [ee] at hrun
  simp only [Except.ok.injEq, Prod.mk.injEq] at hrun
  rw [← hrun.1]
  have hkey : ∀ j, j < n + m → (p (key n (j + 1))).1 = (gsel n m l l).count (j + 1) := fun j hj => by
    obtain ⟨p', ep', hk⟩ := loopingBranches_eq n m l
    rw [ep] at ep'
    cases ep'
    rw [hk (j + 1) (by omega)]
  have hsp : spots n (fun _ => 0) (fun j => if loopTarget n node node j = node then (p (key n (j + 1))).1 else 0) (n + m) =
      places n m [] (gsel n m l l) := by
    rw [places_eq]
    refine spots_congr (fun j _ => by simp) fun j hj => ?_
    rw [hkey j hj, if_pos]
    unfold loopTarget
    split <;> rfl
  have hins : insOf E node = (places n m [] (gsel n m l l)).map (splitterAt lay) := by
    rw [hord node H.inside hnc, hsp]
  have seat : ∀ x ∈ places n m [] (gsel n m l l), Seat n (n + m) (fun j => (p (key n (j + 1))).1) x := fun x hx => by
    rw [← hsp] at hx
    refine mem_spots (fun j _ => ?_) hx
    simp only [zero_add]
    split <;> omega
  have hbest : BestShape d n m := by
    obtain ⟨n', m', hf', hb⟩ := findNML_best d (by have := H.two; omega)
    rw [hf] at hf'
    simp only [Except.ok.injEq, Prod.mk.injEq] at hf'
    rw [hf'.1, hf'.2.1]
    exact hb
  have hlt : l < Lat n m 1 := by have := bestShape_spare hbest hnm; omega
  refine ⟨splitterAt lay, ?_, fun x hx y hy e => ?_, fun x hx => ?_⟩
  · have wp : ∀ a, a < s2.1.next → (s2.1.get a).parents = (if a < h.next then ((detach h node cs).get a).parents else []) ++ insOf E a :=
      I.wired.parents
    have hn2 : h.next ≤ s2.1.next := I.wired.next
    rw [tagMerge_parents, wp node (by have := H.inside; omega), if_pos H.inside, detach_get, hins]
    simp [hnc]
  · have hS : S.Nodup := (List.nodup_append.1 I.nodup).1
    exact hrows.inj hS (seat x hx) (seat y hy) e
  · have h1 : splitterAt lay x ∈ S := hrows.mem (seat x hx)
    rw [tagMerge_next]
    rcases (I.mem _).1 (List.mem_append_left _ h1) with q | q
    · exfalso
      have h2 : splitterAt lay x ∈ insOf E node := by rw [hins]; exact List.mem_map_of_mem hx
      rw [q, mem_insOf, ← mem_outsOf] at h2
      have h3 := hroot.2 node H.inside
      rw [List.count_eq_zero.2 hnc] at h3
      have h4 := List.count_pos_iff.2 h2
      unfold loopCount at h3
      simp only [Finset.sum_range_one, zero_add, plan_first P hnm hlt] at h3
      simp at h3
      omega
    · exact q

/-- Over the limit only the branches that loop on binary depths lead to the extra node. -/
theorem expandDivide_over (H : DivideInput h node d) (hf : findNML d = .ok (n, m, l, s)) (hl : d + l = L n m) (hlevel : (h.get node).level = some lvl)
    (hlimit : (h.get node).value ≤ cfg.limit) (hover : (cfg.limit : ℚ) < (h.get node).value + l * (h.get node).value / d) :
    ∃ h', expandDivide cfg h node d = .ok (h', (lvl + 1, n + m)) ∧
      (3 ^ m ∣ l → SplitterNetwork h h' node (h.get node).value (h.get node).children) ∧
      (∀ T, Steady h h' node T ↔ T node = (h.get node).value + (l % 3 ^ m : ℕ) * ((h.get node).value / d) ∧
        T h.next = (l - l % 3 ^ m : ℕ) * ((h.get node).value / d) ∧ ∀ a, h.next < a → a < h'.next → T a = (h'.get a).value) ∧
      (∀ a, h.next < a → a < h'.next → (h'.get a).value ≤ ((h.get node).value + l * (h.get node).value / d) / 2) ∧
      (h.next < h'.next ∧ (h'.get h.next).value = l * (h.get node).value / d ∧ (h'.get h.next).level = none) ∧
      (h'.get h.next).expands = (if 2 < (h'.get h.next).parents.length then [.merge 2] else []) ∧
      (∀ c ∈ (h.get node).children, (h'.get c).expands = (h.get c).expands) ∧ (h'.get node).expands = (h.get node).expands := by
  obtain ⟨v, hv⟩ : ∃ v, v = (h.get node).value := ⟨_, rfl⟩
  obtain ⟨cs, hcs⟩ : ∃ cs, cs = (h.get node).children := ⟨_, rfl⟩
  have hd0 : (0 : ℚ) < d := by exact_mod_cast (by have := H.two; omega : 0 < d)
  have hlL : l < L n m := by have := H.two; omega
  obtain ⟨p, ep, P⟩ := loopingBranches_plan n m l hlL
  have hn := H.nonneg
  rw [← hv] at hlimit hover hn
  have hpos : (0 : ℚ) < l * v / d := by linarith
  obtain ⟨g0, hnew⟩ : ∃ g0, newNode h (l * v / d : ℚ) [] none none = .ok (g0, h.next) := by
    unfold newNode
    rw [if_neg (not_lt.2 hpos.le)]
    exact ⟨_, rfl⟩
  have hnew' := hnew
  unfold newNode at hnew'
  rw [if_neg (not_lt.2 hpos.le)] at hnew'
  simp only [Except.ok.injEq, Prod.mk.injEq, Heap.alloc] at hnew'
  have hn1 : g0.next = h.next + 1 := by rw [← hnew'.1]
  have hg1 : ∀ a, a < h.next → g0.get a = h.get a := fun a ha => by
    rw [← hnew'.1]
    exact if_neg (by omega)
  have hgl : (g0.get h.next).parents = [] ∧ (g0.get h.next).expands = [] := by
    rw [← hnew'.1]
    simp
  have hnode := H.inside
  obtain ⟨V, hV⟩ : ∃ V, V = v + l * v / d := ⟨_, rfl⟩
  have hVV := hover
  rw [← hV] at hVV
  have hLQ : (L n m : ℚ) = d + l := by exact_mod_cast hl.symm
  have hV' : V / (L n m : ℚ) = v / d := by
    rw [hV, hLQ]
    field_simp
  have hcl : ∀ c ∈ cs, c < h.next ∧ c ≠ node := fun c hc => by rw [hcs] at hc; exact ⟨H.lt c hc, H.ne c hc⟩
  obtain ⟨s1, s2, E, S, e1, e2, I, hin, hnx, hct, -⟩ := divide_layers (hb := g0.modify node fun o => { o with children := [] }) (node := node) (loop := h.next)
    (V := V) (cs := cs) P hlL.le (by rw [hV]; positivity) (show node < g0.next by omega) (show h.next < g0.next by omega)
    (fun c hc => by have := hcl c hc; exact ⟨show c < g0.next by omega, by omega, this.2⟩) (by rw [hcs]; exact H.nodup)
    (by rw [hcs, H.count, hl])
    (shape_pos H.two (by omega)) (n + m) (lvl + 1)
  have hmod := Nat.mod_le l (3 ^ m)
  obtain ⟨k, hk⟩ : ∃ k, k = l % 3 ^ m := ⟨_, rfl⟩
  rw [← hk] at hmod
  have hsplit := loopingBranches_split n m l hlL ep
  rw [← hk] at hsplit
  have hpart : ∀ i, i ≤ n + m → ∑ j ∈ Finset.range i, ((p (key n (j + 1))).1 : ℚ) * (V / (width n (j + 1) : ℚ)) =
      ((∑ j ∈ Finset.range i, (p (key n (j + 1))).1 * Lat n m (j + 1) : ℕ) : ℚ) * (V / (L n m : ℚ)) := fun i hi => by
    push_cast
    rw [Finset.sum_mul]
    apply Finset.sum_congr rfl
    intro j hj
    have hj := Finset.mem_range.1 hj
    have h1 : (width n (j + 1) : ℚ) * (Lat n m (j + 1) : ℚ) = (L n m : ℚ) := by exact_mod_cast width_mul n m (j + 1) (by omega)
    have h2 : (0 : ℚ) < (width n (j + 1) : ℚ) := by exact_mod_cast width_pos n (j + 1)
    have h3 : (0 : ℚ) < (Lat n m (j + 1) : ℚ) := by exact_mod_cast Lat_pos n m (j + 1)
    rw [← h1]
    field_simp
  have htot := hpart (n + m) le_rfl
  rw [P.total] at htot
  have hbin := hpart n (by omega)
  rw [hsplit] at hbin
  rw [Finset.sum_range_add, hbin] at htot
  have hloopf : ∀ x, loopFlow n h.next node (fun j => (p (key n j)).1) V (n + m) x =
      (if h.next = x then ((l - k : ℕ) : ℚ) * (V / (L n m : ℚ)) else 0) + if node = x then (k : ℚ) * (V / (L n m : ℚ)) else 0 := fun x => by
    unfold loopFlow
    rw [Finset.sum_range_add]
    congr 1
    · rw [← hbin]
      have : ∀ j ∈ Finset.range n, (if loopTarget n h.next node j = x then ((p (key n (j + 1))).1 : ℚ) else 0) * (V / (width n (j + 1) : ℚ)) =
          if h.next = x then ((p (key n (j + 1))).1 : ℚ) * (V / (width n (j + 1) : ℚ)) else 0 := fun j hj => by
        rw [show loopTarget n h.next node j = h.next by simp [loopTarget, Finset.mem_range.1 hj]]
        split <;> simp
      rw [Finset.sum_congr rfl this]
      split
      · rfl
      · simp
    · have : ∀ j ∈ Finset.range m, (if loopTarget n h.next node (n + j) = x then ((p (key n (n + j + 1))).1 : ℚ) else 0) *
          (V / (width n (n + j + 1) : ℚ)) = if node = x then ((p (key n (n + j + 1))).1 : ℚ) * (V / (width n (n + j + 1) : ℚ)) else 0 := fun j hj => by
        rw [show loopTarget n h.next node (n + j) = node by simp [loopTarget]]
        split <;> simp
      rw [Finset.sum_congr rfl this]
      split
      · rw [Nat.cast_sub hmod] at htot
        linarith
      · simp
  have hflow : ∀ x, loopFlow n h.next node (fun j => (p (key n j)).1) V (n + m) x + (cs.count x : ℚ) * (V / (L n m : ℚ)) =
      (if h.next = x then ((l - k : ℕ) : ℚ) * (v / d) else 0) + (if node = x then (k : ℚ) * (v / d) else 0) + (cs.count x : ℚ) * (v / d) := fun x => by
    rw [hloopf, hV']
  have hnc : node ∉ cs := fun q => (hcl node q).2 rfl
  have hlc : h.next ∉ cs := fun q => by have := (hcl _ q).1; omega
  have hV0 : 0 < V := by rw [hV]; positivity
  have hv0 : 0 < v := by
    rcases hn.lt_or_eq with q | q
    · exact q
    · rw [← q] at hpos
      simp at hpos
  have U := fun T => Net.uniqueOver (h := h) (cs := cs) (T := T) hnew I H.inside (by rw [← hv]; exact hv0) hV0 hpos (by
    rw [hflow, hflow, if_pos rfl, if_neg (by omega), if_neg (by omega), if_pos rfl, List.count_eq_zero.2 hlc, List.count_eq_zero.2 hnc, ← hv, hV,
      Nat.cast_sub hmod]
    push_cast
    ring)
  have N : 3 ^ m ∣ l → SplitterNetwork h (joinLoop s2.1 node h.next) node (h.get node).value cs := fun hdvd => by
    have hk0 : k = 0 := by rw [hk]; exact Nat.mod_eq_zero_of_dvd hdvd
    refine (Net.networkOver (h := h) (cs := cs) hnew I H.inside hcl (by
      intro t ht
      simp at ht
      tauto) (by rw [← hv, hV]) hpos ?_ ?_ ?_).1
    · rw [hflow, if_pos rfl, if_neg (by omega), List.count_eq_zero.2 hlc, hk0]
      simp
      ring
    · rw [hflow, if_neg (by omega), if_pos rfl, List.count_eq_zero.2 hnc, hk0]
      simp
    · intro c hc
      have h1 := (hcl c hc)
      rw [hflow, if_neg (by omega), if_neg (Ne.symm h1.2), List.count_eq_one_of_mem (hcs ▸ H.nodup) hc, H.share c (hcs ▸ hc), ← hv]
      simp
  have hnx : (joinLoop s2.1 node h.next).next = s2.1.next := (joinLoop_keep s2.1 node h.next 0).2.2
  have hs2 : g0.next ≤ s2.1.next := I.wired.next
  have wk : ∀ a, a < g0.next → s2.1.get a = { (detach g0 node cs).get a with
    children := (s2.1.get a).children, parents := (s2.1.get a).parents } := I.wired.keep
  have hexp : ∀ a, a < g0.next → ((joinLoop s2.1 node h.next).get a).expands = (g0.get a).expands := fun a ha => by
    rw [(joinLoop_keep s2.1 node h.next a).2.1, wk a ha, detach_get]
  have hb := I.bound (by rw [hV]; positivity)
  rw [← hv, ← hcs]
  rw [← hv] at N
  have hgl' : (g0.get h.next).value = l * v / d ∧ (g0.get h.next).level = none := by
    rw [← hnew'.1]
    simp
  refine ⟨tagMerge (joinLoop s2.1 node h.next) h.next 2, ?_, fun q => (N q).tagMerge (.inr (.inr le_rfl)) _, ?_, ?_, ⟨?_, ?_, ?_⟩, ?_, ?_, ?_⟩
  · unfold expandDivide
    rw [hf]
    simp only [bind, Except.bind, pure, Except.pure]
    rw [← hv, ← hV, decide_eq_true hVV]
    simp only [if_true, ep, hnew]
    rw [hg1 node hnode, show levelSucc (h.get node) = .ok (lvl + 1) by unfold levelSucc; rw [hlevel]]
    rw [← hcs]
    simp only
    rw [e1]
    simp only
    rw [e2]
    simp [hgl.1]
  · intro T
    have n1 : h.next ≠ node := by omega
    have n2 : node ≠ h.next := by omega
    rw [steady_tagMerge, U T, hflow, hflow, List.count_eq_zero.2 hlc, List.count_eq_zero.2 hnc, ← hv, ← hk, tagMerge_next]
    simp only [tagMerge_value, if_neg n1, if_neg n2, if_pos]
    simp
  · intro a h1 h2
    rw [tagMerge_next, hnx] at h2
    rw [tagMerge_value, (joinLoop_keep s2.1 node h.next a).1, ← hV]
    exact (hb a (show g0.next ≤ a by omega) h2).2
  · rw [tagMerge_next, hnx]
    omega
  · rw [tagMerge_value, (joinLoop_keep s2.1 node h.next h.next).1, wk _ (by omega), detach_get]
    exact hgl'.1
  · rw [tagMerge_level, joinLoop_level, wk _ (by omega), detach_get]
    exact hgl'.2
  · rw [tagMerge_parents, tagMerge_get]
    have hx := hexp h.next (by omega)
    rw [hgl.2] at hx
    by_cases q : 2 < ((joinLoop s2.1 node h.next).get h.next).parents.length
    · simp [q, hx]
    · simp [q, hx]
  · intro c hc
    have := (hcl c hc).1
    rw [tagMerge_get, if_neg (by omega), hexp c (by omega), hg1 c this]
  · rw [tagMerge_get, if_neg (by omega), hexp node (by omega), hg1 node hnode]

/-- The machines of that network. -/
theorem expandDivide_over_machines (H : DivideInput h node d) (hf : findNML d = .ok (n, m, l, s)) (hl : d + l = L n m)
    (hlevel : (h.get node).level = some lvl) (hlimit : (h.get node).value ≤ cfg.limit)
    (hover : (cfg.limit : ℚ) < (h.get node).value + l * (h.get node).value / d) :
    ∃ h', expandDivide cfg h node d = .ok (h', (lvl + 1, n + m)) ∧
      belts h' (made h h' node) h.next + belts h' (made h h' node) node = (gsel n m l l).length ∧
      machines h h' node (h.get node).children + savedSplitters n m (gsel n m l l) = Cost.S n m + 1 + fan n 0 +
        toOne (belts h' (made h h' node) h.next) + toOne (1 + belts h' (made h h' node) node) := by
  obtain ⟨v, hv⟩ : ∃ v, v = (h.get node).value := ⟨_, rfl⟩
  obtain ⟨cs, hcs⟩ : ∃ cs, cs = (h.get node).children := ⟨_, rfl⟩
  have hd0 : (0 : ℚ) < d := by exact_mod_cast (by have := H.two; omega : 0 < d)
  have hlL : l < L n m := by have := H.two; omega
  obtain ⟨p, ep, P⟩ := loopingBranches_plan n m l hlL
  have hn := H.nonneg
  rw [← hv] at hlimit hover hn
  have hpos : (0 : ℚ) < l * v / d := by linarith
  obtain ⟨g0, hnew⟩ : ∃ g0, newNode h (l * v / d : ℚ) [] none none = .ok (g0, h.next) := by
    unfold newNode
    rw [if_neg (not_lt.2 hpos.le)]
    exact ⟨_, rfl⟩
  have hnew' := hnew
  unfold newNode at hnew'
  rw [if_neg (not_lt.2 hpos.le)] at hnew'
  simp only [Except.ok.injEq, Prod.mk.injEq, Heap.alloc] at hnew'
  have hn1 : g0.next = h.next + 1 := by rw [← hnew'.1]
  have hg1 : ∀ a, a < h.next → g0.get a = h.get a := fun a ha => by
    rw [← hnew'.1]
    exact if_neg (by omega)
  have hgl : (g0.get h.next).parents = [] ∧ (g0.get h.next).expands = [] := by
    rw [← hnew'.1]
    simp
  have hnode := H.inside
  obtain ⟨V, hV⟩ : ∃ V, V = v + l * v / d := ⟨_, rfl⟩
  have hVV := hover
  rw [← hV] at hVV
  have hLQ : (L n m : ℚ) = d + l := by exact_mod_cast hl.symm
  have hV' : V / (L n m : ℚ) = v / d := by
    rw [hV, hLQ]
    field_simp
  have hcl : ∀ c ∈ cs, c < h.next ∧ c ≠ node := fun c hc => by rw [hcs] at hc; exact ⟨H.lt c hc, H.ne c hc⟩
  obtain ⟨s1, s2, E, S, e1, e2, I, hin, hnx, hct, hroot, -⟩ := divide_layers (hb := g0.modify node fun o => { o with children := [] }) (node := node) (loop := h.next)
    (V := V) (cs := cs) P hlL.le (by rw [hV]; positivity) (show node < g0.next by omega) (show h.next < g0.next by omega)
    (fun c hc => by have := hcl c hc; exact ⟨show c < g0.next by omega, by omega, this.2⟩) (by rw [hcs]; exact H.nodup)
    (by rw [hcs, H.count, hl])
    (shape_pos H.two (by omega)) (n + m) (lvl + 1)
  have hnm := shape_pos H.two (by omega : d ≤ L n m)
  have hl0 : 0 < l := by
    rcases Nat.eq_zero_or_pos l with q | q
    · rw [q] at hpos
      simp at hpos
    · exact q
  have hb : BestShape d n m := by
    obtain ⟨n', m', hf', hb⟩ := findNML_best d (by have := H.two; omega)
    rw [hf] at hf'
    simp only [Except.ok.injEq, Prod.mk.injEq] at hf'
    rw [hf'.1, hf'.2.1]
    exact hb
  have hlt : l < Lat n m 1 := by have := bestShape_spare hb hnm; omega
  have hfirst : (p (key n 1)).1 = 0 := by
    have h3 : (p (key n 1)).1 * Lat n m 1 ≤ l := by
      rw [← P.total]
      exact Finset.single_le_sum (f := fun j => (p (key n (j + 1))).1 * Lat n m (j + 1)) (fun _ _ => Nat.zero_le _) (Finset.mem_range.2 hnm)
    rcases Nat.eq_zero_or_pos (p (key n 1)).1 with q | q
    · exact q
    · have := Nat.le_mul_of_pos_left (Lat n m 1) q
      omega
  have hnm1 : ¬ 1 = n + m := fun q => by
    rw [show Lat n m 1 = Lat n m (n + m) by rw [q], Lat_last] at hlt
    omega
  have hdir : ∀ z, z ≤ h.next → (outsOf E node).count z = 0 := fun z hz => by
    rw [hroot.2 z (show z < g0.next by omega), if_neg hnm1]
    simp [loopCount, hfirst]
  have hnc : node ∉ cs := fun q => (hcl node q).2 rfl
  have hlc : h.next ∉ cs := fun q => by have := (hcl _ q).1; omega
  obtain ⟨h3, hh3⟩ : ∃ h3, tagMerge (joinLoop s2.1 node h.next) h.next 2 = h3 := ⟨_, rfl⟩
  have hn3 : h3.next = (joinLoop s2.1 node h.next).next := by rw [← hh3, tagMerge_next]
  obtain ⟨-, hb3, hmach⟩ := Net.machinesOver (cs := cs) hnew I hnode hpos hn3 (fun a => by rw [← hh3, tagMerge_children]) (fun z hz => (hcl z hz).1)
    (hcs ▸ H.nodup) (fun z hz _ => hdir z hz) hnc
  have c1 := hct h.next (show h.next < g0.next by omega)
  have c2 := hct node (show node < g0.next by omega)
  rw [List.count_eq_zero.2 hlc, Nat.add_zero] at c1
  rw [List.count_eq_zero.2 hnc, Nat.add_zero] at c2
  have hsum : (insOf E h.next).length + (insOf E node).length = (gsel n m l l).length := by
    rw [c1, c2, ← (loopingBranches_counts ep).1, Finset.sum_range_succ', show (p (key n 0)).1 = 0 from P.first, Nat.add_zero]
    unfold loopCount
    rw [← Finset.sum_add_distrib]
    apply Finset.sum_congr rfl
    intro j _
    have hn : h.next ≠ node := by omega
    unfold loopTarget
    by_cases q : j < n <;> simp [q, hn, hn.symm]
  have z1 : (cs.map fun z => (outsOf E node).count z).sum = 0 := List.sum_eq_zero fun y hy => by
    simp only [List.mem_map] at hy
    obtain ⟨a, ha, rfl⟩ := hy
    exact hdir a (hcl a ha).1.le
  have z2 : (cs.map fun z => toOne (belts h3 (made h h3 node) z)).sum = 0 := List.sum_eq_zero fun y hy => by
    simp only [List.mem_map] at hy
    obtain ⟨a, ha, rfl⟩ := hy
    rw [hb3, hin a ha, hdir a (hcl a ha).1.le]
    rfl
  have e3 := hb3 h.next
  have e4 := hb3 node
  rw [hdir _ le_rfl, Nat.add_zero] at e3
  rw [hdir _ hnode.le, Nat.add_zero] at e4
  rw [z1, z2, hroot.1, Nat.add_zero, Nat.add_zero, hn3, (joinLoop_keep s2.1 node h.next 0).2.2] at hmach
  have c3 := P.splitters hlL.le
  rw [(loopingBranches_counts ep).2] at c3
  have hnx' : s2.1.next + 1 = g0.next + ∑ j ∈ Finset.range (n + m), (width n j - ((p (key n j)).1 + (p (key n j)).2)) := hnx
  have hs2 : g0.next ≤ s2.1.next := I.wired.next
  refine ⟨h3, ?_, by rw [e3, e4, hsum], by rw [← hcs, e3, e4]; omega⟩
  rw [← hh3]
  unfold expandDivide
  rw [hf]
  simp only [bind, Except.bind, pure, Except.pure]
  rw [← hv, ← hV, decide_eq_true hVV]
  simp only [if_true, ep, hnew]
  rw [hg1 node hnode, show levelSucc (h.get node) = .ok (lvl + 1) by unfold levelSucc; rw [hlevel]]
  rw [← hcs]
  simp only
  rw [e1]
  simp only
  rw [e2]
  simp [hgl.1]

end

end Satis.Graph
