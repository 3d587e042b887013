import Verif.Graph.DivideSpec
/-!
# All the depths of `expand_extract`
-/

namespace Satis.Graph
open Satis Satis.Cost

/-- What `r j` branches on each of the first `i` depths `j`, all leading to `t`, bring to `x`. -/
def planFlow (n : Nat) (t : Addr) (r : Nat → Nat) (V : ℚ) (i : Nat) (x : Addr) : ℚ :=
  ∑ j ∈ Finset.range i, (if t = x then (r (j + 1) : ℚ) else 0) * (V / (width n (j + 1) : ℚ))

theorem planFlow_total {n m l : Nat} {p : Plan} (P : PlanOK n m l (fun j => (p (key n j)).1) fun j => (p (key n j)).2) (t : Addr) (V : ℚ)
    (x : Addr) : planFlow n t (fun j => (p (key n j)).1) V (n + m) x = if t = x then V * l / (L n m : ℚ) else 0 := by
  unfold planFlow
  split
  · exact loop_total P
  · simp

/-- How many branches of the first `i` depths lead to `x`, `r j` of each depth `j` leading to `t`. -/
def planCount (t : Addr) (r : Nat → Nat) (i : Nat) (x : Addr) : Nat := ∑ j ∈ Finset.range i, if t = x then r (j + 1) else 0

theorem planCount_total {n m l : Nat} {p : Plan} (P : PlanOK n m l (fun j => (p (key n j)).1) fun j => (p (key n j)).2) (t x : Addr) :
    planCount t (fun j => (p (key n j)).1) (n + m) x = if t = x then ∑ j ∈ Finset.range (n + m + 1), (p (key n j)).1 else 0 := by
  unfold planCount
  have h2 := P.first
  split
  · rw [Finset.sum_range_succ', h2, Nat.add_zero]
  · simp

section extract
variable {hb : Heap ℚ} {node loop extracted overflow : Addr} {V : ℚ} {n m l e o : Nat} {p q r : Plan}

/-- The branches of a depth. -/
def load (n : Nat) (p q r : Plan) (j : Nat) : Nat := (p (key n (j + 1))).1 + (q (key n (j + 1))).1 + (r (key n (j + 1))).1

/-- The parents of `x` after `i` depths, in the order of a plan whose branches come after `off` others. -/
def rowsTo (n : Nat) (t : Addr) (off : Nat → Nat) (r : Plan) (lay : Nat → List Addr) (i : Nat) (x : Addr) : List Addr :=
  (spots n off (fun j => if t = x then (r (key n (j + 1))).1 else 0) i).map (splitterAt lay)

theorem rowsTo_succ (n : Nat) (t : Addr) (off : Nat → Nat) (r : Plan) (lay : Nat → List Addr) (i : Nat) (x : Addr) :
    rowsTo n t off r lay (i + 1) x = rowsTo n t off r lay i x ++ if t = x then outlets (fan n i) (off i) (lay i) (r (key n (i + 1))).1 else [] := by
  unfold rowsTo
  rw [spots_map_succ, outlets_if]

theorem rowsTo_ne {n : Nat} {t : Addr} {off : Nat → Nat} {r : Plan} {lay : Nat → List Addr} {i : Nat} {x : Addr} (h : t ≠ x) :
    rowsTo n t off r lay i x = [] := by
  unfold rowsTo spots
  simp [h]

/-- The state after `i` depths. -/
def ExtractState (hb : Heap ℚ) (node loop extracted overflow : Addr) (V : ℚ) (n m : Nat) (p q r : Plan) (i : Nat)
    (s : Heap ℚ × Int × List Addr) : Prop :=
  ∃ E S cur, (Net hb s.1 node V [loop, extracted, overflow] E S cur (V / (width n i : ℚ)) fun x =>
      planFlow n loop (fun j => (p (key n j)).1) V i x + planFlow n extracted (fun j => (q (key n j)).1) V i x +
        planFlow n overflow (fun j => (r (key n j)).1) V i x) ∧
    cur.length = width n i - (((p (key n i)).1 + (q (key n i)).1 + (r (key n i)).1) + ((p (key n i)).2 + (q (key n i)).2 + (r (key n i)).2)) ∧
    (i < n + m → s.2.2 = cur) ∧
    s.1.next + 1 = hb.next + ∑ j ∈ Finset.range (i + 1), leftAt n (fun j => (p (key n j)).1 + (q (key n j)).1 + (r (key n j)).1)
      (fun j => (p (key n j)).2 + (q (key n j)).2 + (r (key n j)).2) j ∧
    (∀ x, x < hb.next → (insOf E x).length = planCount loop (fun j => (p (key n j)).1) i x +
      planCount extracted (fun j => (q (key n j)).1) i x + planCount overflow (fun j => (r (key n j)).1) i x) ∧
    (i = 0 → E = [] ∧ cur = [node]) ∧
    (0 < i → node ∈ S ∧ (outsOf E node).length = fan n 0 ∧ ∀ x, x < hb.next → (outsOf E node).count x = planCount loop (fun j => (p (key n j)).1) 1 x +
      planCount extracted (fun j => (q (key n j)).1) 1 x + planCount overflow (fun j => (r (key n j)).1) 1 x) ∧
    (overflow ≠ loop → overflow ≠ extracted → ∀ a, Trails (fun _ => False) overflow (outsOf E a)) ∧
    ∃ lay, Rows n i S (load n p q r) lay ∧ lay 0 = [node] ∧ lay i = cur ∧ ∀ x, x < hb.next → (x = loop → x ≠ extracted ∧ x ≠ overflow) → extracted ≠ overflow → insOf E x =
      rowsTo n loop (fun _ => 0) p lay i x ++ (rowsTo n extracted (fun j => (p (key n (j + 1))).1) q lay i x ++
        rowsTo n overflow (fun j => (p (key n (j + 1))).1 + (q (key n (j + 1))).1) r lay i x)

theorem extract_step (P : PlanOK n m l (fun j => (p (key n j)).1) fun j => (p (key n j)).2)
    (Q : PlanOK n m e (fun j => (q (key n j)).1) fun j => (q (key n j)).2)
    (R : PlanOK n m o (fun j => (r (key n j)).1) fun j => (r (key n j)).2) (hl : l + e + o = L n m) (hV : 0 ≤ V)
    (hloop : loop < hb.next) (hex : extracted < hb.next) (hov : overflow < hb.next) (original : List Addr)
    {depth : Int} {j : Nat} (hj : j < n + m) {s : Heap ℚ × Int × List Addr}
    (hs : ExtractState hb node loop extracted overflow V n m p q r j s) :
    ∃ s', extractLayer (fan n j) (width n (j + 1)) (p (key n (j + 1))) (q (key n (j + 1))) (r (key n (j + 1)))
        ((layerValues V n m).getD (j + 1) 0) depth loop extracted overflow (decide (j + 1 = n + m)) original s = .ok s' ∧
      ExtractState hb node loop extracted overflow V n m p q r (j + 1) s' := by
  obtain ⟨E, S, cur, I, hc, hsc, hnx, hct, hz, hp1, htr, lay, hrows, hlay0, hlay, hord⟩ := hs
  obtain ⟨h, lvl, cur'⟩ := s
  simp only at I hc hsc hnx hct hz
  have hcc := hsc hj
  subst hcc
  have T := (P.add Q).add R
  have hleft := T.left hl.le j hj
  rw [← hc] at hleft
  have hlast := T.last
  have hwd : width n (n + m) = L n m := by
    have h2 := width_mul n m (n + m) le_rfl
    rw [Lat_last, Nat.mul_one] at h2
    exact h2
  obtain ⟨h', E', S', cur'', ee, ec, N, hn', hct', hS', hout, hfirst, hins, htr'⟩ := extractLayer_spec (wd := width n (j + 1)) (p := p (key n (j + 1))) (q := q (key n (j + 1)))
    (r := r (key n (j + 1))) (value := (layerValues V n m).getD (j + 1) 0) (depth := depth) (lvl := lvl) (loop := loop) (extracted := extracted)
    (overflow := overflow) (last := decide (j + 1 = n + m)) (original := original) I (fan_cases n j)
    (by
      intro t ht
      refine ⟨?_, ht⟩
      simp at ht
      rcases ht with rfl | rfl | rfl <;> assumption)
    (by positivity) ((layerValues_getD V n m (j + 1) (by omega)).trans (div_width_succ V n j).symm) hleft
    (by
      intro q'
      rw [of_decide_eq_true q', hwd]
      omega)
  obtain ⟨lay', q1, q2, q3, q0, q4⟩ := hrows.next (by rw [hlay]; unfold load; omega) (List.range' h.next (width n (j + 1) -
    ((p (key n (j + 1))).1 + (q (key n (j + 1))).1 + (r (key n (j + 1))).1 + ((p (key n (j + 1))).2 + (q (key n (j + 1))).2 + (r (key n (j + 1))).2))))
  have hto : ∀ t off (w : Plan) x, rowsTo n t off w lay' j x = rowsTo n t off w lay j x := fun t off w x => q4 _ _
  refine ⟨_, ee, E', S', List.range' h.next _, ?_, List.length_range', ?_, ?_, ?_, fun q' => by omega, fun _ => ?_,
    fun h1 h2 a => htr' a h1 h2 (htr h1 h2 a), lay', by rw [hS', ← hlay]; exact q1, q0.trans hlay0, q2, fun x hx hx1 hx2 => ?_⟩
  · rw [div_width_succ] at N
    convert N using 2
    unfold planFlow
    simp only [Finset.sum_range_succ, List.count_append, Nat.cast_add, count_replicate_cast, div_width_succ]
    ring
  · intro q'
    exact ec (decide_eq_false (by omega))
  · rw [Finset.sum_range_succ]
    show h'.next + 1 = _
    have h1 : leftAt n (fun j => (p (key n j)).1 + (q (key n j)).1 + (r (key n j)).1) (fun j => (p (key n j)).2 + (q (key n j)).2 +
      (r (key n j)).2) (j + 1) = width n (j + 1) - ((p (key n (j + 1))).1 + (q (key n (j + 1))).1 + (r (key n (j + 1))).1 +
      ((p (key n (j + 1))).2 + (q (key n (j + 1))).2 + (r (key n (j + 1))).2)) := rfl
    rw [hn', h1]
    omega
  · intro x hx
    rw [hct' x hx, hct x hx]
    unfold planCount
    simp only [Finset.sum_range_succ, List.count_append, List.count_replicate, beq_iff_eq]
    omega
  · by_cases hj0 : j = 0
    · subst hj0
      obtain ⟨rfl, rfl⟩ := hz rfl
      have hperm := hfirst rfl rfl
      refine ⟨by rw [hS']; simp, ?_, fun x hx => ?_⟩
      · rw [hperm.length_eq]
        simp only [List.length_append, List.length_replicate, List.length_range']
        simp only [List.length_singleton] at hleft
        omega
      · have hbn := I.wired.next
        rw [hperm.count_eq, List.count_append, (List.count_eq_zero (l := List.range' _ _)).2 (by rw [List.mem_range'_1]; omega)]
        unfold planCount
        simp only [Finset.sum_range_one, List.count_append, List.count_replicate, beq_iff_eq]
        omega
    · obtain ⟨a1, a2, a3⟩ := hp1 (by omega)
      rw [hout node a1]
      exact ⟨by rw [hS']; simp [a1], a2, a3⟩
  · rw [hins x hx, hord x hx hx1 hx2, rowsTo_succ, rowsTo_succ, rowsTo_succ, hto, hto, hto, q3, hlay]
    by_cases w1 : loop = x
    · obtain ⟨w2, w3⟩ := hx1 w1.symm
      rw [rowsTo_ne w2.symm, rowsTo_ne w3.symm, if_neg w2.symm, if_neg w3.symm]
      simp
    · rw [rowsTo_ne w1, if_neg w1]
      by_cases w2 : extracted = x
      · have w3 : overflow ≠ x := fun e => hx2 (w2.trans e.symm)
        rw [rowsTo_ne w3, if_neg w3]
        simp
      · rw [rowsTo_ne w2, if_neg w2]
        simp

theorem extract_layers (P : PlanOK n m l (fun j => (p (key n j)).1) fun j => (p (key n j)).2)
    (Q : PlanOK n m e (fun j => (q (key n j)).1) fun j => (q (key n j)).2)
    (R : PlanOK n m o (fun j => (r (key n j)).1) fun j => (r (key n j)).2) (hl : l + e + o = L n m) (hV : 0 ≤ V)
    (hnode : node < hb.next) (hloop : loop < hb.next) (hex : extracted < hb.next) (hov : overflow < hb.next) (original : List Addr) (depth lvl : Int) :
    ∃ s1 s2 E S, (List.range n).foldlM (fun s i => extractLayer 2 (2 ^ (i + 1)) (p (i + 1, 0)) (q (i + 1, 0)) (r (i + 1, 0))
        ((layerValues V n m).getD (i + 1) 0) depth loop extracted overflow (decide (i + 1 = n ∧ m = 0)) original s) (hb, lvl, [node]) = .ok s1 ∧
      (List.range m).foldlM (fun s i => extractLayer 3 (2 ^ n * 3 ^ (i + 1)) (p (n, i + 1)) (q (n, i + 1)) (r (n, i + 1))
        ((layerValues V n m).getD (n + i + 1) 0) depth loop extracted overflow (decide (i + 1 = m)) original s) s1 = .ok s2 ∧
      (Net hb s2.1 node V [loop, extracted, overflow] E S [] (V / (L n m : ℚ)) fun x =>
        (if loop = x then V * l / (L n m : ℚ) else 0) + (if extracted = x then V * e / (L n m : ℚ) else 0) +
          if overflow = x then V * o / (L n m : ℚ) else 0) ∧
      s2.1.next + 1 = hb.next + ∑ j ∈ Finset.range (n + m), (width n j - ((p (key n j)).1 + (q (key n j)).1 + (r (key n j)).1 +
        ((p (key n j)).2 + (q (key n j)).2 + (r (key n j)).2))) ∧
      (∀ x, x < hb.next → (insOf E x).length = (if loop = x then ∑ j ∈ Finset.range (n + m + 1), (p (key n j)).1 else 0) +
        (if extracted = x then ∑ j ∈ Finset.range (n + m + 1), (q (key n j)).1 else 0) +
        if overflow = x then ∑ j ∈ Finset.range (n + m + 1), (r (key n j)).1 else 0) ∧
      (0 < n + m → (outsOf E node).length = fan n 0 ∧ ∀ x, x < hb.next → (outsOf E node).count x = (if loop = x then (p (key n 1)).1 else 0) +
        (if extracted = x then (q (key n 1)).1 else 0) + if overflow = x then (r (key n 1)).1 else 0) ∧
      (overflow ≠ loop → overflow ≠ extracted → ∀ a, Trails (fun _ => False) overflow (outsOf E a)) ∧
      ∃ lay, Rows n (n + m) S (load n p q r) lay ∧ lay 0 = [node] ∧ ∀ x, x < hb.next → (x = loop → x ≠ extracted ∧ x ≠ overflow) → extracted ≠ overflow → insOf E x =
        rowsTo n loop (fun _ => 0) p lay (n + m) x ++ (rowsTo n extracted (fun j => (p (key n (j + 1))).1) q lay (n + m) x ++
          rowsTo n overflow (fun j => (p (key n (j + 1))).1 + (q (key n (j + 1))).1) r lay (n + m) x) := by
  have h0 : ExtractState hb node loop extracted overflow V n m p q r 0 (hb, lvl, [node]) := by
    have a1 := P.first
    have a2 := P.start
    have b1 := Q.first
    have b2 := Q.start
    have c1 := R.first
    have c2 := R.start
    refine ⟨[], [], [node], ?_, by simp [a1, a2, b1, b2, c1, c2, width_zero], fun _ => rfl,
      by simp [leftAt, a1, a2, b1, b2, c1, c2, width_zero], fun x _ => by simp [planCount, insOf],
      fun _ => ⟨rfl, rfl⟩, fun q' => absurd q' (by omega), fun _ _ _ => .none (by simp), fun _ => [node], rows_zero _ _ _, rfl, rfl, fun x _ _ _ => rfl⟩
    rw [width_zero, Nat.cast_one, div_one]
    have := Net.start (V := V) [loop, extracted, overflow] hnode
    simpa [planFlow] using this
  obtain ⟨s1, e1, p1⟩ := foldlM_range (P := ExtractState hb node loop extracted overflow V n m p q r) (n := n) (h0 := h0)
    (f := fun s i => extractLayer 2 (2 ^ (i + 1)) (p (i + 1, 0)) (q (i + 1, 0)) (r (i + 1, 0))
        ((layerValues V n m).getD (i + 1) 0) depth loop extracted overflow (decide (i + 1 = n ∧ m = 0)) original s) (hs := by
    intro i hi s hs
    obtain ⟨s', ee, q'⟩ := extract_step P Q R hl hV hloop hex hov original (depth := depth) (j := i) (by omega) hs
    refine ⟨s', ?_, q'⟩
    rw [← ee]
    have a1 : fan n i = 2 := by simp [fan, hi]
    have a2 : width n (i + 1) = 2 ^ (i + 1) := by
      unfold width
      rw [show min (i + 1) n = i + 1 by omega, show i + 1 - n = 0 by omega]
      simp
    have a3 : key n (i + 1) = (i + 1, 0) := by
      unfold key
      rw [show min (i + 1) n = i + 1 by omega, show i + 1 - n = 0 by omega]
    have a5 : decide (i + 1 = n ∧ m = 0) = decide (i + 1 = n + m) := by
      apply decide_eq_decide.2
      omega
    rw [a1, a2, a3, a5])
  obtain ⟨s2, e2, p2⟩ := foldlM_range (P := fun i => ExtractState hb node loop extracted overflow V n m p q r (n + i)) (n := m) (h0 := p1)
    (f := fun s i => extractLayer 3 (2 ^ n * 3 ^ (i + 1)) (p (n, i + 1)) (q (n, i + 1)) (r (n, i + 1))
        ((layerValues V n m).getD (n + i + 1) 0) depth loop extracted overflow (decide (i + 1 = m)) original s) (hs := by
    intro i hi s hs
    obtain ⟨s', ee, q'⟩ := extract_step P Q R hl hV hloop hex hov original (depth := depth) (j := n + i) (by omega) hs
    refine ⟨s', ?_, q'⟩
    rw [← ee]
    have a1 : fan n (n + i) = 3 := by simp [fan]
    have a2 : width n (n + i + 1) = 2 ^ n * 3 ^ (i + 1) := by
      unfold width
      rw [show min (n + i + 1) n = n by omega, show n + i + 1 - n = i + 1 by omega]
    have a3 : key n (n + i + 1) = (n, i + 1) := by
      unfold key
      rw [show min (n + i + 1) n = n by omega, show n + i + 1 - n = i + 1 by omega]
    have a5 : decide (i + 1 = m) = decide (n + i + 1 = n + m) := by
      apply decide_eq_decide.2
      omega
    rw [a1, a2, a3, a5])
  obtain ⟨E, S, cur, I, hc, -, hnx, hct, -, hp1, htr, lay, hrows, hlay0, -, hord⟩ := p2
  have T := (P.add Q).add R
  have hlast := T.last
  have hwd : width n (n + m) = L n m := by
    have h2 := width_mul n m (n + m) le_rfl
    rw [Lat_last, Nat.mul_one] at h2
    exact h2
  have hcur : cur = [] := by
    rw [← List.length_eq_zero_iff]
    omega
  have hleft : leftAt n (fun j => (p (key n j)).1 + (q (key n j)).1 + (r (key n j)).1) (fun j => (p (key n j)).2 + (q (key n j)).2 +
      (r (key n j)).2) (n + m) = 0 := by
    show width n (n + m) - ((p (key n (n + m))).1 + (q (key n (n + m))).1 + (r (key n (n + m))).1 +
      ((p (key n (n + m))).2 + (q (key n (n + m))).2 + (r (key n (n + m))).2)) = 0
    omega
  rw [Finset.sum_range_succ, hleft, Nat.add_zero] at hnx
  simp only [planCount_total P, planCount_total Q, planCount_total R] at hct
  subst hcur
  rw [hwd] at I
  simp only [planFlow_total P, planFlow_total Q, planFlow_total R] at I
  refine ⟨s1, s2, E, S, e1, e2, I, hnx, hct, fun hnm => ?_, htr, lay, hrows, hlay0, hord⟩
  obtain ⟨-, a2, a3⟩ := hp1 hnm
  refine ⟨a2, fun x hx => ?_⟩
  rw [a3 x hx]
  simp [planCount]

end extract

end Satis.Graph
