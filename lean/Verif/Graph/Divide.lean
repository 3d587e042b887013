import Verif.Graph.Layers
import Verif.Graph.GroupSpec
import Mathlib.Algebra.BigOperators.Field
/-!
# All the depths of `expand_divide`
-/

namespace Satis.Graph
open Satis Satis.Cost

theorem div_width_succ (V : ℚ) (n j : Nat) : V / (width n j : ℚ) / (fan n j : ℕ) = V / (width n (j + 1) : ℚ) := by
  rw [width_succ, div_div]
  push_cast
  rw [mul_comm]

theorem width_pos (n j : Nat) : 0 < width n j := by unfold width; positivity

theorem fan_cases (n j : Nat) : fan n j = 2 ∨ fan n j = 3 := by unfold fan; split <;> simp

/-- The node the looping branches of depth `j + 1` lead to. -/
def loopTarget (n : Nat) (loop node : Addr) (j : Nat) : Addr := if j < n then loop else node

/-- What the branches looping on the first `i` depths bring to `x`. -/
def loopFlow (n : Nat) (loop node : Addr) (r : Nat → Nat) (V : ℚ) (i : Nat) (x : Addr) : ℚ :=
  ∑ j ∈ Finset.range i, (if loopTarget n loop node j = x then (r (j + 1) : ℚ) else 0) * (V / (width n (j + 1) : ℚ))

/-- How many branches looping on the first `i` depths lead to `x`. -/
def loopCount (n : Nat) (loop node : Addr) (r : Nat → Nat) (i : Nat) (x : Addr) : Nat :=
  ∑ j ∈ Finset.range i, if loopTarget n loop node j = x then r (j + 1) else 0

/-- What is left of a depth. -/
def leftAt (n : Nat) (r g : Nat → Nat) (j : Nat) : Nat := width n j - (r j + g j)

section divide
variable {hb : Heap ℚ} {node loop : Addr} {V : ℚ} {cs : List Addr} {n m l : Nat} {p : Plan}

/-- The state after `i` depths. -/
def DivideState (hb : Heap ℚ) (node loop : Addr) (V : ℚ) (cs : List Addr) (n m : Nat) (p : Plan) (i : Nat)
    (s : Heap ℚ × Int × List Addr) : Prop :=
  if i < n + m then ∃ E S, Net hb s.1 node V [loop, node] E S s.2.2 (V / (width n i : ℚ))
      (loopFlow n loop node (fun j => (p (key n j)).1) V i) ∧ s.2.2.length = width n i - ((p (key n i)).1 + (p (key n i)).2) ∧
      s.1.next + 1 = hb.next + ∑ j ∈ Finset.range (i + 1), leftAt n (fun j => (p (key n j)).1) (fun j => (p (key n j)).2) j ∧
      (∀ x, x < hb.next → (insOf E x).length = loopCount n loop node (fun j => (p (key n j)).1) i x) ∧
      (i = 0 → E = [] ∧ s.2.2 = [node]) ∧
      (0 < i → node ∈ S ∧ (outsOf E node).length = fan n 0 ∧ ∀ x, x < hb.next → (outsOf E node).count x =
        loopCount n loop node (fun j => (p (key n j)).1) 1 x + if 1 = n + m then cs.count x else 0) ∧
      ∃ lay, Rows n i S (fun j => (p (key n (j + 1))).1) lay ∧ lay i = s.2.2 ∧ ∀ x, x < hb.next → insOf E x =
        (spots n (fun _ => 0) (fun j => if loopTarget n loop node j = x then (p (key n (j + 1))).1 else 0) i).map (splitterAt lay)
  else ∃ E S, (Net (clear hb cs) s.1 node V ([loop, node] ++ cs) E S [] (V / (width n i : ℚ)) fun x =>
    loopFlow n loop node (fun j => (p (key n j)).1) V i x + (cs.count x : ℚ) * (V / (width n i : ℚ))) ∧ (∀ c ∈ cs, (insOf E c).length = 1) ∧
      s.1.next + 1 = hb.next + ∑ j ∈ Finset.range i, leftAt n (fun j => (p (key n j)).1) (fun j => (p (key n j)).2) j ∧
      (∀ x, x < hb.next → (insOf E x).length = loopCount n loop node (fun j => (p (key n j)).1) i x + cs.count x) ∧
      (0 < i → (outsOf E node).length = fan n 0 ∧ ∀ x, x < hb.next → (outsOf E node).count x =
        loopCount n loop node (fun j => (p (key n j)).1) 1 x + if 1 = n + m then cs.count x else 0) ∧
      ∃ lay, Rows n i S (fun j => (p (key n (j + 1))).1) lay ∧ lay i = [] ∧ ∀ x, x < hb.next → x ∉ cs → insOf E x =
        (spots n (fun _ => 0) (fun j => if loopTarget n loop node j = x then (p (key n (j + 1))).1 else 0) i).map (splitterAt lay)

theorem count_replicate_cast (r : Nat) (t x : Addr) : ((List.replicate r t).count x : ℚ) = if t = x then (r : ℚ) else 0 := by
  rw [List.count_replicate]
  by_cases h : t = x <;> simp [h]

theorem divide_step (P : PlanOK n m l (fun j => (p (key n j)).1) fun j => (p (key n j)).2) (hl : l ≤ L n m) (hV : 0 ≤ V)
    (hnode : node < hb.next) (hloop : loop < hb.next) (hcs : ∀ c ∈ cs, c < hb.next ∧ c ≠ loop ∧ c ≠ node) (hnd : cs.Nodup)
    (hlen : cs.length + l = L n m) {depth : Int} {j : Nat} (hj : j < n + m) {s : Heap ℚ × Int × List Addr}
    (hs : DivideState hb node loop V cs n m p j s) :
    ∃ s', divideLayer (fan n j) (width n (j + 1)) (p (key n (j + 1))) ((layerValues V n m).getD (j + 1) 0) depth
        (loopTarget n loop node j) (decide (j + 1 = n + m)) cs s = .ok s' ∧ DivideState hb node loop V cs n m p (j + 1) s' := by
  unfold DivideState at hs
  rw [if_pos hj] at hs
  obtain ⟨E, S, I, hc, hnx, hct, hz, hp1, lay, hrows, hlay, hord⟩ := hs
  obtain ⟨h, lvl, cur⟩ := s
  simp only at I hc hnx hct hz hlay
  have hstep : ∀ lay' : Nat → List Addr, lay' j = lay j →
      (∀ off r, (spots n off r j).map (splitterAt lay') = (spots n off r j).map (splitterAt lay)) → ∀ x, x < hb.next →
      (insOf E x ++ if loopTarget n loop node j = x then outlets (fan n j) 0 cur (p (key n (j + 1))).1 else []) =
        (spots n (fun _ => 0) (fun j => if loopTarget n loop node j = x then (p (key n (j + 1))).1 else 0) (j + 1)).map (splitterAt lay') := by
    intro lay' h1 h2 x hx
    rw [spots_map_succ, h2, ← hord x hx, h1, hlay, outlets_if]
  have hcount : ∀ x, loopCount n loop node (fun j => (p (key n j)).1) j x +
      (List.replicate (p (key n (j + 1))).1 (loopTarget n loop node j)).count x =
      loopCount n loop node (fun j => (p (key n j)).1) (j + 1) x := by
    intro x
    unfold loopCount
    rw [Finset.sum_range_succ, List.count_replicate]
    simp
  have hleft := P.left hl j hj
  rw [← hc] at hleft
  have hmem : loopTarget n loop node j ∈ [loop, node] := by unfold loopTarget; split <;> simp
  have hlt : loopTarget n loop node j < hb.next := by unfold loopTarget; split <;> assumption
  have hflow : ∀ x, loopFlow n loop node (fun j => (p (key n j)).1) V j x +
      ((List.replicate (p (key n (j + 1))).1 (loopTarget n loop node j)).count x : ℚ) * (V / (width n j : ℚ) / (fan n j : ℕ)) =
      loopFlow n loop node (fun j => (p (key n j)).1) V (j + 1) x := by
    intro x
    unfold loopFlow
    rw [Finset.sum_range_succ, div_width_succ, count_replicate_cast]
  have hw : 0 ≤ V / (width n j : ℚ) := by positivity
  by_cases hlast : j + 1 = n + m
  · have hL : (p (key n (j + 1))).1 + cs.length = fan n j * cur.length := by
      rw [← hleft, hlast]
      have h1 := P.last
      rw [h1]
      have h2 := width_mul n m (n + m) le_rfl
      rw [Lat_last, Nat.mul_one] at h2
      omega
    obtain ⟨h', E', S', e, N, hin, hn', hct', hout, hfirst, hS', hins⟩ := divideLayer_last (value := (layerValues V n m).getD (j + 1) 0) (depth := depth) (lvl := lvl)
      (wd := width n (j + 1)) (plan := p (key n (j + 1))) I (fan_cases n j) hmem hlt
      (fun c hc => ⟨(hcs c hc).1, by simp [(hcs c hc).2]⟩) hnd hL
    refine ⟨_, by rw [decide_eq_true hlast]; exact e, ?_⟩
    unfold DivideState
    rw [if_neg (by omega)]
    obtain ⟨lay', q1, q2, q3, -, q4⟩ := hrows.next (by rw [hlay]; omega) []
    refine ⟨E', S', ?_, hin, by rw [hn']; exact hnx, fun x hx => by rw [hct', hct x hx, List.count_append, ← hcount]; omega, fun _ => ?_,
      lay', by rw [hS', ← hlay]; exact q1, q2, fun x hx hxc => by rw [hins x hxc, hstep lay' q3 q4 x hx]⟩
    case refine_2 =>
      by_cases hj0 : j = 0
      · subst hj0
        obtain ⟨rfl, rfl⟩ := hz rfl
        have hperm := hfirst rfl rfl
        refine ⟨?_, fun x hx => ?_⟩
        · rw [hperm.length_eq]
          simp only [List.length_append, List.length_replicate]
          simp only [List.length_singleton] at hL
          omega
        · rw [hperm.count_eq, List.count_append, if_pos (by omega), ← hcount x]
          simp [loopCount]
      · obtain ⟨a1, a2, a3⟩ := hp1 (by omega)
        rw [hout node a1]
        exact ⟨a2, a3⟩
    rw [div_width_succ] at N
    convert N using 2
    rw [← hflow, List.count_append, div_width_succ]
    push_cast
    ring
  · obtain ⟨h', E', S', e, N, hn', hct', hS', hout, hfirst, hins⟩ := divideLayer_mid (depth := depth) (lvl := lvl) (wd := width n (j + 1))
      (plan := p (key n (j + 1))) I (fan_cases n j) cs hmem hlt hw
      ((layerValues_getD V n m (j + 1) (by omega)).trans (div_width_succ V n j).symm) hleft
    refine ⟨_, by rw [decide_eq_false hlast]; exact e, ?_⟩
    unfold DivideState
    rw [if_pos (by omega)]
    obtain ⟨lay', q1, q2, q3, -, q4⟩ := hrows.next (by rw [hlay]; omega) (List.range' h.next (width n (j + 1) - ((p (key n (j + 1))).1 + (p (key n (j + 1))).2)))
    refine ⟨E', S', ?_, by simp, ?_, fun x hx => by rw [hct' x hx, hct x hx, hcount], fun q => by omega, fun _ => ?_,
      lay', by rw [hS', ← hlay]; exact q1, q2, fun x hx => by rw [hins x hx, hstep lay' q3 q4 x hx]⟩
    case refine_3 =>
      by_cases hj0 : j = 0
      · subst hj0
        obtain ⟨rfl, rfl⟩ := hz rfl
        have hperm := hfirst rfl rfl
        refine ⟨by rw [hS']; simp, ?_, fun x hx => ?_⟩
        · rw [hperm.length_eq]
          simp only [List.length_append, List.length_replicate, List.length_range']
          simp only [List.length_singleton] at hleft
          omega
        · have hbn := I.wired.next
          rw [hperm.count_eq, List.count_append, (List.count_eq_zero (l := List.range' _ _)).2 (by rw [List.mem_range'_1]; omega),
            if_neg (by omega), ← hcount x]
          simp [loopCount]
      · obtain ⟨a1, a2, a3⟩ := hp1 (by omega)
        rw [hout node a1]
        exact ⟨by rw [hS']; simp [a1], a2, a3⟩
    case refine_2 =>
      rw [Finset.sum_range_succ]
      show h'.next + 1 = _
      have h1 : leftAt n (fun j => (p (key n j)).1) (fun j => (p (key n j)).2) (j + 1) =
        width n (j + 1) - ((p (key n (j + 1))).1 + (p (key n (j + 1))).2) := rfl
      rw [hn', h1]
      omega
    rw [div_width_succ] at N
    convert N using 2
    rw [← hflow, div_width_succ]

theorem divide_layers (P : PlanOK n m l (fun j => (p (key n j)).1) fun j => (p (key n j)).2) (hl : l ≤ L n m) (hV : 0 ≤ V)
    (hnode : node < hb.next) (hloop : loop < hb.next) (hcs : ∀ c ∈ cs, c < hb.next ∧ c ≠ loop ∧ c ≠ node) (hnd : cs.Nodup)
    (hlen : cs.length + l = L n m) (hnm : 0 < n + m) (depth lvl : Int) :
    ∃ s1 s2 E S, (List.range n).foldlM (fun s i => divideLayer 2 (2 ^ (i + 1)) (p (i + 1, 0)) ((layerValues V n m).getD (i + 1) 0) depth loop
        (decide (i + 1 = n ∧ m = 0)) cs s) (hb, lvl, [node]) = .ok s1 ∧
      (List.range m).foldlM (fun s i => divideLayer 3 (2 ^ n * 3 ^ (i + 1)) (p (n, i + 1)) ((layerValues V n m).getD (n + i + 1) 0) depth
        node (decide (i + 1 = m)) cs s) s1 = .ok s2 ∧
      (Net (clear hb cs) s2.1 node V ([loop, node] ++ cs) E S [] (V / (L n m : ℚ)) fun x =>
        loopFlow n loop node (fun j => (p (key n j)).1) V (n + m) x + (cs.count x : ℚ) * (V / (L n m : ℚ))) ∧
      (∀ c ∈ cs, (insOf E c).length = 1) ∧
      s2.1.next + 1 = hb.next + ∑ j ∈ Finset.range (n + m), leftAt n (fun j => (p (key n j)).1) (fun j => (p (key n j)).2) j ∧
      (∀ x, x < hb.next → (insOf E x).length = loopCount n loop node (fun j => (p (key n j)).1) (n + m) x + cs.count x) ∧
      ((outsOf E node).length = fan n 0 ∧ ∀ x, x < hb.next → (outsOf E node).count x =
        loopCount n loop node (fun j => (p (key n j)).1) 1 x + if 1 = n + m then cs.count x else 0) ∧
      ∃ lay, Rows n (n + m) S (fun j => (p (key n (j + 1))).1) lay ∧ ∀ x, x < hb.next → x ∉ cs → insOf E x =
        (spots n (fun _ => 0) (fun j => if loopTarget n loop node j = x then (p (key n (j + 1))).1 else 0) (n + m)).map (splitterAt lay) := by
  have h0 : DivideState hb node loop V cs n m p 0 (hb, lvl, [node]) := by
    unfold DivideState
    rw [if_pos hnm]
    have h1 := P.first
    have h2 := P.start
    refine ⟨[], [], ?_, by simp [h1, h2, width_zero], by simp [leftAt, h1, h2, width_zero], fun x _ => by simp [loopCount, insOf],
      fun _ => ⟨rfl, rfl⟩, fun q => absurd q (by omega), fun _ => [node], rows_zero _ _ _, rfl, fun x _ => rfl⟩
    rw [width_zero, Nat.cast_one, div_one]
    exact Net.start _ hnode
  obtain ⟨s1, e1, p1⟩ := foldlM_range (P := DivideState hb node loop V cs n m p) (n := n) (h0 := h0) (f := fun s i => divideLayer 2 (2 ^ (i + 1))
    (p (i + 1, 0)) ((layerValues V n m).getD (i + 1) 0) depth loop (decide (i + 1 = n ∧ m = 0)) cs s) (hs := by
    intro i hi s hs
    obtain ⟨s', e, q⟩ := divide_step P hl hV hnode hloop hcs hnd hlen (depth := depth) (j := i) (by omega) hs
    refine ⟨s', ?_, q⟩
    rw [← e]
    have a1 : fan n i = 2 := by simp [fan, hi]
    have a2 : width n (i + 1) = 2 ^ (i + 1) := by
      unfold width
      rw [show min (i + 1) n = i + 1 by omega, show i + 1 - n = 0 by omega]
      simp
    have a3 : key n (i + 1) = (i + 1, 0) := by
      unfold key
      rw [show min (i + 1) n = i + 1 by omega, show i + 1 - n = 0 by omega]
    have a4 : loopTarget n loop node i = loop := by simp [loopTarget, hi]
    have a5 : decide (i + 1 = n ∧ m = 0) = decide (i + 1 = n + m) := by
      apply decide_eq_decide.2
      omega
    rw [a1, a2, a3, a4, a5])
  obtain ⟨s2, e2, p2⟩ := foldlM_range (P := fun i => DivideState hb node loop V cs n m p (n + i)) (n := m) (h0 := p1) (f := fun s i =>
    divideLayer 3 (2 ^ n * 3 ^ (i + 1)) (p (n, i + 1)) ((layerValues V n m).getD (n + i + 1) 0) depth node (decide (i + 1 = m)) cs s) (hs := by
    intro i hi s hs
    obtain ⟨s', e, q⟩ := divide_step P hl hV hnode hloop hcs hnd hlen (depth := depth) (j := n + i) (by omega) hs
    refine ⟨s', ?_, q⟩
    rw [← e]
    have a1 : fan n (n + i) = 3 := by simp [fan]
    have a2 : width n (n + i + 1) = 2 ^ n * 3 ^ (i + 1) := by
      unfold width
      rw [show min (n + i + 1) n = n by omega, show n + i + 1 - n = i + 1 by omega]
    have a3 : key n (n + i + 1) = (n, i + 1) := by
      unfold key
      rw [show min (n + i + 1) n = n by omega, show n + i + 1 - n = i + 1 by omega]
    have a4 : loopTarget n loop node (n + i) = node := by simp [loopTarget]
    have a5 : decide (i + 1 = m) = decide (n + i + 1 = n + m) := by
      apply decide_eq_decide.2
      omega
    rw [a1, a2, a3, a4, a5])
  unfold DivideState at p2
  rw [if_neg (by omega)] at p2
  obtain ⟨E, S, I, hin, hnx, hct, hp1, lay, hrows, -, hord⟩ := p2
  have hwd : width n (n + m) = L n m := by
    have h2 := width_mul n m (n + m) le_rfl
    rw [Lat_last, Nat.mul_one] at h2
    exact h2
  rw [hwd] at I
  exact ⟨s1, s2, E, S, e1, e2, I, hin, hnx, hct, hp1 hnm, lay, hrows, hord⟩

/-- All looping branches together bring `l / L` of the flow. -/
theorem loop_total (P : PlanOK n m l (fun j => (p (key n j)).1) fun j => (p (key n j)).2) :
    ∑ j ∈ Finset.range (n + m), ((p (key n (j + 1))).1 : ℚ) * (V / (width n (j + 1) : ℚ)) = V * l / (L n m : ℚ) := by
  rw [← P.total]
  push_cast
  rw [Finset.mul_sum, Finset.sum_div]
  apply Finset.sum_congr rfl
  intro j hj
  have := Finset.mem_range.1 hj
  have h1 : (width n (j + 1) : ℚ) * (Lat n m (j + 1) : ℚ) = (L n m : ℚ) := by exact_mod_cast width_mul n m (j + 1) (by omega)
  have h2 : (0 : ℚ) < (width n (j + 1) : ℚ) := by exact_mod_cast width_pos n (j + 1)
  have h3 : (0 : ℚ) < (Lat n m (j + 1) : ℚ) := by exact_mod_cast Lat_pos n m (j + 1)
  rw [← h1]
  field_simp

end divide

end Satis.Graph
