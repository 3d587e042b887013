import Verif.Side.MergerTwo
import Mathlib.Data.List.Forall2

/-! C83, C84: what a simulated merger with two inputs passes on, and the check `run_predicates` of `tests/merger_simulation.py`. -/

namespace Satis.Merging

theorem new_two {x z : ℕ} (h : x < z) (y : ℕ) : (Merger.new ([x, z].map fun v => Input.new v 'i')).setSpeed y =
    ⟨y, [Input.new x 'i', Input.new z 'i'], [0, 0], 0⟩ := by
  simp [Merger.new, Merger.setSpeed, bySpeed, List.insertionSort, Input.new, h.le]

/-! ## C83 -/

/-- A belt of speed `x` and one of speed `z` enter a merger whose output has the speed `y`, which is more than `x` and not more than `z`: of
`y` items the slower input hands on all it brings, but not more than every other one, and the faster one hands on the rest. -/
theorem C83_slow_input {x y z fuel : ℕ} (hxy : x < y) (hyz : y ≤ z) (hf : y ≤ fuel) :
    ∃ m, generateOne fuel [x, z] y = some m ∧ m.rates = [min x (y / 2), y - min x (y / 2)] := by
  have hy : 0 < y := by omega
  have hxz : x < z := by omega
  unfold generateOne
  rw [new_two hxz]
  rcases Nat.le_total (2 * x) y with h2 | h2
  · have hL : Light x y z 0 ⟨y, [Input.new x 'i', Input.new z 'i'], [0, 0], 0⟩ :=
      ⟨_, _, _, _, .inl rfl, ⟨rfl, by simp [Input.new]⟩, ⟨hyz, le_rfl⟩, rfl, rfl, by simp [Input.new], by simp [Input.new]⟩
    obtain ⟨m, e, w⟩ := stabilize_every (m := ⟨y, [Input.new x 'i', Input.new z 'i'], [0, 0], 0⟩) (P := Light x y z) hL (fun t m h => h.step) (fun t m h => light_tick hxy h2 h) (Nat.zero_le _) (fuel := fuel)
      (show y - 0 ≤ fuel by omega)
    refine ⟨m, e, ?_⟩
    dsimp only at w
    rw [w.rates hxz, Nat.mul_div_cancel_left x hy, Nat.min_eq_left (by omega)]
  · have hI : Idle x y z ⟨y, [Input.new x 'i', Input.new z 'i'], [0, 0], 0⟩ :=
      ⟨_, _, 0, 0, rfl, rfl, rfl, rfl, rfl, rfl, .inl rfl⟩
    obtain ⟨m, p, -, e, w, hp⟩ := hI.run hxy h2 hyz hf
    have := hp rfl rfl
    subst this
    refine ⟨m, e, ?_⟩
    rw [w.rates hxz, Nat.add_zero, Nat.min_eq_right (by omega)]

/-- Two inputs, both at least as fast as the output, take turns; the slower one begins. -/
theorem C83_fast_inputs {x y z fuel : ℕ} (hy : 0 < y) (hyx : y ≤ x) (hxz : x < z) (hf : y ≤ fuel) :
    ∃ m, generateOne fuel [x, z] y = some m ∧ m.rates = [y - y / 2, y / 2] := by
  unfold generateOne
  rw [new_two hxz]
  have hB : Both x y z 0 ⟨y, [Input.new x 'i', Input.new z 'i'], [0, 0], 0⟩ :=
    ⟨_, _, _, _, ⟨hyx, le_rfl⟩, rfl, ⟨hyx.trans hxz.le, le_rfl⟩, rfl, rfl, rfl, .inl ⟨rfl, rfl⟩⟩
  obtain ⟨m, e, w⟩ := stabilize_every (m := ⟨y, [Input.new x 'i', Input.new z 'i'], [0, 0], 0⟩) (P := Both x y z) hB (fun t m h => h.step) (fun t m h => both_tick hy h) (Nat.zero_le _) (fuel := fuel)
    (show y - 0 ≤ fuel by omega)
  exact ⟨m, e, w.rates hxz⟩

/-- 2 and 7 into 5 and into 4, and 5 and 7 into 5. -/
example : (generateOne 5 [2, 7] 5).map Merger.rates = some [2, 3] ∧ (generateOne 4 [2, 7] 4).map Merger.rates = some [2, 2] ∧
    (generateOne 3 [2, 7] 3).map Merger.rates = some [1, 2] ∧ (generateOne 5 [5, 7] 5).map Merger.rates = some [3, 2] := by decide +kernel

/-! ## C84 -/

/-- tests/merger_simulation.py 263-265: the predicate that `run_predicates` checks for a row of `generate_simulations`. -/
def SharesEqually (x y : ℕ) (row : List ℕ) : Prop := y ≤ 2 * x → ∃ r, row = [r, r]

theorem simulations_rows {x limit fuel : ℕ} (hx : x < limit) : ∀ {ys : List ℕ} {m : Merger}, Pair x limit m →
    (∀ y ∈ ys, x < y ∧ y ≤ limit ∧ y ≤ fuel) → ∃ rows, simulations fuel ys m = some rows ∧
    List.Forall₂ (fun y row => SharesEqually x y row ↔ (y ≤ 2 * x → y % 2 = 0)) ys rows
  | [], m, _, _ => ⟨[], rfl, .nil⟩
  | y :: ys, m, h, hys => by
    obtain ⟨h1, h2, h3⟩ := hys y (by simp)
    have hI := h.idle y
    obtain ⟨m', em⟩ := hI.ends (by omega) h2 h3
    have hP : Pair x limit m' := by
      obtain ⟨X, Z, bx, bz, w1, w2, -, -, -, -, w3⟩ := hI.ex
      refine Pair.stabilize ⟨X, Z, bx, bz, w1, w2, ?_⟩ em
      rcases w3 with w3 | w3
      · rw [w3]; exact .inl ⟨rfl, rfl⟩
      · rw [w3]; exact .inr ⟨rfl, rfl⟩
    obtain ⟨rest, er, hr⟩ := simulations_rows hx hP (ys := ys) (fun y hy => hys y (by simp [hy]))
    refine ⟨m'.rates :: rest, by rw [simulations, em]; simp [er], .cons ?_ hr⟩
    unfold SharesEqually
    by_cases q : y ≤ 2 * x
    · obtain ⟨m'', p, hp, e', w, -⟩ := hI.run h1 q h2 h3
      rw [em] at e'
      cases e'
      rw [w.rates hx]
      constructor
      · intro w _
        obtain ⟨r, hr⟩ := w q
        simp only [List.cons.injEq, and_true] at hr
        omega
      · intro w _
        have := w q
        refine ⟨y / 2, ?_⟩
        simp only [List.cons.injEq, and_true]
        omega
    · exact ⟨fun _ w => absurd w q, fun _ w => absurd w q⟩

/-- What holds: `generate_simulations` makes a row for every speed of the output above `x`, up to the limit, and in a row with `x ≥ y/2` the
two inputs have the same rate exactly if `y` is even. -/
theorem C84_predicate_partial {x limit fuel : ℕ} (h0 : 0 < x) (hx : x < limit) (hf : limit ≤ fuel) :
    ∃ rows, generateFor fuel limit x = some rows ∧
      List.Forall₂ (fun y row => SharesEqually x y row ↔ (y ≤ 2 * x → y % 2 = 0)) (List.range' (x + 1) (limit - x)) rows := by
  unfold generateFor
  have hm : min (x + limit) (limit + 1) - (x + 1) = limit - x := by omega
  rw [hm]
  refine simulations_rows hx ⟨Input.new x 'x', Input.new limit 'l', 0, 0, rfl, rfl, .inl ⟨?_, rfl⟩⟩ (fun y hy => ?_)
  · simp [Merger.new, bySpeed, List.insertionSort, Input.new, hx.le]
  · rw [List.mem_range'_1] at hy
    omega

/-- The predicate fails for odd speeds: 2 and 4 into 3. The items cannot be shared equally. -/
theorem C84_predicate_false : generateFor 4 4 2 = some [[1, 2], [2, 2]] ∧ ¬ SharesEqually 2 3 [1, 2] ∧ SharesEqually 2 4 [2, 2] := by
  refine ⟨by decide +kernel, fun h => ?_, fun _ => ⟨2, rfl⟩⟩
  obtain ⟨r, hr⟩ := h (by omega)
  simp only [List.cons.injEq, and_true] at hr
  omega

end Satis.Merging
