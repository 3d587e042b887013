import Verif.Side.MergerRun
import Mathlib.Tactic.FieldSimp
import Mathlib.Tactic.Linarith
import Mathlib.Tactic.Positivity

/-! A merger with two inputs, one of them at least as fast as the output. -/

namespace Satis.Merging

/-- The input with one more item handed on. -/
def logged (X : Input) (k : ℕ) : Input := { X with history := X.history ++ [k] }

theorem logged_history (X : Input) (k : ℕ) : (logged X k).history.length = X.history.length + 1 := by simp [logged]

/-- The first of two inputs is served if it has something. -/
theorem tick_one (y k a b : ℕ) (P R : Input) (h : (arrive y P a).2 ≠ 0) :
    Merger.tick ⟨y, [P, R], [a, b], k⟩ = ⟨y, [(arrive y R b).1, logged (arrive y P a).1 (k + 1)],
      [(arrive y R b).2, (arrive y P a).2 - 1], k + 1⟩ := by
  simp [Merger.tick, firstReady, List.findIdx?_cons, h, toEnd, swapLast, logged]

/-- The second is served if the first has nothing. -/
theorem tick_other (y k a b : ℕ) (P R : Input) (h : (arrive y P a).2 = 0) (h' : (arrive y R b).2 ≠ 0) :
    Merger.tick ⟨y, [P, R], [a, b], k⟩ = ⟨y, [(arrive y P a).1, logged (arrive y R b).1 (k + 1)],
      [0, (arrive y R b).2 - 1], k + 1⟩ := by
  simp [Merger.tick, firstReady, List.findIdx?_cons, h, h', toEnd, swapLast, logged]

/-- An input at least as fast as the output. -/
structure Full (y : ℕ) (Z : Input) : Prop where
  speed : y ≤ Z.speed
  stock : 0 ≤ Z.stock

theorem Full.arrive {y : ℕ} {Z : Input} (h : Full y Z) (hy : 0 < y) (b : ℕ) : (arrive y Z b).2 ≠ 0 ∧ Full y (arrive y Z b).1 := by
  have hy' : (0 : ℚ) < y := by exact_mod_cast hy
  have hs : 1 ≤ share y Z := by
    rw [share_eq, le_div_iff₀ hy', one_mul]
    exact_mod_cast h.speed
  have h0 := h.stock
  have hge : ¬ Z.stock + share y Z < 1 := by linarith
  rw [arrive_ge hge]
  refine ⟨?_, h.speed, ?_⟩
  · dsimp only
    split <;> omega
  · dsimp only
    linarith

/-- An input of the speed `x`, slower than the output, after `t` steps. -/
structure Slow (x y t : ℕ) (X : Input) : Prop where
  speed : X.speed = x
  stock : X.stock = ((t * x % y : ℕ) : ℚ) / y

/-- Something arrives in the step after `t`. -/
def Arrival (x y t : ℕ) : Prop := y ≤ t * x % y + x

theorem arrival_mod {x y t : ℕ} (hxy : x < y) : (Arrival x y t → (t + 1) * x % y = t * x % y + x - y) ∧
    (¬ Arrival x y t → (t + 1) * x % y = t * x % y + x) := by
  have hm := Nat.mod_lt (t * x) (by omega : 0 < y)
  have hadd : (t + 1) * x % y = (t * x % y + x) % y := by
    rw [Nat.succ_mul, Nat.mod_add_mod]
  unfold Arrival
  rw [hadd]
  generalize t * x % y = r at *
  refine ⟨fun q => ?_, fun q => ?_⟩
  · rw [Nat.mod_eq_sub_mod q, Nat.mod_eq_of_lt (by omega)]
  · rw [Nat.mod_eq_of_lt (by omega)]

theorem Slow.arrive {x y t : ℕ} {X : Input} (h : Slow x y t X) (hxy : x < y) (b : ℕ) :
    Slow x y (t + 1) (arrive y X b).1 ∧ (Arrival x y t → (arrive y X b).2 = if b < 3 then b + 1 else b) ∧
      (¬ Arrival x y t → (arrive y X b).2 = b) := by
  have hy : 0 < y := by omega
  have hy' : (0 : ℚ) < y := by exact_mod_cast hy
  have hs : X.stock + share y X = ((t * x % y + x : ℕ) : ℚ) / y := by
    rw [h.stock, share_eq, h.speed]
    push_cast
    ring
  obtain ⟨m1, m2⟩ := arrival_mod (t := t) hxy
  by_cases q : Arrival x y t
  · have hge : ¬ X.stock + share y X < 1 := by
      rw [hs, not_lt, le_div_iff₀ hy', one_mul]
      exact_mod_cast q
    rw [arrive_ge hge]
    refine ⟨⟨h.speed, ?_⟩, fun _ => rfl, fun w => absurd q w⟩
    dsimp only
    rw [hs, m1 q, Nat.cast_sub q]
    field_simp
  · have hlt : X.stock + share y X < 1 := by
      rw [hs, div_lt_iff₀ hy', one_mul]
      exact_mod_cast not_le.1 q
    rw [arrive_lt hlt]
    refine ⟨⟨h.speed, ?_⟩, fun w => absurd w q, fun _ => rfl⟩
    dsimp only
    rw [hs, m2 q]

/-- What an input of at most half the speed has received by a step, it has handed on. -/
structure Light (x y z t : ℕ) (m : Merger) : Prop where
  ex : ∃ X Z bx bz, (m = ⟨y, [X, Z], [bx, bz], t⟩ ∨ m = ⟨y, [Z, X], [bz, bx], t⟩ ∧ ¬ Arrival x y t) ∧ Slow x y t X ∧ Full y Z ∧ Z.speed = z ∧
    bx = 0 ∧ X.history.length = t * x / y ∧ Z.history.length = t - t * x / y

theorem arrival_div {x y t : ℕ} (hxy : x < y) : (Arrival x y t → (t + 1) * x / y = t * x / y + 1) ∧ (¬ Arrival x y t → (t + 1) * x / y = t * x / y) := by
  have hy : 0 < y := by omega
  have e := Nat.div_add_mod (t * x) y
  have e' := Nat.div_add_mod ((t + 1) * x) y
  have hs : (t + 1) * x = t * x + x := Nat.succ_mul t x
  obtain ⟨m1, m2⟩ := arrival_mod (t := t) hxy
  refine ⟨fun q => ?_, fun q => ?_⟩
  · rw [m1 q] at e'
    unfold Arrival at q
    apply Nat.eq_of_mul_eq_mul_left hy
    rw [Nat.mul_add, Nat.mul_one]
    omega
  · rw [m2 q] at e'
    apply Nat.eq_of_mul_eq_mul_left hy
    omega

theorem div_le_self' {x y t : ℕ} (hxy : x < y) : t * x / y ≤ t :=
  Nat.div_le_of_le_mul (by nlinarith)

theorem light_tick {x y z t : ℕ} (hxy : x < y) (h2 : 2 * x ≤ y) {m : Merger} (h : Light x y z t m) : Light x y z (t + 1) m.tick := by
  have hy : 0 < y := by omega
  obtain ⟨X, Z, bx, bz, hm, sX, fZ, hz, rfl, hX, hZ⟩ := h.ex
  obtain ⟨s1, s2, s3⟩ := sX.arrive hxy 0
  obtain ⟨f1, f2⟩ := fZ.arrive hy bz
  obtain ⟨d1, d2⟩ := arrival_div (t := t) hxy
  have hle := div_le_self' (t := t) hxy
  have hz' : (arrive y Z bz).1.speed = z := by rw [arrive_speed, hz]
  rcases hm with rfl | ⟨rfl, hno⟩
  · by_cases q : Arrival x y t
    · have e := s2 q
      simp only [Nat.ofNat_pos, if_true, Nat.zero_add] at e
      rw [tick_one _ _ _ _ _ _ (by rw [e]; omega)]
      refine ⟨logged (arrive y X 0).1 (t + 1), (arrive y Z bz).1, 0, _, .inr ⟨by rw [e], ?_⟩, ⟨s1.speed, s1.stock⟩, f2, hz', rfl, ?_, ?_⟩
      · have e := (arrival_mod hxy).1 q
        have := Nat.mod_lt (t * x) hy
        unfold Arrival at q ⊢
        omega
      · rw [logged_history, arrive_history, hX, d1 q]
      · rw [arrive_history, hZ, d1 q]
        omega
    · have e := s3 q
      rw [tick_other _ _ _ _ _ _ e f1]
      refine ⟨(arrive y X 0).1, logged (arrive y Z bz).1 (t + 1), 0, _, .inl rfl, s1, ⟨f2.speed, f2.stock⟩, hz', rfl, ?_, ?_⟩
      · rw [arrive_history, hX, d2 q]
      · rw [logged_history, arrive_history, hZ, d2 q]
        omega
  · have e := s3 hno
    rw [tick_one _ _ _ _ _ _ f1]
    refine ⟨(arrive y X 0).1, logged (arrive y Z bz).1 (t + 1), 0, _, .inl (by rw [e]), s1, ⟨f2.speed, f2.stock⟩, hz', rfl, ?_, ?_⟩
    · rw [arrive_history, hX, d2 hno]
    · rw [logged_history, arrive_history, hZ, d2 hno]
      omega

/-- An input of at least half the speed is served in every other step; `p` tells in which. -/
structure Heavy (p x y z t : ℕ) (m : Merger) : Prop where
  ex : ∃ X Z bx bz, Slow x y t X ∧ Full y Z ∧ Z.speed = z ∧ X.history.length = (t + p) / 2 ∧ Z.history.length = t - (t + p) / 2 ∧
    (m = ⟨y, [Z, X], [bz, bx], t⟩ ∧ t % 2 = p ∨ m = ⟨y, [X, Z], [bx, bz], t⟩ ∧ t % 2 ≠ p ∧ (bx = 0 → Arrival x y t))

theorem arrival_pair {x y t : ℕ} (hxy : x < y) (h2 : y ≤ 2 * x) (q : ¬ Arrival x y t) : Arrival x y (t + 1) := by
  have e := (arrival_mod hxy).2 q
  unfold Arrival
  omega

theorem heavy_tick {p x y z t : ℕ} (hp : p < 2) (hxy : x < y) (h2 : y ≤ 2 * x) {m : Merger} (h : Heavy p x y z t m) :
    Heavy p x y z (t + 1) m.tick := by
  have hy : 0 < y := by omega
  obtain ⟨X, Z, bx, bz, sX, fZ, hz, hX, hZ, hm⟩ := h.ex
  obtain ⟨s1, s2, s3⟩ := sX.arrive hxy bx
  obtain ⟨f1, f2⟩ := fZ.arrive hy bz
  have hz' : (arrive y Z bz).1.speed = z := by rw [arrive_speed, hz]
  rcases hm with ⟨rfl, ht⟩ | ⟨rfl, ht, hbx⟩
  · rw [tick_one _ _ _ _ _ _ f1]
    refine ⟨(arrive y X bx).1, logged (arrive y Z bz).1 (t + 1), _, _, s1, ⟨f2.speed, f2.stock⟩, hz', ?_, ?_,
      .inr ⟨rfl, by omega, fun w => arrival_pair hxy h2 fun q => ?_⟩⟩
    · rw [arrive_history, hX]; omega
    · rw [logged_history, arrive_history, hZ]
      omega
    · rw [s2 q] at w
      split at w <;> omega
  · have hpos : (arrive y X bx).2 ≠ 0 := by
      by_cases q : Arrival x y t
      · rw [s2 q]
        split <;> omega
      · rw [s3 q]
        exact fun w => q (hbx w)
    rw [tick_one _ _ _ _ _ _ hpos]
    refine ⟨logged (arrive y X bx).1 (t + 1), (arrive y Z bz).1, _, _, ⟨s1.speed, s1.stock⟩, f2, hz', ?_, ?_, .inl ⟨rfl, by omega⟩⟩
    · rw [logged_history, arrive_history, hX]
      omega
    · rw [arrive_history, hZ]
      omega

/-- Nothing has left yet: the two inputs in some order, with anything in their buffers. -/
structure Idle (x y z : ℕ) (m : Merger) : Prop where
  ex : ∃ X Z bx bz, X.speed = x ∧ Z.speed = z ∧ X.stock = 0 ∧ Z.stock = 0 ∧ X.history = [] ∧ Z.history = [] ∧
    (m = ⟨y, [X, Z], [bx, bz], 0⟩ ∨ m = ⟨y, [Z, X], [bz, bx], 0⟩)

/-- Both inputs are there, with a buffer each. -/
structure Pair (x z : ℕ) (m : Merger) : Prop where
  ex : ∃ X Z bx bz, X.speed = x ∧ Z.speed = z ∧ (m.inputs = [X, Z] ∧ m.buffers = [bx, bz] ∨ m.inputs = [Z, X] ∧ m.buffers = [bz, bx])

theorem Pair.idle {x z : ℕ} {m : Merger} (h : Pair x z m) (y : ℕ) : Idle x y z (m.reset.setSpeed y) := by
  obtain ⟨X, Z, bx, bz, hx, hz, hm⟩ := h.ex
  refine ⟨X.reset, Z.reset, bx, bz, hx, hz, rfl, rfl, rfl, rfl, ?_⟩
  rcases hm with ⟨h1, h2⟩ | ⟨h1, h2⟩
  · left; simp [Merger.reset, Merger.setSpeed, h1, h2]
  · right; simp [Merger.reset, Merger.setSpeed, h1, h2]

theorem Heavy.pair {p x y z t : ℕ} {m : Merger} (h : Heavy p x y z t m) : Pair x z m := by
  obtain ⟨X, Z, bx, bz, sX, fZ, hz, -, -, hm⟩ := h.ex
  refine ⟨X, Z, bx, bz, sX.speed, hz, ?_⟩
  rcases hm with ⟨rfl, -⟩ | ⟨rfl, -⟩
  · exact .inr ⟨rfl, rfl⟩
  · exact .inl ⟨rfl, rfl⟩

theorem Heavy.step {p x y z t : ℕ} {m : Merger} (h : Heavy p x y z t m) : m.step = t := by
  obtain ⟨X, Z, bx, bz, -, -, -, -, -, hm⟩ := h.ex
  rcases hm with ⟨rfl, -⟩ | ⟨rfl, -⟩ <;> rfl

/-- The turns begin at once, or after a step in which the faster input is served. -/
theorem Idle.heavy {x y z : ℕ} (hxy : x < y) (h2 : y ≤ 2 * x) (hz : y ≤ z) {m : Merger} (h : Idle x y z m) :
    (∃ p, p < 2 ∧ Heavy p x y z 0 m) ∨ m.step = 0 ∧ Heavy 0 x y z 1 m.tick := by
  have hy : 0 < y := by omega
  obtain ⟨X, Z, bx, bz, eX, eZ, sX, sZ, hX, hZ, hm⟩ := h.ex
  have slow : Slow x y 0 X := ⟨eX, by rw [sX]; simp⟩
  have full : Full y Z := ⟨by omega, by rw [sZ]⟩
  rcases hm with rfl | rfl
  · by_cases q : bx = 0
    · subst q
      refine .inr ⟨rfl, ?_⟩
      have q : ¬ Arrival x y 0 := by unfold Arrival; simp; omega
      obtain ⟨s1, s2, s3⟩ := slow.arrive hxy 0
      obtain ⟨f1, f2⟩ := full.arrive hy bz
      rw [tick_other _ _ _ _ _ _ (s3 q) f1]
      refine ⟨(arrive y X 0).1, logged (arrive y Z bz).1 (0 + 1), 0, _, s1, ⟨f2.speed, f2.stock⟩, ?_, ?_, ?_,
        .inr ⟨rfl, by omega, fun _ => arrival_pair hxy h2 q⟩⟩
      · show (arrive y Z bz).1.speed = z
        rw [arrive_speed, eZ]
      · rw [arrive_history, hX]; rfl
      · rw [logged_history, arrive_history, hZ]; rfl
    · exact .inl ⟨1, by omega, ⟨X, Z, bx, bz, slow, full, eZ, by rw [hX]; rfl, by rw [hZ]; rfl, .inr ⟨rfl, by omega, fun w => absurd w q⟩⟩⟩
  · exact .inl ⟨0, by omega, ⟨X, Z, bx, bz, slow, full, eZ, by rw [hX]; rfl, by rw [hZ]; rfl, .inl ⟨rfl, rfl⟩⟩⟩

/-- If something leaves in every step, the simulation takes as many steps as the output is fast. -/
theorem stabilize_every {m : Merger} {P : ℕ → Merger → Prop} (h0 : P m.step m) (hs : ∀ t m, P t m → m.step = t) (ht : ∀ t m, P t m → P (t + 1) m.tick)
    {fuel : ℕ} (hle : m.step ≤ m.speed) (hf : m.speed - m.step ≤ fuel) : ∃ m', m.stabilize fuel = some m' ∧ P m.speed m' := by
  have it : ∀ j, P (m.step + j) (Merger.tick^[j] m) := fun j => by
    induction j with
    | zero => exact h0
    | succ j ih => rw [Function.iterate_succ_apply']; exact ht _ _ ih
  obtain ⟨f, rfl⟩ := Nat.exists_eq_add_of_le' hf
  rw [stabilize_skip _ f fun i hi => by rw [hs _ _ (it i)]; omega]
  have hd := it (m.speed - m.step)
  rw [show m.step + (m.speed - m.step) = m.speed by omega] at hd
  have hno : ¬ (Merger.tick^[m.speed - m.step] m).step < (Merger.tick^[m.speed - m.step] m).speed := by
    rw [hs _ _ hd, iterate_speed]
    omega
  exact ⟨_, by cases f <;> exact if_neg hno, hd⟩

theorem rates_two {X Z : Input} (h : X.speed < Z.speed) (y bx bz k : ℕ) :
    Merger.rates ⟨y, [X, Z], [bx, bz], k⟩ = [X.history.length, Z.history.length] ∧
    Merger.rates ⟨y, [Z, X], [bz, bx], k⟩ = [X.history.length, Z.history.length] := by
  constructor
  · simp [Merger.rates, bySpeed, List.insertionSort, h.le]
  · simp [Merger.rates, bySpeed, List.insertionSort, List.orderedInsert, not_le.2 h]

theorem Heavy.rates {p x y z t : ℕ} {m : Merger} (h : Heavy p x y z t m) (hxz : x < z) : m.rates = [(t + p) / 2, t - (t + p) / 2] := by
  obtain ⟨X, Z, bx, bz, sX, fZ, hz, hX, hZ, hm⟩ := h.ex
  have hlt : X.speed < Z.speed := by rw [sX.speed, hz]; exact hxz
  rw [← hZ, ← hX]
  rcases hm with ⟨rfl, -⟩ | ⟨rfl, -⟩
  · exact (rates_two hlt _ _ _ _).2
  · exact (rates_two hlt _ _ _ _).1

theorem Light.rates {x y z t : ℕ} {m : Merger} (h : Light x y z t m) (hxz : x < z) : m.rates = [t * x / y, t - t * x / y] := by
  obtain ⟨X, Z, bx, bz, hm, sX, fZ, hz, -, hX, hZ⟩ := h.ex
  have hlt : X.speed < Z.speed := by rw [sX.speed, hz]; exact hxz
  rw [← hZ, ← hX]
  rcases hm with rfl | ⟨rfl, -⟩
  · exact (rates_two hlt _ _ _ _).1
  · exact (rates_two hlt _ _ _ _).2

theorem Light.step {x y z t : ℕ} {m : Merger} (h : Light x y z t m) : m.step = t := by
  obtain ⟨X, Z, bx, bz, hm, -⟩ := h.ex
  rcases hm with rfl | ⟨rfl, -⟩ <;> rfl

/-- The rates of two inputs, the slower of at least half the speed of the output. -/
theorem Idle.run {x y z : ℕ} (hxy : x < y) (h2 : y ≤ 2 * x) (hz : y ≤ z) {m : Merger} (h : Idle x y z m) {fuel : ℕ} (hf : y ≤ fuel) :
    ∃ m' p, p < 2 ∧ m.stabilize fuel = some m' ∧ Heavy p x y z y m' ∧ (m.inputs.map Input.speed = [x, z] → m.buffers = [0, 0] → p = 0) := by
  have hsp : m.speed = y := by
    obtain ⟨X, Z, bx, bz, -, -, -, -, -, -, hm⟩ := h.ex
    rcases hm with rfl | rfl <;> rfl
  have hst : m.step = 0 := by
    obtain ⟨X, Z, bx, bz, -, -, -, -, -, -, hm⟩ := h.ex
    rcases hm with rfl | rfl <;> rfl
  rcases h.heavy hxy h2 hz with ⟨p, hp, w⟩ | ⟨-, w⟩
  · obtain ⟨m', e, w'⟩ := stabilize_every (P := Heavy p x y z) (by rw [hst]; exact w) (fun t m h => h.step) (fun t m h => heavy_tick hp hxy h2 h)
      (by omega) (by omega : m.speed - m.step ≤ fuel)
    rw [hsp] at w'
    refine ⟨m', p, hp, e, w', fun q1 q2 => ?_⟩
    obtain ⟨X, Z, bx, bz, sX, -, hz', -, -, hm⟩ := w.ex
    rcases hm with ⟨rfl, -⟩ | ⟨rfl, -, hbx⟩
    · simp only [List.map_cons, List.cons.injEq] at q1
      omega
    · simp only [List.cons.injEq] at q2
      have := hbx q2.1
      unfold Arrival at this
      simp at this
      omega
  · obtain ⟨f, rfl⟩ : ∃ f, fuel = f + 1 := ⟨fuel - 1, by omega⟩
    obtain ⟨m', e, w'⟩ := stabilize_every (P := Heavy 0 x y z) (m := m.tick) (by rw [w.step]; exact w) (fun t m h => h.step)
      (fun t m h => heavy_tick (by omega) hxy h2 h) (by rw [w.step, tick_speed]; omega) (by rw [w.step, tick_speed]; omega : m.tick.speed - m.tick.step ≤ f)
    rw [tick_speed, hsp] at w'
    refine ⟨m', 0, by omega, ?_, w', fun _ _ => rfl⟩
    rw [Merger.stabilize, if_pos (by omega), e]

theorem Pair.tick {x z : ℕ} {m : Merger} (h : Pair x z m) : Pair x z m.tick := by
  obtain ⟨X, Z, bx, bz, hx, hz, hm⟩ := h.ex
  have key : ∀ (y k a b : ℕ) (P R : Input), (∃ P' R' a' b', P'.speed = P.speed ∧ R'.speed = R.speed ∧
      ((Merger.tick ⟨y, [P, R], [a, b], k⟩).inputs = [P', R'] ∧ (Merger.tick ⟨y, [P, R], [a, b], k⟩).buffers = [a', b'] ∨
        (Merger.tick ⟨y, [P, R], [a, b], k⟩).inputs = [R', P'] ∧ (Merger.tick ⟨y, [P, R], [a, b], k⟩).buffers = [b', a'])) := by
    intro y k a b P R
    by_cases q : (arrive y P a).2 = 0
    · by_cases q' : (arrive y R b).2 = 0
      · refine ⟨(arrive y P a).1, (arrive y R b).1, 0, 0, arrive_speed y P a, arrive_speed y R b, .inl ?_⟩
        simp [Merger.tick, firstReady, List.findIdx?_cons, q, q']
      · rw [tick_other _ _ _ _ _ _ q q']
        exact ⟨(arrive y P a).1, logged (arrive y R b).1 (k + 1), _, _, arrive_speed y P a, arrive_speed y R b, .inl ⟨rfl, rfl⟩⟩
    · rw [tick_one _ _ _ _ _ _ q]
      exact ⟨logged (arrive y P a).1 (k + 1), (arrive y R b).1, _, _, arrive_speed y P a, arrive_speed y R b, .inr ⟨rfl, rfl⟩⟩
  obtain ⟨y, is, bs, k⟩ := m
  rcases hm with ⟨h1, h2⟩ | ⟨h1, h2⟩
  · dsimp only at h1 h2
    subst h1 h2
    obtain ⟨P', R', a', b', e1, e2, w⟩ := key y k bx bz X Z
    exact ⟨P', R', a', b', e1.trans hx, e2.trans hz, w⟩
  · dsimp only at h1 h2
    subst h1 h2
    obtain ⟨P', R', a', b', e1, e2, w⟩ := key y k bz bx Z X
    exact ⟨R', P', b', a', e2.trans hx, e1.trans hz, w.symm⟩

theorem Pair.stabilize {x z : ℕ} : ∀ {fuel : ℕ} {m m' : Merger}, Pair x z m → m.stabilize fuel = some m' → Pair x z m'
  | 0, m, m', h, e => by
    rw [Merger.stabilize] at e
    split at e
    · cases e
    · cases e; exact h
  | fuel + 1, m, m', h, e => by
    rw [Merger.stabilize] at e
    split at e
    · exact Pair.stabilize h.tick e
    · cases e; exact h

/-- Two inputs at least as fast as the output take turns. -/
structure Both (x y z t : ℕ) (m : Merger) : Prop where
  ex : ∃ X Z bx bz, Full y X ∧ X.speed = x ∧ Full y Z ∧ Z.speed = z ∧ X.history.length = t - t / 2 ∧ Z.history.length = t / 2 ∧
    (m = ⟨y, [X, Z], [bx, bz], t⟩ ∧ t % 2 = 0 ∨ m = ⟨y, [Z, X], [bz, bx], t⟩ ∧ t % 2 = 1)

theorem both_tick {x y z t : ℕ} (hy : 0 < y) {m : Merger} (h : Both x y z t m) : Both x y z (t + 1) m.tick := by
  obtain ⟨X, Z, bx, bz, fX, hx, fZ, hz, hX, hZ, hm⟩ := h.ex
  obtain ⟨e1, e2⟩ := fX.arrive hy bx
  obtain ⟨f1, f2⟩ := fZ.arrive hy bz
  have hx' : (arrive y X bx).1.speed = x := by rw [arrive_speed, hx]
  have hz' : (arrive y Z bz).1.speed = z := by rw [arrive_speed, hz]
  rcases hm with ⟨rfl, ht⟩ | ⟨rfl, ht⟩
  · rw [tick_one _ _ _ _ _ _ e1]
    refine ⟨logged (arrive y X bx).1 (t + 1), (arrive y Z bz).1, _, _, ⟨e2.speed, e2.stock⟩, hx', f2, hz', ?_, ?_, .inr ⟨rfl, by omega⟩⟩
    · rw [logged_history, arrive_history, hX]; omega
    · rw [arrive_history, hZ]; omega
  · rw [tick_one _ _ _ _ _ _ f1]
    refine ⟨(arrive y X bx).1, logged (arrive y Z bz).1 (t + 1), _, _, e2, hx', ⟨f2.speed, f2.stock⟩, hz', ?_, ?_, .inl ⟨rfl, by omega⟩⟩
    · rw [arrive_history, hX]; omega
    · rw [logged_history, arrive_history, hZ]; omega

/-- One of two inputs is at least as fast as the output. -/
structure Busy (y t : ℕ) (m : Merger) : Prop where
  ex : ∃ X Z bx bz, Full y Z ∧ (m = ⟨y, [X, Z], [bx, bz], t⟩ ∨ m = ⟨y, [Z, X], [bz, bx], t⟩)

theorem busy_tick {y t : ℕ} (hy : 0 < y) {m : Merger} (h : Busy y t m) : Busy y (t + 1) m.tick := by
  obtain ⟨X, Z, bx, bz, fZ, hm⟩ := h.ex
  obtain ⟨f1, f2⟩ := fZ.arrive hy bz
  rcases hm with rfl | rfl
  · by_cases q : (arrive y X bx).2 = 0
    · rw [tick_other _ _ _ _ _ _ q f1]
      exact ⟨(arrive y X bx).1, logged (arrive y Z bz).1 (t + 1), _, _, ⟨f2.speed, f2.stock⟩, .inl rfl⟩
    · rw [tick_one _ _ _ _ _ _ q]
      exact ⟨logged (arrive y X bx).1 (t + 1), (arrive y Z bz).1, _, _, f2, .inr rfl⟩
  · rw [tick_one _ _ _ _ _ _ f1]
    exact ⟨(arrive y X bx).1, logged (arrive y Z bz).1 (t + 1), _, _, ⟨f2.speed, f2.stock⟩, .inl rfl⟩

theorem Busy.step {y t : ℕ} {m : Merger} (h : Busy y t m) : m.step = t := by
  obtain ⟨X, Z, bx, bz, -, hm⟩ := h.ex
  rcases hm with rfl | rfl <;> rfl

theorem Idle.ends {x y z : ℕ} (hy : 0 < y) (hz : y ≤ z) {m : Merger} (h : Idle x y z m) {fuel : ℕ} (hf : y ≤ fuel) : ∃ m', m.stabilize fuel = some m' := by
  obtain ⟨X, Z, bx, bz, -, eZ, -, sZ, -, -, hm⟩ := h.ex
  have full : Full y Z := ⟨by omega, by rw [sZ]⟩
  have hB : Busy y m.step m := by
    refine ⟨X, Z, bx, bz, full, ?_⟩
    rcases hm with rfl | rfl
    · exact .inl rfl
    · exact .inr rfl
  have hs : m.speed = y := by rcases hm with rfl | rfl <;> rfl
  obtain ⟨m', e, -⟩ := stabilize_every (P := Busy y) hB (fun t m h => h.step) (fun t m h => busy_tick hy h) (by rcases hm with rfl | rfl <;> exact Nat.zero_le _)
    (by omega : m.speed - m.step ≤ fuel)
  exact ⟨m', e⟩

theorem Both.step {x y z t : ℕ} {m : Merger} (h : Both x y z t m) : m.step = t := by
  obtain ⟨X, Z, bx, bz, -, -, -, -, -, -, hm⟩ := h.ex
  rcases hm with ⟨rfl, -⟩ | ⟨rfl, -⟩ <;> rfl

theorem Both.rates {x y z t : ℕ} {m : Merger} (h : Both x y z t m) (hxz : x < z) : m.rates = [t - t / 2, t / 2] := by
  obtain ⟨X, Z, bx, bz, fX, hx, fZ, hz, hX, hZ, hm⟩ := h.ex
  have hlt : X.speed < Z.speed := by rw [hx, hz]; exact hxz
  rw [← hX, ← hZ]
  rcases hm with ⟨rfl, -⟩ | ⟨rfl, -⟩
  · exact (rates_two hlt _ _ _ _).1
  · exact (rates_two hlt _ _ _ _).2

end Satis.Merging
