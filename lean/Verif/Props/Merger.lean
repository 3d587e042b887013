import Verif.Side.MergerFlow
import Mathlib.Algebra.Order.BigOperators.Group.List

/-! C71, C72: the simulated merger of `tests/merger_simulation.py`. -/

namespace Satis.Merging

/-- Mergers that a program can have: made of new inputs, then any steps, speeds and resets. -/
inductive Made : Merger → Prop
  | new (inputs : List Input) (h : ∀ x ∈ inputs, x.stock = 0 ∧ x.history = []) : Made (Merger.new inputs)
  | setSpeed {m : Merger} (s : ℕ) : Made m → Made (m.setSpeed s)
  | reset {m : Merger} : Made m → Made m.reset
  | tick {m : Merger} : Made m → Made m.tick

theorem bySpeed_perm (l : List Input) : (bySpeed l).Perm l := List.perm_insertionSort _ l

theorem no_history {l : List Input} (h : ∀ x ∈ l, x.history = []) : l.flatMap Input.history = [] := by
  rw [List.flatMap_eq_nil_iff]
  exact h

theorem Made.sane {m : Merger} (h : Made m) : Sane m := by
  induction h with
  | new inputs h =>
    have hm : ∀ x ∈ bySpeed inputs, x.history = [] := fun x hx => (h x ((bySpeed_perm inputs).mem_iff.mp hx)).2
    refine ⟨?_, ?_, ?_, ?_⟩
    · show (List.replicate inputs.length 0).length = (bySpeed inputs).length
      rw [(bySpeed_perm inputs).length_eq, List.length_replicate]
    · intro b hb
      rw [List.eq_of_mem_replicate hb]
      omega
    · intro x hx
      rw [hm x hx]
      exact List.Pairwise.nil
    · show ((bySpeed inputs).flatMap Input.history).Perm _
      rw [no_history hm]
      exact List.Perm.refl _
  | setSpeed s _ ih => exact ⟨ih.len, ih.small, ih.ordered, ih.cover⟩
  | @reset m _ ih =>
    have hm : ∀ x ∈ m.inputs.map Input.reset, x.history = [] := by
      intro x hx
      obtain ⟨y, _, rfl⟩ := List.mem_map.mp hx
      rfl
    refine ⟨?_, ih.small, ?_, ?_⟩
    · show m.buffers.length = (m.inputs.map Input.reset).length
      rw [List.length_map, ih.len]
    · intro x hx
      rw [hm x hx]
      exact List.Pairwise.nil
    · show ((m.inputs.map Input.reset).flatMap Input.history).Perm _
      rw [no_history hm]
      exact List.Perm.refl _
  | tick _ ih => exact ih.tick.1

/-- `simulate` raises exactly if no speed is set; otherwise it makes its steps one after the other, at most one item leaves in each. The loop of
`stabilize_effective_rates` is a sequence of calls of it. -/
theorem C71_simulate (m : Merger) (k : ℕ) : (m.simulate k = none ↔ m.speed = 0) ∧
    (∀ m', m.simulate k = some m' → (Made m → Made m') ∧ m'.speed = m.speed ∧ m.step ≤ m'.step ∧ m'.step ≤ m.step + k) ∧
    ∀ fuel, m.step < m.speed → Merger.stabilize (fuel + 1) m = (m.simulate 1).bind (Merger.stabilize fuel) := by
  refine ⟨?_, fun m' h => ?_, fun fuel h => ?_⟩
  · unfold Merger.simulate
    split <;> simp_all
  · unfold Merger.simulate at h
    split at h
    · simp at h
    simp only [Option.some.injEq] at h
    subst h
    have one : ∀ m : Merger, m.tick.speed = m.speed ∧ m.step ≤ m.tick.step ∧ m.tick.step ≤ m.step + 1 := by
      intro m
      unfold Merger.tick
      simp only
      split
      · exact ⟨rfl, Nat.le_refl _, Nat.le_succ _⟩
      · split
        · exact ⟨rfl, Nat.le_refl _, Nat.le_succ _⟩
        · exact ⟨rfl, Nat.le_succ _, Nat.le_refl _⟩
    induction k with
    | zero => exact ⟨fun h => h, rfl, Nat.le_refl _, Nat.le_refl _⟩
    | succ k ih =>
      rw [Function.iterate_succ_apply']
      obtain ⟨h1, h2, h3, h4⟩ := ih
      obtain ⟨a, b, c⟩ := one (Merger.tick^[k] m)
      exact ⟨fun q => .tick (h1 q), a.trans h2, by omega, by omega⟩
  · have : m.speed ≠ 0 := by omega
    rw [Merger.stabilize, if_pos h, Merger.simulate, if_neg this]
    rfl

/-- Whatever is done with a merger: every input has a buffer of at most three items; the items that left are numbered
`1 … current_step`, and every number is in the history of exactly one input, in order; `generate_sequence` names for
every number the input that has it. -/
theorem C71_histories {m : Merger} (h : Made m) :
    m.buffers.length = m.inputs.length ∧ (∀ b ∈ m.buffers, b ≤ 3) ∧
    (∀ x ∈ m.inputs, x.history.Pairwise (· < ·)) ∧
    (m.inputs.flatMap Input.history).Perm (List.range' 1 m.step) ∧
    m.sequence.length = m.step ∧
    ∀ s, s < m.step → ∃ x ∈ m.inputs, s + 1 ∈ x.history ∧ m.sequence[s]? = some x.symbol :=
  ⟨h.sane.len, h.sane.small, h.sane.ordered, h.sane.cover, h.sane.sequence.1, h.sane.sequence.2⟩

/-- With at least one input and positive speeds `stabilize_effective_rates` ends, and the rates add up to the speed of
the output. -/
theorem C71_rates {m : Merger} (h : Made m) (hne : m.inputs ≠ []) (hpos : ∀ x ∈ m.inputs, 0 < x.speed)
    (hs : 0 < m.speed) (hle : m.step ≤ m.speed) :
    ∃ m' k, (∀ fuel, k ≤ fuel → m.stabilize fuel = some m') ∧ m'.rates.sum = m.speed := by
  have live : Live m := by
    refine ⟨h.sane, hne, ?_, hs⟩
    intro v hv
    obtain ⟨x, hx, rfl⟩ := List.mem_map.mp hv
    exact hpos x hx
  obtain ⟨j, k, h1, h2⟩ := live.stabilize hle
  exact ⟨_, k, h1, by rw [(live.iterate j).sane.rates, h2]⟩

/-- Three inputs of 1, 2 and 4 into an output of 6. -/
example : (generateOne 20 [1, 2, 4] 6).map (fun m => (m.rates, m.step, m.buffers)) = some ([1, 2, 3], 6, [0, 1, 0]) := by
  decide +kernel

/-- The statement of C72 for a merger: if nothing has left yet and nothing is in stock, then after any number `t` of
steps no input has handed on more than it received in them. -/
def HandsOnReceived (m : Merger) : Prop := m.step = 0 → 0 < m.speed → (∀ x ∈ m.inputs, x.stock = 0) → ∀ t : ℕ,
  ∀ x ∈ (Merger.tick^[t] m).inputs, (x.history.length : ℚ) ≤ t * (x.speed / m.speed : ℚ)

/-- The example of `main`, 120, 270 and 480 into 780: after 52 steps the input of 120 has handed on 14 items of the
eight it can have received.  When an input goes to the end of the list its buffer is exchanged with the last one, the
others do not move along. -/
theorem C72_three_inputs_false :
    (Merger.tick^[52] ((Merger.new [Input.new 120 'g', Input.new 270 'r', Input.new 480 'b']).setSpeed 780)).inputs.map
      (fun x => (x.speed, x.history.length)) = [(270, 17), (120, 14), (480, 20)] ∧
    ¬ ∀ m : Merger, Made m → HandsOnReceived m := by
  refine ⟨by decide +kernel, fun h => ?_⟩
  have := h _ (.setSpeed 4 (.new [Input.new 1 'a', Input.new 2 'b', Input.new 4 'c'] (by decide))) rfl (by decide)
    (by decide +kernel) 7
  revert this
  decide +kernel

/-- `reset` leaves the buffers and the order: the rows of `generate_simulations` for 2 and 1200 differ from what a new
merger gives, and the input of 2 hands on three items in five steps into an output of 5. -/
theorem C72_reset_false :
    simulations 10 [3, 4, 5] (Merger.new [Input.new 2 'x', Input.new 1200 'l']) = some [[1, 2], [2, 2], [3, 2]] ∧
    (generateOne 10 [2, 1200] 5).map Merger.rates = some [2, 3] ∧
    ¬ ∀ m : Merger, Made m → m.inputs.length ≤ 2 → HandsOnReceived m := by
  refine ⟨by decide +kernel, by decide +kernel, fun h => ?_⟩
  have made : ∀ {m : Merger}, Made m → ∀ j, Made (Merger.tick^[j] m) := by
    intro m hm j
    induction j generalizing m with
    | zero => exact hm
    | succ j ih => exact ih hm.tick
  have := h _ (.setSpeed 5 (.reset (made (.setSpeed 4 (.reset (made (.setSpeed 3
    (.new [Input.new 2 'x', Input.new 1200 'l'] (by decide))) 3))) 4))) (by decide +kernel) rfl (by decide)
    (by decide +kernel) 5
  revert this
  decide +kernel

/-- What holds: a new merger with at most two inputs hands on only what was received; with any number of inputs the
items that left are no more than all inputs together received, and no more than one per step. -/
theorem C72_hands_on_partial (inputs : List Input) (hnew : ∀ x ∈ inputs, x.stock = 0 ∧ x.history = []) (S t : ℕ) :
    (inputs.length ≤ 2 → ∀ x ∈ (Merger.tick^[t] ((Merger.new inputs).setSpeed S)).inputs,
      (x.history.length : ℚ) ≤ t * (x.speed / S : ℚ)) ∧
    ((Merger.tick^[t] ((Merger.new inputs).setSpeed S)).step : ℚ)
      ≤ t * (inputs.map (fun x => (x.speed / S : ℚ))).sum ∧
    (Merger.tick^[t] ((Merger.new inputs).setSpeed S)).step ≤ t := by
  have made : Made ((Merger.new inputs).setSpeed S) := .setSpeed S (.new inputs hnew)
  have hst : ∀ x ∈ (Merger.new inputs).inputs, x.stock = 0 ∧ x.history = [] := fun x hx =>
    hnew x ((bySpeed_perm inputs).mem_iff.mp hx)
  refine ⟨?_, ?_, ?_⟩
  · intro hlen x hx
    have key : ∀ t, (Merger.tick^[t] ((Merger.new inputs).setSpeed S)).inputs.length ≤ 2 ∧
        (Merger.tick^[t] ((Merger.new inputs).setSpeed S)).buffers.length
          = (Merger.tick^[t] ((Merger.new inputs).setSpeed S)).inputs.length ∧
        ∀ p ∈ (Merger.tick^[t] ((Merger.new inputs).setSpeed S)).inputs.zip
          (Merger.tick^[t] ((Merger.new inputs).setSpeed S)).buffers,
          Within (Merger.tick^[t] ((Merger.new inputs).setSpeed S)).speed t p := by
      intro t
      induction t with
      | zero =>
        refine ⟨?_, made.sane.len, ?_⟩
        · show (bySpeed inputs).length ≤ 2
          rw [(bySpeed_perm inputs).length_eq]
          exact hlen
        · intro p hp
          have h1 := hst p.1 (List.of_mem_zip hp).1
          have h2 : p.2 = 0 := List.eq_of_mem_replicate (List.of_mem_zip hp).2
          unfold Within held
          rw [h1.1, h1.2, h2]
          simp
      | succ t ih =>
        rw [Function.iterate_succ_apply']
        exact two_tick ih.1 ih.2.1 ih.2.2
    obtain ⟨_, hb, hw⟩ := key t
    obtain ⟨k, hk, rfl⟩ := List.mem_iff_getElem.mp hx
    have := hw ((Merger.tick^[t] ((Merger.new inputs).setSpeed S)).inputs[k],
      (Merger.tick^[t] ((Merger.new inputs).setSpeed S)).buffers[k]'(by omega)) (by
        rw [List.mem_iff_getElem]
        exact ⟨k, by rw [List.length_zip]; omega, by rw [List.getElem_zip]⟩)
    obtain ⟨h1, h2⟩ := this
    rw [iterate_speed, share_eq] at h2
    unfold held at h2
    dsimp only at h1 h2
    have : (0 : ℚ) ≤ ((Merger.tick^[t] ((Merger.new inputs).setSpeed S)).buffers[k]'(by omega) : ℕ) := Nat.cast_nonneg _
    have e : ((Merger.new inputs).setSpeed S).speed = S := rfl
    rw [e] at h2
    linarith
  · have key : ∀ t, (∀ x ∈ (Merger.tick^[t] ((Merger.new inputs).setSpeed S)).inputs, 0 ≤ x.stock) ∧
        Sane (Merger.tick^[t] ((Merger.new inputs).setSpeed S)) ∧
        ((Merger.tick^[t] ((Merger.new inputs).setSpeed S)).inputs.map
          (share (Merger.tick^[t] ((Merger.new inputs).setSpeed S)).speed)).sum
            = (inputs.map (fun x => (x.speed / S : ℚ))).sum ∧
        total (Merger.tick^[t] ((Merger.new inputs).setSpeed S)) ≤ t * (inputs.map (fun x => (x.speed / S : ℚ))).sum := by
      intro t
      induction t with
      | zero =>
        refine ⟨fun x hx => by rw [(hst x hx).1], made.sane, ?_, ?_⟩
        · show ((bySpeed inputs).map (share S)).sum = _
          rw [((bySpeed_perm inputs).map (share S)).sum_eq]
          congr 1
          exact List.map_congr_left (fun x _ => share_eq S x)
        · have h1 : ((Merger.new inputs).inputs.map Input.stock).sum = 0 := by
            rw [List.map_congr_left (g := fun _ => (0 : ℚ)) (fun x hx => (hst x hx).1)]
            simp
          have h2 : ((List.replicate inputs.length 0).map (fun b : ℕ => (b : ℚ))).sum = 0 := by simp
          show ((0 : ℕ) : ℚ) + (((List.replicate inputs.length 0).map (fun b : ℕ => (b : ℚ))).sum
            + ((Merger.new inputs).inputs.map Input.stock).sum) ≤ _
          rw [h1, h2]
          simp
      | succ t ih =>
        obtain ⟨h1, h2, h3, h4⟩ := ih
        rw [Function.iterate_succ_apply']
        have h5 := total_tick h2.len
        refine ⟨stock_tick h2.len h1, h2.tick.1, by rw [shares_tick h2.len]; exact h3, ?_⟩
        rw [h3] at h5
        push_cast
        linarith
    obtain ⟨h1, h2, _, h4⟩ := key t
    unfold total at h4
    have b0 : (0 : ℚ) ≤ ((Merger.tick^[t] ((Merger.new inputs).setSpeed S)).buffers.map (fun b : ℕ => (b : ℚ))).sum := by
      apply List.sum_nonneg
      intro x hx
      obtain ⟨b, _, rfl⟩ := List.mem_map.mp hx
      exact Nat.cast_nonneg _
    have s0 : (0 : ℚ) ≤ ((Merger.tick^[t] ((Merger.new inputs).setSpeed S)).inputs.map Input.stock).sum := by
      apply List.sum_nonneg
      intro x hx
      obtain ⟨b, hb, rfl⟩ := List.mem_map.mp hx
      exact h1 b hb
    linarith
  · have key : ∀ t, Sane (Merger.tick^[t] ((Merger.new inputs).setSpeed S)) ∧
        (Merger.tick^[t] ((Merger.new inputs).setSpeed S)).step ≤ t := by
      intro t
      induction t with
      | zero => exact ⟨made.sane, Nat.le_refl _⟩
      | succ t ih =>
        rw [Function.iterate_succ_apply']
        have := ih.1.tick
        refine ⟨this.1, ?_⟩
        rcases this.2 with h | h <;> omega
    exact (key t).2

/-- 2 and 5 into 5: after five steps the input of 2 has handed on two items. -/
example : (Merger.tick^[5] ((Merger.new [Input.new 2 'a', Input.new 5 'b']).setSpeed 5)).inputs.map
    (fun x => (x.speed, x.history)) = [(5, [1, 2, 4]), (2, [3, 5])] := by decide +kernel

end Satis.Merging
