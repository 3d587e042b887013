import Verif.Side.RandomMergerFacts
import Mathlib.Algebra.BigOperators.Group.Finset.Basic

/-!
C85: the random simulation of a merger at the top of `tests/merger_simulation.py` never runs past its list of moves, whatever the random
choices are, and every item it delivers came in before.
-/

namespace Satis.RandomMerging

/-- What one simulation must deliver: `nItems` items, each from one of the inputs, none that was not stored before or brought in during the
simulation, and no buffer over its size. `used` are the moves made. -/
structure Delivered (cs : List Conveyor) (nItems : ℕ) (moves : List (ℚ × ℕ)) (before after out : List ℕ) : Prop where
  all : out.length = nItems
  inputs : ∀ i ∈ out, i < before.length
  buffers : after.length = before.length ∧ ∀ i c, cs[i]? = some c → after.getD i 0 ≤ c.bufferSize
  kept : ∃ used left, moves = used ++ left ∧ ∀ i, out.count i + after.getD i 0 ≤ before.getD i 0 + (used.map Prod.snd).count i

/-- One simulation, for any conveyors of which the last is the output, any random choices and any filling of the buffers: it ends with all its
items if one input slower than the output brings enough of them: `n_items` moves of the input take less time than the `4·n_items - 1` moves of
the output listed. -/
theorem C85_one_simulation (ins : List Conveyor) (output : Conveyor) (nItems : ℕ) (pick : ℕ → ℕ) (buffers : List ℕ)
    (hlen : buffers.length = ins.length) (hfull : ∀ i c, ins[i]? = some c → buffers.getD i 0 ≤ c.bufferSize)
    (hout : ∀ c ∈ ins, c.speed ≠ output.speed)
    (b : Conveyor) (hb : b ∈ ins) (hsize : 0 < b.bufferSize) (hpos : 0 < b.speed) (hslow : b.speed < output.speed)
    (hmany : nItems * output.speed < (4 * nItems - 1) * b.speed) :
    ∃ after out, play (ins ++ [output]) output.speed nItems pick (schedule nItems (ins ++ [output])) buffers [] = .ok (after, out) ∧
      Delivered (ins ++ [output]) nItems (schedule nItems (ins ++ [output])) buffers after out := by
  obtain ⟨k, hk, rfl⟩ := List.mem_iff_getElem.1 hb
  have hkb : (ins ++ [output])[k]? = some ins[k] := by rw [List.getElem?_append_left hk, List.getElem?_eq_getElem hk]
  have ho : (ins ++ [output])[ins.length]? = some output := by simp
  have hin : ∀ i c, i ≠ ins.length → (ins ++ [output])[i]? = some c → c.speed ≠ output.speed := by
    intro i c hi hc
    have hl := (List.getElem?_eq_some_iff.1 hc).1
    rw [List.length_append, List.length_singleton] at hl
    rw [List.getElem?_append_left (by omega)] at hc
    exact hout c (List.mem_of_getElem? hc)
  obtain ⟨after, out, e, w⟩ := play_ends (pick := pick) (nItems := nItems) (o := ins.length) hkb hsize hslow.ne
    (fun c hc => by rw [ho] at hc; cases hc; rfl) hin (schedule nItems (ins ++ [output])) buffers [] false
    (fun x hx => by
      obtain ⟨i, c, hc, hm⟩ := schedule_mem.1 hx
      rw [moments, List.mem_map] at hm
      obtain ⟨_, _, rfl⟩ := hm
      exact (List.getElem?_eq_some_iff.1 hc).1)
    (by rw [hlen]; exact hk) (by simp) (by simp) (by
      rw [List.length_nil, Nat.zero_add]
      exact schedule_rounds hkb ho hpos hslow hmany)
  refine ⟨after, out, e, w.length, fun i hi => ?_, ⟨w.kept, w.small fun i c hc => ?_⟩, ?_⟩
  · rcases w.inputs i hi with q | q
    · simp at q
    · exact q
  · by_cases q : i < ins.length
    · rw [List.getElem?_append_left q] at hc
      exact hfull i c hc
    · rw [List.getD_eq_getElem?_getD, List.getElem?_eq_none (by omega)]
      simp
  · obtain ⟨used, left, h1, h2⟩ := w.stock
    exact ⟨used, left, h1, fun i => by simpa using h2 i⟩

theorem sum_count : ∀ (m : ℕ) (l : List ℕ), (∀ i ∈ l, i < m) → ((List.range m).map fun i => l.count i).sum = l.length := by
  intro m l
  induction l with
  | nil => simp
  | cons x l ih =>
    intro h
    have hx := h x (by simp)
    have : ((List.range m).map fun i => (x :: l).count i).sum =
        ((List.range m).map fun i => l.count i).sum + ((List.range m).map fun i => if x = i then 1 else 0).sum := by
      rw [← List.sum_map_add]
      simp [List.count_cons]
    rw [this, ih fun i hi => h i (by simp [hi])]
    have one : ((List.range m).map fun i => if x = i then 1 else 0).sum = (List.range m).count x := by
      generalize List.range m = r
      induction r with
      | nil => rfl
      | cons y r ihr =>
        rw [List.map_cons, List.sum_cons, ihr, List.count_cons]
        by_cases q : y = x
        · simp [q, Nat.add_comm]
        · simp [q, Ne.symm q]
    rw [one, List.nodup_range.count, if_pos (List.mem_range.2 hx), List.length_cons]

/-- All simulations of the script, whatever the random choices: each delivers its 1560 items and the three counters add up to 1560 for each
simulation, so the three averages printed add up to 1560. -/
theorem C85_script (pick : ℕ → ℕ → ℕ) (n : ℕ) : ∃ outs, playAll conveyors 780 1560 pick n [0, 0, 0] = .ok outs ∧ outs.length = n ∧
    (∀ out ∈ outs, out.length = 1560 ∧ ∀ i ∈ out, i < 3) ∧ counts outs 0 + counts outs 1 + counts outs 2 = 1560 * n := by
  have all : ∀ n (buffers : List ℕ), buffers.length = 3 → (∀ i c, conveyors[i]? = some c → buffers.getD i 0 ≤ c.bufferSize) →
      ∃ outs, playAll conveyors 780 1560 pick n buffers = .ok outs ∧ outs.length = n ∧
        (∀ out ∈ outs, out.length = 1560 ∧ ∀ i ∈ out, i < 3) ∧ counts outs 0 + counts outs 1 + counts outs 2 = 1560 * n := by
    intro n
    induction n with
    | zero => exact fun _ _ _ => ⟨[], rfl, rfl, by simp, rfl⟩
    | succ n ih =>
      intro buffers hl hsm
      have hsm' : ∀ i c, [(⟨120, 1⟩ : Conveyor), ⟨270, 2⟩, ⟨480, 3⟩][i]? = some c → buffers.getD i 0 ≤ c.bufferSize := by
        intro i c hc
        refine hsm i c ?_
        have := (List.getElem?_eq_some_iff.1 hc).1
        rw [← hc]
        exact List.getElem?_append_left (l₁ := [(⟨120, 1⟩ : Conveyor), ⟨270, 2⟩, ⟨480, 3⟩]) (l₂ := [⟨780, 1⟩]) this
      obtain ⟨after, out, e, w⟩ := C85_one_simulation [⟨120, 1⟩, ⟨270, 2⟩, ⟨480, 3⟩] ⟨780, 1⟩ 1560 (pick n) buffers hl hsm'
        (by decide) ⟨480, 3⟩ (by decide) (by decide) (by decide) (by decide) (by decide)
      obtain ⟨outs, e', h1, h2, h3⟩ := ih after (by rw [w.buffers.1, hl]) w.buffers.2
      refine ⟨out :: outs, ?_, by simp [h1], fun o ho => ?_, ?_⟩
      · rw [playAll]
        have e2 : play conveyors 780 1560 (pick n) (schedule 1560 conveyors) buffers [] = .ok (after, out) := e
        rw [e2]
        show (playAll conveyors 780 1560 pick n after >>= fun outs => pure (out :: outs)) = _
        rw [e']
        rfl
      · rcases List.mem_cons.1 ho with rfl | ho
        · exact ⟨w.all, fun i hi => by rw [← hl]; exact w.inputs i hi⟩
        · exact h2 o ho
      · have s := sum_count 3 out fun i hi => by rw [← hl]; exact w.inputs i hi
        rw [w.all] at s
        simp only [List.range_succ, List.range_zero, List.nil_append, List.cons_append, List.map_cons, List.map_nil, List.sum_cons, List.sum_nil] at s
        simp only [counts, List.map_cons, List.sum_cons] at h3 ⊢
        rw [Nat.mul_succ, ← h3]
        omega
  exact all n [0, 0, 0] rfl fun i c _ => by rcases i with _ | _ | _ | i <;> simp

-- Inputs of speeds 2 and 4 into an output of speed 5, first choice and last choice; an input too slow for the list of moves.
example : play [⟨2, 1⟩, ⟨4, 2⟩, ⟨5, 1⟩] 5 3 (fun _ => 0) (schedule 3 [⟨2, 1⟩, ⟨4, 2⟩, ⟨5, 1⟩]) [0, 0] [] = .ok ([0, 1], [1, 0, 1]) ∧
    play [⟨2, 1⟩, ⟨4, 2⟩, ⟨5, 1⟩] 5 3 (fun _ => 1) (schedule 3 [⟨2, 1⟩, ⟨4, 2⟩, ⟨5, 1⟩]) [0, 0] [] = .ok ([1, 0], [1, 1, 1]) ∧
    play [⟨1, 1⟩, ⟨10, 1⟩] 10 2 (fun _ => 0) (schedule 2 [⟨1, 1⟩, ⟨10, 1⟩]) [0] [] = .error .indexError := by decide +kernel

end Satis.RandomMerging
