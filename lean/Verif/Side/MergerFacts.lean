import Verif.Side.Merger
import Mathlib.Tactic.Linarith
import Mathlib.Data.List.GetD
import Mathlib.Tactic.FieldSimp
import Mathlib.Algebra.Order.Archimedean.Basic
import Mathlib.Algebra.Order.Floor.Defs
import Mathlib.Algebra.BigOperators.Group.List.Basic

/-! The simulated merger: what one step does, and what stays true. -/

namespace Satis.Merging

/-- What the merger keeps true: one buffer per input, of at most three items; the steps at which items left are
`1 … step`, each at exactly one input, in order. -/
structure Sane (m : Merger) : Prop where
  len : m.buffers.length = m.inputs.length
  small : ∀ b ∈ m.buffers, b ≤ 3
  ordered : ∀ x ∈ m.inputs, x.history.Pairwise (· < ·)
  cover : (m.inputs.flatMap Input.history).Perm (List.range' 1 m.step)

theorem arrive_history (s : ℕ) (i : Input) (b : ℕ) : (arrive s i b).1.history = i.history := by
  unfold arrive
  dsimp only
  split_ifs <;> rfl

theorem arrive_speed (s : ℕ) (i : Input) (b : ℕ) : (arrive s i b).1.speed = i.speed := by
  unfold arrive
  dsimp only
  split_ifs <;> rfl

theorem arrive_symbol (s : ℕ) (i : Input) (b : ℕ) : (arrive s i b).1.symbol = i.symbol := by
  unfold arrive
  dsimp only
  split_ifs <;> rfl

theorem arrive_small (s : ℕ) (i : Input) (b : ℕ) (h : b ≤ 3) : (arrive s i b).2 ≤ 3 := by
  unfold arrive
  dsimp only
  split_ifs <;> dsimp only <;> omega

/-- The inputs and buffers after the arrivals. -/
def arrivals (m : Merger) : List (Input × ℕ) := List.zipWith (arrive m.speed) m.inputs m.buffers

theorem arrivals_length {m : Merger} (h : m.buffers.length = m.inputs.length) :
    (arrivals m).length = m.inputs.length := by
  unfold arrivals
  rw [List.length_zipWith, h, Nat.min_self]

theorem arrivals_map {β : Type} {m : Merger} (h : m.buffers.length = m.inputs.length) (f : Input → β)
    (hf : ∀ s i b, f (arrive s i b).1 = f i) : (arrivals m).map (fun p => f p.1) = m.inputs.map f := by
  unfold arrivals
  generalize m.buffers = bs at h
  revert bs
  generalize m.inputs = xs
  induction xs with
  | nil => intro bs _; simp
  | cons x xs ih =>
    intro bs hl
    cases bs with
    | nil => simp at hl
    | cons b bs =>
      rw [List.zipWith_cons_cons, List.map_cons, List.map_cons, hf, ih bs (by simpa using hl)]

theorem arrivals_small {m : Merger} (h : ∀ b ∈ m.buffers, b ≤ 3) : ∀ p ∈ arrivals m, p.2 ≤ 3 := by
  intro p hp
  unfold arrivals at hp
  obtain ⟨k, hk, rfl⟩ := List.mem_iff_getElem.mp hp
  rw [List.getElem_zipWith]
  exact arrive_small _ _ _ (h _ (List.getElem_mem _))

/-- An item is served from input `x` at position `i`. -/
def serve (m : Merger) (i : ℕ) (x : Input) : Merger :=
  { m with
    step := m.step + 1
    inputs := toEnd ((arrivals m).map Prod.fst) i { x with history := x.history ++ [m.step + 1] }
    buffers := swapLast (((arrivals m).map Prod.snd).set i (((arrivals m).map Prod.snd).getD i 0 - 1)) i }

/-- The two outcomes of a step. -/
theorem tick_cases (m : Merger) :
    ((∀ p ∈ arrivals m, p.2 = 0) ∧
      m.tick = { m with inputs := (arrivals m).map Prod.fst, buffers := (arrivals m).map Prod.snd }) ∨
    ∃ i x b, (arrivals m)[i]? = some (x, b) ∧ b ≠ 0 ∧ m.tick = serve m i x := by
  have e : m.tick = match firstReady ((arrivals m).map Prod.snd) with
      | none => { m with inputs := (arrivals m).map Prod.fst, buffers := (arrivals m).map Prod.snd }
      | some i => match ((arrivals m).map Prod.fst)[i]? with
        | none => { m with inputs := (arrivals m).map Prod.fst, buffers := (arrivals m).map Prod.snd }
        | some x => serve m i x := rfl
  rw [e]
  cases hf : firstReady ((arrivals m).map Prod.snd) with
  | none =>
    left
    refine ⟨?_, rfl⟩
    intro p hp
    unfold firstReady at hf
    rw [List.findIdx?_eq_none_iff] at hf
    simpa using hf p.2 (List.mem_map_of_mem hp)
  | some i =>
    right
    unfold firstReady at hf
    rw [List.findIdx?_eq_some_iff_getElem] at hf
    obtain ⟨hi, hb, _⟩ := hf
    rw [List.length_map] at hi
    refine ⟨i, ((arrivals m)[i]).1, ((arrivals m)[i]).2, List.getElem?_eq_getElem hi, by simpa using hb, ?_⟩
    dsimp only
    rw [List.getElem?_map, List.getElem?_eq_getElem hi]
    rfl

theorem swapLast_length (l : List ℕ) (i : ℕ) : (swapLast l i).length = l.length := by simp [swapLast]

theorem swapLast_perm {l : List ℕ} {i : ℕ} (h : i < l.length) : (swapLast l i).Perm l := by
  have hl : l.length - 1 < l.length := by omega
  have := List.set_set_perm (as := l) h hl
  unfold swapLast
  dsimp only
  rwa [List.getD_eq_getElem _ _ h, List.getD_eq_getElem _ _ hl]

theorem toEnd_perm {l : List Input} {i : ℕ} (h : i < l.length) (x : Input) :
    (toEnd l i x).Perm (l.set i x) := by
  unfold toEnd
  rw [List.set_eq_take_append_cons_drop, if_pos h, List.eraseIdx_eq_take_drop_succ]
  rw [List.append_assoc]
  exact List.Perm.append_left _ (List.perm_append_comm (l₂ := [x]))

theorem toEnd_length {l : List Input} {i : ℕ} (h : i < l.length) (x : Input) : (toEnd l i x).length = l.length := by
  rw [(toEnd_perm h x).length_eq, List.length_set]

theorem flatMap_set {l : List Input} {i : ℕ} (h : i < l.length) (s : ℕ) :
    ((l.set i { l[i] with history := l[i].history ++ [s] }).flatMap Input.history).Perm
      (l.flatMap Input.history ++ [s]) := by
  induction l generalizing i with
  | nil => simp at h
  | cons y l ih =>
    cases i with
    | zero =>
      simp only [List.getElem_cons_zero, List.set_cons_zero, List.flatMap_cons, List.append_assoc]
      exact List.Perm.append_left _ List.perm_append_comm
    | succ i =>
      simp only [List.getElem_cons_succ, List.set_cons_succ, List.flatMap_cons, List.append_assoc]
      exact List.Perm.append_left _ (ih (by simpa using h))

theorem Sane.tick {m : Merger} (h : Sane m) : Sane m.tick ∧ (m.tick.step = m.step ∨ m.tick.step = m.step + 1) := by
  have hh : ((arrivals m).map Prod.fst).map Input.history = m.inputs.map Input.history := by
    rw [List.map_map]
    exact arrivals_map h.len Input.history arrive_history
  have hfm : ((arrivals m).map Prod.fst).flatMap Input.history = m.inputs.flatMap Input.history := by
    rw [List.flatMap_def, hh, ← List.flatMap_def]
  have hord : ∀ x ∈ (arrivals m).map Prod.fst, x.history.Pairwise (· < ·) := by
    intro x hx
    have : x.history ∈ ((arrivals m).map Prod.fst).map Input.history := List.mem_map_of_mem hx
    rw [hh] at this
    obtain ⟨y, hy, e⟩ := List.mem_map.mp this
    rw [← e]
    exact h.ordered y hy
  have hl := arrivals_length h.len
  rcases tick_cases m with ⟨_, e⟩ | ⟨i, x, b, hi, hb, e⟩
  · rw [e]
    refine ⟨⟨by simp, ?_, hord, ?_⟩, Or.inl rfl⟩
    · intro b hb
      obtain ⟨p, hp, rfl⟩ := List.mem_map.mp hb
      exact arrivals_small h.small p hp
    · rw [hfm]
      exact h.cover
  · rw [e]
    obtain ⟨hi', hxb⟩ := List.getElem?_eq_some_iff.mp hi
    have hi1 : i < ((arrivals m).map Prod.fst).length := by rw [List.length_map]; exact hi'
    have hi2 : i < ((arrivals m).map Prod.snd).length := by rw [List.length_map]; exact hi'
    have hx : ((arrivals m).map Prod.fst)[i] = x := by rw [List.getElem_map, hxb]
    have hpos : ∀ s ∈ x.history, s < m.step + 1 := by
      intro s hs
      have : s ∈ ((arrivals m).map Prod.fst).flatMap Input.history := by
        rw [List.mem_flatMap]
        exact ⟨x, by rw [← hx]; exact List.getElem_mem _, hs⟩
      rw [hfm, h.cover.mem_iff, List.mem_range'_1] at this
      omega
    refine ⟨⟨?_, ?_, ?_, ?_⟩, Or.inr rfl⟩
    · unfold serve
      dsimp only
      rw [swapLast_length, toEnd_length hi1]
      simp
    · intro c hc
      unfold serve at hc
      dsimp only at hc
      rw [(swapLast_perm (by rw [List.length_set]; exact hi2)).mem_iff] at hc
      rcases List.mem_or_eq_of_mem_set hc with hc | hc
      · obtain ⟨p, hp, rfl⟩ := List.mem_map.mp hc
        exact arrivals_small h.small p hp
      · rw [List.getD_eq_getElem _ _ hi2, List.getElem_map] at hc
        have := arrivals_small h.small _ (List.getElem_mem hi')
        omega
    · intro y hy
      unfold serve at hy
      dsimp only at hy
      rw [(toEnd_perm hi1 _).mem_iff] at hy
      rcases List.mem_or_eq_of_mem_set hy with hy | hy
      · exact hord y hy
      · rw [hy]
        dsimp only
        rw [List.pairwise_append]
        refine ⟨?_, List.pairwise_singleton _ _, ?_⟩
        · rw [← hx]; exact hord _ (List.getElem_mem _)
        · intro a ha b hb
          rw [List.mem_singleton.mp hb]
          exact hpos a ha
    · unfold serve
      dsimp only
      rw [List.range'_1_concat, Nat.add_comm 1 m.step]
      refine ((toEnd_perm hi1 _).flatMap_right _).trans ?_
      have := flatMap_set hi1 (m.step + 1)
      rw [hx] at this
      refine this.trans ?_
      rw [hfm]
      exact h.cover.append_right _

end Satis.Merging
