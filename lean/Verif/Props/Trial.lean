import Verif.Run.Trial
/-!
# C92: no Ctrl+C is lost with the example backend
-/

namespace Satis.Trial

open Satis.Run (Event MPc)

variable {σ : Nat → Event}

/-- At step `n` the handler looks at the flag. -/
def Handled (σ : Nat → Event) (n : Nat) : Prop := (stateAt σ n).handler = .readRunning ∧ σ n = .main

/-- From time `m` on the flag stays down and `run` reads at most one more value, `false`. -/
def Stopped (σ : Nat → Event) (m : Nat) : Prop :=
  ∀ k ≥ m, (stateAt σ k).running = false ∧
    ((stateAt σ k).reads = (stateAt σ m).reads ∨ (stateAt σ k).reads = (stateAt σ m).reads ++ [false])

/-- From time `m` on the prompt loop is told to end. -/
def Quits (σ : Nat → Event) (m : Nat) : Prop := ∀ k ≥ m, (stateAt σ k).cli = false

/-- The run is being stopped. -/
def Lowering (s : State) : Prop := s.main ≠ .raise ∧ (s.handler = .lower ∨ s.running = false)

theorem Lowering.step {s : State} (h : Lowering s) (e : Event) : Lowering (step s e) := by
  obtain ⟨h1, h2⟩ := h
  cases e with
  | backend =>
    simp only [Trial.step]
    unfold stepBackend
    cases s.backend <;> simp only
    · exact ⟨h1, h2⟩
    · split <;> exact ⟨h1, h2⟩
    · exact ⟨h1, Or.inr rfl⟩
    · exact ⟨h1, h2⟩
  | sigint =>
    simp only [Trial.step]
    unfold signal
    split
    · rename_i h
      refine ⟨h1, Or.inr ?_⟩
      rcases h2 with q | q
      · rw [h.1] at q; simp at q
      · exact q
    · exact ⟨h1, h2⟩
  | main =>
    simp only [Trial.step]
    unfold stepMain
    split
    · unfold stepHandler
      cases hx : s.handler <;> simp_all [Lowering]
    · rename_i hi
      have hr : s.running = false := h2.resolve_left fun q => hi (by simp [q])
      cases hm : s.main <;> simp only
      · exact absurd hm h1
      · exact ⟨by simp, Or.inr hr⟩
      · split
        · exact ⟨h1, Or.inr hr⟩
        · exact ⟨by simp, Or.inr hr⟩
      · split
        · exact ⟨by simp, Or.inr hr⟩
        · exact ⟨h1, Or.inr hr⟩
      · exact ⟨h1, Or.inr hr⟩

/-- A flag that is down after it was raised stays down. -/
theorem down_step {s : State} (h1 : s.main ≠ .raise) (h2 : s.running = false) (e : Event) :
    (step s e).main ≠ .raise ∧ (step s e).running = false := by
  cases e with
  | backend =>
    simp only [Trial.step]
    unfold stepBackend
    cases s.backend <;> simp only
    · exact ⟨h1, h2⟩
    · split <;> exact ⟨h1, h2⟩
    · exact ⟨h1, trivial⟩
    · exact ⟨h1, h2⟩
  | sigint =>
    simp only [Trial.step]
    unfold signal
    split <;> exact ⟨h1, h2⟩
  | main =>
    simp only [Trial.step]
    unfold stepMain
    split
    · unfold stepHandler
      cases hx : s.handler <;> simp_all
    · cases hm : s.main <;> simp_all
      split <;> simp_all

/-- What a step does to the reads. -/
theorem reads_step (s : State) (e : Event) : (step s e).reads = s.reads ∨
    (s.backend = .loop ∧ (step s e).reads = s.reads ++ [s.running] ∧ ((step s e).backend = .loop → s.running = true)) := by
  cases e with
  | backend =>
    simp only [Trial.step]
    unfold stepBackend
    cases hb : s.backend <;> simp only
    · exact Or.inl trivial
    · split
      · refine Or.inr ⟨trivial, rfl, ?_⟩
        cases s.running <;> simp
      · exact Or.inl rfl
    · exact Or.inl trivial
    · exact Or.inl trivial
  | sigint =>
    simp only [Trial.step]
    unfold signal
    split <;> exact Or.inl rfl
  | main =>
    left
    simp only [Trial.step]
    unfold stepMain
    split
    · unfold stepHandler
      cases s.handler <;> simp only
      split <;> rfl
    · cases s.main <;> simp only
      · split <;> rfl
      · split <;> rfl

theorem cli_step {s : State} (h : s.cli = false) (e : Event) : (step s e).cli = false := by
  cases e with
  | backend =>
    simp only [Trial.step]
    unfold stepBackend
    cases s.backend <;> simp only
    · exact h
    · split <;> exact h
    · exact h
    · exact h
  | sigint =>
    simp only [Trial.step]
    unfold signal
    split <;> exact h
  | main =>
    simp only [Trial.step]
    unfold stepMain
    split
    · unfold stepHandler
      cases s.handler <;> simp only
      · exact h
      · split <;> exact h
      · exact h
    · cases s.main <;> simp only
      · exact h
      · exact h
      · split <;> exact h
      · split <;> exact h
      · exact h

/-- The session is being ended. -/
def Quitting (s : State) : Prop := s.handler = .clearCli ∨ s.cli = false

theorem Quitting.step {s : State} (h : Quitting s) (e : Event) : Quitting (step s e) := by
  rcases h with h | h
  · cases e with
    | backend =>
      left
      simp only [Trial.step]
      unfold stepBackend
      cases s.backend <;> simp only
      · exact h
      · split <;> exact h
      · exact h
      · exact h
    | sigint => left; simp only [Trial.step]; unfold signal; rw [if_neg (by simp [h])]; exact h
    | main => right; simp only [Trial.step]; unfold stepMain; rw [if_pos (by simp [h])]; unfold stepHandler; rw [h]
  · exact Or.inr (cli_step h e)

theorem stopped_of_down {m : Nat} (h1 : (stateAt σ m).main ≠ .raise) (h2 : (stateAt σ m).running = false) : Stopped σ m := by
  have key : ∀ k ≥ m, (stateAt σ k).main ≠ .raise ∧ (stateAt σ k).running = false ∧ ((stateAt σ k).reads = (stateAt σ m).reads ∨
      (stateAt σ k).reads = (stateAt σ m).reads ++ [false]) := by
    intro k hk
    induction k, hk using Nat.le_induction with
    | base => exact ⟨h1, h2, Or.inl rfl⟩
    | succ k hk ih =>
      obtain ⟨i1, i2, i3⟩ := ih
      have d := down_step i1 i2 (σ k)
      refine ⟨d.1, d.2, ?_⟩
      rcases reads_step (stateAt σ k) (σ k) with q | ⟨q1, q2, -⟩
      · simp only [stateAt]; rw [q]; exact i3
      · rcases i3 with i3 | i3
        · right; simp only [stateAt]; rw [q2, i2, i3]
        · have s := (sync σ k)
          obtain ⟨a, j, s1, -, -, s2, -⟩ := s.reads
          rw [s2 q1] at s1
          have : false ∈ (stateAt σ k).reads := by rw [i3]; simp
          rw [s1] at this
          simp at this
  exact fun k hk => ⟨(key k hk).2.1, (key k hk).2.2⟩

/-- C92. In every schedule and at every moment of the run, also before the thread has started: once the handler has looked at the flag and
returned, either the run has been stopped or the session ends. No request is lost. -/
theorem C92_answered {n : Nat} (h : Handled σ n) (m : Nat) (hm : n < m) (hidle : (stateAt σ m).handler = .idle) :
    ((stateAt σ n).running = true → Stopped σ m) ∧ ((stateAt σ n).running = false → Quits σ m) := by
  obtain ⟨h1, h2⟩ := h
  have hs := sync σ n
  have next : stateAt σ (n + 1) = if (stateAt σ n).running then { stateAt σ n with handler := .lower }
      else { stateAt σ n with handler := .clearCli } := by
    simp only [stateAt, h2, step]
    unfold stepMain
    rw [if_pos (by simp [h1])]
    unfold stepHandler
    rw [h1]
  constructor
  · intro hr
    have low : ∀ m ≥ n + 1, Lowering (stateAt σ m) := by
      intro m hm
      induction m, hm using Nat.le_induction with
      | base =>
        rw [next, if_pos hr]
        exact ⟨fun q => by simp only at q; rw [(hs.raise q).2] at hr; simp at hr, Or.inl rfl⟩
      | succ m _ ih => exact ih.step _
    obtain ⟨l1, l2⟩ := low m hm
    exact stopped_of_down l1 (l2.resolve_left (by simp [hidle]))
  · intro hr
    have low : ∀ m ≥ n + 1, Quitting (stateAt σ m) := by
      intro m hm
      induction m, hm using Nat.le_induction with
      | base => rw [next, if_neg (by simp [hr])]; exact Or.inl rfl
      | succ m _ ih => exact ih.step _
    have q := (low m hm).resolve_left (by simp [hidle])
    intro k hk
    induction k, hk using Nat.le_induction with
    | base => exact q
    | succ k _ ih => exact cli_step ih _

/-- C92. `run` looks at the flag at most 30 times, stops at the first `false`, and ends only after a `false` or 30 looks. -/
theorem C92_reads (n : Nat) :
    ∃ k j, (stateAt σ n).reads = List.replicate k true ++ List.replicate j false ∧ k + j ≤ 30 ∧ j ≤ 1 ∧
      ((stateAt σ n).backend = .finished → j = 1 ∨ k = 30) := by
  obtain ⟨k, j, h1, h2, h3, -, h4⟩ := (sync σ n).reads
  exact ⟨k, j, h1, h2, h3, fun q => h4 (Or.inr q)⟩

/-- C92. If both threads are scheduled again and again and SIGINT arrives finitely often, the main thread returns to the prompt, after the run
has ended and with the flag down. -/
theorem C92_returns (hσ : Run.Fair σ) :
    ∃ n, (stateAt σ n).main = .returned ∧ (stateAt σ n).backend = .finished ∧ (stateAt σ n).running = false := by
  obtain ⟨n, hn⟩ := main_returns hσ
  have hs := sync σ n
  exact ⟨n, hn, (hs.returned hn).1, hs.finished (hs.returned hn).1⟩

/-- A finite schedule, after which the threads take turns. -/
def thenFair (l : List Event) (n : Nat) : Event := (l[n]?).getD (if n % 2 = 0 then .backend else .main)

/-- SIGINT after `running = True`, before the thread has started. (The solver loses this request: `C39_false`.) -/
def early : Nat → Event := thenFair [.main, .sigint, .main, .main]

/-- SIGINT before `running = True`. -/
def earlier : Nat → Event := thenFair [.sigint, .main, .main]

/-- The hypotheses are met: a request before the start of the thread stops the run at its first look; one before the flag is raised ends the
session after the run. -/
example :
    (Handled early 2 ∧ (stateAt early 4).handler = .idle ∧ (stateAt early 2).running = true ∧ (stateAt early 4).backend = .notStarted ∧
      (stateAt early 40).reads = [false] ∧ (stateAt early 40).main = .returned ∧ (stateAt early 40).cli = true) ∧
    (Handled earlier 1 ∧ (stateAt earlier 3).handler = .idle ∧ (stateAt earlier 1).running = false ∧
      (stateAt earlier 100).reads = List.replicate 30 true ∧ (stateAt earlier 100).main = .returned ∧ (stateAt earlier 100).cli = false) := by
  refine ⟨⟨⟨?_, ?_⟩, ?_, ?_, ?_, ?_, ?_, ?_⟩, ⟨?_, ?_⟩, ?_, ?_, ?_, ?_, ?_⟩ <;> decide +kernel

example : Run.Fair early := by
  have key : ∀ n ≥ 4, early n = if n % 2 = 0 then .backend else .main := by
    intro n hn
    simp [early, thenFair, List.getElem?_eq_none (show [Event.main, .sigint, .main, .main].length ≤ n from hn)]
  refine ⟨fun n => ⟨2 * (n + 4), by omega, ?_⟩, fun n => ⟨2 * (n + 4) + 1, by omega, ?_⟩, 4, fun n hn => ?_⟩
  · rw [key _ (by omega), if_pos (by omega)]
  · rw [key _ (by omega), if_neg (by omega)]
  · rw [key n hn]
    split <;> decide

end Satis.Trial
