import Verif.Run.Stop
/-!
# C39, C60: the flags of a run
-/

namespace Satis.Run

variable {P : Program} {σ : Nat → Event}

/-! ## Specification -/

/-- At step `n` the handler finds `backend.running` true, and so calls `stop()`. -/
def Requested (P : Program) (σ : Nat → Event) (n : Nat) : Prop :=
  (stateAt P σ n).handler = .readRunning ∧ (stateAt P σ n).running = true ∧ σ n = .main

/-- From time `m` on, `solve` reads only `false`. -/
def SolveReadsFalse (P : Program) (σ : Nat → Event) (m : Nat) : Prop :=
  ∀ k ≥ m, ∃ j, (stateAt P σ k).solveReads = (stateAt P σ m).solveReads ++ List.replicate j false

/-- From time `m` on, `conclude` reads only `false`. -/
def ConcludeReadsFalse (P : Program) (σ : Nat → Event) (m : Nat) : Prop :=
  ∀ k ≥ m, ∃ j, (stateAt P σ k).concludeReads = (stateAt P σ m).concludeReads ++ List.replicate j false

/-- The request of step `n` stops `solve`: it is not over, and once the handler has returned it reads only `false`. -/
def CutsSolve (P : Program) (σ : Nat → Event) (n : Nat) : Prop :=
  ((stateAt P σ n).backend = .notStarted ∨ (stateAt P σ n).backend = .setSolving ∨ (stateAt P σ n).backend = .inSolve) ∧
    ∀ m > n, (stateAt P σ m).handler = .idle → SolveReadsFalse P σ m

/-- The request of step `n` stops `conclude`. -/
def CutsConclude (P : Program) (σ : Nat → Event) (n : Nat) : Prop :=
  (stateAt P σ n).backend ∉ [BPc.clearConcluding, .setDoneConcluding, .lower, .crash, .report, .finished] ∧
    ∀ m > n, (stateAt P σ m).handler = .idle → ConcludeReadsFalse P σ m

/-! ## C60 -/

/-- C60. Whatever the programs do (return, raise, read on), whatever the schedule and whenever SIGINT arrives: after `main` has raised
`backend.running`, the flag is down exactly when `run` has made its last step on the solver's state; the main thread stops polling only
then, and returns only after the backend thread has ended. -/
theorem C60_flag (n : Nat) :
    ((stateAt P σ n).main ≠ .raise → ((stateAt P σ n).running = false ↔
      (stateAt P σ n).backend = .report ∨ (stateAt P σ n).backend = .finished)) ∧
    ((stateAt P σ n).main = .join → (stateAt P σ n).running = false) ∧
    ((stateAt P σ n).main = .returned → (stateAt P σ n).running = false ∧ (stateAt P σ n).backend = .finished) := by
  have h := sync (P := P) (σ := σ) n
  refine ⟨h.up, h.join, fun hr => ⟨(h.up (by rw [hr]; decide)).mpr (Or.inr (h.returned hr)), h.returned hr⟩⟩

/-- C60. If both threads are scheduled again and again, SIGINT arrives finitely often, and `solve` and `conclude` end (they may raise),
then `main` returns to the prompt. -/
theorem C60_returns (hσ : Fair σ) (hs : Ending P.solve) (hc : Ending P.conclude) :
    ∃ n, (stateAt P σ n).main = .returned ∧ (stateAt P σ n).running = false ∧ (stateAt P σ n).backend = .finished := by
  obtain ⟨n, hn⟩ := main_returns hσ hs hc
  exact ⟨n, hn, (C60_flag n).2.2 hn⟩

/-- C60. When `main` has returned, `done_concluding` tells how the run ended: it is set if `solve` and `conclude` returned, and then the flags of
both are down; it is not set if one of them raised. -/
theorem C60_outcome (n : Nat) (h : (stateAt P σ n).main = .returned) :
    ((stateAt P σ n).doneConcluding = true ∧ P.solve (stateAt P σ n).solveReads = .ret ∧ P.conclude (stateAt P σ n).concludeReads = .ret ∧
      (stateAt P σ n).solving = false ∧ (stateAt P σ n).concluding = false ∧ (stateAt P σ n).doneSolving = true) ∨
    ((stateAt P σ n).doneConcluding = false ∧ (P.solve (stateAt P σ n).solveReads = .raise ∨
      (P.solve (stateAt P σ n).solveReads = .ret ∧ P.conclude (stateAt P σ n).concludeReads = .raise))) :=
  (ended n).finished ((C60_flag n).2.2 h).2

/-! ## C39 -/

/-- The reads of `solve` are `true` up to some read and `false` from then on; the same for `conclude`. (So one number tells what a run
reads, which is what `Oracle.stopAt` of the model of `solve` holds.) -/
theorem C39_reads (n : Nat) :
    (∃ k j, (stateAt P σ n).solveReads = List.replicate k true ++ List.replicate j false) ∧
    (∃ k j, (stateAt P σ n).concludeReads = List.replicate k true ++ List.replicate j false) := by
  obtain ⟨⟨k, j, h, -⟩, k', j', h', -⟩ := monotone (P := P) (σ := σ) n
  exact ⟨⟨k, j, h⟩, k', j', h'⟩

/-- C39, for requests made while `solve` or `conclude` runs: once the handler has returned, that program reads only `false`, in every
schedule. The full statement is refuted by `C39_false`: requests made at other times are lost. -/
theorem C39_stop_partial {n : Nat} (h : Requested P σ n) :
    ((stateAt P σ n).backend = .inSolve → CutsSolve P σ n) ∧ ((stateAt P σ n).backend = .inConclude → CutsConclude P σ n) := by
  obtain ⟨h1, h2, h3⟩ := h
  have hnext : stateAt P σ (n + 1) = { stateAt P σ n with handler := .readSolving } := by
    simp only [stateAt, h3, step]
    exact request_step h1 h2
  constructor
  · intro hb
    refine ⟨Or.inr (Or.inr hb), fun m hm hidle => ?_⟩
    have hlow : ∀ m ≥ n + 1, Lowering (stateAt P σ m) := by
      intro m hm
      induction m, hm using Nat.le_induction with
      | base => rw [hnext]; exact ⟨by simp [hb], Or.inl rfl⟩
      | succ m _ ih => exact ih.step (sync m) _
    obtain ⟨h4, h5⟩ := hlow m hm
    rw [hidle] at h5
    have h6 : (stateAt P σ m).solving = false := by simpa using h5
    exact fun k hk => (solve_reads_false h4 h6 k hk).2.2
  · intro hb
    refine ⟨by rw [hb]; decide, fun m hm hidle => ?_⟩
    have hs := sync (P := P) (σ := σ) n
    have hlow : ∀ m ≥ n + 1, Lowering' (stateAt P σ m) := by
      intro m hm
      induction m, hm using Nat.le_induction with
      | base => rw [hnext]; exact ⟨by show (stateAt P σ n).backend.late; rw [hb]; decide, hs.solved (by simp [hb]),
          hs.done (by simp [hb]), Or.inl rfl⟩
      | succ m _ ih => exact ih.step (sync m) _
    obtain ⟨h4, -, -, h5⟩ := hlow m hm
    rw [hidle] at h5
    have h6 : (stateAt P σ m).concluding = false := by simpa using h5
    exact fun k hk => (conclude_reads_false h4 h6 k hk).2.2

namespace Example

/-- A program that reads its flag three times. It stops at the first `false`. -/
def loop (l : List Bool) : Act := if false ∈ l then .ret else if l.length < 3 then .read else .ret

/-- `solve` and `conclude` both read three times at most. -/
def both : Program := ⟨loop, loop⟩

/-- A finite schedule, after which the threads take turns. -/
def thenFair (l : List Event) (n : Nat) : Event := (l[n]?).getD (if n % 2 = 0 then .backend else .main)

theorem loop_ending : Ending loop := fun f => ⟨3, by unfold loop; split <;> simp⟩

theorem thenFair_fair (l : List Event) : Fair (thenFair l) := by
  have key : ∀ n ≥ l.length, thenFair l n = if n % 2 = 0 then .backend else .main := by
    intro n hn
    simp [thenFair, List.getElem?_eq_none hn]
  refine ⟨fun n => ⟨2 * (n + l.length), by omega, ?_⟩, fun n => ⟨2 * (n + l.length) + 1, by omega, ?_⟩, l.length, fun n hn => ?_⟩
  · rw [key _ (by omega), if_pos (by omega)]
  · rw [key _ (by omega), if_neg (by omega)]
  · rw [key n hn]
    split <;> decide

/-- SIGINT after `running = True`, before the thread has started. -/
def early : Nat → Event := thenFair [.main, .sigint, .main, .main, .main, .main]

/-- SIGINT when `solve` has returned; the handler still finds `solving` true. -/
def between : Nat → Event :=
  thenFair [.main, .main, .backend, .backend, .backend, .backend, .backend, .sigint, .main, .main, .backend, .main]

/-- SIGINT between `done_solving = True` and `concluding = True`. -/
def between' : Nat → Event :=
  thenFair [.main, .main, .backend, .backend, .backend, .backend, .backend, .backend, .backend, .sigint, .main, .main, .main, .main]

/-- SIGINT while `solve` runs. -/
def during : Nat → Event := thenFair [.main, .main, .backend, .backend, .sigint, .main, .backend, .main, .main]

/-- SIGINT while `conclude` runs. -/
def during' : Nat → Event :=
  thenFair [.main, .main, .backend, .backend, .backend, .backend, .backend, .backend, .backend, .backend, .backend, .sigint, .main, .main,
    .main, .main, .main]

end Example

open Example in
/-- The full statement of C39 is false. A request is lost between `running = True` and `solving = True`, and between the end of `solve`
and `concluding = True`, whether or not the handler finds `solving` true: both programs read `true` three times, to the end. -/
theorem C39_false :
    (∀ σ ∈ [early, between, between'], ∃ n, Requested both σ n ∧ ¬ CutsSolve both σ n ∧ ¬ CutsConclude both σ n ∧
      ∃ m, (stateAt both σ m).backend = .finished ∧ (stateAt both σ m).solveReads = [true, true, true] ∧
        (stateAt both σ m).concludeReads = [true, true, true]) := by
  have neg : ∀ {σ : Nat → Event} {n m k : Nat}, n < m → m ≤ k → (stateAt both σ m).handler = .idle →
      true ∈ (stateAt both σ k).concludeReads.drop (stateAt both σ m).concludeReads.length → ¬ CutsConclude both σ n := by
    intro σ n m k h1 h2 h3 h4 h5
    obtain ⟨j, h6⟩ := h5.2 m h1 h3 k h2
    rw [h6, List.drop_left] at h4
    simp at h4
  have neg' : ∀ {σ : Nat → Event} {n m k : Nat}, n < m → m ≤ k → (stateAt both σ m).handler = .idle →
      true ∈ (stateAt both σ k).solveReads.drop (stateAt both σ m).solveReads.length → ¬ CutsSolve both σ n := by
    intro σ n m k h1 h2 h3 h4 h5
    obtain ⟨j, h6⟩ := h5.2 m h1 h3 k h2
    rw [h6, List.drop_left] at h4
    simp at h4
  intro σ hσ
  simp only [List.mem_cons, List.not_mem_nil, or_false] at hσ
  rcases hσ with rfl | rfl | rfl
  · exact ⟨2, ⟨by decide +kernel, by decide +kernel, by decide +kernel⟩,
      neg' (m := 6) (k := 60) (by decide) (by decide) (by decide +kernel) (by decide +kernel),
      neg (m := 6) (k := 60) (by decide) (by decide) (by decide +kernel) (by decide +kernel),
      60, by decide +kernel, by decide +kernel, by decide +kernel⟩
  · exact ⟨8, ⟨by decide +kernel, by decide +kernel, by decide +kernel⟩,
      fun h => absurd h.1 (by decide +kernel),
      neg (m := 12) (k := 60) (by decide) (by decide) (by decide +kernel) (by decide +kernel),
      60, by decide +kernel, by decide +kernel, by decide +kernel⟩
  · exact ⟨10, ⟨by decide +kernel, by decide +kernel, by decide +kernel⟩,
      fun h => absurd h.1 (by decide +kernel),
      neg (m := 14) (k := 60) (by decide) (by decide) (by decide +kernel) (by decide +kernel),
      60, by decide +kernel, by decide +kernel, by decide +kernel⟩

/-- The hypotheses of C39 and C60 are met: a request during `solve` and one during `conclude`, each stops its program early, and `main`
returns. -/
example :
    (Requested Example.both Example.during 5 ∧ (stateAt Example.both Example.during 5).backend = .inSolve ∧
      (stateAt Example.both Example.during 60).solveReads = [true, true, false] ∧
      (stateAt Example.both Example.during 60).main = .returned) ∧
    (Requested Example.both Example.during' 12 ∧ (stateAt Example.both Example.during' 12).backend = .inConclude ∧
      (stateAt Example.both Example.during' 60).concludeReads = [true, false] ∧
      (stateAt Example.both Example.during' 60).main = .returned) ∧
    Fair Example.during ∧ Ending Example.both.solve ∧ Ending Example.both.conclude :=
  ⟨⟨⟨by decide +kernel, by decide +kernel, by decide +kernel⟩, by decide +kernel, by decide +kernel, by decide +kernel⟩,
    ⟨⟨by decide +kernel, by decide +kernel, by decide +kernel⟩, by decide +kernel, by decide +kernel, by decide +kernel⟩,
    Example.thenFair_fair _, Example.loop_ending, Example.loop_ending⟩

end Satis.Run
