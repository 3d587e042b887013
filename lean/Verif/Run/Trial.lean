import Verif.Run.Progress
/-!
# The example backend

`main.py:16-40` is a backend that does nothing but wait: `run` looks at `self.running` up to 30 times and `stop` lowers that flag. Under the
same `CLI` as in `Run/Model.lean`: one access to a shared flag per step, SIGINT at any time.

Simplified as there. `time.sleep` and `print` are no steps; `run` does not raise.
-/

namespace Satis.Trial

open Satis.Run (Event MPc)

/-- Where the backend thread is. -/
inductive BPc
  | notStarted
  | loop
  | lower
  | finished
  deriving DecidableEq, Repr

/-- Where the signal handler is. -/
inductive HPc
  | idle
  | readRunning
  | lower
  | clearCli
  deriving DecidableEq, Repr

/-- The shared flags and the threads; `reads` are the values of `self.running` seen by `run`. -/
structure State where
  running : Bool
  cli : Bool
  backend : BPc
  main : MPc
  handler : HPc
  reads : List Bool
  deriving DecidableEq, Repr

/-- After `load` has returned `True` (`main.py:21-22`) and before `self.backend.running = True` (`src/utils/cli.py:50`). -/
def init : State := ⟨false, true, .notStarted, .raise, .idle, []⟩

/-- `main.py:29-36` `Test.run`. -/
def stepBackend (s : State) : State :=
  match s.backend with
  | .notStarted => s
  | .loop =>
    if s.reads.length < 30 then { s with reads := s.reads ++ [s.running], backend := if s.running then .loop else .lower }
    else { s with backend := .lower }
  | .lower => { s with running := false, backend := .finished }
  | .finished => s

/-- `src/utils/cli.py:61-65` `exit` and `main.py:24-27` `Test.stop`. -/
def stepHandler (s : State) : State :=
  match s.handler with
  | .idle => s
  | .readRunning => if s.running then { s with handler := .lower } else { s with handler := .clearCli }
  | .lower => { s with running := false, handler := .idle }
  | .clearCli => { s with cli := false, handler := .idle }

/-- `src/utils/cli.py:50-59`; the handler runs in this thread. -/
def stepMain (s : State) : State :=
  if s.handler ≠ .idle then stepHandler s
  else match s.main with
    | .raise => { s with running := true, main := .start }
    | .start => { s with main := .poll, backend := .loop }
    | .poll => if s.running then s else { s with main := .join }
    | .join => if s.backend = .finished then { s with main := .returned } else s
    | .returned => s

/-- SIGINT. -/
def signal (s : State) : State :=
  if s.handler = .idle ∧ s.main ≠ .returned then { s with handler := .readRunning } else s

/-- One step. -/
def step (s : State) : Event → State
  | .backend => stepBackend s
  | .main => stepMain s
  | .sigint => signal s

/-- The state after `n` steps of a schedule. -/
def stateAt (σ : Nat → Event) : Nat → State
  | 0 => init
  | n + 1 => step (stateAt σ n) (σ n)

/-! ## Invariant -/

/-- Flags and places that belong together. -/
structure Sync (s : State) : Prop where
  raise : s.main = .raise → s.backend = .notStarted ∧ s.running = false
  handler : s.main = .raise → s.handler ≠ .lower
  start : s.main = .start → s.backend = .notStarted
  started : s.main ≠ .raise → s.main ≠ .start → s.backend ≠ .notStarted
  finished : s.backend = .finished → s.running = false
  join : s.main = .join → s.running = false
  returned : s.main = .returned → s.backend = .finished ∧ s.handler = .idle
  unread : s.backend = .notStarted → s.reads = []
  reads : ∃ k j, s.reads = List.replicate k true ++ List.replicate j false ∧ k + j ≤ 30 ∧ j ≤ 1 ∧
    (s.backend = .loop → j = 0) ∧ (s.backend = .lower ∨ s.backend = .finished → j = 1 ∨ k = 30)
  low : false ∈ s.reads → s.running = false

theorem sync_init : Sync init := by
  constructor <;> simp [init]

theorem sync_backend {s : State} (h : Sync s) : Sync (stepBackend s) := by
  have h' := h
  obtain ⟨h1, h0, h2, h3, h4, h5, h6, h7, ⟨k, j, h8, h9, h10, h11, h12⟩, h13⟩ := h
  unfold stepBackend
  cases hb : s.backend <;> simp only [hb] at h1 h2 h3 h4 h5 h6 h7 h11 h12 ⊢
  case loop =>
    have hj : j = 0 := h11 trivial
    subst hj
    simp only [List.replicate_zero, List.append_nil] at h8
    have m1 : s.main ≠ .raise := fun q => absurd (h1 q).1 (by simp)
    have m2 : s.main ≠ .start := fun q => absurd (h2 q) (by simp)
    have m3 : s.main ≠ .returned := fun q => absurd (h6 q).1 (by simp)
    split
    · rename_i hl
      rw [h8, List.length_replicate] at hl
      cases hr : s.running
      · refine ⟨fun q => absurd q m1, fun q => absurd q m1, fun q => absurd q m2, fun _ _ => by simp, fun _ => rfl, fun _ => rfl,
          fun q => absurd q m3, fun q => by simp at q, ⟨k, 1, by simp [h8], by omega, by omega, fun q => by simp at q, fun _ => Or.inl rfl⟩,
          fun _ => rfl⟩
      · refine ⟨fun q => absurd q m1, fun q => absurd q m1, fun q => absurd q m2, fun _ _ => by simp, fun q => by simp at q,
          fun q => absurd (h5 q) (by simp [hr]), fun q => absurd q m3, fun q => by simp at q,
          ⟨k + 1, 0, by simp [h8, List.replicate_succ'], by omega, by omega, fun _ => rfl, fun q => by simp at q⟩, fun q => by simp [h8] at q⟩
    · rename_i hl
      rw [h8, List.length_replicate] at hl
      exact ⟨fun q => absurd q m1, fun q => absurd q m1, fun q => absurd q m2, fun _ _ => by simp, fun q => by simp at q, h5,
        fun q => absurd q m3, fun q => by simp at q, ⟨k, 0, by simp [h8], by omega, by omega, fun q => by simp at q, fun _ => Or.inr (by omega)⟩,
        h13⟩
  case notStarted => exact h'
  case finished => exact h'
  case lower =>
    exact ⟨fun q => absurd (h1 q).1 (by simp), fun q => absurd (h1 q).1 (by simp), fun q => absurd (h2 q) (by simp), fun _ _ => by simp,
      fun _ => rfl, fun _ => rfl, fun q => absurd (h6 q).1 (by simp), fun q => by simp at q,
      ⟨k, j, h8, h9, h10, fun q => by simp at q, fun _ => h12 (Or.inl trivial)⟩, fun _ => rfl⟩

theorem sync_main {s : State} (h : Sync s) : Sync (stepMain s) := by
  obtain ⟨h1, h0, h2, h3, h4, h5, h6, h7, h8, h13⟩ := h
  unfold stepMain
  split
  · rename_i hh
    unfold stepHandler
    cases hx : s.handler <;> simp only <;> (try split) <;> constructor <;> simp_all
  · cases hm : s.main <;> simp only [hm] at h1 h0 h2 h3 h4 h5 h6 ⊢
    case raise => constructor <;> simp_all
    case start =>
      obtain ⟨k, j, a⟩ := h8
      constructor <;> simp_all
    case poll => split <;> constructor <;> simp_all
    case join => split <;> constructor <;> simp_all
    case returned => constructor <;> simp_all

theorem sync_signal {s : State} (h : Sync s) : Sync (signal s) := by
  obtain ⟨h1, h0, h2, h3, h4, h5, h6, h7, h8, h13⟩ := h
  unfold signal
  split <;> constructor <;> simp_all

theorem sync (σ : Nat → Event) (n : Nat) : Sync (stateAt σ n) := by
  induction n with
  | zero => exact sync_init
  | succ n ih =>
    simp only [stateAt]
    cases σ n
    · exact sync_backend ih
    · exact sync_main ih
    · exact sync_signal ih

/-! ## Progress -/

/-- What is left to do. -/
def rank (s : State) : Nat :=
  (match s.backend with | .notStarted => 50 | .loop => 3 + (30 - s.reads.length) | .lower => 1 | .finished => 0) +
  (match s.main with | .raise => 4 | .start => 3 | .poll => 2 | .join => 1 | .returned => 0) +
  (match s.handler with | .idle => 0 | .readRunning => 2 | .lower => 1 | .clearCli => 1)

theorem rank_step {s : State} (hs : Sync s) (e : Event) (he : e ≠ .sigint) : rank (step s e) < rank s ∨ step s e = s := by
  cases e with
  | sigint => exact absurd rfl he
  | backend =>
    simp only [step]
    unfold stepBackend
    cases hb : s.backend <;> simp only
    case notStarted => exact Or.inr trivial
    case finished => exact Or.inr trivial
    case lower => left; simp [rank, hb]
    case loop =>
      left
      split
      · cases s.running <;> simp [rank, hb]
        all_goals omega
      · simp only [rank, hb]; omega
  | main =>
    simp only [step]
    unfold stepMain
    split
    · unfold stepHandler
      cases hx : s.handler <;> simp_all
      case readRunning => split <;> simp [rank, hx]
      case lower => simp [rank, hx]
      case clearCli => simp [rank, hx]
    · cases hm : s.main <;> simp only
      case raise => left; simp [rank, hm]
      case start =>
        left
        simp only [rank, hm, hs.start hm]
        omega
      case poll => split <;> simp [rank, hm]
      case join => split <;> simp [rank, hm]
      case returned => simp

theorem settles {σ : Nat → Event} {N : Nat} (hN : ∀ n ≥ N, σ n ≠ .sigint) :
    ∃ m ≥ N, ∀ n ≥ m, stateAt σ n = stateAt σ m := by
  have key : ∀ r n, N ≤ n → rank (stateAt σ n) ≤ r → ∃ m ≥ N, ∀ n ≥ m, stateAt σ n = stateAt σ m := by
    intro r
    induction r with
    | zero =>
      intro n hn hr
      refine ⟨n, hn, fun k hk => ?_⟩
      induction k, hk using Nat.le_induction with
      | base => rfl
      | succ k hk ih =>
        rcases rank_step (sync σ k) (σ k) (hN k (by omega)) with q | q
        · rw [ih] at q; omega
        · simp only [stateAt]; rw [q, ih]
    | succ r ih =>
      intro n hn hr
      by_cases h : ∀ k ≥ n, stateAt σ (k + 1) = stateAt σ k
      · refine ⟨n, hn, fun k hk => ?_⟩
        induction k, hk using Nat.le_induction with
        | base => rfl
        | succ k hk ih => rw [h k hk, ih]
      · have mono : ∀ k ≥ n, rank (stateAt σ k) ≤ rank (stateAt σ n) := by
          intro k hk
          induction k, hk using Nat.le_induction with
          | base => exact Nat.le_refl _
          | succ k hk ih =>
            rcases rank_step (sync σ k) (σ k) (hN k (by omega)) with q | q
            · simp only [stateAt]; omega
            · simp only [stateAt]; rw [q]; exact ih
        push Not at h
        obtain ⟨k, hk, hne⟩ := h
        refine ih (k + 1) (by omega) ?_
        rcases rank_step (sync σ k) (σ k) (hN k (by omega)) with q | q
        · have := mono k hk
          simp only [stateAt]; omega
        · exact absurd q hne
  exact key _ N (Nat.le_refl _) (Nat.le_refl _)

/-- The main thread returns. -/
theorem main_returns {σ : Nat → Event} (hσ : Run.Fair σ) : ∃ n, (stateAt σ n).main = .returned := by
  obtain ⟨N, hN⟩ := hσ.signals
  obtain ⟨m, hm, hc⟩ := settles hN
  obtain ⟨a, ha, ha'⟩ := hσ.backend m
  obtain ⟨b, hb, hb'⟩ := hσ.main m
  have e1 : stepBackend (stateAt σ m) = stateAt σ m := by
    have := hc (a + 1) (by omega)
    simpa only [stateAt, ha', step, hc a ha] using this
  have e2 : stepMain (stateAt σ m) = stateAt σ m := by
    have := hc (b + 1) (by omega)
    simpa only [stateAt, hb', step, hc b hb] using this
  have hs := sync σ m
  refine ⟨m, ?_⟩
  generalize stateAt σ m = s at *
  have h1 : s.backend = .notStarted ∨ s.backend = .finished := by
    have q := congrArg State.backend e1
    have q' := congrArg (fun s => s.reads.length) e1
    unfold stepBackend at q q'
    cases hx : s.backend <;> simp [hx] at q q' ⊢
    all_goals (split at q' <;> simp_all)
  have h2 : s.handler = .idle := by
    by_contra hne
    have q := congrArg State.handler e2
    unfold stepMain at q
    rw [if_pos hne] at q
    unfold stepHandler at q
    cases hx : s.handler <;> simp [hx] at q hne
    split at q <;> simp at q
  have q := congrArg State.main e2
  unfold stepMain at q
  rw [if_neg (by simpa using h2)] at q
  cases hx : s.main <;> simp [hx] at q ⊢
  · have := hs.started (by simp [hx]) (by simp [hx])
    have := hs.finished (h1.resolve_left this)
    simp [this] at q
  · have := hs.started (by simp [hx]) (by simp [hx])
    simp [h1.resolve_left this] at q

end Satis.Trial
