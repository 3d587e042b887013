import Verif.Run.Facts
import Mathlib.Data.Nat.Find
import Mathlib.Logic.Function.Iterate
import Mathlib.Tactic.Choose
/-!
# Progress of the threads
-/

namespace Satis.Run

variable {P : Program} {σ : Nat → Event}

/-- Both threads are scheduled again and again, and the user presses Ctrl+C finitely often. -/
structure Fair (σ : Nat → Event) : Prop where
  backend : ∀ n, ∃ m ≥ n, σ m = .backend
  main : ∀ n, ∃ m ≥ n, σ m = .main
  signals : ∃ N, ∀ n ≥ N, σ n ≠ .sigint

/-- Whatever the flag says at each read, the program ends. -/
def Ending (p : List Bool → Act) : Prop := ∀ f : Nat → Bool, ∃ n, p ((List.range n).map f) ≠ .read

theorem first_after {p : Event → Prop} (h : ∀ n, ∃ m ≥ n, p (σ m)) (n : Nat) :
    ∃ m ≥ n, p (σ m) ∧ ∀ k, n ≤ k → k < m → ¬ p (σ k) := by
  classical
  have hex : ∃ d, p (σ (n + d)) := by
    obtain ⟨m, h1, h2⟩ := h n
    exact ⟨m - n, by rwa [Nat.add_sub_cancel' h1]⟩
  refine ⟨n + Nat.find hex, by omega, Nat.find_spec hex, fun k h1 h2 h3 => ?_⟩
  have := Nat.find_min' hex (m := k - n) (by rwa [Nat.add_sub_cancel' h1])
  omega

theorem main_backend {s : State} (h : s.backend ≠ .notStarted) (hs : Sync s) : (stepMain s).backend = s.backend := by
  unfold stepMain
  split
  · unfold stepHandler
    cases s.handler <;> simp only <;> (try split) <;> rfl
  · cases hm : s.main <;> simp only
    case start => exact absurd (hs.start hm).1 h
    case poll => split <;> rfl
    case join => split <;> rfl

theorem signal_backend (s : State) : (signal s).backend = s.backend := by
  unfold signal
  split <;> rfl

theorem main_reads (s : State) : (stepMain s).solveReads = s.solveReads ∧ (stepMain s).concludeReads = s.concludeReads := by
  unfold stepMain
  split
  · unfold stepHandler
    cases s.handler <;> simp only <;> (try split) <;> simp
  · cases hm : s.main <;> simp only
    case poll => split <;> simp
    case join => split <;> simp
    all_goals simp

theorem signal_reads (s : State) : (signal s).solveReads = s.solveReads ∧ (signal s).concludeReads = s.concludeReads := by
  unfold signal
  split <;> exact ⟨rfl, rfl⟩

/-- As long as the backend thread makes no step, its place and its reads stay. -/
theorem backend_waits {n m : Nat} (hnm : n ≤ m) (hb : (stateAt P σ n).backend ≠ .notStarted)
    (h : ∀ k, n ≤ k → k < m → σ k ≠ .backend) :
    (stateAt P σ m).backend = (stateAt P σ n).backend ∧ (stateAt P σ m).solveReads = (stateAt P σ n).solveReads ∧
      (stateAt P σ m).concludeReads = (stateAt P σ n).concludeReads := by
  induction m, hnm using Nat.le_induction with
  | base => exact ⟨rfl, rfl, rfl⟩
  | succ m hm ih =>
    obtain ⟨h1, h2, h3⟩ := ih fun k hk hk' => h k hk (by omega)
    have h4 := h m hm (by omega)
    simp only [stateAt]
    cases hσ : σ m with
    | backend => exact absurd hσ h4
    | main =>
      simp only [step]
      rw [main_backend (by rw [h1]; exact hb) (sync m), (main_reads _).1, (main_reads _).2]
      exact ⟨h1, h2, h3⟩
    | sigint =>
      simp only [step]
      rw [signal_backend, (signal_reads _).1, (signal_reads _).2]
      exact ⟨h1, h2, h3⟩

/-- The next step of the backend thread. -/
theorem backend_next (hf : ∀ n, ∃ m ≥ n, σ m = .backend) (n : Nat) (hb : (stateAt P σ n).backend ≠ .notStarted) :
    ∃ m ≥ n, σ m = .backend ∧ stateAt P σ (m + 1) = stepBackend P (stateAt P σ m) ∧
      (stateAt P σ m).backend = (stateAt P σ n).backend ∧ (stateAt P σ m).solveReads = (stateAt P σ n).solveReads ∧
      (stateAt P σ m).concludeReads = (stateAt P σ n).concludeReads := by
  obtain ⟨m, h1, h2, h3⟩ := first_after (σ := σ) (p := fun e => e = .backend) hf n
  obtain ⟨h4, h5, h6⟩ := backend_waits h1 hb h3
  exact ⟨m, h1, h2, by simp [stateAt, h2, step], h4, h5, h6⟩

/-- The program ends, whatever it reads after `l`. -/
inductive Halts (p : List Bool → Act) : List Bool → Prop
  | now {l} : p l ≠ .read → Halts p l
  | later {l} : (∀ b, Halts p (l ++ [b])) → Halts p l

theorem halts_of_ending {p : List Bool → Act} (h : Ending p) : Halts p [] := by
  by_contra hcon
  have hnext : ∀ l : { l // ¬ Halts p l }, ∃ b, ¬ Halts p (l.1 ++ [b]) := by
    intro l
    by_contra hn
    exact l.2 (.later fun b => by by_contra hb; exact hn ⟨b, hb⟩)
  choose b hb using hnext
  let next : { l // ¬ Halts p l } → { l // ¬ Halts p l } := fun l => ⟨l.1 ++ [b l], hb l⟩
  let seq : Nat → { l // ¬ Halts p l } := fun n => next^[n] ⟨[], hcon⟩
  have hseq : ∀ n, (seq n).1 = (List.range n).map fun i => b (seq i) := by
    intro n
    induction n with
    | zero => rfl
    | succ n ih =>
      rw [List.range_succ, List.map_append, ← ih]
      show (next^[n + 1] ⟨[], hcon⟩).1 = _
      rw [Function.iterate_succ_apply']
      rfl
  obtain ⟨n, hn⟩ := h fun i => b (seq i)
  rw [← hseq] at hn
  exact (seq n).2 (.now hn)

theorem leaves_solve (hf : ∀ n, ∃ m ≥ n, σ m = .backend) {l : List Bool} (hP : Halts P.solve l) :
    ∀ n, (stateAt P σ n).backend = .inSolve → (stateAt P σ n).solveReads = l →
      ∃ m ≥ n, (stateAt P σ m).backend = .clearSolving ∨ (stateAt P σ m).backend = .crash := by
  induction hP with
  | @now l hl =>
    intro n hn hl'
    obtain ⟨m, h1, -, h3, h4, h5, -⟩ := backend_next hf n (by rw [hn]; decide)
    rw [hn] at h4
    rw [hl'] at h5
    refine ⟨m + 1, by omega, ?_⟩
    rw [h3]
    unfold stepBackend
    rw [h4]
    simp only [h5]
    cases hp : P.solve l with
    | read => exact absurd hp hl
    | ret => exact Or.inl rfl
    | raise => exact Or.inr rfl
  | @later l _ ih =>
    intro n hn hl'
    obtain ⟨m, h1, -, h3, h4, h5, -⟩ := backend_next hf n (by rw [hn]; decide)
    rw [hn] at h4
    rw [hl'] at h5
    cases hp : P.solve l with
    | read =>
      obtain ⟨k, h6, h7⟩ := ih (stateAt P σ m).solving (m + 1)
        (by rw [h3]; unfold stepBackend; rw [h4]; simp only [h5, hp])
        (by rw [h3]; unfold stepBackend; rw [h4]; simp only [h5, hp])
      exact ⟨k, by omega, h7⟩
    | ret => exact ⟨m + 1, by omega, Or.inl (by rw [h3]; unfold stepBackend; rw [h4]; simp only [h5, hp])⟩
    | raise => exact ⟨m + 1, by omega, Or.inr (by rw [h3]; unfold stepBackend; rw [h4]; simp only [h5, hp])⟩

theorem leaves_conclude (hf : ∀ n, ∃ m ≥ n, σ m = .backend) {l : List Bool} (hP : Halts P.conclude l) :
    ∀ n, (stateAt P σ n).backend = .inConclude → (stateAt P σ n).concludeReads = l →
      ∃ m ≥ n, (stateAt P σ m).backend = .clearConcluding ∨ (stateAt P σ m).backend = .crash := by
  induction hP with
  | @now l hl =>
    intro n hn hl'
    obtain ⟨m, h1, -, h3, h4, -, h5⟩ := backend_next hf n (by rw [hn]; decide)
    rw [hn] at h4
    rw [hl'] at h5
    refine ⟨m + 1, by omega, ?_⟩
    rw [h3]
    unfold stepBackend
    rw [h4]
    simp only [h5]
    cases hp : P.conclude l with
    | read => exact absurd hp hl
    | ret => exact Or.inl rfl
    | raise => exact Or.inr rfl
  | @later l _ ih =>
    intro n hn hl'
    obtain ⟨m, h1, -, h3, h4, -, h5⟩ := backend_next hf n (by rw [hn]; decide)
    rw [hn] at h4
    rw [hl'] at h5
    cases hp : P.conclude l with
    | read =>
      obtain ⟨k, h6, h7⟩ := ih (stateAt P σ m).concluding (m + 1)
        (by rw [h3]; unfold stepBackend; rw [h4]; simp only [h5, hp])
        (by rw [h3]; unfold stepBackend; rw [h4]; simp only [h5, hp])
      exact ⟨k, by omega, h7⟩
    | ret => exact ⟨m + 1, by omega, Or.inl (by rw [h3]; unfold stepBackend; rw [h4]; simp only [h5, hp])⟩
    | raise => exact ⟨m + 1, by omega, Or.inr (by rw [h3]; unfold stepBackend; rw [h4]; simp only [h5, hp])⟩

/-- A program that the backend has not entered yet has not read anything. -/
structure Unread (s : State) : Prop where
  solve : s.backend = .notStarted ∨ s.backend = .setSolving → s.solveReads = []
  conclude : s.backend = .notStarted ∨ s.backend = .setSolving ∨ s.backend = .inSolve ∨ s.backend = .clearSolving ∨
    s.backend = .setDoneSolving ∨ s.backend = .setConcluding → s.concludeReads = []

theorem unread (n : Nat) : Unread (stateAt P σ n) := by
  induction n with
  | zero => constructor <;> simp [stateAt, init]
  | succ n ih =>
    have hs := sync (P := P) (σ := σ) n
    generalize hgen : stateAt P σ n = s at ih hs
    obtain ⟨h1, h2⟩ := ih
    simp only [stateAt, hgen]
    cases σ n with
    | backend =>
      simp only [step]
      unfold stepBackend
      cases hb : s.backend <;> simp only [hb] at h1 h2 ⊢
      case inSolve => cases P.solve s.solveReads <;> constructor <;> simp_all
      case inConclude => cases P.conclude s.concludeReads <;> constructor <;> simp_all
      all_goals constructor <;> simp_all
    | main =>
      simp only [step]
      have h3 := main_reads s
      by_cases hb : s.backend = .notStarted
      · constructor
        · intro _; rw [h3.1]; exact h1 (Or.inl hb)
        · intro _; rw [h3.2]; exact h2 (Or.inl hb)
      · constructor
        · intro h; rw [main_backend hb hs] at h; rw [h3.1]; exact h1 h
        · intro h; rw [main_backend hb hs] at h; rw [h3.2]; exact h2 h
    | sigint =>
      simp only [step]
      constructor
      · intro h; rw [signal_backend] at h; rw [(signal_reads s).1]; exact h1 h
      · intro h; rw [signal_backend] at h; rw [(signal_reads s).2]; exact h2 h

/-- The next step of the backend thread, when it is a single write. -/
theorem backend_moves (hf : ∀ n, ∃ m ≥ n, σ m = .backend) {b b' : BPc} (hb : b ≠ .notStarted)
    (h : ∀ s : State, s.backend = b → (stepBackend P s).backend = b') (n : Nat) (hn : (stateAt P σ n).backend = b) :
    ∃ m ≥ n, (stateAt P σ m).backend = b' := by
  obtain ⟨m, h1, -, h3, h4, -, -⟩ := backend_next hf n (by rw [hn]; exact hb)
  exact ⟨m + 1, by omega, by rw [h3]; exact h _ (by rw [h4, hn])⟩

/-- A started backend thread ends. -/
theorem backend_finishes (hf : ∀ n, ∃ m ≥ n, σ m = .backend) (hs : Ending P.solve) (hc : Ending P.conclude) (n : Nat)
    (hn : (stateAt P σ n).backend = .setSolving) : ∃ m ≥ n, (stateAt P σ m).backend = .finished := by
  have mv : ∀ {b b' : BPc}, b ≠ .notStarted → (∀ s : State, s.backend = b → (stepBackend P s).backend = b') → ∀ n,
      (stateAt P σ n).backend = b → ∃ m ≥ n, (stateAt P σ m).backend = b' := fun hb h n hn => backend_moves hf hb h n hn
  have crash : ∀ n, (stateAt P σ n).backend = .crash → ∃ m ≥ n, (stateAt P σ m).backend = .finished := by
    intro n hn
    obtain ⟨m1, h1, h2⟩ := mv (b' := .report) (by decide) (fun s hs => by unfold stepBackend; rw [hs]) n hn
    obtain ⟨m2, h3, h4⟩ := mv (b' := .finished) (by decide) (fun s hs => by unfold stepBackend; rw [hs]) m1 h2
    exact ⟨m2, by omega, h4⟩
  obtain ⟨a, ha, -, ha2, ha3, ha4, -⟩ := backend_next hf n (by rw [hn]; decide)
  have hu := unread (P := P) (σ := σ) n
  have e1 : (stateAt P σ (a + 1)).backend = .inSolve := by rw [ha2]; unfold stepBackend; rw [ha3, hn]
  have e2 : (stateAt P σ (a + 1)).solveReads = [] := by
    rw [ha2]; unfold stepBackend; rw [ha3, hn]; simp only; rw [ha4]; exact hu.solve (Or.inr hn)
  obtain ⟨m1, h1, h2 | h2⟩ := leaves_solve hf (halts_of_ending hs) (a + 1) e1 e2
  · obtain ⟨m2, h3, h4⟩ := mv (b' := .setDoneSolving) (by decide) (fun s hs => by unfold stepBackend; rw [hs]) m1 h2
    obtain ⟨m3, h5, h6⟩ := mv (b' := .setConcluding) (by decide) (fun s hs => by unfold stepBackend; rw [hs]) m2 h4
    obtain ⟨c, h7, -, hc2, hc3, -, hc4⟩ := backend_next hf m3 (by rw [h6]; decide)
    have f1 : (stateAt P σ (c + 1)).backend = .inConclude := by rw [hc2]; unfold stepBackend; rw [hc3, h6]
    have f2 : (stateAt P σ (c + 1)).concludeReads = [] := by
      rw [hc2]; unfold stepBackend; rw [hc3, h6]; simp only; rw [hc4]
      exact (unread m3).conclude (by simp [h6])
    obtain ⟨m4, h8, h9 | h9⟩ := leaves_conclude hf (halts_of_ending hc) (c + 1) f1 f2
    · obtain ⟨m5, h10, h11⟩ := mv (b' := .setDoneConcluding) (by decide) (fun s hs => by unfold stepBackend; rw [hs]) m4 h9
      obtain ⟨m6, h12, h13⟩ := mv (b' := .lower) (by decide) (fun s hs => by unfold stepBackend; rw [hs]) m5 h11
      obtain ⟨m7, h14, h15⟩ := mv (b' := .finished) (by decide) (fun s hs => by unfold stepBackend; rw [hs]) m6 h13
      exact ⟨m7, by omega, h15⟩
    · obtain ⟨m5, h10, h11⟩ := crash m4 h9
      exact ⟨m5, by omega, h11⟩
  · obtain ⟨m2, h3, h4⟩ := crash m1 h2
    exact ⟨m2, by omega, h4⟩

theorem finished_stays {n m : Nat} (hnm : n ≤ m) (hn : (stateAt P σ n).backend = .finished) :
    (stateAt P σ m).backend = .finished := by
  induction m, hnm using Nat.le_induction with
  | base => exact hn
  | succ m _ ih =>
    simp only [stateAt]
    cases σ m with
    | backend => simp only [step]; unfold stepBackend; rw [ih]; exact ih
    | main => simp only [step]; rw [main_backend (by rw [ih]; decide) (sync m)]; exact ih
    | sigint => simp only [step]; rw [signal_backend]; exact ih

/-- How many steps the handler still makes at most. -/
def HPc.rank : HPc → Nat
  | .idle => 0
  | .readRunning => 6
  | .readSolving => 5
  | .clearSolving => 1
  | .readDoneSolving => 4
  | .readConcluding => 3
  | .clearConcluding => 2
  | .clearCli => 1

theorem backend_main (s : State) : (stepBackend P s).main = s.main ∧ (stepBackend P s).handler = s.handler := by
  unfold stepBackend
  cases s.backend <;> simp only <;> (try split) <;> simp

/-- As long as the main thread makes no step, its place stays. -/
theorem main_waits {n m : Nat} (hnm : n ≤ m) (h : ∀ k, n ≤ k → k < m → σ k ≠ .main ∧ σ k ≠ .sigint) :
    (stateAt P σ m).main = (stateAt P σ n).main ∧ (stateAt P σ m).handler = (stateAt P σ n).handler := by
  induction m, hnm using Nat.le_induction with
  | base => exact ⟨rfl, rfl⟩
  | succ m hm ih =>
    obtain ⟨h1, h2⟩ := ih fun k hk hk' => h k hk (by omega)
    have h3 := h m hm (by omega)
    simp only [stateAt]
    cases hσ : σ m with
    | backend => simp only [step]; rw [(backend_main _).1, (backend_main _).2]; exact ⟨h1, h2⟩
    | main => exact absurd hσ h3.1
    | sigint => exact absurd hσ h3.2

/-- The next step of the main thread. -/
theorem main_next (hf : ∀ n, ∃ m ≥ n, σ m = .main) {N : Nat} (hN : ∀ n ≥ N, σ n ≠ .sigint) (n : Nat) (hn : N ≤ n) :
    ∃ m ≥ n, stateAt P σ (m + 1) = stepMain (stateAt P σ m) ∧ (stateAt P σ m).main = (stateAt P σ n).main ∧
      (stateAt P σ m).handler = (stateAt P σ n).handler := by
  obtain ⟨m, h1, h2, h3⟩ := first_after (σ := σ) (p := fun e => e = .main) hf n
  obtain ⟨h4, h5⟩ := main_waits (P := P) h1 fun k hk hk' => ⟨h3 k hk hk', hN k (by omega)⟩
  exact ⟨m, h1, by simp [stateAt, h2, step], h4, h5⟩

theorem handler_step {s : State} (h : s.handler ≠ .idle) :
    (stepMain s).main = s.main ∧ (stepMain s).handler.rank < s.handler.rank := by
  unfold stepMain
  rw [if_pos h]
  unfold stepHandler
  cases hh : s.handler <;> simp only [hh] at h ⊢ <;> (try split) <;>
    first | exact absurd rfl h | simp [HPc.rank]

/-- The handler returns, and the main thread is where it was. -/
theorem handler_returns (hf : ∀ n, ∃ m ≥ n, σ m = .main) {N : Nat} (hN : ∀ n ≥ N, σ n ≠ .sigint) :
    ∀ (r n : Nat), N ≤ n → (stateAt P σ n).handler.rank ≤ r →
      ∃ m ≥ n, (stateAt P σ m).handler = .idle ∧ (stateAt P σ m).main = (stateAt P σ n).main := by
  intro r
  induction r with
  | zero =>
    intro n _ hr
    refine ⟨n, Nat.le_refl _, ?_, rfl⟩
    revert hr
    cases (stateAt P σ n).handler <;> simp [HPc.rank]
  | succ r ih =>
    intro n hn hr
    by_cases h : (stateAt P σ n).handler = .idle
    · exact ⟨n, Nat.le_refl _, h, rfl⟩
    · obtain ⟨m, h1, h2, h3, h4⟩ := main_next (P := P) hf hN n hn
      have h5 := handler_step (s := stateAt P σ m) (by rw [h4]; exact h)
      obtain ⟨k, h6, h7, h8⟩ := ih (m + 1) (by omega) (by rw [h2]; rw [h4] at h5; omega)
      exact ⟨k, by omega, h7, by rw [h8, h2, h5.1, h3]⟩

/-- The main thread's own next step. -/
theorem main_own (hf : ∀ n, ∃ m ≥ n, σ m = .main) {N : Nat} (hN : ∀ n ≥ N, σ n ≠ .sigint) (n : Nat) (hn : N ≤ n) :
    ∃ m ≥ n, stateAt P σ (m + 1) = stepMain (stateAt P σ m) ∧ (stateAt P σ m).main = (stateAt P σ n).main ∧
      (stateAt P σ m).handler = .idle := by
  obtain ⟨k, h1, h2, h3⟩ := handler_returns (P := P) hf hN _ n hn (Nat.le_refl _)
  obtain ⟨m, h4, h5, h6, h7⟩ := main_next (P := P) hf hN k (by omega)
  exact ⟨m, by omega, h5, by rw [h6, h3], by rw [h7, h2]⟩

/-- A main thread that polls has started the backend thread. -/
theorem was_started (n : Nat) (h1 : (stateAt P σ n).main ≠ .raise) (h2 : (stateAt P σ n).main ≠ .start) :
    ∃ k, (stateAt P σ k).backend = .setSolving := by
  induction n with
  | zero => exact absurd rfl h1
  | succ n ih =>
    by_cases h : (stateAt P σ n).main = .raise ∨ (stateAt P σ n).main = .start
    · refine ⟨n + 1, ?_⟩
      simp only [stateAt] at h1 h2 ⊢
      cases hσ : σ n with
      | backend => rw [hσ] at h1 h2; simp only [step, (backend_main _).1] at h1 h2; exact (h.elim h1 h2).elim
      | sigint =>
        rw [hσ] at h1 h2
        have : (signal (stateAt P σ n)).main = (stateAt P σ n).main := by unfold signal; split <;> rfl
        simp only [step, this] at h1 h2
        exact (h.elim h1 h2).elim
      | main =>
        rw [hσ] at h1 h2
        simp only [step] at h1 h2 ⊢
        by_cases hh : (stateAt P σ n).handler = .idle
        · unfold stepMain at h1 h2 ⊢
          rw [if_neg (by simpa using hh)] at h1 h2 ⊢
          rcases h with h | h <;> simp_all
        · rw [(handler_step hh).1] at h1 h2
          exact (h.elim h1 h2).elim
    · exact ih (fun hc => h (Or.inl hc)) (fun hc => h (Or.inr hc))

/-- The main thread starts the backend thread. -/
theorem starts (hσ : Fair σ) : ∃ n, (stateAt P σ n).main ≠ .raise ∧ (stateAt P σ n).main ≠ .start := by
  obtain ⟨N, hN⟩ := hσ.signals
  have own : ∀ n ≥ N, ∃ m ≥ n, stateAt P σ (m + 1) = stepMain (stateAt P σ m) ∧ (stateAt P σ m).main = (stateAt P σ n).main ∧
      (stateAt P σ m).handler = .idle := fun n hn => main_own hσ.main hN n hn
  have two : ∀ n ≥ N, (stateAt P σ n).main = .start → ∃ n, (stateAt P σ n).main ≠ .raise ∧ (stateAt P σ n).main ≠ .start := by
    intro n hn h
    obtain ⟨m, -, h2, h3, h4⟩ := own n hn
    refine ⟨m + 1, ?_⟩
    rw [h2]
    unfold stepMain
    rw [if_neg (by simpa using h4), h3, h]
    exact ⟨by simp, by simp⟩
  by_cases h1 : (stateAt P σ N).main = .raise
  · obtain ⟨m, h5, h2, h3, h4⟩ := own N (Nat.le_refl _)
    refine two (m + 1) (by omega) ?_
    rw [h2]
    unfold stepMain
    rw [if_neg (by simpa using h4), h3, h1]
  · by_cases h2 : (stateAt P σ N).main = .start
    · exact two N (Nat.le_refl _) h2
    · exact ⟨N, h1, h2⟩

/-- The main thread returns. -/
theorem main_returns (hσ : Fair σ) (hs : Ending P.solve) (hc : Ending P.conclude) : ∃ n, (stateAt P σ n).main = .returned := by
  obtain ⟨N, hN⟩ := hσ.signals
  obtain ⟨n, hn1, hn2⟩ := starts (P := P) hσ
  obtain ⟨k, hk⟩ := was_started n hn1 hn2
  obtain ⟨f, -, hf⟩ := backend_finishes hσ.backend hs hc k hk
  have fin : ∀ m ≥ f, (stateAt P σ m).backend = .finished := fun m hm => finished_stays hm hf
  have joins : ∀ m ≥ max N f, (stateAt P σ m).main = .join → ∃ n, (stateAt P σ n).main = .returned := by
    intro m hm h
    obtain ⟨a, h1, h2, h3, h4⟩ := main_own (P := P) hσ.main hN m (by omega)
    refine ⟨a + 1, ?_⟩
    rw [h2]
    unfold stepMain
    rw [if_neg (by simpa using h4), h3, h]
    simp only
    rw [if_pos (fin a (by omega))]
  have hlast := fin (max N f) (by omega)
  have hS := sync (P := P) (σ := σ) (max N f)
  cases hm : (stateAt P σ (max N f)).main with
  | raise => rw [(hS.raise hm).1] at hlast; exact absurd hlast (by decide)
  | start => rw [(hS.start hm).1] at hlast; exact absurd hlast (by decide)
  | poll =>
    obtain ⟨a, h1, h2, h3, h4⟩ := main_own (P := P) hσ.main hN (max N f) (by omega)
    refine joins (a + 1) (by omega) ?_
    have hr : (stateAt P σ a).running = false :=
      ((sync a).up (by rw [h3, hm]; decide)).mpr (Or.inr (fin a (by omega)))
    rw [h2]
    unfold stepMain
    rw [if_neg (by simpa using h4), h3, hm]
    simp only
    rw [if_neg (by simp [hr])]
  | join => exact joins _ (Nat.le_refl _) hm
  | returned => exact ⟨_, hm⟩

end Satis.Run
