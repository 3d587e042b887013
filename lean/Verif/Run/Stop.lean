import Verif.Run.Progress
/-!
# What a request to stop does
-/

namespace Satis.Run

variable {P : Program} {σ : Nat → Event}

/-- The reads of both programs are `true` first and `false` then, and `true` only while the flag has not been cleared. -/
structure Monotone (s : State) : Prop where
  solve : ∃ k j, s.solveReads = List.replicate k true ++ List.replicate j false ∧ (s.solving = true → j = 0)
  conclude : ∃ k j, s.concludeReads = List.replicate k true ++ List.replicate j false ∧ (s.concluding = true → j = 0)

theorem grow {l : List Bool} {b : Bool} (h : ∃ k j, l = List.replicate k true ++ List.replicate j false ∧ (b = true → j = 0)) :
    ∃ k j, l ++ [b] = List.replicate k true ++ List.replicate j false ∧ (b = true → j = 0) := by
  obtain ⟨k, j, h1, h2⟩ := h
  cases b with
  | true =>
    obtain rfl := h2 rfl
    refine ⟨k + 1, 0, ?_, fun _ => rfl⟩
    rw [h1, List.replicate_succ']
    simp
  | false =>
    refine ⟨k, j + 1, ?_, by simp⟩
    rw [h1, List.replicate_succ']
    simp

theorem monotone (n : Nat) : Monotone (stateAt P σ n) := by
  induction n with
  | zero => exact ⟨⟨0, 0, rfl, fun _ => rfl⟩, ⟨0, 0, rfl, fun _ => rfl⟩⟩
  | succ n ih =>
    have hs := sync (P := P) (σ := σ) n
    have hu := unread (P := P) (σ := σ) n
    generalize hgen : stateAt P σ n = s at ih hs hu
    obtain ⟨h1, h2⟩ := ih
    have h1' : ∃ k j, s.solveReads = List.replicate k true ++ List.replicate j false ∧ ((false : Bool) = true → j = 0) := by
      obtain ⟨k, j, h, -⟩ := h1; exact ⟨k, j, h, by simp⟩
    have h2' : ∃ k j, s.concludeReads = List.replicate k true ++ List.replicate j false ∧ ((false : Bool) = true → j = 0) := by
      obtain ⟨k, j, h, -⟩ := h2; exact ⟨k, j, h, by simp⟩
    simp only [stateAt, hgen]
    cases σ n with
    | backend =>
      simp only [step]
      unfold stepBackend
      cases hb : s.backend <;> simp only
      case setSolving => exact ⟨⟨0, 0, by rw [(hs.quiet (Or.inr hb)).2]; rfl, fun _ => rfl⟩, h2⟩
      case setConcluding => exact ⟨h1, ⟨0, 0, by rw [hu.conclude (by simp [hb])]; rfl, fun _ => rfl⟩⟩
      case inSolve =>
        cases P.solve s.solveReads
        · exact ⟨grow h1, h2⟩
        · exact ⟨h1, h2⟩
        · exact ⟨h1, h2⟩
      case inConclude =>
        cases P.conclude s.concludeReads
        · exact ⟨h1, grow h2⟩
        · exact ⟨h1, h2⟩
        · exact ⟨h1, h2⟩
      case clearSolving => exact ⟨h1', h2⟩
      case clearConcluding => exact ⟨h1, h2'⟩
      all_goals exact ⟨h1, h2⟩
    | main =>
      simp only [step]
      unfold stepMain
      split
      · unfold stepHandler
        cases s.handler <;> simp only
        case clearSolving => exact ⟨h1', h2⟩
        case clearConcluding => exact ⟨h1, h2'⟩
        all_goals first | exact ⟨h1, h2⟩ | (split <;> exact ⟨h1, h2⟩)
      · cases s.main <;> simp only
        all_goals first | exact ⟨h1, h2⟩ | (split <;> exact ⟨h1, h2⟩)
    | sigint =>
      simp only [step]
      unfold signal
      split <;> exact ⟨h1, h2⟩

/-- `solve` has begun, and its flag is down or about to come down. -/
structure Lowering (s : State) : Prop where
  begun : s.backend ≠ .notStarted ∧ s.backend ≠ .setSolving
  flag : s.handler = .readSolving ∨ s.handler = .clearSolving ∨ s.solving = false

theorem Lowering.step {s : State} (h : Lowering s) (hs : Sync s) (e : Event) : Lowering (step P s e) := by
  obtain ⟨⟨h1, h2⟩, h3⟩ := h
  cases e with
  | backend =>
    simp only [Run.step]
    refine ⟨?_, ?_⟩
    · unfold stepBackend
      cases hb : s.backend <;> simp_all <;> split <;> simp_all
    · rw [(backend_main s).2]
      unfold stepBackend
      cases hb : s.backend <;> simp_all <;> split <;> simp_all
  | main =>
    simp only [Run.step]
    refine ⟨by rw [main_backend h1 hs]; exact ⟨h1, h2⟩, ?_⟩
    unfold stepMain
    split
    · unfold stepHandler
      cases hh : s.handler <;> simp_all <;> split <;> simp_all
    · cases s.main <;> simp_all <;> split <;> simp_all
  | sigint =>
    simp only [Run.step]
    refine ⟨by rw [signal_backend]; exact ⟨h1, h2⟩, ?_⟩
    unfold signal
    split <;> simp_all

/-- The reads of `solve` after its flag has come down for good. -/
theorem solve_reads_false {m : Nat} (h1 : (stateAt P σ m).backend ≠ .notStarted ∧ (stateAt P σ m).backend ≠ .setSolving)
    (h2 : (stateAt P σ m).solving = false) : ∀ k ≥ m, ((stateAt P σ k).backend ≠ .notStarted ∧ (stateAt P σ k).backend ≠ .setSolving) ∧
      (stateAt P σ k).solving = false ∧ ∃ j, (stateAt P σ k).solveReads = (stateAt P σ m).solveReads ++ List.replicate j false := by
  intro k hk
  induction k, hk using Nat.le_induction with
  | base => exact ⟨h1, h2, 0, by simp⟩
  | succ k _ ih =>
    obtain ⟨h3, h4, j, h5⟩ := ih
    have hs := sync (P := P) (σ := σ) k
    simp only [stateAt]
    generalize stateAt P σ k = s at *
    cases σ k with
    | backend =>
      simp only [Run.step]
      unfold stepBackend
      cases hb : s.backend <;> simp only [hb] at h3 ⊢
      case inSolve =>
        cases P.solve s.solveReads
        · exact ⟨⟨by simp [hb], by simp [hb]⟩, h4, j + 1, by rw [h4, h5, List.replicate_succ', List.append_assoc]⟩
        · exact ⟨⟨by simp, by simp⟩, h4, j, h5⟩
        · exact ⟨⟨by simp, by simp⟩, h4, j, h5⟩
      case inConclude =>
        cases P.conclude s.concludeReads
        · exact ⟨⟨by simp [hb], by simp [hb]⟩, h4, j, h5⟩
        · exact ⟨⟨by simp, by simp⟩, h4, j, h5⟩
        · exact ⟨⟨by simp, by simp⟩, h4, j, h5⟩
      case notStarted => exact absurd rfl h3.1
      case setSolving => exact absurd rfl h3.2
      all_goals exact ⟨⟨by simp_all, by simp_all⟩, by simp_all, j, h5⟩
    | main =>
      simp only [Run.step]
      rw [main_backend h3.1 hs, (main_reads s).1]
      refine ⟨h3, ?_, j, h5⟩
      unfold stepMain
      split
      · unfold stepHandler
        cases s.handler <;> simp only <;> (try split) <;> first | exact h4 | rfl
      · cases s.main <;> simp only <;> (try split) <;> exact h4
    | sigint =>
      simp only [Run.step]
      rw [signal_backend, (signal_reads s).1]
      refine ⟨h3, ?_, j, h5⟩
      unfold signal
      split <;> exact h4

/-- The backend thread has entered `conclude`, or has ended before. -/
def BPc.late (b : BPc) : Prop := b ∈ [BPc.inConclude, .clearConcluding, .setDoneConcluding, .lower, .crash, .report, .finished]

instance (b : BPc) : Decidable b.late := inferInstanceAs (Decidable (b ∈ _))

theorem late_backend {s : State} (h : s.backend.late) : (stepBackend P s).backend.late := by
  unfold stepBackend
  cases hb : s.backend <;> simp only [hb] at h ⊢
  case inConclude => cases P.conclude s.concludeReads <;> simp only <;> (try rw [hb]) <;> decide
  all_goals first | decide | exact absurd h (by decide)

theorem late_step {s : State} (hs : Sync s) (h : s.backend.late) (e : Event) : (step P s e).backend.late := by
  cases e with
  | backend => exact late_backend h
  | main =>
    simp only [Run.step]
    rw [main_backend (fun hb => by rw [hb] at h; exact absurd h (by decide)) hs]
    exact h
  | sigint => simp only [Run.step]; rw [signal_backend]; exact h

/-- `conclude` has begun, and its flag is down or about to come down. -/
structure Lowering' (s : State) : Prop where
  late : s.backend.late
  solving : s.solving = false
  done : s.doneSolving = true
  flag : s.handler = .readSolving ∨ s.handler = .readDoneSolving ∨ s.handler = .readConcluding ∨ s.handler = .clearConcluding ∨
    s.concluding = false

theorem Lowering'.step {s : State} (h : Lowering' s) (hs : Sync s) (e : Event) : Lowering' (step P s e) := by
  have hl := late_step (P := P) hs h.late e
  obtain ⟨h1, h2, h3, h4⟩ := h
  cases e with
  | backend =>
    simp only [Run.step] at hl ⊢
    have hm := (backend_main (P := P) s).2
    unfold stepBackend at hl hm ⊢
    cases hb : s.backend <;> simp only [hb] at h1 hl hm ⊢
    case inConclude => cases hp : P.conclude s.concludeReads <;> simp only [hp] at hl ⊢ <;> exact ⟨hl, h2, h3, h4⟩
    case clearConcluding => exact ⟨hl, h2, h3, by simp⟩
    case finished => exact ⟨by rw [hb]; decide, h2, h3, h4⟩
    all_goals first | exact ⟨hl, h2, h3, h4⟩ | exact absurd h1 (by decide)
  | main =>
    simp only [Run.step] at hl ⊢
    unfold stepMain at hl ⊢
    split
    · rename_i hh
      rw [if_pos hh] at hl
      unfold stepHandler at hl ⊢
      cases hh : s.handler <;> simp only [hh] at hl ⊢ <;> (try split) <;> constructor <;> simp_all
    · rename_i hh
      rw [if_neg hh] at hl
      cases hm : s.main <;> simp only [hm] at hl ⊢ <;> (try split) <;> constructor <;> simp_all
  | sigint =>
    simp only [Run.step] at hl ⊢
    unfold signal at hl ⊢
    split <;> constructor <;> simp_all

/-- The reads of `conclude` after its flag has come down for good. -/
theorem conclude_reads_false {m : Nat} (h1 : (stateAt P σ m).backend.late)
    (h2 : (stateAt P σ m).concluding = false) : ∀ k ≥ m, (stateAt P σ k).backend.late ∧ (stateAt P σ k).concluding = false ∧
      ∃ j, (stateAt P σ k).concludeReads = (stateAt P σ m).concludeReads ++ List.replicate j false := by
  intro k hk
  induction k, hk using Nat.le_induction with
  | base => exact ⟨h1, h2, 0, by simp⟩
  | succ k _ ih =>
    obtain ⟨h3, h4, j, h5⟩ := ih
    have hs := sync (P := P) (σ := σ) k
    have hl := late_step (P := P) hs h3 (σ k)
    refine ⟨hl, ?_⟩
    simp only [stateAt]
    generalize stateAt P σ k = s at *
    cases σ k with
    | backend =>
      simp only [Run.step]
      unfold stepBackend
      cases hb : s.backend <;> simp only [hb] at h3 ⊢
      case inConclude =>
        cases P.conclude s.concludeReads
        · exact ⟨h4, j + 1, by rw [h4, h5, List.replicate_succ', List.append_assoc]⟩
        · exact ⟨h4, j, h5⟩
        · exact ⟨h4, j, h5⟩
      case clearConcluding => exact ⟨by simp, j, h5⟩
      all_goals first | exact ⟨h4, j, h5⟩ | exact absurd h3 (by decide)
    | main =>
      simp only [Run.step]
      rw [(main_reads s).2]
      refine ⟨?_, j, h5⟩
      unfold stepMain
      split
      · unfold stepHandler
        cases s.handler <;> simp only <;> (try split) <;> first | exact h4 | rfl
      · cases s.main <;> simp only <;> (try split) <;> exact h4
    | sigint =>
      simp only [Run.step]
      rw [(signal_reads s).2]
      refine ⟨?_, j, h5⟩
      unfold signal
      split <;> exact h4

/-- The handler goes on to `stop()`. -/
theorem request_step {s : State} (h1 : s.handler = .readRunning) (h2 : s.running = true) :
    stepMain s = { s with handler := .readSolving } := by
  unfold stepMain stepHandler
  rw [if_pos (by rw [h1]; decide), h1]
  simp [h2]

end Satis.Run
