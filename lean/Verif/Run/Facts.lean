import Verif.Run.Model
import Mathlib.Tactic.Common
import Mathlib.Order.Basic
/-!
# Invariants of the threads
-/

namespace Satis.Run

variable {P : Program} {σ : Nat → Event}

/-- `BPc` before a phase of `run`. -/
def BPc.early (b : BPc) : Prop := b = .notStarted ∨ b = .setSolving

/-- Flags and places that belong together. -/
structure Sync (s : State) : Prop where
  raise : s.main = .raise → s.backend = .notStarted ∧ s.running = false
  start : s.main = .start → s.backend = .notStarted ∧ s.running = true
  started : s.main ≠ .raise → s.main ≠ .start → s.backend ≠ .notStarted
  up : s.main ≠ .raise → (s.running = false ↔ s.backend = .report ∨ s.backend = .finished)
  join : s.main = .join → s.running = false
  returned : s.main = .returned → s.backend = .finished
  quiet : s.backend = .notStarted ∨ s.backend = .setSolving → s.solving = false ∧ s.solveReads = []
  solved : s.backend = .setDoneSolving ∨ s.backend = .setConcluding ∨ s.backend = .inConclude ∨ s.backend = .clearConcluding ∨
    s.backend = .setDoneConcluding ∨ s.backend = .lower → s.solving = false
  done : s.backend = .setConcluding ∨ s.backend = .inConclude ∨ s.backend = .clearConcluding ∨
    s.backend = .setDoneConcluding ∨ s.backend = .lower → s.doneSolving = true

theorem sync_init : Sync init := by
  constructor <;> simp [init]

theorem sync_backend {s : State} (h : Sync s) : Sync (stepBackend P s) := by
  obtain ⟨h1, h2, h3, h4, h5, h6, h7, h8, h9⟩ := h
  unfold stepBackend
  cases hb : s.backend <;> simp only [hb] at h1 h2 h3 h4 h5 h6 h7 h8 h9 ⊢
  case inSolve => cases P.solve s.solveReads <;> constructor <;> simp_all
  case inConclude => cases P.conclude s.concludeReads <;> constructor <;> simp_all
  all_goals constructor <;> simp_all

theorem sync_main {s : State} (h : Sync s) : Sync (stepMain s) := by
  obtain ⟨h1, h2, h3, h4, h5, h6, h7, h8, h9⟩ := h
  unfold stepMain
  split
  · unfold stepHandler
    cases s.handler <;> simp only <;> (try split) <;> constructor <;> simp_all
  · cases hm : s.main <;> simp only [hm] at h1 h2 h3 h4 h5 h6 ⊢
    case poll => split <;> constructor <;> simp_all
    case join => split <;> constructor <;> simp_all
    all_goals constructor <;> simp_all

theorem sync_signal {s : State} (h : Sync s) : Sync (signal s) := by
  obtain ⟨h1, h2, h3, h4, h5, h6, h7, h8, h9⟩ := h
  unfold signal
  split <;> constructor <;> simp_all

theorem sync_step {s : State} (h : Sync s) (e : Event) : Sync (step P s e) := by
  cases e
  · exact sync_backend h
  · exact sync_main h
  · exact sync_signal h

theorem sync (n : Nat) : Sync (stateAt P σ n) := by
  induction n with
  | zero => exact sync_init
  | succ n ih => exact sync_step ih _

/-- How the two programs ended, as far as the backend thread has got. -/
structure Ended (P : Program) (s : State) : Prop where
  solved : s.backend = .clearSolving ∨ s.backend = .setDoneSolving ∨ s.backend = .setConcluding ∨ s.backend = .inConclude ∨
    s.backend = .clearConcluding ∨ s.backend = .setDoneConcluding ∨ s.backend = .lower → P.solve s.solveReads = .ret
  concluded : s.backend = .clearConcluding ∨ s.backend = .setDoneConcluding ∨ s.backend = .lower → P.conclude s.concludeReads = .ret
  cleared : s.backend = .setDoneConcluding ∨ s.backend = .lower → s.concluding = false
  low : s.backend = .lower → s.doneConcluding = true
  before : s.backend ≠ .lower → s.backend ≠ .finished → s.doneConcluding = false
  crashed : s.backend = .crash ∨ s.backend = .report → P.solve s.solveReads = .raise ∨ (P.solve s.solveReads = .ret ∧ P.conclude s.concludeReads = .raise)
  finished : s.backend = .finished → (s.doneConcluding = true ∧ P.solve s.solveReads = .ret ∧ P.conclude s.concludeReads = .ret ∧ s.solving = false ∧
      s.concluding = false ∧ s.doneSolving = true) ∨
    (s.doneConcluding = false ∧ (P.solve s.solveReads = .raise ∨ (P.solve s.solveReads = .ret ∧ P.conclude s.concludeReads = .raise)))

theorem ended_init : Ended P init := by
  constructor <;> simp [init]

theorem ended_backend {s : State} (w : Sync s) (h : Ended P s) : Ended P (stepBackend P s) := by
  obtain ⟨-, -, -, -, -, -, -, h8, h9⟩ := w
  obtain ⟨h1, h2, h3, h4, h5, h6, h7⟩ := h
  unfold stepBackend
  cases hb : s.backend <;> simp only [hb] at h1 h2 h3 h4 h5 h6 h7 h8 h9 ⊢
  case inSolve => cases hP : P.solve s.solveReads <;> constructor <;> simp_all
  case inConclude => cases hP : P.conclude s.concludeReads <;> constructor <;> simp_all
  all_goals constructor <;> simp_all

/-- The handler only lowers flags. -/
theorem Ended.lowered {s s' : State} (h : Ended P s) (e1 : s'.backend = s.backend) (e2 : s'.solveReads = s.solveReads)
    (e3 : s'.concludeReads = s.concludeReads) (e4 : s'.doneConcluding = s.doneConcluding) (e5 : s'.doneSolving = s.doneSolving)
    (e6 : s.solving = false → s'.solving = false) (e7 : s.concluding = false → s'.concluding = false) : Ended P s' := by
  obtain ⟨h1, h2, h3, h4, h5, h6, h7⟩ := h
  rw [← e1, ← e2] at h1
  rw [← e1, ← e3] at h2
  rw [← e1] at h3
  rw [← e1, ← e4] at h4
  rw [← e1, ← e4] at h5
  rw [← e1, ← e2, ← e3] at h6
  rw [← e1, ← e2, ← e3, ← e4, ← e5] at h7
  refine ⟨h1, h2, fun q => e7 (h3 q), h4, h5, h6, fun q => ?_⟩
  rcases h7 q with ⟨a, b, c, d, e, f⟩ | w
  · exact .inl ⟨a, b, c, e6 d, e7 e, f⟩
  · exact .inr w

theorem ended_main {s : State} (w : Sync s) (h : Ended P s) : Ended P (stepMain s) := by
  unfold stepMain
  split
  · unfold stepHandler
    cases s.handler <;> simp only <;> (try split) <;> first | exact h | exact h.lowered rfl rfl rfl rfl rfl (fun q => q) (fun q => q) |
      exact h.lowered rfl rfl rfl rfl rfl (fun _ => rfl) (fun q => q) | exact h.lowered rfl rfl rfl rfl rfl (fun q => q) (fun _ => rfl)
  · cases hm : s.main <;> simp only
    case start =>
      have hb := (w.start hm).1
      have := h.before (by rw [hb]; decide) (by rw [hb]; decide)
      constructor <;> simp_all
    case raise => exact h.lowered rfl rfl rfl rfl rfl (fun q => q) (fun q => q)
    case returned => exact h
    all_goals split <;> first | exact h | exact h.lowered rfl rfl rfl rfl rfl (fun q => q) (fun q => q)

theorem ended_signal {s : State} (h : Ended P s) : Ended P (signal s) := by
  obtain ⟨h1, h2, h3, h4, h5, h6, h7⟩ := h
  unfold signal
  split <;> constructor <;> simp_all

theorem ended (n : Nat) : Ended P (stateAt P σ n) := by
  induction n with
  | zero => exact ended_init
  | succ n ih =>
    show Ended P (step P (stateAt P σ n) (σ n))
    cases σ n
    · exact ended_backend (sync n) ih
    · exact ended_main (sync n) ih
    · exact ended_signal ih

end Satis.Run
