import Verif.Run.Session
/-!
# Facts about the prompt loop
-/

namespace Satis.Run

variable {W : World} {u : Nat → Option Answer} {σ : Nat → Event}

/-! ## Steps that leave parts alone -/

theorem backend_cli (P : Program) (s : State) : (stepBackend P s).cli = s.cli := by
  unfold stepBackend
  cases s.backend <;> simp only <;> split <;> rfl

theorem backend_handler (P : Program) (s : State) : (stepBackend P s).handler = s.handler := by
  unfold stepBackend
  cases s.backend <;> simp only <;> split <;> rfl

theorem backend_idle (P : Program) {s : State} (h : s.backend = .notStarted ∨ s.backend = .finished) : stepBackend P s = s := by
  unfold stepBackend
  rcases h with h | h <;> rw [h]

theorem handler_rest (s : State) : (stepHandler s).running = s.running ∧ (stepHandler s).backend = s.backend ∧
    (stepHandler s).main = s.main := by
  unfold stepHandler
  cases s.handler <;> simp only <;> (try split) <;> simp

/-! ## What holds at every time -/

/-- No run is in progress. -/
def Quiet (s : State) : Prop :=
  s.running = false ∧ (s.backend = .notStarted ∨ s.backend = .finished) ∧ (s.handler = .idle ∨ s.handler = .readRunning ∨ s.handler = .clearCli)

/-- The places of the session and its flags. -/
structure Consistent (s : Session) : Prop where
  quiet : s.pc ≠ .inRun → Quiet s.flags
  sync : s.pc = .inRun → Sync s.flags
  prompt : s.pc = .prompt → s.flags.handler = .idle ∧ s.flags.cli = true
  closes : s.closes = if s.pc = .clear ∨ s.pc = .ended then 1 else 0
  ended : s.pc = .ended → s.flags.cli = false ∧ s.flags.handler = .idle
  compare : s.pc = .compare → ∃ l, s.userInput = some l
  /-- `user_input` is the line on which `main` works. -/
  line : s.pc = .load ∨ s.pc = .inRun ∨ s.pc = .resetInput → s.userInput = s.mains.getLast? ∧ s.mains ≠ []
  input : s.pc = .setRunning ∨ s.pc = .check ∨ s.pc = .prompt → s.userInput = none

theorem quiet_handler {s : State} (h : Quiet s) : Quiet (stepHandler s) := by
  obtain ⟨h1, h2, h3⟩ := h
  unfold Quiet stepHandler
  rcases h3 with h3 | h3 | h3 <;> simp [h1, h2, h3]

theorem consistent_init : Consistent Session.init := by
  constructor <;> simp [Session.init, Quiet, init]

theorem quiet_backend {P : Program} {s : State} (h : Quiet s) : Quiet (stepBackend P s) := by
  rw [backend_idle P h.2.1]
  exact h

theorem consistent_backend {s : Session} {P : Program} (h : Consistent s) : Consistent { s with flags := stepBackend P s.flags } := by
  obtain ⟨h1, h2, h3, h4, h5, h6, h7, h8⟩ := h
  refine ⟨fun hp => quiet_backend (h1 hp), fun hp => sync_backend (h2 hp), fun hp => ?_, h4, fun hp => ?_, h6, h7, h8⟩
  · rw [backend_cli, backend_handler]
    exact h3 hp
  · rw [backend_cli, backend_handler]
    exact h5 hp

theorem consistent_signal {s : Session} (h : Consistent s) : Consistent s.signal := by
  obtain ⟨h1, h2, h3, h4, h5, h6, h7, h8⟩ := h
  unfold Session.signal
  split
  · exact ⟨h1, h2, h3, h4, h5, h6, h7, h8⟩
  · rename_i hi
    rw [not_not] at hi
    have hsig : Sync s.flags → Sync { s.flags with handler := .readRunning } := by
      rintro ⟨a1, a2, a3, a4, a5, a6, a7, a8, a9⟩
      exact ⟨a1, a2, a3, a4, a5, a6, a7, a8, a9⟩
    have hq : Quiet s.flags → Quiet { s.flags with handler := .readRunning } := by
      rintro ⟨a1, a2, -⟩
      exact ⟨a1, a2, by simp⟩
    split
    · rename_i hp
      constructor <;> simp_all
    · exact ⟨h1, h2, h3, h4, h5, h6, h7, h8⟩
    · rename_i hp1 hp2
      exact ⟨fun hp => hq (h1 hp), fun hp => hsig (h2 hp), fun hp => absurd hp hp1, h4, fun hp => absurd hp hp2, h6, h7, h8⟩

theorem consistent_main {s : Session} {a : Option Answer} (h : Consistent s) : Consistent (s.stepMain W a) := by
  obtain ⟨h1, h2, h3, h4, h5, h6, h7, h8⟩ := h
  unfold Session.stepMain
  split
  · rename_i hi
    refine ⟨fun hp => quiet_handler (h1 hp), fun hp => ?_, fun hp => absurd (h3 hp).1 hi, h4, fun hp => absurd (h5 hp).2 hi, h6, h7, h8⟩
    have := sync_main (h2 hp)
    rwa [stepMain, if_pos hi] at this
  · rename_i hi
    rw [not_not] at hi
    cases hp : s.pc <;> simp only [hp] at h1 h2 h3 h4 h5 h6 h7 h8 ⊢
    case setRunning =>
      refine ⟨fun _ => ⟨(h1 (by simp)).1, (h1 (by simp)).2.1, (h1 (by simp)).2.2⟩, ?_, ?_, ?_, ?_, ?_, ?_, ?_⟩ <;> simp_all
    case check => split <;> constructor <;> simp_all
    case prompt => split <;> constructor <;> simp_all
    case compare =>
      obtain ⟨l, hl⟩ := h6 trivial
      simp only [hl]
      split <;> constructor <;> simp_all
    case load =>
      split
      · refine ⟨by simp, fun _ => ?_, by simp, by simp_all, by simp, by simp, by simp_all, by simp⟩
        constructor <;> simp [init]
      · constructor <;> simp_all
    case inRun =>
      split
      · rename_i hr
        have hsync := h2 trivial
        refine ⟨fun _ => ⟨(hsync.up (by simp [hr])).mpr (Or.inr (hsync.returned hr)), Or.inr (hsync.returned hr), Or.inl hi⟩, ?_, ?_, ?_, ?_, ?_, ?_, ?_⟩ <;>
          simp_all
      · refine ⟨by simp, fun _ => sync_main (h2 trivial), by simp, by simp_all, by simp, by simp, by simp_all, by simp⟩
    case resetInput => constructor <;> simp_all
    case close => constructor <;> simp_all
    case clear =>
      obtain ⟨a1, a2, a3⟩ := h1 (by simp)
      refine ⟨fun _ => ⟨a1, a2, a3⟩, ?_, ?_, ?_, ?_, ?_, ?_, ?_⟩ <;> simp_all
    case ended => constructor <;> simp_all

theorem consistent (n : Nat) : Consistent (sessionAt W u σ n) := by
  induction n with
  | zero => exact consistent_init
  | succ n ih =>
    simp only [sessionAt, Session.step]
    cases σ n
    · exact consistent_backend ih
    · exact consistent_main ih
    · exact consistent_signal ih


/-! ## The lines -/

/-- The lines entered at the prompt in the first `n` steps. -/
def entered (W : World) (u : Nat → Option Answer) (σ : Nat → Event) : Nat → List (List Char)
  | 0 => []
  | n + 1 => entered W u σ n ++
      if (sessionAt W u σ n).pc = .prompt ∧ σ n = .main then
        match u n with
        | some (.line l) => [l]
        | _ => []
      else []

/-- The loop is over. -/
def CPc.over (p : CPc) : Prop := p = .close ∨ p = .clear ∨ p = .ended

instance (p : CPc) : Decidable p.over := inferInstanceAs (Decidable (_ ∨ _))

theorem signal_fields (s : Session) : s.signal.mains = s.mains ∧ s.signal.userInput = s.userInput ∧
    (s.signal.pc = s.pc ∨ s.pc = .prompt ∧ s.signal.pc = .close) := by
  unfold Session.signal
  split
  · exact ⟨rfl, rfl, Or.inl rfl⟩
  · cases hp : s.pc <;> simp only [hp] <;> simp

/-- The lines entered are those for which `main` was called, and perhaps one more: the one just compared, or an exit word. -/
theorem lines (n : Nat) :
    (entered W u σ n = (sessionAt W u σ n).mains ∧ (sessionAt W u σ n).pc ≠ .compare) ∨
      ∃ l, entered W u σ n = (sessionAt W u σ n).mains ++ [l] ∧
        ((sessionAt W u σ n).pc = .compare ∧ (sessionAt W u σ n).userInput = some l ∨
          (sessionAt W u σ n).pc.over ∧ l ∈ exitWords) := by
  induction n with
  | zero => exact Or.inl ⟨rfl, by simp [sessionAt, Session.init]⟩
  | succ n ih =>
    have hc := consistent (W := W) (u := u) (σ := σ) n
    simp only [entered, sessionAt]
    generalize sessionAt W u σ n = s at ih hc ⊢
    generalize entered W u σ n = l at ih ⊢
    cases hσ : σ n with
    | backend => simpa [Session.step] using ih
    | sigint =>
      obtain ⟨h1, h2, h3⟩ := signal_fields s
      simp only [Session.step, h1, h2]
      rcases h3 with h3 | ⟨h3, h4⟩
      · simpa [h3] using ih
      · simp_all [CPc.over]
    | main =>
      simp only [Session.step, and_true]
      by_cases hi : s.flags.handler = .idle
      · by_cases hpp : s.pc = .prompt
        · rw [if_pos hpp]
          simp only [hpp, CPc.over, reduceCtorEq] at ih
          have e : l = s.mains := by simpa using ih
          unfold Session.stepMain
          rw [if_neg (by simpa using hi)]
          simp only [hpp]
          rcases u n with _ | _ | _ <;> simp_all
        · rw [if_neg hpp, List.append_nil]
          unfold Session.stepMain
          rw [if_neg (by simpa using hi)]
          cases hp : s.pc <;> simp only [hp, CPc.over] at ih ⊢
          case compare =>
            obtain ⟨l', hl'⟩ := hc.compare hp
            simp only [hl'] at ih ⊢
            split <;> simp_all
          case prompt => exact absurd hp hpp
          case check => split <;> simp_all
          case load => split <;> simp_all
          case inRun => split <;> simp_all
          all_goals simp_all
      · unfold Session.stepMain
        have hnp : s.pc ≠ .prompt := fun hp => hi (hc.prompt hp).1
        rw [if_neg hnp, if_pos hi]
        simpa using ih

/-! ## Requests to end -/

/-- At step `k` the user asks for the end: `exit`, `quit` or `q`, end of file or Ctrl+C at the prompt; or the handler finds
`backend.running` false. (Before `CLI.run` has set `running`, a signal has no effect.) -/
def EndRequest (W : World) (u : Nat → Option Answer) (σ : Nat → Event) (k : Nat) : Prop :=
  (sessionAt W u σ k).pc = .prompt ∧
      (σ k = .sigint ∨ σ k = .main ∧ (u k = some .eof ∨ ∃ l ∈ exitWords, u k = some (.line l))) ∨
    (sessionAt W u σ k).pc ≠ .setRunning ∧ ¬ (sessionAt W u σ k).pc.over ∧ (sessionAt W u σ k).flags.handler = .readRunning ∧
      (sessionAt W u σ k).flags.running = false ∧ σ k = .main

/-- The loop is about to end. -/
def Leaving (s : Session) : Prop :=
  s.pc.over ∨ s.pc = .compare ∧ (∃ l ∈ exitWords, s.userInput = some l) ∨
    s.pc ≠ .setRunning ∧ s.pc ≠ .prompt ∧ (s.flags.cli = false ∨ s.flags.handler = .clearCli)

theorem handler_cli {s : State} (h : s.cli = false ∨ s.handler = .clearCli) : (stepHandler s).cli = false := by
  unfold stepHandler
  cases hh : s.handler <;> simp only <;> (try split) <;> simp_all

theorem leaving_step {s : Session} {a : Option Answer} {e : Event} (hc : Consistent s) (h : Leaving s) : Leaving (s.step W a e) := by
  cases e with
  | backend =>
    simp only [Session.step, Leaving, backend_cli, backend_handler]
    exact h
  | sigint =>
    simp only [Session.step]
    obtain ⟨h1, h2, h3⟩ := signal_fields s
    rcases h with h | ⟨h, h'⟩ | ⟨h, h', h''⟩
    · refine Or.inl ?_
      rcases h3 with h3 | ⟨h3, h4⟩
      · rwa [h3]
      · exact Or.inl h4
    · refine Or.inr (Or.inl ⟨?_, by rwa [h2]⟩)
      rcases h3 with h3 | ⟨h3, h4⟩
      · rwa [h3]
      · simp_all
    · refine Or.inr (Or.inr ?_)
      rcases h3 with h3 | ⟨h3, h4⟩
      · refine ⟨by rwa [h3], by rwa [h3], ?_⟩
        unfold Session.signal
        split
        · exact h''
        · rename_i hi
          rw [not_not] at hi
          simp only [hi, reduceCtorEq, or_false] at h''
          cases hp : s.pc <;> simp_all
      · exact absurd h3 h'
  | main =>
    simp only [Session.step]
    unfold Session.stepMain
    by_cases hi : s.flags.handler = .idle
    · rw [if_neg (by simpa using hi)]
      unfold Leaving CPc.over at h
      cases hp : s.pc <;> simp only [hp] at h ⊢
      case compare =>
        obtain ⟨l', hl'⟩ := hc.compare hp
        simp only [hl'] at h ⊢
        split <;> simp_all [Leaving, CPc.over]
      case prompt => simp at h
      case setRunning => simp at h
      case check => split <;> simp_all [Leaving, CPc.over]
      case load => split <;> simp_all [Leaving, CPc.over, init]
      case inRun =>
        split
        · simp_all [Leaving, CPc.over]
        · have : (stepMain s.flags).cli = s.flags.cli := by
            unfold stepMain
            rw [if_neg (by simpa using hi)]
            cases s.flags.main <;> simp only <;> split <;> rfl
          simp_all [Leaving, CPc.over]
      all_goals simp_all [Leaving, CPc.over]
    · rw [if_pos hi]
      rcases h with h | h | ⟨h, h', h''⟩
      · exact Or.inl h
      · exact Or.inr (Or.inl h)
      · exact Or.inr (Or.inr ⟨h, h', Or.inl (handler_cli h'')⟩)

/-- After a request the loop is about to end. -/
theorem leaving_after {k : Nat} (h : EndRequest W u σ k) : ∀ m > k, Leaving (sessionAt W u σ m) := by
  intro m hm
  induction m, hm using Nat.le_induction with
  | base =>
    have hc := consistent (W := W) (u := u) (σ := σ) k
    simp only [EndRequest] at h
    simp only [Nat.succ_eq_add_one, sessionAt]
    generalize sessionAt W u σ k = s at h hc ⊢
    rcases h with ⟨hp, h | ⟨h1, h2 | ⟨l, h2, h3⟩⟩⟩ | ⟨h1, h2, h3, h4, h5⟩
    · simp [h, Session.step, Session.signal, (hc.prompt hp).1, hp, Leaving, CPc.over]
    · simp [h1, h2, Session.step, Session.stepMain, (hc.prompt hp).1, hp, Leaving, CPc.over]
    · simp [h1, h3, Session.step, Session.stepMain, (hc.prompt hp).1, hp, Leaving, CPc.over, h2]
    · simp only [h5, Session.step, Session.stepMain, h3, ne_eq, reduceCtorEq, not_false_eq_true, if_true]
      have hnp : s.pc ≠ .prompt := fun hp => by simp [(hc.prompt hp).1] at h3
      exact Or.inr (Or.inr ⟨h1, hnp, Or.inr (by simp [stepHandler, h3, h4])⟩)
  | succ m _ ih => exact leaving_step (consistent m) ih

/-- The loop is about to end only after a request. -/
theorem leaving_requested {n : Nat} (h : Leaving (sessionAt W u σ n)) : ∃ k < n, EndRequest W u σ k := by
  induction n with
  | zero => simp [sessionAt, Session.init, Leaving, CPc.over] at h
  | succ n ih =>
    by_cases hl : Leaving (sessionAt W u σ n)
    · obtain ⟨k, hk, h⟩ := ih hl
      exact ⟨k, by omega, h⟩
    refine ⟨n, by omega, ?_⟩
    have hc := consistent (W := W) (u := u) (σ := σ) n
    simp only [sessionAt] at h
    simp only [EndRequest]
    generalize sessionAt W u σ n = s at h hl hc ⊢
    unfold Leaving at hl
    simp only [not_or] at hl
    obtain ⟨n1, n2, n3⟩ := hl
    cases hσ : σ n with
    | backend =>
      simp only [hσ, Session.step, Leaving, backend_cli, backend_handler] at h
      exact absurd h (by rintro (h | h | h) <;> contradiction)
    | sigint =>
      simp only [hσ, Session.step] at h
      by_cases hp : s.pc = .prompt
      · exact Or.inl ⟨hp, Or.inl rfl⟩
      · exfalso
        revert h
        unfold Session.signal
        split
        · rintro (h | h | h) <;> contradiction
        · cases hp' : s.pc <;> simp_all [Leaving, CPc.over]
    | main =>
      simp only [hσ, Session.step] at h
      unfold Session.stepMain at h
      by_cases hi : s.flags.handler = .idle
      · rw [if_neg (by simpa using hi)] at h
        cases hp : s.pc <;> simp only [hp] at h n1 n2 n3 ⊢
        case prompt =>
          refine Or.inl ⟨trivial, Or.inr ⟨trivial, ?_⟩⟩
          split at h
          · simp_all [Leaving, CPc.over]
          · exact Or.inl ‹_›
          · rename_i l hl
            refine Or.inr ⟨l, ?_, hl⟩
            simpa [Leaving, CPc.over, (hc.prompt hp).1, (hc.prompt hp).2] using h
        case compare =>
          obtain ⟨l', hl'⟩ := hc.compare hp
          simp only [hl'] at h n2
          split at h <;> simp_all [Leaving, CPc.over]
        case setRunning => simp_all [Leaving, CPc.over]
        case check => split at h <;> simp_all [Leaving, CPc.over]
        case load => split at h <;> simp_all [Leaving, CPc.over, init]
        case inRun =>
          split at h
          · simp_all [Leaving, CPc.over]
          · have e1 : (stepMain s.flags).cli = s.flags.cli := by
              unfold stepMain
              rw [if_neg (by simpa using hi)]
              cases s.flags.main <;> simp only <;> split <;> rfl
            have e2 : (stepMain s.flags).handler = s.flags.handler := by
              unfold stepMain
              rw [if_neg (by simpa using hi)]
              cases s.flags.main <;> simp only <;> split <;> rfl
            simp_all [Leaving, CPc.over]
        all_goals simp_all [Leaving, CPc.over]
      · rw [if_pos hi] at h
        simp only [Leaving] at h
        have hnp : s.pc ≠ .prompt := fun hp => hi (hc.prompt hp).1
        have hcl : s.pc ≠ .setRunning ∧ ((stepHandler s.flags).cli = false ∨ (stepHandler s.flags).handler = .clearCli) := by
          rcases h with h | h | ⟨h, -, h'⟩
          · exact absurd h n1
          · exact absurd h n2
          · exact ⟨h, h'⟩
        refine Or.inr ⟨hcl.1, n1, ?_⟩
        have n4 : s.flags.cli = true ∧ s.flags.handler ≠ .clearCli := by
          refine ⟨?_, ?_⟩
          · by_contra hx
            exact n3 ⟨hcl.1, hnp, Or.inl (by simpa using hx)⟩
          · intro hx
            exact n3 ⟨hcl.1, hnp, Or.inr hx⟩
        obtain ⟨-, h5⟩ := hcl
        revert h5
        unfold stepHandler
        cases hh : s.flags.handler <;> simp only <;> (try split) <;> simp_all

end Satis.Run
