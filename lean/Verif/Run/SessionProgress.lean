import Verif.Run.SessionFacts
/-!
# Progress of the prompt loop
-/

namespace Satis.Run

variable {W : World} {u : Nat → Option Answer} {σ : Nat → Event}

theorem HPc.rank_idle {h : HPc} : h.rank = 0 ↔ h = .idle := by cases h <;> simp [rank]

theorem handler_rank {s : State} (h : s.handler ≠ .idle) : (stepHandler s).handler.rank < s.handler.rank := by
  unfold stepHandler
  cases hh : s.handler <;> simp only <;> (try split) <;> simp_all [HPc.rank]

/-- Without signals and steps of the main thread, everything but the backend's flags stays. -/
theorem waits {n m : Nat} (hnm : n ≤ m) (h : ∀ k, n ≤ k → k < m → σ k = .backend) :
    (sessionAt W u σ m).pc = (sessionAt W u σ n).pc ∧ (sessionAt W u σ m).flags.handler = (sessionAt W u σ n).flags.handler := by
  induction m, hnm using Nat.le_induction with
  | base => exact ⟨rfl, rfl⟩
  | succ m hm ih =>
    have h1 := h m hm (by omega)
    simp only [sessionAt, h1, Session.step, backend_handler]
    exact ih fun k a b => h k a (by omega)

/-- The main thread is scheduled again and again outside of the handler. -/
theorem idle_main (hσ : Fair σ) (k : Nat) : ∃ m ≥ k, σ m = .main ∧ (sessionAt W u σ m).flags.handler = .idle := by
  obtain ⟨N, hN⟩ := hσ.signals
  have key : ∀ r k, N ≤ k → (sessionAt W u σ k).flags.handler.rank ≤ r →
      ∃ m ≥ k, σ m = .main ∧ (sessionAt W u σ m).flags.handler = .idle := by
    intro r
    induction r with
    | zero =>
      intro k hk hr
      obtain ⟨m, h1, h2, h3⟩ := first_after (p := (· = .main)) hσ.main k
      refine ⟨m, h1, h2, ?_⟩
      rw [(waits h1 fun j a b => ?_).2, ← HPc.rank_idle]
      · omega
      · have := hN j (by omega)
        have := h3 j a b
        cases hj : σ j <;> simp_all
    | succ r ih =>
      intro k hk hr
      obtain ⟨m, h1, h2, h3⟩ := first_after (p := (· = .main)) hσ.main k
      have h4 : (sessionAt W u σ m).flags.handler = (sessionAt W u σ k).flags.handler := by
        refine (waits h1 fun j a b => ?_).2
        have := hN j (by omega)
        have := h3 j a b
        cases hj : σ j <;> simp_all
      by_cases hi : (sessionAt W u σ m).flags.handler = .idle
      · exact ⟨m, h1, h2, hi⟩
      obtain ⟨m', a, b, c⟩ := ih (m + 1) (by omega) (by
        simp only [sessionAt, h2, Session.step, Session.stepMain, if_pos hi]
        have := handler_rank hi
        rw [h4] at this
        omega)
      exact ⟨m', by omega, b, c⟩
  obtain ⟨m, h1, h2⟩ := key _ (max k N) (le_max_right _ _) le_rfl
  exact ⟨m, (le_max_left _ _).trans h1, h2⟩

/-- A place of the loop is left only by a step of the main thread outside of the handler, or the prompt by a signal. -/
theorem pc_stays {s : Session} {a : Option Answer} {e : Event} (hp : s.pc ≠ .prompt) (h : ¬ (e = .main ∧ s.flags.handler = .idle)) :
    (s.step W a e).pc = s.pc ∧ (s.step W a e).mains = s.mains := by
  cases e with
  | backend => exact ⟨rfl, rfl⟩
  | sigint =>
    obtain ⟨h1, -, h3⟩ := signal_fields s
    exact ⟨by rcases h3 with h3 | h3; exacts [h3, absurd h3.1 hp], h1⟩
  | main =>
    simp only [Session.step, Session.stepMain]
    rw [if_pos (by simpa using h)]
    exact ⟨rfl, rfl⟩

/-- The next step of the main thread at a place other than the prompt. -/
theorem next_main (hσ : Fair σ) (k : Nat) (hp : (sessionAt W u σ k).pc ≠ .prompt) :
    ∃ m ≥ k, σ m = .main ∧ (sessionAt W u σ m).flags.handler = .idle ∧ (sessionAt W u σ m).pc = (sessionAt W u σ k).pc ∧
      (sessionAt W u σ m).mains = (sessionAt W u σ k).mains := by
  classical
  have hex : ∃ d, σ (k + d) = .main ∧ (sessionAt W u σ (k + d)).flags.handler = .idle := by
    obtain ⟨m, h1, h2⟩ := idle_main (W := W) (u := u) hσ k
    exact ⟨m - k, by rwa [Nat.add_sub_cancel' h1]⟩
  have hmin : ∀ d < Nat.find hex, _ := fun d hd => Nat.find_min hex hd
  have hstay : ∀ d ≤ Nat.find hex, (sessionAt W u σ (k + d)).pc = (sessionAt W u σ k).pc ∧
      (sessionAt W u σ (k + d)).mains = (sessionAt W u σ k).mains := by
    intro d hd
    induction d with
    | zero => exact ⟨rfl, rfl⟩
    | succ d ih =>
      obtain ⟨h1, h2⟩ := ih (by omega)
      obtain ⟨h3, h4⟩ := pc_stays (W := W) (a := u (k + d)) (by rw [h1]; exact hp) (hmin d (by omega))
      rw [← Nat.add_assoc, sessionAt]
      exact ⟨h3.trans h1, h4.trans h2⟩
  exact ⟨k + Nat.find hex, by omega, (Nat.find_spec hex).1, (Nat.find_spec hex).2, hstay _ le_rfl⟩

/-! ## A run inside of the session -/

/-- The flags without `CLI.running`. -/
def State.noCli (s : State) : State := { s with cli := true }

theorem noCli_handler (s : State) : (stepHandler s).noCli = (stepHandler s.noCli).noCli := by
  obtain ⟨a, b, c, d, e, f, p, m, h, x, y⟩ := s
  cases h
  case readRunning => cases a <;> rfl
  case readSolving => cases b <;> rfl
  case readDoneSolving => cases c <;> rfl
  case readConcluding => cases d <;> rfl
  all_goals rfl

theorem noCli_step (P : Program) (s : State) (e : Event) : (step P s e).noCli = (step P s.noCli e).noCli := by
  cases e with
  | backend =>
    obtain ⟨a, b, c, d, e, f, p, m, h, x, y⟩ := s
    cases p
    case inSolve => simp only [step, stepBackend, State.noCli]; cases P.solve x <;> rfl
    case inConclude => simp only [step, stepBackend, State.noCli]; cases P.conclude y <;> rfl
    all_goals rfl
  | main =>
    simp only [step, stepMain]
    by_cases hi : s.handler = .idle
    · have hi' : s.noCli.handler = .idle := hi
      rw [if_neg (not_not.mpr hi), if_neg (not_not.mpr hi')]
      obtain ⟨a, b, c, d, e, f, p, m, h, x, y⟩ := s
      cases m
      case poll => cases a <;> rfl
      case join => cases p <;> rfl
      all_goals rfl
    · have hi' : s.noCli.handler ≠ .idle := hi
      rw [if_pos hi, if_pos hi']
      exact noCli_handler s
  | sigint =>
    simp only [step, signal]
    by_cases h : s.handler = .idle ∧ s.main ≠ .returned
    · rw [if_pos h, if_pos (by exact h)]
      rfl
    · rw [if_neg h, if_neg (by exact h)]
      rfl

/-- Within a run, the session makes the steps of the run. -/
theorem inRun_step {s : Session} {a : Option Answer} {e : Event} (hp : s.pc = .inRun) (hr : s.flags.main ≠ .returned) :
    (s.step W a e).pc = .inRun ∧ (s.step W a e).mains = s.mains ∧ (s.step W a e).flags = step (W.program s.mains) s.flags e := by
  cases e with
  | backend => exact ⟨hp, rfl, rfl⟩
  | sigint =>
    simp only [Session.step, Session.signal, step, signal, hp]
    by_cases hi : s.flags.handler = .idle
    · simp [hi, hr, hp]
    · simp [hi, hp]
  | main =>
    simp only [Session.step, Session.stepMain, step, hp]
    by_cases hi : s.flags.handler = .idle
    · simp [hi, hr, hp]
    · simp [hi, hp, stepMain]

/-- A run that has begun at time `k`: as long as `main` has not returned, the session is in it, and the flags are those of the run. -/
theorem inRun_flags {k : Nat} (hp : (sessionAt W u σ k).pc = .inRun)
    (hi : (sessionAt W u σ k).flags.noCli = init) (j : Nat)
    (h : ∀ i < j, (stateAt (W.program (sessionAt W u σ k).mains) (fun n => σ (k + n)) i).main ≠ .returned) :
    (sessionAt W u σ (k + j)).pc = .inRun ∧ (sessionAt W u σ (k + j)).mains = (sessionAt W u σ k).mains ∧
      (sessionAt W u σ (k + j)).flags.noCli = (stateAt (W.program (sessionAt W u σ k).mains) (fun n => σ (k + n)) j).noCli := by
  induction j with
  | zero => exact ⟨hp, rfl, by rw [Nat.add_zero, hi]; rfl⟩
  | succ j ih =>
    obtain ⟨h1, h2, h3⟩ := ih fun i hi => h i (by omega)
    have h4 : (sessionAt W u σ (k + j)).flags.main ≠ .returned := by
      have : (sessionAt W u σ (k + j)).flags.noCli.main = _ := congrArg State.main h3
      exact fun e => h j (by omega) (this.symm.trans e)
    obtain ⟨h5, h6, h7⟩ := inRun_step (W := W) (a := u (k + j)) (e := σ (k + j)) h1 h4
    rw [← Nat.add_assoc, sessionAt]
    refine ⟨h5, h6.trans h2, ?_⟩
    rw [h7, h2, noCli_step, h3, ← noCli_step]
    rfl

/-- Every time within a run, the run has a beginning, and from there on the session is in it. -/
theorem inRun_begins {n : Nat} (hp : (sessionAt W u σ n).pc = .inRun) :
    ∃ k ≤ n, (sessionAt W u σ k).pc = .inRun ∧ (sessionAt W u σ k).flags.noCli = init ∧
      (sessionAt W u σ k).mains = (sessionAt W u σ n).mains ∧ ∀ j, k ≤ j → j ≤ n → (sessionAt W u σ j).pc = .inRun := by
  induction n with
  | zero => simp [sessionAt, Session.init] at hp
  | succ n ih =>
    by_cases hn : (sessionAt W u σ n).pc = .inRun
    · obtain ⟨k, h1, h2, h3, h4, h5⟩ := ih hn
      refine ⟨k, by omega, h2, h3, h4.trans ?_, fun j a b => ?_⟩
      · simp only [sessionAt] at hp ⊢
        by_cases hx : σ n = .main ∧ (sessionAt W u σ n).flags.handler = .idle
        · have hm : (sessionAt W u σ n).flags.main ≠ .returned := by
            intro e
            simp [hx.1, Session.step, Session.stepMain, hx.2, hn, e] at hp
          exact (inRun_step hn hm).2.1.symm
        · exact (pc_stays (by rw [hn]; simp) hx).2.symm
      · by_cases hj : j = n + 1
        · rw [hj]; exact hp
        · exact h5 j a (by omega)
    · refine ⟨n + 1, le_rfl, hp, ?_, rfl, fun j a b => by rw [show j = n + 1 by omega]; exact hp⟩
      simp only [sessionAt] at hp ⊢
      generalize sessionAt W u σ n = s at hp hn ⊢
      cases hσ : σ n with
      | backend => simp [hσ, Session.step, hn] at hp
      | sigint =>
        rw [hσ] at hp
        obtain ⟨-, -, h3⟩ := signal_fields s
        simp only [Session.step] at hp
        rcases h3 with h3 | ⟨-, h3⟩
        · exact absurd (h3.symm.trans hp) hn
        · rw [h3] at hp
          cases hp
      | main =>
        simp only [hσ, Session.step] at hp ⊢
        unfold Session.stepMain at hp ⊢
        by_cases hi : s.flags.handler = .idle
        · rw [if_neg (by simpa using hi)] at hp ⊢
          cases hpc : s.pc <;> simp only [hpc] at hp ⊢
          case load =>
            split at hp
            · rw [if_pos (by assumption)]
              rfl
            · simp at hp
          case prompt => split at hp <;> simp_all
          case check => split at hp <;> simp_all
          case compare => split at hp <;> (try split at hp) <;> simp_all
          case inRun => exact absurd hpc hn
          all_goals simp_all
        · rw [if_pos hi] at hp
          exact absurd hp hn

/-- A run ends. -/
theorem inRun_ends (hσ : Fair σ) (hs : ∀ l, Ending (W.program l).solve) (hc : ∀ l, Ending (W.program l).conclude) {n : Nat}
    (hp : (sessionAt W u σ n).pc = .inRun) : ∃ m > n, (sessionAt W u σ m).pc = .resetInput := by
  classical
  obtain ⟨k, h1, h2, h3, -, h5⟩ := inRun_begins hp
  have hshift : Fair fun n => σ (k + n) := by
    obtain ⟨a, b, N, c⟩ := hσ
    refine ⟨fun n => ?_, fun n => ?_, N, fun n hn => c _ (by omega)⟩
    · obtain ⟨m, h, h'⟩ := a (k + n)
      exact ⟨m - k, by omega, by rwa [Nat.add_sub_cancel' (by omega)]⟩
    · obtain ⟨m, h, h'⟩ := b (k + n)
      exact ⟨m - k, by omega, by rwa [Nat.add_sub_cancel' (by omega)]⟩
  have hex := main_returns (P := W.program (sessionAt W u σ k).mains) hshift (hs _) (hc _)
  have hfirst := Nat.find_spec hex
  have hmin : ∀ i < Nat.find hex, _ := fun i hi => Nat.find_min hex hi
  generalize Nat.find hex = j at hfirst hmin
  obtain ⟨h6, -, h7⟩ := inRun_flags h2 h3 j hmin
  have h8 : (sessionAt W u σ (k + j)).flags.main = .returned := by
    have : (sessionAt W u σ (k + j)).flags.noCli.main = _ := congrArg State.main h7
    exact this.trans hfirst
  -- from here on, `main` has returned as long as the session is in the run
  have h9 : ∀ m ≥ k + j, (∀ i, k ≤ i → i ≤ m → (sessionAt W u σ i).pc = .inRun) → (sessionAt W u σ m).flags.main = .returned := by
    intro m hm
    induction m, hm using Nat.le_induction with
    | base => exact fun _ => h8
    | succ m hm ih =>
      intro hall
      have h10 := ih fun i a b => hall i a (by omega)
      have h11 := hall m (by omega) (by omega)
      have h12 := hall (m + 1) (by omega) le_rfl
      simp only [sessionAt] at h12 ⊢
      generalize sessionAt W u σ m = s at h10 h11 h12 ⊢
      cases hσ : σ m with
      | backend => simp only [Session.step]; rw [(backend_main _).1]; exact h10
      | sigint =>
        simp only [Session.step, Session.signal, h11]
        split
        · exact h10
        · exact h10
      | main =>
        simp only [hσ, Session.step, Session.stepMain, h11] at h12 ⊢
        by_cases hi : s.flags.handler = .idle
        · simp [hi, h10] at h12
        · rw [if_pos hi]
          exact (handler_rest _).2.2.trans h10
  by_contra hno
  have hall : ∀ m ≥ n, (sessionAt W u σ m).pc = .inRun := by
    intro m hm
    induction m, hm using Nat.le_induction with
    | base => exact hp
    | succ m hm ih =>
      by_cases hx : σ m = .main ∧ (sessionAt W u σ m).flags.handler = .idle
      · by_cases hr : (sessionAt W u σ m).flags.main = .returned
        · refine absurd ⟨m + 1, by omega, ?_⟩ hno
          simp [sessionAt, hx.1, hx.2, Session.step, Session.stepMain, ih, hr]
        · simp only [sessionAt]
          exact (inRun_step ih hr).1
      · simp only [sessionAt]
        exact (pc_stays (by rw [ih]; simp) hx).1.trans ih
  obtain ⟨m, a, b, c⟩ := idle_main (W := W) (u := u) hσ (max n (k + j))
  have hm : n ≤ m := (le_max_left _ _).trans a
  have hr := h9 m ((le_max_right _ _).trans a) fun i hi hi' => by
    rcases Nat.le_total i n with h | h
    · exact h5 i hi h
    · exact hall i h
  refine hno ⟨m + 1, by omega, ?_⟩
  simp [sessionAt, b, c, Session.step, Session.stepMain, hall m hm, hr]

/-- The loop always comes back to the prompt, or ends. -/
theorem comes_back (hσ : Fair σ) (hs : ∀ l, Ending (W.program l).solve) (hc : ∀ l, Ending (W.program l).conclude) (n : Nat) :
    ∃ m ≥ n, (sessionAt W u σ m).pc = .prompt ∨ (sessionAt W u σ m).pc = .ended := by
  have ended : ∀ n, (sessionAt W u σ n).pc = .ended → ∃ m ≥ n, (sessionAt W u σ m).pc = .prompt ∨ (sessionAt W u σ m).pc = .ended :=
    fun n h => ⟨n, le_rfl, Or.inr h⟩
  have prompt : ∀ n, (sessionAt W u σ n).pc = .prompt → ∃ m ≥ n, (sessionAt W u σ m).pc = .prompt ∨ (sessionAt W u σ m).pc = .ended :=
    fun n h => ⟨n, le_rfl, Or.inl h⟩
  have mono : ∀ {n n'}, n ≤ n' → (∃ m ≥ n', (sessionAt W u σ m).pc = .prompt ∨ (sessionAt W u σ m).pc = .ended) →
      ∃ m ≥ n, (sessionAt W u σ m).pc = .prompt ∨ (sessionAt W u σ m).pc = .ended :=
    fun h ⟨m, a, b⟩ => ⟨m, h.trans a, b⟩
  have clear : ∀ n, (sessionAt W u σ n).pc = .clear → ∃ m ≥ n, (sessionAt W u σ m).pc = .prompt ∨ (sessionAt W u σ m).pc = .ended := by
    intro n h
    obtain ⟨m, a, b, c, d, -⟩ := next_main (W := W) (u := u) hσ n (by rw [h]; simp)
    refine mono (Nat.le_succ_of_le a) (ended (m + 1) ?_)
    simp [sessionAt, b, c, d, h, Session.step, Session.stepMain]
  have close : ∀ n, (sessionAt W u σ n).pc = .close → ∃ m ≥ n, (sessionAt W u σ m).pc = .prompt ∨ (sessionAt W u σ m).pc = .ended := by
    intro n h
    obtain ⟨m, a, b, c, d, -⟩ := next_main (W := W) (u := u) hσ n (by rw [h]; simp)
    refine mono (Nat.le_succ_of_le a) (clear (m + 1) ?_)
    simp [sessionAt, b, c, d, h, Session.step, Session.stepMain]
  have check : ∀ n, (sessionAt W u σ n).pc = .check → ∃ m ≥ n, (sessionAt W u σ m).pc = .prompt ∨ (sessionAt W u σ m).pc = .ended := by
    intro n h
    obtain ⟨m, a, b, c, d, -⟩ := next_main (W := W) (u := u) hσ n (by rw [h]; simp)
    by_cases hcli : (sessionAt W u σ m).flags.cli = true
    · refine mono (Nat.le_succ_of_le a) (prompt (m + 1) ?_)
      simp [sessionAt, b, c, d, h, Session.step, Session.stepMain, hcli]
    · refine mono (Nat.le_succ_of_le a) (close (m + 1) ?_)
      simp [sessionAt, b, c, d, h, Session.step, Session.stepMain, hcli]
  have reset : ∀ n, (sessionAt W u σ n).pc = .resetInput →
      ∃ m ≥ n, (sessionAt W u σ m).pc = .prompt ∨ (sessionAt W u σ m).pc = .ended := by
    intro n h
    obtain ⟨m, a, b, c, d, -⟩ := next_main (W := W) (u := u) hσ n (by rw [h]; simp)
    refine mono (Nat.le_succ_of_le a) (check (m + 1) ?_)
    simp [sessionAt, b, c, d, h, Session.step, Session.stepMain]
  have inRun : ∀ n, (sessionAt W u σ n).pc = .inRun → ∃ m ≥ n, (sessionAt W u σ m).pc = .prompt ∨ (sessionAt W u σ m).pc = .ended := by
    intro n h
    obtain ⟨m, a, b⟩ := inRun_ends hσ hs hc h
    exact mono a.le (reset m b)
  have load : ∀ n, (sessionAt W u σ n).pc = .load → ∃ m ≥ n, (sessionAt W u σ m).pc = .prompt ∨ (sessionAt W u σ m).pc = .ended := by
    intro n h
    obtain ⟨m, a, b, c, d, -⟩ := next_main (W := W) (u := u) hσ n (by rw [h]; simp)
    by_cases hcli : W.accept (sessionAt W u σ m).mains = true
    · refine mono (Nat.le_succ_of_le a) (inRun (m + 1) ?_)
      simp [sessionAt, b, c, d, h, Session.step, Session.stepMain, hcli]
    · refine mono (Nat.le_succ_of_le a) (reset (m + 1) ?_)
      simp [sessionAt, b, c, d, h, Session.step, Session.stepMain, hcli]
  have compare : ∀ n, (sessionAt W u σ n).pc = .compare →
      ∃ m ≥ n, (sessionAt W u σ m).pc = .prompt ∨ (sessionAt W u σ m).pc = .ended := by
    intro n h
    obtain ⟨m, a, b, c, d, -⟩ := next_main (W := W) (u := u) hσ n (by rw [h]; simp)
    obtain ⟨l, hl⟩ := (consistent (W := W) (u := u) (σ := σ) m).compare (d.trans h)
    by_cases hcli : l ∈ exitWords
    · refine mono (Nat.le_succ_of_le a) (close (m + 1) ?_)
      simp [sessionAt, b, c, d, h, Session.step, Session.stepMain, hcli, hl]
    · refine mono (Nat.le_succ_of_le a) (load (m + 1) ?_)
      simp [sessionAt, b, c, d, h, Session.step, Session.stepMain, hcli, hl]
  have start : ∀ n, (sessionAt W u σ n).pc = .setRunning →
      ∃ m ≥ n, (sessionAt W u σ m).pc = .prompt ∨ (sessionAt W u σ m).pc = .ended := by
    intro n h
    obtain ⟨m, a, b, c, d, -⟩ := next_main (W := W) (u := u) hσ n (by rw [h]; simp)
    refine mono (Nat.le_succ_of_le a) (check (m + 1) ?_)
    simp [sessionAt, b, c, d, h, Session.step, Session.stepMain]
  cases h : (sessionAt W u σ n).pc
  exacts [start n h, check n h, prompt n h, compare n h, load n h, inRun n h, reset n h, close n h, clear n h, ended n h]

end Satis.Run
