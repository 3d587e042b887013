import Verif.Run.SessionProgress
import Verif.Props.Run
import Mathlib.Tactic.IntervalCases
/-!
# C64, C65: the prompt loop

`entered` and `EndRequest` (`Verif/Run/SessionFacts.lean`) are the specification: the lines typed at prompts, and the moments at which
the user asks for the end.
-/

namespace Satis.Run

variable {W : World} {u : Nat → Option Answer} {σ : Nat → Event}

/-! ## C64 -/

/-- C64. `main` is called for every line entered, once and in the order of entering, except for an exit word, which ends the loop (the
line just entered may still be waiting). While `main` works on a line, `user_input` is that line. -/
theorem C64_lines (n : Nat) :
    (entered W u σ n = (sessionAt W u σ n).mains ∨
      ∃ l, entered W u σ n = (sessionAt W u σ n).mains ++ [l] ∧
        ((sessionAt W u σ n).pc = .compare ∨ (sessionAt W u σ n).pc.over ∧ l ∈ exitWords)) ∧
    ((sessionAt W u σ n).pc = .load ∨ (sessionAt W u σ n).pc = .inRun →
      (sessionAt W u σ n).userInput = (entered W u σ n).getLast? ∧ entered W u σ n ≠ []) := by
  have h := lines (W := W) (u := u) (σ := σ) n
  refine ⟨?_, fun hp => ?_⟩
  · rcases h with h | ⟨l, h1, h2⟩
    · exact Or.inl h.1
    · exact Or.inr ⟨l, h1, h2.imp And.left id⟩
  · have h' := (consistent (W := W) (u := u) (σ := σ) n).line (by tauto)
    rcases h with h | ⟨l, h1, h2 | h2⟩
    · rwa [h.1]
    · rcases hp with hp | hp <;> rw [hp] at h2 <;> cases h2.1
    · rcases hp with hp | hp <;> simp [hp, CPc.over] at h2

/-- C64. The words that end the loop: `exit`, `quit` and `q`, without spaces around them and in lower case. -/
theorem C64_words (l : List Char) : l ∈ exitWords ↔ String.ofList l = "exit" ∨ String.ofList l = "quit" ∨ String.ofList l = "q" := by
  simp only [exitWords, List.mem_cons, List.not_mem_nil, or_false]
  have h : ∀ s : List Char, l = s ↔ String.ofList l = String.ofList s := fun s =>
    ⟨congrArg _, fun e => by simpa using congrArg String.toList e⟩
  rw [h, h, h]

/-- C64. Outside of `main` no run is in progress: the backend thread does not exist or has ended, and `backend.running` is false. In
particular at every prompt, and when `close` is called. `close` is called once, at the end of the loop, and `running` is cleared. -/
theorem C64_close (n : Nat) :
    ((sessionAt W u σ n).pc ≠ .inRun → (sessionAt W u σ n).flags.running = false ∧
      ((sessionAt W u σ n).flags.backend = .notStarted ∨ (sessionAt W u σ n).flags.backend = .finished)) ∧
    (sessionAt W u σ n).closes = (if (sessionAt W u σ n).pc = .clear ∨ (sessionAt W u σ n).pc = .ended then 1 else 0) ∧
    ((sessionAt W u σ n).pc = .ended → (sessionAt W u σ n).flags.cli = false) := by
  have h := consistent (W := W) (u := u) (σ := σ) n
  exact ⟨fun hp => ⟨(h.quiet hp).1, (h.quiet hp).2.1⟩, h.closes, fun hp => (h.ended hp).1⟩

/-- C64. The loop is left only after a request for the end, and after such a request no prompt is shown and no line is read. -/
theorem C64_requests :
    (∀ n, (sessionAt W u σ n).pc.over → ∃ k < n, EndRequest W u σ k) ∧
    (∀ k, EndRequest W u σ k → ∀ m > k, (sessionAt W u σ m).pc ≠ .prompt ∧ entered W u σ m = entered W u σ (k + 1)) := by
  refine ⟨fun n h => leaving_requested (Or.inl h), fun k h => ?_⟩
  have hnp : ∀ m > k, (sessionAt W u σ m).pc ≠ .prompt := by
    intro m hm hp
    rcases leaving_after h m hm with h | h | h
    · simp [CPc.over, hp] at h
    · simp [hp] at h
    · exact h.2.1 hp
  intro m hm
  refine ⟨hnp m hm, ?_⟩
  induction m, hm using Nat.le_induction with
  | base => rfl
  | succ m hm ih => rw [entered, ih, if_neg (fun hx => hnp m hm hx.1), List.append_nil]

/-- C64. When both threads are scheduled again and again, SIGINT arrives finitely often and the runs end: the loop always comes back to
the prompt or ends, and it ends exactly when there is a request. (What the user does at the prompt is arbitrary: they may also wait
forever.) -/
theorem C64_ends_iff (hσ : Fair σ) (hs : ∀ l, Ending (W.program l).solve) (hc : ∀ l, Ending (W.program l).conclude) :
    (∀ n, ∃ m ≥ n, (sessionAt W u σ m).pc = .prompt ∨ (sessionAt W u σ m).pc = .ended) ∧
    ((∃ n, (sessionAt W u σ n).pc = .ended) ↔ ∃ k, EndRequest W u σ k) := by
  refine ⟨comes_back hσ hs hc, fun ⟨n, h⟩ => ?_, fun ⟨k, h⟩ => ?_⟩
  · obtain ⟨k, -, h⟩ := C64_requests.1 n (Or.inr (Or.inr h))
    exact ⟨k, h⟩
  · obtain ⟨m, h1, h2 | h2⟩ := comes_back (u := u) hσ hs hc (k + 1)
    · exact absurd h2 (C64_requests.2 k h m (by omega)).1
    · exact ⟨m, h2⟩

/-! ## C65 -/

/-- C65, exactly: a SIGINT that arrives during `main` (after `load`), looked at by the handler at the next step `m` of the main thread,
ends the session if and only if `running` has not been raised yet or the backend has already lowered it; otherwise the handler
calls `stop()`. The property asks that it never ends the session, which is false (`C65_quits_false`). -/
theorem C65_handler_partial {n m : Nat} (hp : (sessionAt W u σ n).pc = .inRun) (hi : (sessionAt W u σ n).flags.handler = .idle)
    (hn : σ n = .sigint) (hnm : n < m) (hb : ∀ k, n < k → k < m → σ k ≠ .main) (hm : σ m = .main) :
    EndRequest W u σ m ↔ (sessionAt W u σ m).flags.main = .raise ∨ (sessionAt W u σ m).flags.backend = .report ∨
      (sessionAt W u σ m).flags.backend = .finished := by
  have h : ∀ k, n < k → k ≤ m → (sessionAt W u σ k).pc = .inRun ∧ (sessionAt W u σ k).flags.handler = .readRunning := by
    intro k hk hkm
    induction k, hk using Nat.le_induction with
    | base => simp [sessionAt, hn, Session.step, Session.signal, hi, hp]
    | succ k hk ih =>
      obtain ⟨h1, h2⟩ := ih (by omega)
      simp only [sessionAt]
      cases hσ : σ k with
      | backend => exact ⟨h1, by simp only [Session.step, backend_handler, h2]⟩
      | sigint => simp [Session.step, Session.signal, h1, h2]
      | main => exact absurd hσ (hb k hk (by omega))
  obtain ⟨h1, h2⟩ := h m hnm le_rfl
  have hs := (consistent (W := W) (u := u) (σ := σ) m).sync h1
  unfold EndRequest
  by_cases hr : (sessionAt W u σ m).flags.main = .raise
  · simp [h1, h2, hm, hr, CPc.over, (hs.raise hr).2]
  · simp [h1, h2, hm, hr, CPc.over, hs.up hr]

namespace Example

/-- Every line is accepted; its problem is a `solve` and a `conclude` that read their flag three times at most. -/
def world : World := ⟨fun _ => true, fun _ => both⟩

/-- The user enters the line `1 to 2`, again and again, and never asks for the end. -/
def typing (_ : Nat) : Option Answer := some (.line ['1', ' ', 't', 'o', ' ', '2'])

/-- SIGINT arrives when `run` has one step left, and the backend makes that step before the handler looks. -/
def late : Nat → Event := thenFair (List.replicate 7 .main ++ List.replicate 14 .backend ++ [.sigint, .backend, .main, .main])

/-- SIGINT arrives during `load`. -/
def loading : Nat → Event := thenFair (List.replicate 4 .main ++ [.sigint])

/-- SIGINT arrives during `solve`. -/
def stopping : Nat → Event := thenFair (List.replicate 7 .main ++ [.backend, .backend, .sigint, .main, .main, .main])

/-- Two lines, then `q`. -/
def quitting (n : Nat) : Option Answer := if n < 60 then typing n else some (.line ['q'])

end Example

open Example in
/-- C65 is false: a SIGINT that arrives while `backend.running` is true ends the session, although the user never asks for it at the
prompt, and although it is the only one. -/
theorem C65_quits_false : ∃ (W : World) (u : Nat → Option Answer) (σ : Nat → Event) (n : Nat),
    Fair σ ∧ (∀ l, Ending (W.program l).solve ∧ Ending (W.program l).conclude) ∧
    (∀ k, ∃ l, u k = some (.line l) ∧ l ∉ exitWords) ∧ (∀ k, σ k = .sigint → k = n) ∧
    σ n = .sigint ∧ (sessionAt W u σ n).flags.running = true ∧ (sessionAt W u σ n).flags.handler = .idle ∧
    ∃ m, (sessionAt W u σ m).pc = .ended := by
  refine ⟨world, typing, late, 21, thenFair_fair _, fun _ => ⟨loop_ending, loop_ending⟩, fun k => ⟨_, rfl, by decide⟩, fun k hk => ?_,
    by decide +kernel, by decide +kernel, by decide +kernel, 80, by decide +kernel⟩
  by_cases h : k < 25
  · interval_cases k <;> first | rfl | exact absurd hk (by decide +kernel)
  · have : late k = if k % 2 = 0 then .backend else .main := by
      unfold late thenFair
      rw [List.getElem?_eq_none (by simp; omega)]
      rfl
    rw [this] at hk
    split at hk <;> cases hk

open Example in
/-- C65 is false also for a SIGINT that arrives during `load`: it asks for the end of the session, but the problem is run nevertheless,
to its end, and only then the session ends. -/
theorem C65_load_false : ∃ (W : World) (u : Nat → Option Answer) (σ : Nat → Event) (n m : Nat),
    (sessionAt W u σ n).pc = .load ∧ EndRequest W u σ n ∧ n < m ∧ (sessionAt W u σ m).pc = .inRun ∧
    (sessionAt W u σ m).flags.solveReads = [true, true, true] ∧ (sessionAt W u σ m).flags.concludeReads = [true, true, true] ∧
    ∃ k > m, (sessionAt W u σ k).pc = .ended :=
  ⟨world, typing, loading, 5, 45, by decide +kernel,
    Or.inr ⟨by decide +kernel, by decide +kernel, by decide +kernel, by decide +kernel, by decide +kernel⟩, by decide, by decide +kernel,
    by decide +kernel, by decide +kernel, 80, by decide, by decide +kernel⟩

/-- A session: two lines are run, the first is stopped by SIGINT, then `q` is entered, which is the request of step 95. -/
example :
    (sessionAt Example.world Example.quitting Example.stopping 110).pc = .ended ∧
    (sessionAt Example.world Example.quitting Example.stopping 110).mains.length = 2 ∧
    (entered Example.world Example.quitting Example.stopping 110).getLast? = some ['q'] ∧
    (sessionAt Example.world Example.quitting Example.stopping 9).pc = .inRun ∧ Example.stopping 9 = .sigint ∧
    (sessionAt Example.world Example.quitting Example.stopping 40).flags.solveReads = [true, false] ∧
    Fair Example.stopping ∧ EndRequest Example.world Example.quitting Example.stopping 95 :=
  ⟨by decide +kernel, by decide +kernel, by decide +kernel, by decide +kernel, by decide +kernel, by decide +kernel,
    Example.thenFair_fair _, Or.inl ⟨by decide +kernel, Or.inr ⟨by decide +kernel, Or.inr ⟨['q'], by decide, by decide +kernel⟩⟩⟩⟩

end Satis.Run
