import Verif.Solver.Spec
/-!
# After a stop request
-/

namespace Satis.Solver
open Satis Satis.Graph Satis.Utils

variable {P : Problem} {O : Oracle} {s s' : Search}

theorem SameButTime.refl (s : Search) : SameButTime s s := ⟨s.reads, le_rfl, rfl⟩

theorem SameButTime.trans {a b c : Search} (h1 : SameButTime a b) (h2 : SameButTime b c) : SameButTime a c := by
  obtain ⟨n, l1, rfl⟩ := h1
  obtain ⟨m, l2, rfl⟩ := h2
  exact ⟨m, le_trans l1 l2, rfl⟩

theorem SameButTime.read (s : Search) : SameButTime s (s.read O).2 := ⟨s.reads + 1, Nat.le_succ _, rfl⟩

theorem Search.Cleared.later (h : s.Cleared O) (hs : SameButTime s s') : s'.Cleared O := by
  obtain ⟨n, l, rfl⟩ := hs
  rcases h with h | ⟨k, h1, h2⟩
  · exact Or.inl h
  · exact Or.inr ⟨k, h1, le_trans h2 l⟩

theorem Search.Cleared.read (h : s.Cleared O) : (s.read O).1 = false := by
  unfold Search.read
  rcases h with h | ⟨k, h1, h2⟩
  · simp [h]
  · simp only [h1, Bool.and_eq_false_iff, decide_eq_false_iff_not, not_lt]
    exact Or.inr h2

theorem cleared_iff : s.Cleared O ↔ (s.read O).1 = false := by
  refine ⟨fun h => h.read, ?_⟩
  unfold Search.read Search.Cleared
  cases hs : s.stopped with
  | true => simp
  | false =>
    cases ho : O.stopAt with
    | none => simp
    | some k => simp

theorem enqueue_cleared (h : s.Cleared O) (t : TreeObj Int) : SameButTime s (enqueue P O s t) := by
  unfold enqueue
  simp only
  rw [if_pos h.read]
  exact .read s

theorem purgeRev_cleared (h : s.Cleared O) (q : List (TreeObj Int × ℚ)) :
    (purgeRev O q s).1 = q ∧ SameButTime s (purgeRev O q s).2 := by
  cases q with
  | nil => exact ⟨rfl, .refl s⟩
  | cons e es =>
    unfold purgeRev
    simp only
    rw [if_pos h.read]
    exact ⟨rfl, .read (O := O) s⟩

theorem purgeQueue_cleared (h : s.Cleared O) : SameButTime s (purgeQueue O s) := by
  unfold purgeQueue
  simp only
  obtain ⟨h1, n, h2, h3⟩ := purgeRev_cleared (O := O) h s.queue.reverse
  rw [h1, h3]
  refine ⟨n, h2, ?_⟩
  simp

theorem dequeue_cleared (h : s.Cleared O) : dequeue O s = .ok (none, (s.read O).2) := by
  unfold dequeue
  simp only
  rw [if_pos h.read]

theorem tryLoop_cleared {C K : Type} [DecidableEq K] (h : s.Cleared O) (t : TreeObj Int) (key : C → K)
    (test : Search → C → Py (Option Move)) (cs : List C) (seen : List K) :
    ∃ b s', tryLoop P O t key test cs seen s = .ok (b, s') ∧ SameButTime s s' := by
  cases cs with
  | nil => exact ⟨true, s, rfl, .refl s⟩
  | cons c cs =>
    unfold tryLoop
    simp only
    rw [if_pos h.read]
    exact ⟨false, _, rfl, .read s⟩

theorem tryOps_cleared (h : s.Cleared O) (f : Search → Py Search) (hf : ∃ s', f s = .ok s' ∧ SameButTime s s')
    (fs : List (Search → Py Search)) : ∃ s', tryOps O (f :: fs) s = .ok (false, s') ∧ SameButTime s s' := by
  obtain ⟨s1, e, h1⟩ := hf
  unfold tryOps
  rw [e]
  simp only
  rw [if_pos (h.later h1).read]
  exact ⟨_, rfl, h1.trans (.read s1)⟩

theorem tryLoop_frame {C K : Type} [DecidableEq K] (h : s.Cleared O) {t : TreeObj Int} {key : C → K}
    {test : Search → C → Py (Option Move)} {cs : List C} {seen : List K} {r : Py Search}
    (hr : r = (tryLoop P O t key test cs seen s).map Prod.snd) : ∃ s', r = .ok s' ∧ SameButTime s s' := by
  obtain ⟨b, s', e, h'⟩ := tryLoop_cleared (P := P) h t key test cs seen
  exact ⟨s', by rw [hr, e]; rfl, h'⟩

theorem tryExtract_cleared (h : s.Cleared O) (t : TreeObj Int) (cu : List Int) :
    ∃ s', tryExtract P O t cu s = .ok s' ∧ SameButTime s s' := tryLoop_frame h rfl

theorem tryDivide_cleared (h : s.Cleared O) (t : TreeObj Int) (cu : List Int) :
    ∃ s', tryDivide P O t cu s = .ok s' ∧ SameButTime s s' := tryLoop_frame h rfl

theorem trySplit_cleared (h : s.Cleared O) (t : TreeObj Int) (cu : List Int) :
    ∃ s', trySplit P O t cu s = .ok s' ∧ SameButTime s s' := by
  unfold trySplit
  split
  · exact ⟨s, rfl, .refl s⟩
  · exact tryLoop_frame h rfl

theorem tryMerge_cleared (h : s.Cleared O) (t : TreeObj Int) (cu : List Int) {s' : Search} (hs : tryMerge P O t cu s = .ok s') :
    SameButTime s s' := by
  unfold tryMerge at hs
  generalize List.range' 2 (t.nSources - 1) = ks at hs
  induction ks with
  | nil =>
    unfold tryMergeCounts at hs
    injection hs with hs; subst hs; exact .refl s
  | cons k ks ih =>
    unfold tryMergeCounts at hs
    simp only at hs
    split at hs
    · exact ih hs
    · cases hc : mergeCands t k with
      | error e => rw [hc] at hs; simp at hs
      | ok cands =>
        rw [hc] at hs
        simp only at hs
        cases cands with
        | nil =>
          unfold tryLoop at hs
          exact ih hs
        | cons c cands =>
          unfold tryLoop at hs
          simp only at hs
          rw [if_pos h.read] at hs
          injection hs with hs; subst hs
          exact .read (O := O) s

theorem process_cleared (h : s.Cleared O) (t : TreeObj Int) {b : Bool} {s' : Search} (hs : process P O t s = .ok (b, s')) :
    b = false ∧ SameButTime s s' := by
  have hE : ∀ cu fs r, tryOps O (tryExtract P O t cu :: fs) s = .ok r → r.1 = false ∧ SameButTime s r.2 := by
    intro cu fs r hr
    obtain ⟨s1, e1, e2⟩ := tryOps_cleared h _ (tryExtract_cleared (P := P) h t cu) fs
    rw [hr] at e1
    injection e1 with e1; subst e1
    exact ⟨rfl, e2⟩
  unfold process at hs
  simp only at hs
  split at hs
  · simp at hs
  · split at hs
    · generalize computeCantUse P.targetCounts (valuesOf s.heap t.sources) = cu at hs
      cases hm : tryMerge P O t cu s with
      | error e => unfold tryOps at hs; rw [hm] at hs; simp at hs
      | ok s1 =>
        obtain ⟨s2, e1, e2⟩ := tryOps_cleared h (tryMerge P O t cu) ⟨s1, hm, tryMerge_cleared h t cu hm⟩ []
        rw [hs] at e1
        injection e1 with e1; injection e1 with e1 e3
        subst e1; subst e3
        exact ⟨rfl, e2⟩
    · split at hs
      · exact hE _ _ _ hs
      · exact hE _ _ _ hs

theorem tryMove_cleared (h : s.Cleared O) {t : TreeObj Int} {m : Move} {s' : Search} (hs : tryMove P O t s m = .ok s') :
    ∃ h' n, s' = { s with heap := h', reads := n } := by
  unfold tryMove at hs
  split at hs
  · simp at hs
  · rename_i h' t' e
    injection hs with hs
    have hc : Search.Cleared O { s with heap := h' } := h
    obtain ⟨n, _, e⟩ := enqueue_cleared (P := P) hc t'
    exact ⟨h', n, by rw [← hs, e]⟩

theorem solveLoop_mono {fuel fuel' : Nat} (hle : fuel ≤ fuel') {r : Py Search} (hr : r ≠ .error .diverge)
    (h : solveLoop P O fuel s = r) : solveLoop P O fuel' s = r := by
  induction fuel generalizing s fuel' with
  | zero => exact absurd (by rw [← h]; rfl) hr
  | succ fuel ih =>
    obtain ⟨k, rfl⟩ : ∃ k, fuel' = k + 1 := ⟨fuel' - 1, by omega⟩
    unfold solveLoop at h ⊢
    split at h
    · exact h
    · exact h
    · exact ih (by omega) h

theorem solveLoop_cleared (h : s.Cleared O) (fuel : Nat) : solveLoop P O (fuel + 1) s = .ok (s.read O).2 := by
  unfold solveLoop round
  simp only
  rw [if_pos h.read]

end Satis.Solver
