import Verif.Graph.WrapLemmas
/-!
# Saving several solutions: lemmas
-/

namespace Satis.Graph
open Satis

section
variable {V : Type} [LinearOrder V]

theorem attachLoop_stable : ∀ (n n' : Nat) (h : Heap V) (t : TreeObj V) (levels : List (List Addr)), n ≤ n' →
    attachLoop n h t levels ≠ .error .diverge → attachLoop n' h t levels = attachLoop n h t levels := by
  intro n
  induction n with
  | zero =>
    intro n' h t levels _ hne
    cases levels with
    | nil => cases n' <;> rfl
    | cons l ls => exact absurd rfl hne
  | succ n ih =>
    intro n' h t levels hn hne
    obtain ⟨n', rfl⟩ : ∃ j, n' = j + 1 := ⟨n' - 1, by omega⟩
    cases levels with
    | nil => rfl
    | cons l ls =>
      unfold attachLoop at hne ⊢
      cases ha : t.add h l 0 with
      | error e => rfl
      | ok x =>
        rw [ha] at hne
        exact ih n' _ _ _ (by omega) hne

theorem attachLeaves_stable (h : Heap V) (t : TreeObj V) (leaves : List Addr) : Stable fun n => t.attachLeaves n h leaves := by
  intro n n' hn hne
  unfold TreeObj.attachLeaves at hne ⊢
  simp only at hne ⊢
  split
  · rfl
  · next h1 =>
    rw [if_neg h1] at hne
    split
    · rfl
    · next h2 =>
      rw [if_neg h2] at hne
      exact attachLoop_stable _ _ _ _ _ hn hne

theorem add_ok (h : Heap V) (t : TreeObj V) {l : List Addr} (hl : l ≠ []) (ht : t.levels ≠ []) (cost : Int) :
    ∃ h' t', t.add h l cost = .ok (h', t') ∧ t'.levels ≠ [] ∧ SameGraph h h' := by
  cases l with
  | nil => exact absurd rfl hl
  | cons n0 l =>
    unfold TreeObj.add
    cases hg : t.levels.getLast? with
    | none => exact absurd (List.getLast?_eq_none_iff.1 hg) ht
    | some last =>
      simp only
      exact ⟨_, _, rfl, by simp, setLevels_same _ _ _⟩

/-- The loop that adds the levels below the sources does not end if it runs into a cycle. -/
theorem attachLoop_diverges (C : List Addr) : ∀ (fuel : Nat) (h : Heap V) (t : TreeObj V) (levels : List (List Addr)),
    (∀ a ∈ C, ∃ b ∈ (h.get a).children, b ∈ C) → t.levels ≠ [] → (∀ l ∈ levels, l ≠ []) → (∃ l ∈ levels, ∃ a ∈ l, a ∈ C) →
    attachLoop fuel h t levels = .error .diverge := by
  intro fuel
  induction fuel with
  | zero =>
    intro h t levels _ _ _ hex
    cases levels with
    | nil => obtain ⟨l, hl, -⟩ := hex; simp at hl
    | cons l ls => rfl
  | succ fuel ih =>
    intro h t levels hC ht hne hex
    cases levels with
    | nil => obtain ⟨l, hl, -⟩ := hex; simp at hl
    | cons l ls =>
      obtain ⟨h', t', e, ht', S⟩ := add_ok h t (hne l (by simp)) ht 0
      unfold attachLoop
      rw [e]
      simp only
      refine ih h' t' _ (fun a ha => by rw [S.children]; exact hC a ha) ht' ?_ ?_
      · intro l' hl'
        rcases List.mem_append.1 hl' with hl' | hl'
        · exact hne l' (List.mem_cons_of_mem _ hl')
        · exact of_decide_eq_true (List.mem_filter.1 hl').2
      · obtain ⟨l', hl', a, ha, haC⟩ := hex
        rcases List.mem_cons.1 hl' with rfl | hl'
        · obtain ⟨b, hb, hbC⟩ := hC a haC
          rw [← S.children] at hb
          refine ⟨(h'.get a).children, List.mem_append_right _ (List.mem_filter.2 ⟨List.mem_map_of_mem ha, ?_⟩), b, hb, hbC⟩
          exact decide_eq_true (List.ne_nil_of_mem hb)
        · exact ⟨l', List.mem_append_left _ hl', a, ha, haC⟩

end

theorem concludeAll_stable (cfg : Config) (leaves : List Addr) : ∀ (ts : List (TreeObj ℚ)) (h : Heap ℚ),
    Stable fun n => concludeAll cfg n leaves h ts := by
  intro ts
  induction ts with
  | nil => exact fun h => Stable.const _
  | cons t ts ih =>
    intro h
    exact Stable.bind (attachLeaves_stable h t leaves) fun _ => Stable.bind (saveTree_stable cfg _ _) fun _ =>
      Stable.bind (ih _) fun _ => Stable.const _

/-- If the second solution cannot be attached after the first has been saved then saving does not end. -/
theorem concludeAll_diverges {cfg : Config} {leaves : List Addr} {h : Heap ℚ} {t t₂ : TreeObj ℚ} {ts : List (TreeObj ℚ)} {n : Nat}
    {x : Heap ℚ × List (Saved ℚ × Saved ℚ)} (h1 : concludeAll cfg n leaves h [t] = .ok x)
    (h2 : ∀ fuel, t₂.attachLeaves fuel x.1 leaves = .error .diverge) (fuel : Nat) :
    concludeAll cfg fuel leaves h (t :: t₂ :: ts) = .error .diverge := by
  by_contra hne
  have e := concludeAll_stable cfg leaves (t :: t₂ :: ts) h fuel (max fuel n) (le_max_left _ _) hne
  have e1 := (concludeAll_stable cfg leaves [t] h n (max fuel n) (le_max_right _ _) (by simp only [h1]; simp)).trans h1
  simp only at e e1
  apply hne
  rw [← e]
  generalize max fuel n = N at e1
  unfold concludeAll at e1 ⊢
  cases ha : t.attachLeaves N h leaves with
  | error er => rw [ha] at e1; cases e1
  | ok y =>
    rw [ha] at e1
    simp only [bind, Except.bind] at e1 ⊢
    cases hs : saveTree cfg N y.1 y.2.roots with
    | error er => rw [hs] at e1; cases e1
    | ok z =>
      rw [hs] at e1
      simp only [concludeAll, pure, Except.pure, Except.ok.injEq] at e1 ⊢
      subst e1
      simp only [bind, Except.bind]
      have := h2 N
      simp only at this
      rw [this]

end Satis.Graph
