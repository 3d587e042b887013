import Verif.Graph.Save
import Mathlib.Order.Basic
/-!
# More fuel changes nothing

The model runs loops and recursions with fuel; `diverge` says that it ran out.
-/

namespace Satis.Graph
open Satis

/-- A result that did not run out of fuel stays with more of it. -/
def Stable {α : Type} (f : Nat → Py α) : Prop := ∀ fuel fuel', fuel ≤ fuel' → f fuel ≠ .error .diverge → f fuel' = f fuel

theorem Stable.const {α : Type} (r : Py α) : Stable fun _ => r := fun _ _ _ _ => rfl

theorem Stable.congr {α : Type} {f g : Nat → Py α} (h : Stable f) (e : ∀ n, g n = f n) : Stable g := by
  rwa [show g = f from funext e]

theorem Stable.bind {α β : Type} {f : Nat → Py α} {g : Nat → α → Py β} (hf : Stable f) (hg : ∀ x, Stable fun n => g n x) :
    Stable fun n => f n >>= g n := by
  intro fuel fuel' hle hne
  simp only at hne ⊢
  cases h : f fuel with
  | error e =>
    have hne : f fuel ≠ .error .diverge := by
      intro e'
      rw [e'] at hne
      exact hne rfl
    rw [hf fuel fuel' hle hne, h]
    rfl
  | ok x =>
    rw [hf fuel fuel' hle (by rw [h]; simp), h]
    rw [h] at hne
    exact hg x fuel fuel' hle hne

theorem Stable.foldlM {α β : Type} {f : Nat → β → α → Py β} (hf : ∀ s x, Stable fun n => f n s x) : ∀ (l : List α) (s : β),
    Stable fun n => l.foldlM (f n) s := by
  intro l
  induction l with
  | nil => exact fun s => Stable.const _
  | cons x l ih =>
    intro s
    refine Stable.congr (Stable.bind (hf s x) fun s' => ih s') fun n => ?_
    rw [List.foldlM_cons]

theorem walk_stable {S : Type} {visit : Nat → S → Addr → Py S} (hv : ∀ s a, Stable fun n => visit n s a) (kids : S → Addr → List Addr)
    (seen : S → Addr → Bool) : ∀ (k k' n n' : Nat) (s : S) (stack : List (Addr × Nat)), k ≤ k' → n ≤ n' →
    walk (visit n) kids seen k s stack ≠ .error .diverge →
    walk (visit n') kids seen k' s stack = walk (visit n) kids seen k s stack := by
  intro k
  induction k with
  | zero =>
    intro k' n n' s stack _ _ h
    cases stack with
    | nil => cases k' <;> rfl
    | cons x stack => exact absurd rfl h
  | succ k ih =>
    intro k' n n' s stack hk hn h
    obtain ⟨k', rfl⟩ : ∃ j, k' = j + 1 := ⟨k' - 1, by omega⟩
    cases stack with
    | nil => rfl
    | cons x stack =>
      obtain ⟨a, i⟩ := x
      unfold walk at h ⊢
      cases hki : (kids s a)[i]? with
      | none =>
        rw [hki] at h
        exact ih _ _ _ _ _ (by omega) hn h
      | some c =>
        rw [hki] at h
        simp only at h ⊢
        by_cases hs : seen s c = true
        · rw [if_pos hs] at h ⊢
          rw [if_pos hs]
          exact ih _ _ _ _ _ (by omega) hn h
        · rw [if_neg hs] at h ⊢
          rw [if_neg hs]
          cases hvc : visit n s c with
          | error e =>
            rw [hvc] at h
            rw [show visit n' s c = .error e from (hv s c n n' hn (by show visit n s c ≠ _; rw [hvc]; exact h)).trans hvc]
          | ok s' =>
            rw [hvc] at h
            rw [show visit n' s c = .ok s' from (hv s c n n' hn (by show visit n s c ≠ _; rw [hvc]; simp)).trans hvc]
            exact ih _ _ _ _ _ (by omega) hn h

theorem walkFrom_stable {S : Type} {visit : Nat → S → Addr → Py S} (hv : ∀ s a, Stable fun n => visit n s a) (kids : S → Addr → List Addr)
    (seen : S → Addr → Bool) (s : S) (a : Addr) : Stable fun n => walkFrom (visit n) kids seen n s a := by
  intro n n' hn h
  unfold walkFrom at h ⊢
  simp only at h ⊢
  split
  · rfl
  · next hs =>
    rw [if_neg hs] at h
    cases hva : visit n s a with
    | error e =>
      rw [hva] at h
      rw [show visit n' s a = .error e from (hv s a n n' hn (by show visit n s a ≠ _; rw [hva]; exact h)).trans hva]
    | ok s' =>
      rw [hva] at h
      rw [show visit n' s a = .ok s' from (hv s a n n' hn (by show visit n s a ≠ _; rw [hva]; simp)).trans hva]
      exact walk_stable hv kids seen _ _ _ _ _ _ hn hn h

theorem walkAll_stable {S : Type} {visit : Nat → S → Addr → Py S} (hv : ∀ s a, Stable fun n => visit n s a) (kids : S → Addr → List Addr)
    (seen : S → Addr → Bool) (s : S) (roots : List Addr) : Stable fun n => walkAll (visit n) kids seen n s roots :=
  Stable.foldlM (fun s a => walkFrom_stable hv kids seen s a) roots s

section
variable {V : Type}

theorem minLevelAfterZero_stable (h : Heap V) (roots : List Addr) : Stable fun n => minLevelAfterZero n h roots :=
  Stable.bind (walkAll_stable (visit := fun _ => minLevelVisit) (fun s a => Stable.const _) _ _ _ _) fun _ => Stable.const _

theorem tagLevels_stable (roots : List Addr) (h : Heap V) (u : Int × Int) : Stable fun n => tagLevels n roots h u :=
  Stable.bind (walkAll_stable (visit := fun _ => tagVisit u.1 u.2) (fun s a => Stable.const _) _ _ _ _) fun _ => Stable.const _

theorem applyLevels_stable (roots : List Addr) (h : Heap V) : Stable fun n => applyLevels n roots h :=
  Stable.bind (walkAll_stable (visit := fun _ => applyVisit) (fun s a => Stable.const _) _ _ _ _) fun _ => Stable.const _

theorem levels_stable (us : List (Int × Int)) (h : Heap V) (roots : List Addr) :
    Stable fun n => us.foldlM (tagLevels n roots) h >>= applyLevels n roots :=
  Stable.bind (Stable.foldlM (fun h u => tagLevels_stable roots h u) _ _) fun _ => applyLevels_stable roots _

theorem populateOrder_stable (h : Heap V) (roots : List Addr) : Stable fun n => populateOrder n h roots :=
  Stable.bind (walkAll_stable (visit := fun _ => populateVisit) (fun s a => Stable.const _) _ _ _ _) fun _ => Stable.const _

theorem populate_stable (h : Heap V) (roots : List Addr) : Stable fun n => populate n h roots :=
  Stable.bind (populateOrder_stable h roots) fun _ => Stable.const _

theorem wrap_stable (h : Heap V) (root : Addr) : Stable fun n => wrap n h root :=
  Stable.bind (walkFrom_stable (visit := fun _ => populateVisit) (fun s a => Stable.const _) _ _ _ _) fun _ => Stable.const _

theorem saveNodes_stable (h : Heap V) (roots : List Addr) : Stable fun n => saveNodes n h roots := by
  cases roots with
  | nil => exact Stable.const _
  | cons r rs => exact Stable.bind (populate_stable _ _) fun _ => Stable.bind (wrap_stable _ _) fun _ => Stable.const _

end

theorem runExpands_stable (cfg : Config) (node : Addr) : ∀ h : Heap ℚ, Stable fun n => runExpands cfg n h node := by
  have key : ∀ (n n' : Nat) (h : Heap ℚ), n ≤ n' → runExpands cfg n h node ≠ .error .diverge →
      runExpands cfg n' h node = runExpands cfg n h node := by
    intro n
    induction n with
    | zero =>
      intro n' h _ hne
      unfold runExpands at hne ⊢
      cases he : (h.get node).expands with
      | nil => rfl
      | cons e es =>
        rw [he] at hne
        exact absurd rfl hne
    | succ n ih =>
      intro n' h hn hne
      obtain ⟨n', rfl⟩ : ∃ j, n' = j + 1 := ⟨n' - 1, by omega⟩
      unfold runExpands at hne ⊢
      cases he : (h.get node).expands with
      | nil => rfl
      | cons e es =>
        rw [he] at hne
        simp only at hne ⊢
        cases hr : runExpand cfg (h.modify node fun o => { o with expands := es }) node e with
        | error e => rfl
        | ok x =>
          rw [hr] at hne
          have : runExpands cfg n x.1 node ≠ .error .diverge := by
            intro e'
            apply hne
            show (runExpands cfg n x.1 node >>= _) = _
            rw [e']
            rfl
          show (runExpands cfg n' x.1 node >>= _) = (runExpands cfg n x.1 node >>= _)
          rw [ih n' x.1 (by omega) this]
  exact fun h n n' hn => key n n' h hn

theorem expandAll_stable (cfg : Config) (h : Heap ℚ) (roots : List Addr) (us : List (Int × Int)) :
    Stable fun n => expandAll cfg n h roots us :=
  Stable.bind (walkAll_stable (visit := expandVisit cfg) (fun s a => Stable.bind (runExpands_stable cfg a s.1.1) fun _ => Stable.const _) _ _ _ _) fun _ => Stable.const _

theorem expandRoots_stable (cfg : Config) (h : Heap ℚ) (roots : List Addr) : Stable fun n => expandRoots cfg n h roots :=
  Stable.bind (minLevelAfterZero_stable h roots) fun _ => Stable.bind (expandAll_stable cfg _ _ _) fun _ =>
    Stable.bind (Stable.foldlM (fun h u => tagLevels_stable roots h u) _ _) fun _ => applyLevels_stable roots _

theorem saveTree_stable (cfg : Config) (h : Heap ℚ) (roots : List Addr) : Stable fun n => saveTree cfg n h roots :=
  Stable.bind (saveNodes_stable _ _) fun _ => Stable.bind (expandRoots_stable cfg _ _) fun _ =>
    Stable.bind (saveNodes_stable _ _) fun _ => Stable.const _

/-- With enough fuel the result is `r`. -/
def Settles {α : Type} (f : Nat → Py α) (r : Py α) : Prop := ∃ F, ∀ fuel, F ≤ fuel → f fuel = r

theorem Stable.settles {α : Type} {f : Nat → Py α} (hf : Stable f) {n : Nat} {r : Py α} (hr : r ≠ .error .diverge) (h : f n = r) :
    Settles f r := ⟨n, fun fuel hle => (hf n fuel hle (by rw [h]; exact hr)).trans h⟩

theorem Settles.congr {α : Type} {f g : Nat → Py α} {r : Py α} (h : Settles f r) (e : ∀ n, g n = f n) : Settles g r :=
  h.imp fun _ h fuel hf => (e fuel).trans (h fuel hf)

theorem Settles.bind {α β : Type} {f : Nat → Py α} {g : Nat → α → Py β} {r : Py α} {k : α → Py β} (h : Settles f r)
    (hg : ∀ x, r = .ok x → Settles (fun n => g n x) (k x)) : Settles (fun n => f n >>= g n) (r >>= k) := by
  obtain ⟨F, hF⟩ := h
  cases r with
  | error e =>
    exact ⟨F, fun fuel hf => by
      show f fuel >>= g fuel = _
      rw [hF fuel hf]
      rfl⟩
  | ok x =>
    obtain ⟨G, hG⟩ := hg x rfl
    exact ⟨max F G, fun fuel hf => by
      show f fuel >>= g fuel = _
      rw [hF fuel (le_trans (le_max_left _ _) hf)]
      exact hG fuel (le_trans (le_max_right _ _) hf)⟩

theorem Settles.unique {α : Type} {f : Nat → Py α} {r r' : Py α} (h : Settles f r) (h' : Settles f r') : r = r' := by
  obtain ⟨F, hF⟩ := h
  obtain ⟨G, hG⟩ := h'
  rw [← hF (max F G) (le_max_left _ _), hG (max F G) (le_max_right _ _)]

/-- If every large fuel gives a result with a property, and the computation settles, then its result has the property. -/
theorem Settles.of {α : Type} {f : Nat → Py α} {r : Py α} (h : Settles f r) {P : Py α → Prop} {G : Nat} (hG : ∀ fuel, G ≤ fuel → P (f fuel)) :
    P r := by
  obtain ⟨F, hF⟩ := h
  rw [← hF (max F G) (le_max_left _ _)]
  exact hG _ (le_max_right _ _)

end Satis.Graph
