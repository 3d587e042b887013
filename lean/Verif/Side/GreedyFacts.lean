import Verif.Side.Greedy
import Mathlib.Tactic.Ring
import Mathlib.Tactic.Linarith

/-! The greedy solver of `test.py`: operations, grouping, and what a step accounts for. -/

namespace Satis.Greedy

theorem remove_perm {l l' r : List ℤ} {v : ℤ} (hp : l.Perm l') (h : remove l v = some r) :
    ∃ r', remove l' v = some r' ∧ r.Perm r' := by
  unfold remove at h ⊢
  split_ifs at h with hv
  rw [if_pos (hp.mem_iff.mp hv)]
  simp only [Option.some.injEq] at h
  exact ⟨_, rfl, h ▸ hp.erase v⟩

theorem remove_eq {l r : List ℤ} {v : ℤ} (h : remove l v = some r) : l.Perm (v :: r) := by
  unfold remove at h
  split_ifs at h with hv
  simp only [Option.some.injEq] at h
  exact h ▸ List.perm_cons_erase hv

theorem remove_append {l r : List ℤ} {v : ℤ} (h : remove l v = some r) (k : List ℤ) :
    remove (l ++ k) v = some (r ++ k) := by
  unfold remove at h ⊢
  split_ifs at h with hv
  simp only [Option.some.injEq] at h
  rw [if_pos (List.mem_append_left _ hv), List.erase_append_left _ hv, h]

theorem removes_perm {vs l l' r : List ℤ} (hp : l.Perm l') (h : vs.foldlM remove l = some r) :
    ∃ r', vs.foldlM remove l' = some r' ∧ r.Perm r' := by
  induction vs generalizing l l' with
  | nil =>
    simp only [List.foldlM_nil, pure, Option.some.injEq] at h ⊢
    exact ⟨l', rfl, h ▸ hp⟩
  | cons v vs ih =>
    rw [List.foldlM_cons] at h ⊢
    cases h1 : remove l v with
    | none => rw [h1] at h; simp at h
    | some m =>
      rw [h1] at h
      obtain ⟨m', h2, h3⟩ := remove_perm hp h1
      rw [h2]
      exact ih h3 h

theorem removes_append {vs l r : List ℤ} (h : vs.foldlM remove l = some r) (k : List ℤ) :
    vs.foldlM remove (l ++ k) = some (r ++ k) := by
  induction vs generalizing l with
  | nil =>
    simp only [List.foldlM_nil, pure, Option.some.injEq] at h ⊢
    rw [h]
  | cons v vs ih =>
    rw [List.foldlM_cons] at h ⊢
    cases h1 : remove l v with
    | none => rw [h1] at h; simp at h
    | some m =>
      rw [h1] at h
      rw [remove_append h1 k]
      exact ih h

theorem removes_eq {vs l r : List ℤ} (h : vs.foldlM remove l = some r) : l.Perm (vs ++ r) := by
  induction vs generalizing l with
  | nil =>
    simp only [List.foldlM_nil, pure, Option.some.injEq] at h
    rw [h, List.nil_append]
  | cons v vs ih =>
    rw [List.foldlM_cons] at h
    cases h1 : remove l v with
    | none => rw [h1] at h; simp at h
    | some m =>
      rw [h1] at h
      exact (remove_eq h1).trans ((ih h).cons v)

/-- What is there can be removed. -/
theorem removes_of_perm {vs l r : List ℤ} (h : l.Perm (vs ++ r)) : ∃ r', vs.foldlM remove l = some r' ∧ r'.Perm r := by
  have h0 : ∀ (vs r : List ℤ), vs.foldlM remove (vs ++ r) = some r := by
    intro vs
    induction vs with
    | nil => intro r; rfl
    | cons v vs ih =>
      intro r
      rw [List.foldlM_cons]
      have : remove (v :: vs ++ r) v = some (vs ++ r) := by
        unfold remove
        rw [if_pos (by simp)]
        simp
      rw [this]
      exact ih r
  obtain ⟨r', h1, h2⟩ := removes_perm h.symm (h0 vs r)
  exact ⟨r', h1, h2.symm⟩

theorem apply_perm {op : Op} {l l' r : List ℤ} (hp : l.Perm l') (h : apply op l = some r) :
    ∃ r', apply op l' = some r' ∧ r.Perm r' := by
  cases op with
  | merge srcs =>
    unfold apply at h ⊢
    simp only [Option.map_eq_some_iff] at h ⊢
    obtain ⟨m, h1, rfl⟩ := h
    obtain ⟨m', h2, h3⟩ := removes_perm hp h1
    exact ⟨_, ⟨m', h2, rfl⟩, h3.append_right _⟩
  | extract src parts =>
    unfold apply at h ⊢
    simp only [Option.map_eq_some_iff] at h ⊢
    obtain ⟨m, h1, rfl⟩ := h
    obtain ⟨m', h2, h3⟩ := remove_perm hp h1
    exact ⟨_, ⟨m', h2, rfl⟩, h3.append_right _⟩
  | divide v n =>
    unfold apply at h ⊢
    simp only [Option.map_eq_some_iff] at h ⊢
    obtain ⟨m, h1, rfl⟩ := h
    obtain ⟨m', h2, h3⟩ := remove_perm hp h1
    exact ⟨_, ⟨m', h2, rfl⟩, h3.append_right _⟩

/-- More sources do not disturb an operation. -/
theorem apply_more {op : Op} {l r : List ℤ} (h : apply op l = some r) (k : List ℤ) :
    ∃ r', apply op (l ++ k) = some r' ∧ r'.Perm (r ++ k) := by
  have sw : ∀ a b c : List ℤ, (a ++ b ++ c).Perm (a ++ c ++ b) := by
    intro a b c
    rw [List.append_assoc, List.append_assoc]
    exact List.Perm.append_left a List.perm_append_comm
  cases op with
  | merge srcs =>
    unfold apply at h ⊢
    simp only [Option.map_eq_some_iff] at h ⊢
    obtain ⟨m, h1, rfl⟩ := h
    exact ⟨_, ⟨_, removes_append h1 k, rfl⟩, sw _ _ _⟩
  | extract src parts =>
    unfold apply at h ⊢
    simp only [Option.map_eq_some_iff] at h ⊢
    obtain ⟨m, h1, rfl⟩ := h
    exact ⟨_, ⟨_, remove_append h1 k, rfl⟩, sw _ _ _⟩
  | divide v n =>
    unfold apply at h ⊢
    simp only [Option.map_eq_some_iff] at h ⊢
    obtain ⟨m, h1, rfl⟩ := h
    exact ⟨_, ⟨_, remove_append h1 k, rfl⟩, sw _ _ _⟩

theorem run_cons (op : Op) (ops : List Op) (l : List ℤ) : run (op :: ops) l = (apply op l).bind (run ops) := rfl

theorem run_append (a b : List Op) (l : List ℤ) : run (a ++ b) l = (run a l).bind (run b) := by
  unfold run
  rw [List.foldlM_append]
  rfl

theorem run_perm {ops : List Op} {l l' r : List ℤ} (hp : l.Perm l') (h : run ops l = some r) :
    ∃ r', run ops l' = some r' ∧ r.Perm r' := by
  induction ops generalizing l l' with
  | nil =>
    simp only [run, List.foldlM_nil, pure, Option.some.injEq] at h ⊢
    exact ⟨l', rfl, h ▸ hp⟩
  | cons op ops ih =>
    rw [run_cons] at h ⊢
    cases h1 : apply op l with
    | none => rw [h1] at h; simp at h
    | some m =>
      rw [h1] at h
      obtain ⟨m', h2, h3⟩ := apply_perm hp h1
      rw [h2]
      exact ih h3 h

theorem run_more {ops : List Op} {l r : List ℤ} (h : run ops l = some r) (k : List ℤ) :
    ∃ r', run ops (l ++ k) = some r' ∧ r'.Perm (r ++ k) := by
  induction ops generalizing l with
  | nil =>
    simp only [run, List.foldlM_nil, pure, Option.some.injEq] at h ⊢
    exact ⟨l ++ k, rfl, by rw [h]⟩
  | cons op ops ih =>
    rw [run_cons] at h ⊢
    cases h1 : apply op l with
    | none => rw [h1] at h; simp at h
    | some m =>
      rw [h1] at h
      obtain ⟨m', h2, h3⟩ := apply_more h1 k
      rw [h2]
      obtain ⟨r1, h4, h5⟩ := ih h
      obtain ⟨r2, h6, h7⟩ := run_perm h3.symm h4
      exact ⟨r2, h6, h7.symm.trans h5⟩

/-! ### Grouping -/

/-- The divisions, last first, undo a grouping. -/
def Undone (divisions : List Op) (grouped original : List ℤ) : Prop :=
  ∃ r, run divisions.reverse grouped = some r ∧ r.Perm original

theorem Undone.logged (ref : ℤ) (n : ℕ) : Undone (logged ref n) [n * ref] (List.replicate n ref) ∨ n = 0 := by
  unfold Greedy.logged
  split_ifs with hn
  · refine Or.inl ⟨List.replicate n ref, ?_, List.Perm.refl _⟩
    have hv : ((n : ℤ) * ref) / (n : ℤ) = ref := Int.mul_ediv_cancel_left ref (by omega)
    simp [run, apply, remove, hv]
  · by_cases h0 : n = 0
    · exact Or.inr h0
    · have : n = 1 := by omega
      subst this
      exact Or.inl ⟨[1 * ref], by simp [run], by simp⟩

theorem Undone.append {d d' : List Op} {a b a' b' : List ℤ} (h : Undone d a b) (h' : Undone d' a' b') :
    Undone (d ++ d') (a ++ a') (b ++ b') := by
  obtain ⟨r, h1, h2⟩ := h
  obtain ⟨r', h3, h4⟩ := h'
  rw [Undone, List.reverse_append]
  obtain ⟨q, h5, h6⟩ := run_more h3 a
  obtain ⟨q2, h7, h8⟩ := run_perm (List.perm_append_comm : (a' ++ a).Perm (a ++ a')) h5
  obtain ⟨p, h9, h10⟩ := run_more h1 r'
  have hq : (a ++ r').Perm q2 := (List.perm_append_comm).trans (h6.symm.trans h8)
  obtain ⟨p2, h11, h12⟩ := run_perm hq h9
  refine ⟨p2, ?_, ?_⟩
  · rw [run_append, h7]
    exact h11
  · exact h12.symm.trans (h10.trans (h2.append h4))

theorem Undone.trans {d d' : List Op} {a b c : List ℤ} (h : Undone d b a) (h' : Undone d' c b) : Undone (d ++ d') c a := by
  obtain ⟨r, h1, h2⟩ := h
  obtain ⟨r', h3, h4⟩ := h'
  rw [Undone, List.reverse_append]
  obtain ⟨q, h5, h6⟩ := run_perm h4.symm h1
  refine ⟨q, ?_, h6.symm.trans h2⟩
  rw [run_append, h3]
  exact h5

theorem scan_facts (l : List ℤ) : ∀ (ref : ℤ) (n : ℕ), 0 < n →
    Undone (scan ref n l).2 (scan ref n l).1 (List.replicate n ref ++ l) ∧
      (scan ref n l).1.sum = n * ref + l.sum ∧
      (scan ref n l).1.length ≤ l.length + 1 ∧
      ((scan ref n l).2 = [] → (scan ref n l).1 = ref :: l ∧ n = 1 ∧ (ref :: l).IsChain (· ≠ ·)) ∧
      ((scan ref n l).2 ≠ [] → (scan ref n l).1.length < l.length + n) := by
  induction l with
  | nil =>
    intro ref n hn
    have hu := (Undone.logged ref n).resolve_right (by omega)
    refine ⟨by simpa [scan] using hu, by simp [scan], by simp [scan], ?_, ?_⟩
    · intro h
      simp only [scan, Greedy.logged] at h
      split_ifs at h with h1
      have : n = 1 := by omega
      subst this
      exact ⟨by simp [scan], rfl, List.IsChain.singleton _⟩
    · intro h
      simp only [scan, Greedy.logged] at h ⊢
      split_ifs at h with h1
      · simpa using h1
      · exact absurd rfl h
  | cons y l ih =>
    intro ref n hn
    by_cases hy : y = ref
    · subst hy
      obtain ⟨h1, h2, h3, h4, h5⟩ := ih y (n + 1) (by omega)
      have e : scan y n (y :: l) = scan y (n + 1) l := by rw [scan, if_pos rfl]
      rw [e]
      refine ⟨?_, ?_, ?_, ?_, ?_⟩
      · have : List.replicate n y ++ y :: l = List.replicate (n + 1) y ++ l := by
          rw [List.replicate_succ']
          simp
        rwa [this]
      · rw [h2, List.sum_cons]; push_cast; ring
      · simp only [List.length_cons]; omega
      · intro h
        have := (h4 h).2.1
        omega
      · intro h
        have := h5 h
        simp only [List.length_cons]
        omega
    · obtain ⟨h1, h2, h3, h4, h5⟩ := ih y 1 (by omega)
      have e : scan ref n (y :: l) = (n * ref :: (scan y 1 l).1, logged ref n ++ (scan y 1 l).2) := by
        rw [scan, if_neg hy]
      have hu := (Undone.logged ref n).resolve_right (by omega)
      rw [e]
      refine ⟨?_, ?_, ?_, ?_, ?_⟩
      · exact Undone.append hu h1
      · rw [List.sum_cons, h2, List.sum_cons]; push_cast; ring
      · simp only [List.length_cons]; omega
      · intro h
        rw [List.append_eq_nil_iff] at h
        obtain ⟨g1, g2, g3⟩ := h4 h.2
        have hl := h.1
        unfold Greedy.logged at hl
        split_ifs at hl with hn1
        have : n = 1 := by omega
        subst this
        refine ⟨by simp [g1], rfl, ?_⟩
        exact List.IsChain.cons_cons (fun h => hy h.symm) g3
      · intro h
        by_cases hl : (scan y 1 l).2 = []
        · rw [hl, List.append_nil] at h
          unfold Greedy.logged at h
          split_ifs at h with hn1
          · simp only [List.length_cons]; omega
          · exact absurd rfl h
        · have := h5 hl
          simp only [List.length_cons]; omega

theorem groupValues_facts (l : List ℤ) :
    Undone (groupValues l).2 (groupValues l).1 l ∧ (groupValues l).1.sum = l.sum ∧
      ((groupValues l).2 = [] → (groupValues l).1 = l ∧ l.IsChain (· ≠ ·)) ∧
      ((groupValues l).2 ≠ [] → (groupValues l).1.length < l.length) := by
  cases l with
  | nil => exact ⟨⟨[], rfl, List.Perm.refl _⟩, rfl, fun _ => ⟨rfl, List.IsChain.nil⟩, fun h => absurd rfl h⟩
  | cons ref l =>
    obtain ⟨h1, h2, _, h4, h5⟩ := scan_facts l ref 1 (by omega)
    refine ⟨by simpa [groupValues] using h1, ?_, ?_, ?_⟩
    · rw [groupValues, h2, List.sum_cons]; push_cast; ring
    · intro h
      exact ⟨(h4 h).1, (h4 h).2.2⟩
    · intro h
      have := h5 h
      simpa [groupValues] using this

theorem groupAll_facts : ∀ (n : ℕ) (l : List ℤ), l.length ≤ n → ∃ l' d,
    (∀ fuel, n < fuel → groupAll fuel l = some (l', d)) ∧ Undone d l' l ∧ l'.sum = l.sum ∧ l'.IsChain (· ≠ ·) := by
  intro n
  induction n with
  | zero =>
    intro l hl
    have : l = [] := List.length_eq_zero_iff.mp (by omega)
    subst this
    refine ⟨[], [], ?_, ⟨[], rfl, List.Perm.refl _⟩, rfl, List.IsChain.nil⟩
    intro fuel hf
    obtain ⟨f, rfl⟩ := Nat.exists_eq_succ_of_ne_zero (show fuel ≠ 0 by omega)
    rfl
  | succ n ih =>
    intro l hl
    obtain ⟨h1, h2, h3, h4⟩ := groupValues_facts l
    by_cases hd : (groupValues l).2 = []
    · refine ⟨l, [], ?_, ⟨l, rfl, List.Perm.refl _⟩, rfl, (h3 hd).2⟩
      intro fuel hf
      obtain ⟨f, rfl⟩ := Nat.exists_eq_succ_of_ne_zero (show fuel ≠ 0 by omega)
      rw [groupAll]
      simp only [hd, if_pos, (h3 hd).1]
    · obtain ⟨l', d, g1, g2, g3, g4⟩ := ih (groupValues l).1 (by have := h4 hd; omega)
      refine ⟨l', (groupValues l).2 ++ d, ?_, h1.trans g2, by rw [g3, h2], g4⟩
      intro fuel hf
      obtain ⟨f, rfl⟩ := Nat.exists_eq_succ_of_ne_zero (show fuel ≠ 0 by omega)
      rw [groupAll]
      simp only [if_neg hd, g1 f (by omega), Option.map_some]

end Satis.Greedy
