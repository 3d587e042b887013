import Mathlib.Order.Basic
import Mathlib.Data.List.Sort
/-!
# Python's `bisect.insort`

Transcription of `bisect.bisect_right` (CPython `Lib/bisect.py`) and `bisect.insort`, with the facts used everywhere.
-/

namespace Satis

section
variable {α κ : Type} [LinearOrder κ]

/-- `bisect_right`: `while lo < hi: mid = (lo + hi) // 2; if x < key(a[mid]): hi = mid else: lo = mid + 1` (first
argument: fuel). -/
def bisectLoop (key : α → κ) (l : List α) (x : κ) : Nat → Nat → Nat → Nat
  | 0, lo, _ => lo
  | fuel + 1, lo, hi =>
    if lo < hi then
      match l[(lo + hi) / 2]? with
      | none => lo
      | some y => if x < key y then bisectLoop key l x fuel lo ((lo + hi) / 2)
                  else bisectLoop key l x fuel ((lo + hi) / 2 + 1) hi
    else lo

/-- `bisect.bisect_right(a, x, key=key)`. The interval shrinks at every round, so its length is enough fuel. -/
def bisectRight (key : α → κ) (l : List α) (x : κ) : Nat := bisectLoop key l x l.length 0 l.length

/-- `bisect.insort(a, x, key=key)`. -/
def insort (key : α → κ) (l : List α) (x : α) : List α := l.insertIdx (bisectRight key l (key x)) x

/-- `for x in xs: insort(l, x, key=key)`. -/
def insortAll (key : α → κ) (l xs : List α) : List α := xs.foldl (insort key) l

theorem bisectLoop_spec (key : α → κ) (l : List α) (hs : l.Pairwise fun a b => key a ≤ key b) (x : κ) :
    ∀ fuel lo hi, hi - lo ≤ fuel → lo ≤ hi → hi ≤ l.length →
    (∀ i y, l[i]? = some y → i < lo → key y ≤ x) → (∀ i y, l[i]? = some y → hi ≤ i → x < key y) →
    (bisectLoop key l x fuel lo hi ≤ l.length ∧
      (∀ i y, l[i]? = some y → i < bisectLoop key l x fuel lo hi → key y ≤ x) ∧
      (∀ i y, l[i]? = some y → bisectLoop key l x fuel lo hi ≤ i → x < key y)) := by
  intro fuel
  induction fuel with
  | zero =>
    intro lo hi h1 h2 h3 h4 h5
    have : lo = hi := by omega
    subst this
    exact ⟨h3, h4, h5⟩
  | succ fuel ih =>
    intro lo hi h1 h2 h3 h4 h5
    unfold bisectLoop
    by_cases hlt : lo < hi
    · rw [if_pos hlt]
      have hm : (lo + hi) / 2 < l.length := by omega
      have hpw := List.pairwise_iff_getElem.1 hs
      rw [List.getElem?_eq_getElem hm]
      dsimp only
      by_cases hx : x < key l[(lo + hi) / 2]
      · rw [if_pos hx]
        apply ih _ _ (by omega) (by omega) (by omega) h4
        intro i y hy hi'
        obtain ⟨hil, rfl⟩ := List.getElem?_eq_some_iff.1 hy
        rcases Nat.eq_or_lt_of_le hi' with h | h
        · subst h; exact hx
        · exact lt_of_lt_of_le hx (hpw _ _ hm hil h)
      · rw [if_neg hx]
        apply ih _ _ (by omega) (by omega) (by omega) _ h5
        intro i y hy hi'
        obtain ⟨hil, rfl⟩ := List.getElem?_eq_some_iff.1 hy
        rcases Nat.eq_or_lt_of_le (Nat.lt_succ_iff.1 hi') with h | h
        · subst h; exact not_lt.1 hx
        · exact le_trans (hpw _ _ hil hm h) (not_lt.1 hx)
    · rw [if_neg hlt]
      have : lo = hi := by omega
      subst this
      exact ⟨h3, h4, h5⟩

theorem bisectLoop_le (key : α → κ) (l : List α) (x : κ) :
    ∀ fuel lo hi, lo ≤ l.length → hi ≤ l.length → bisectLoop key l x fuel lo hi ≤ l.length := by
  intro fuel
  induction fuel with
  | zero => intro lo hi h _; exact h
  | succ fuel ih =>
    intro lo hi h h'
    unfold bisectLoop
    split
    · have hm : (lo + hi) / 2 < l.length := by omega
      rw [List.getElem?_eq_getElem hm]
      dsimp only
      split
      · exact ih _ _ h (by omega)
      · exact ih _ _ (by omega) h'
    · exact h

theorem bisectRight_le (key : α → κ) (l : List α) (x : κ) : bisectRight key l x ≤ l.length :=
  bisectLoop_le key l x _ _ _ (by omega) le_rfl

theorem insort_perm (key : α → κ) (l : List α) (x : α) : (insort key l x).Perm (x :: l) :=
  List.perm_insertIdx x l (bisectRight_le key l (key x))

theorem mem_insort (key : α → κ) (l : List α) (x y : α) : y ∈ insort key l x ↔ y = x ∨ y ∈ l := by
  rw [(insort_perm key l x).mem_iff]; simp

theorem insort_length (key : α → κ) (l : List α) (x : α) : (insort key l x).length = l.length + 1 := by
  rw [(insort_perm key l x).length_eq]; simp

/-- On a sorted list the position is the number of elements that are not larger. -/
theorem insort_eq (key : α → κ) (l : List α) (hs : l.Pairwise fun a b => key a ≤ key b) (x : α) :
    insort key l x = l.takeWhile (fun y => decide (key y ≤ key x)) ++ x :: l.dropWhile (fun y => decide (key y ≤ key x)) := by
  obtain ⟨h1, h2, h3⟩ := bisectLoop_spec key l hs (key x) l.length 0 l.length (by omega) (by omega) le_rfl
    (by intros; omega) (by intro i y hy hi; rw [List.getElem?_eq_none hi] at hy; simp at hy)
  have hb : bisectLoop key l (key x) l.length 0 l.length = bisectRight key l (key x) := rfl
  rw [hb] at h1 h2 h3
  unfold insort
  generalize bisectRight key l (key x) = b at h1 h2 h3
  clear hb hs
  induction l generalizing b with
  | nil => simp at h1; subst h1; simp
  | cons a l ih =>
    cases b with
    | zero =>
      have := h3 0 a rfl (Nat.zero_le _)
      have hn : ¬ key a ≤ key x := not_le.2 this
      simp [hn]
    | succ b =>
      have := h2 0 a rfl (Nat.succ_pos _)
      simp only [List.insertIdx_succ_cons, List.takeWhile_cons, List.dropWhile_cons, this, decide_true, if_true,
        List.cons_append]
      rw [ih b (by simpa using h1) (fun i y hy hi => h2 (i + 1) y (by simpa using hy) (by omega))
        (fun i y hy hi => h3 (i + 1) y (by simpa using hy) (by omega))]

theorem insort_sorted (key : α → κ) (l : List α) (hs : l.Pairwise fun a b => key a ≤ key b) (x : α) :
    (insort key l x).Pairwise fun a b => key a ≤ key b := by
  rw [insort_eq key l hs x]
  induction l with
  | nil => simp
  | cons a l ih =>
    have hs' := List.pairwise_cons.1 hs
    by_cases h : key a ≤ key x
    · simp only [List.takeWhile_cons, List.dropWhile_cons, h, decide_true, if_true, List.cons_append, List.pairwise_cons]
      refine ⟨?_, ih hs'.2⟩
      intro b hb
      rw [← insort_eq key l hs'.2 x, mem_insort] at hb
      rcases hb with rfl | hb
      · exact h
      · exact hs'.1 b hb
    · simp only [List.takeWhile_cons, List.dropWhile_cons, h, decide_false, Bool.false_eq_true, if_false, List.nil_append,
        List.pairwise_cons]
      have h' := le_of_lt (not_le.1 h)
      refine ⟨?_, hs'⟩
      intro b hb
      rcases List.mem_cons.1 hb with rfl | hb
      · exact h'
      · exact le_trans h' (hs'.1 b hb)

theorem insortAll_perm (key : α → κ) (l xs : List α) : (insortAll key l xs).Perm (xs ++ l) := by
  induction xs generalizing l with
  | nil => exact List.Perm.refl _
  | cons x xs ih =>
    refine (ih _).trans ?_
    refine (List.Perm.append_left xs (insort_perm key l x)).trans ?_
    exact List.perm_middle

theorem insortAll_sorted (key : α → κ) (l xs : List α) (hs : l.Pairwise fun a b => key a ≤ key b) :
    (insortAll key l xs).Pairwise fun a b => key a ≤ key b := by
  induction xs generalizing l with
  | nil => exact hs
  | cons x xs ih => exact ih _ (insort_sorted key l hs x)

end

theorem map_insertIdx' {α β : Type} (f : α → β) (l : List α) (n : Nat) (x : α) :
    (l.insertIdx n x).map f = (l.map f).insertIdx n (f x) := by
  induction l generalizing n with
  | nil => cases n <;> simp
  | cons a l ih => cases n <;> simp [ih]

/-- Renaming commutes with `insort`. -/
theorem insort_map {α β κ : Type} [LinearOrder κ] (f : α → β) (key : β → κ) (l : List α) (x : α) :
    insort key (l.map f) (f x) = (insort (fun a => key (f a)) l x).map f := by
  unfold insort
  have : ∀ (y : κ) fuel lo hi, bisectLoop key (l.map f) y fuel lo hi = bisectLoop (fun a => key (f a)) l y fuel lo hi := by
    intro y fuel
    induction fuel with
    | zero => intros; rfl
    | succ fuel ih =>
      intro lo hi
      unfold bisectLoop
      rw [List.getElem?_map]
      cases l[(lo + hi) / 2]? with
      | none => rfl
      | some z => simp only [Option.map_some, ih]
  unfold bisectRight
  rw [this, List.length_map, map_insertIdx']

theorem insortAll_map {α β κ : Type} [LinearOrder κ] (f : α → β) (key : β → κ) (l xs : List α) :
    insortAll key (l.map f) (xs.map f) = (insortAll (fun a => key (f a)) l xs).map f := by
  induction xs generalizing l with
  | nil => rfl
  | cons x xs ih =>
    show insortAll key (insort key (l.map f) (f x)) (xs.map f) = _
    rw [insort_map, ih]; rfl

/-- The key matters only on the elements involved. -/
theorem insort_congr {α κ : Type} [LinearOrder κ] (key key' : α → κ) (l : List α) (x : α)
    (h : ∀ y, y = x ∨ y ∈ l → key y = key' y) : insort key l x = insort key' l x := by
  unfold insort bisectRight
  rw [h x (Or.inl rfl)]
  congr 1
  generalize l.length = n
  have : ∀ (y : κ) fuel lo hi, bisectLoop key l y fuel lo hi = bisectLoop key' l y fuel lo hi := by
    intro y fuel
    induction fuel with
    | zero => intros; rfl
    | succ fuel ih =>
      intro lo hi
      unfold bisectLoop
      cases hz : l[(lo + hi) / 2]? with
      | none => rfl
      | some z => simp only [ih, h z (Or.inr (List.mem_of_getElem? hz))]
  exact this _ _ _ _

theorem insortAll_congr {α κ : Type} [LinearOrder κ] (key key' : α → κ) (l xs : List α)
    (h : ∀ y, y ∈ xs ∨ y ∈ l → key y = key' y) : insortAll key l xs = insortAll key' l xs := by
  induction xs generalizing l with
  | nil => rfl
  | cons x xs ih =>
    show insortAll key (insort key l x) xs = insortAll key' (insort key' l x) xs
    rw [insort_congr key key' l x (fun y hy => h y (by rcases hy with h | h <;> simp [h]))]
    apply ih
    intro y hy
    rw [mem_insort] at hy
    apply h
    rcases hy with h | h | h <;> simp [h]

end Satis
