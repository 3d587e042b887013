import Verif.Utils.Text
import Verif.Utils.TextSpec
import Verif.Utils.Numbers
import Verif.Utils.Pairs
import Mathlib.Tactic.IntervalCases
/-!
# Lemmas about the text functions
-/

namespace Satis.Utils
open Satis Spec

/-! ### Digits -/

def AllDigits (s : Str) : Prop := ∀ c ∈ s, isDigit c = true

/-- Value of a string of digits read after `acc`. -/
def digitsFold (acc : ℕ) (s : Str) : ℕ := s.foldl (fun a c => a * 10 + (digit? c).getD 0) acc

theorem digit_facts (c : Char) (h : isDigit c = true) : isSpace c = false ∧ c ≠ '_' ∧ c ≠ '-' ∧ c ≠ '+' ∧ c ≠ '/' ∧ c ≠ '⧸' ∧
    c ≠ '.' ∧ c ≠ 't' ∧ c ≠ 'x' ∧ c ≠ '(' ∧ c ≠ ')' ∧ c ≠ ' ' := by
  unfold isDigit digit? at h
  have h1 : 48 ≤ c.toNat ∧ c.toNat ≤ 57 := by
    by_contra hn; rw [if_neg hn] at h; simp at h
  have h2 : c = Char.ofNat c.toNat := (Char.ofNat_toNat c).symm
  obtain ⟨a, b⟩ := h1
  generalize c.toNat = n at *
  subst h2
  interval_cases n <;> decide

theorem ofNat_digit (d : ℕ) (hd : d < 10) : digit? (Char.ofNat (48 + d)) = some d := by
  interval_cases d <;> decide

theorem isDigit_ofNat (d : ℕ) (hd : d < 10) : isDigit (Char.ofNat (48 + d)) = true := by
  unfold isDigit; rw [ofNat_digit d hd]; rfl

theorem natLit_digits (s : Str) (h : AllDigits s) (acc : ℕ) (prev : Bool) (hp : prev = true ∨ s ≠ []) :
    natLit acc prev s = some (digitsFold acc s) := by
  induction s generalizing acc prev with
  | nil =>
    rcases hp with rfl | hp
    · rfl
    · exact absurd rfl hp
  | cons c s ih =>
    have hc := h c (by simp)
    have hf := digit_facts c hc
    unfold natLit
    rw [if_neg hf.2.1]
    unfold isDigit at hc
    obtain ⟨d, hd⟩ := Option.isSome_iff_exists.1 hc
    simp only [hd]
    rw [ih (fun c hc => h c (by simp [hc])) _ true (Or.inl rfl)]
    simp [digitsFold, hd]

theorem dropWhile_of_head {p : Char → Bool} {s : Str} (h : ∀ c, s.head? = some c → p c = false) : s.dropWhile p = s := by
  cases s with
  | nil => rfl
  | cons c s => rw [List.dropWhile_cons]; simp [h c rfl]

theorem strip_of_ends {s : Str} (h1 : ∀ c, s.head? = some c → isSpace c = false) (h2 : ∀ c, s.getLast? = some c → isSpace c = false) :
    strip s = s := by
  unfold strip
  rw [dropWhile_of_head h1, dropWhile_of_head (by intro c hc; rw [List.head?_reverse] at hc; exact h2 c hc), List.reverse_reverse]

theorem strip_nospace {s : Str} (h : ∀ c ∈ s, isSpace c = false) : strip s = s :=
  strip_of_ends (fun c hc => h c (List.mem_of_mem_head? hc)) (fun c hc => h c (List.mem_of_getLast? hc))

theorem pyInt_signed (sg : Sign) (s : Str) (h : AllDigits s) (hne : s ≠ []) :
    pyInt (sg.text ++ s) = .ok (sg.apply (digitsFold 0 s)) := by
  have hns : ∀ c ∈ sg.text ++ s, isSpace c = false := by
    intro c hc
    rcases List.mem_append.1 hc with hc | hc
    · cases sg <;> simp [Sign.text] at hc <;> subst hc <;> decide
    · exact (digit_facts c (h c hc)).1
  have hn := natLit_digits s h 0 false (Or.inr hne)
  unfold pyInt
  rw [strip_nospace hns]
  have : signedLit (sg.text ++ s) = some (sg.apply (digitsFold 0 s)) := by
    cases sg with
    | minus => simp only [Sign.text, List.cons_append, List.nil_append, signedLit, hn, Option.map_some, Sign.apply]
    | plus => simp only [Sign.text, List.cons_append, List.nil_append, signedLit, hn, Option.map_some, Sign.apply]
    | none =>
      simp only [Sign.text, List.nil_append, Sign.apply]
      cases s with
      | nil => exact absurd rfl hne
      | cons c s =>
        have hf := digit_facts c (h c (by simp))
        unfold signedLit
        split
        · rename_i heq; simp only [List.cons.injEq] at heq; exact absurd heq.1 hf.2.2.1
        · rename_i heq; simp only [List.cons.injEq] at heq; exact absurd heq.1 hf.2.2.2.1
        · rw [hn]; rfl
  rw [this]

theorem pyInt_digits (s : Str) (h : AllDigits s) (hne : s ≠ []) : pyInt s = .ok (digitsFold 0 s : ℤ) :=
  pyInt_signed .none s h hne

theorem natStrAux_digits (fuel n : ℕ) (acc : Str) (h : AllDigits acc) : AllDigits (natStrAux fuel n acc) := by
  induction fuel generalizing n acc with
  | zero => exact h
  | succ fuel ih =>
    have hacc : AllDigits (Char.ofNat (48 + n % 10) :: acc) := by
      intro c hc
      rcases List.mem_cons.1 hc with rfl | hc
      · exact isDigit_ofNat _ (Nat.mod_lt _ (by omega))
      · exact h c hc
    unfold natStrAux
    simp only
    split
    · exact hacc
    · exact ih _ _ hacc

theorem natStrAux_ne (fuel n : ℕ) (acc : Str) (h : acc ≠ [] ∨ 1 ≤ fuel) : natStrAux fuel n acc ≠ [] := by
  induction fuel generalizing n acc with
  | zero =>
    rcases h with h | h
    · exact h
    · omega
  | succ fuel ih =>
    unfold natStrAux
    simp only
    split
    · simp
    · exact ih _ _ (Or.inl (by simp))

theorem natStrAux_val (fuel n : ℕ) (acc : Str) (h : n < fuel) : digitsFold 0 (natStrAux fuel n acc) = digitsFold n acc := by
  induction fuel generalizing n acc with
  | zero => omega
  | succ fuel ih =>
    unfold natStrAux
    simp only
    have hd := ofNat_digit (n % 10) (Nat.mod_lt _ (by omega))
    split
    · rename_i h0
      have : n % 10 = n := Nat.mod_eq_of_lt (by omega)
      simp only [digitsFold, List.foldl_cons, hd, Option.getD_some, zero_mul, zero_add]
      rw [this]
    · rw [ih _ _ (by omega)]
      simp only [digitsFold, List.foldl_cons, hd, Option.getD_some]
      congr 1; omega

theorem natStr_digits (n : ℕ) : AllDigits (natStr n) := natStrAux_digits _ _ _ (by intro c hc; simp at hc)
theorem natStr_ne (n : ℕ) : natStr n ≠ [] := natStrAux_ne _ _ _ (Or.inr (by omega))
theorem natStr_val (n : ℕ) : digitsFold 0 (natStr n) = n := by unfold natStr; rw [natStrAux_val _ _ _ (by omega)]; rfl
theorem natStr_small (n : ℕ) (h : n < 10) : natStr n = [Char.ofNat (48 + n)] := by
  unfold natStr natStrAux
  simp only
  rw [if_pos (by omega), Nat.mod_eq_of_lt h]

theorem pyInt_natStr (n : ℕ) : pyInt (natStr n) = .ok (n : ℤ) := by
  rw [pyInt_digits _ (natStr_digits n) (natStr_ne n), natStr_val]

theorem digitsFold_append (acc : ℕ) (s t : Str) : digitsFold acc (s ++ t) = digitsFold (digitsFold acc s) t := by
  simp [digitsFold]

theorem digitsFold_shift (acc : ℕ) (s : Str) : digitsFold acc s = acc * 10 ^ s.length + digitsFold 0 s := by
  induction s using List.reverseRecOn with
  | nil => simp [digitsFold]
  | append_singleton s c ih =>
    rw [digitsFold_append, digitsFold_append, ih]
    simp only [digitsFold, List.foldl_cons, List.foldl_nil, List.length_append, List.length_singleton]
    ring

/-! ### `split` -/

theorem splitChar_none (sep : Char) (s cur : Str) (h : sep ∉ s) : splitChar sep s cur = [cur ++ s] := by
  induction s generalizing cur with
  | nil => simp [splitChar]
  | cons c s ih =>
    simp only [List.mem_cons, not_or] at h
    unfold splitChar
    rw [if_neg (Ne.symm h.1), ih _ h.2]; simp

theorem splitChar_mid (sep : Char) (s t cur : Str) (h : sep ∉ s) :
    splitChar sep (s ++ sep :: t) cur = (cur ++ s) :: splitChar sep t [] := by
  induction s generalizing cur with
  | nil => simp [splitChar]
  | cons c s ih =>
    simp only [List.mem_cons, not_or] at h
    rw [List.cons_append, splitChar, if_neg (Ne.symm h.1), ih _ h.2]; simp

theorem splitChar_length (sep : Char) (s cur : Str) : (splitChar sep s cur).length = s.count sep + 1 := by
  induction s generalizing cur with
  | nil => simp [splitChar]
  | cons c s ih =>
    unfold splitChar
    by_cases h : c = sep
    · rw [if_pos h, List.length_cons, ih, h, List.count_cons_self]
    · rw [if_neg h, ih, List.count_cons_of_ne h]

theorem splitTo_none (s cur : Str) (h : 't' ∉ s) : splitTo s cur = [cur ++ s] := by
  induction s generalizing cur with
  | nil => simp [splitTo]
  | cons c s ih =>
    simp only [List.mem_cons, not_or] at h
    rw [splitTo]
    · rw [ih _ h.2]; simp
    · rintro cs rfl; exact absurd rfl h.1

theorem splitTo_mid (s t cur : Str) (h : 't' ∉ s) : splitTo (s ++ 't' :: 'o' :: t) cur = (cur ++ s) :: splitTo t [] := by
  induction s generalizing cur with
  | nil => simp [splitTo]
  | cons c s ih =>
    simp only [List.mem_cons, not_or] at h
    rw [List.cons_append, splitTo]
    · rw [ih _ h.2]; simp
    · rintro cs rfl; exact absurd rfl h.1

theorem hasTo_mid (s t : Str) : hasTo (s ++ 't' :: 'o' :: t) = true := by
  induction s with
  | nil => simp [hasTo]
  | cons c s ih =>
    cases s with
    | nil => simp [hasTo]
    | cons d s =>
      rw [List.cons_append, List.cons_append, hasTo]
      rw [List.cons_append] at ih; simp [ih]

theorem splitWs_dropWhile (s : Str) : splitWs (s.dropWhile isSpace) [] = splitWs s [] := by
  induction s with
  | nil => rfl
  | cons c s ih =>
    rw [List.dropWhile_cons]
    split
    · rename_i h; rw [ih, splitWs, if_pos h]; simp
    · rfl

theorem splitWs_concat_space (s cur : Str) (c : Char) (h : isSpace c = true) : splitWs (s ++ [c]) cur = splitWs s cur := by
  induction s generalizing cur with
  | nil =>
    simp only [List.nil_append, splitWs, h, if_true]
  | cons d s ih =>
    rw [List.cons_append, splitWs, splitWs]
    simp only [ih]

theorem splitWs_dropEnd (s cur : Str) : splitWs (s.reverse.dropWhile isSpace).reverse cur = splitWs s cur := by
  induction s using List.reverseRecOn generalizing cur with
  | nil => rfl
  | append_singleton s c ih =>
    rw [List.reverse_append, List.reverse_singleton, List.singleton_append, List.dropWhile_cons]
    split
    · rename_i h; rw [ih, splitWs_concat_space _ _ _ h]
    · simp

theorem splitWs_strip (s : Str) : splitWs (strip s) [] = splitWs s [] := by
  unfold strip; rw [splitWs_dropEnd, splitWs_dropWhile]

theorem splitWs_nospace (s t cur : Str) (h : ∀ c ∈ s, isSpace c = false) : splitWs (s ++ t) cur = splitWs t (cur ++ s) := by
  induction s generalizing cur with
  | nil => simp
  | cons c s ih =>
    rw [List.cons_append, splitWs, if_neg (by simp [h c (by simp)]), ih _ (fun d hd => h d (by simp [hd]))]
    simp

/-- A word: non-empty and without spaces. -/
def Word (s : Str) : Prop := s ≠ [] ∧ ∀ c ∈ s, isSpace c = false

theorem splitWs_joinSp (l : List Str) (h : ∀ s ∈ l, Word s) : splitWs (joinSp l) [] = l := by
  induction l with
  | nil => rfl
  | cons s l ih =>
    have hs := h s (by simp)
    cases l with
    | nil =>
      rw [joinSp]
      have := splitWs_nospace s [] [] hs.2
      rw [List.append_nil] at this
      rw [this]; simp [splitWs, hs.1]
    | cons t l =>
      rw [joinSp, splitWs_nospace _ _ _ hs.2, List.nil_append, splitWs, if_pos (by decide), if_neg hs.1,
        ih (fun u hu => h u (by simp [hu]))]

theorem joinSp_append (l m : List Str) (hl : l ≠ []) (hm : m ≠ []) : joinSp (l ++ m) = joinSp l ++ ' ' :: joinSp m := by
  induction l with
  | nil => exact absurd rfl hl
  | cons s l ih =>
    cases l with
    | nil =>
      cases m with
      | nil => exact absurd rfl hm
      | cons t m => rfl
    | cons t l =>
      have := ih (by simp)
      rw [List.cons_append, List.cons_append, joinSp, joinSp]
      rw [List.cons_append] at this
      rw [this]; simp

theorem joinSp_map (ls : List (List Str)) (h : ∀ l ∈ ls, l ≠ []) : joinSp (ls.map joinSp) = joinSp ls.flatten := by
  induction ls with
  | nil => rfl
  | cons l ls ih =>
    cases ls with
    | nil => simp [joinSp]
    | cons m ls =>
      have := ih (fun l hl => h l (by simp [hl]))
      rw [List.flatten_cons, joinSp_append _ _ (h l (by simp)) (by
        intro h0
        have := (List.flatten_eq_nil_iff.1 h0) m (by simp)
        exact h m (by simp) this), ← this]
      rfl

theorem mem_joinSp (l : List Str) (c : Char) (h : c ∈ joinSp l) : c = ' ' ∨ ∃ s ∈ l, c ∈ s := by
  induction l with
  | nil => simp [joinSp] at h
  | cons s l ih =>
    cases l with
    | nil => right; exact ⟨s, by simp, h⟩
    | cons t l =>
      rw [joinSp, List.mem_append, List.mem_cons] at h
      rcases h with h | h | h
      · exact Or.inr ⟨s, by simp, h⟩
      · exact Or.inl h
      · rcases ih h with h | ⟨u, hu, hc⟩
        · exact Or.inl h
        · exact Or.inr ⟨u, by simp [List.mem_cons.1 hu], hc⟩

/-! ### Decimal literals -/

theorem takeWhile_digits (s t : Str) (h : AllDigits s) (ht : ∀ c, t.head? = some c → isDigit c = false) :
    (s ++ t).takeWhile isDigit = s ∧ (s ++ t).dropWhile isDigit = t := by
  induction s with
  | nil =>
    cases t with
    | nil => simp
    | cons c t => have := ht c rfl; simp [this]
  | cons c s ih =>
    have hc := h c (by simp)
    have := ih (fun c hc => h c (by simp [hc]))
    simp [hc, this]

/-- Parsing `w.f` followed by nothing or by `(r)`. -/
theorem parseDecimal_spec (w f r : Str) (hw : AllDigits w) (hf : AllDigits f) (hr : AllDigits r) (tl : Str)
    (htl : (r = [] ∧ tl = []) ∨ tl = '(' :: (r ++ [')'])) : parseDecimal (w ++ '.' :: (f ++ tl)) = .ok (digitsFold 0 w, f, r) := by
  have h1 := takeWhile_digits w ('.' :: (f ++ tl)) hw (by intro c hc; simp at hc; subst hc; decide)
  have h2 := takeWhile_digits f tl hf (by
    intro c hc
    rcases htl with ⟨_, rfl⟩ | rfl
    · simp at hc
    · simp at hc; subst hc; decide)
  unfold parseDecimal
  simp only [h1.1, h1.2, h2.1, h2.2]
  have hr' : repeatPart tl = r := by
    rcases htl with ⟨rfl, rfl⟩ | rfl
    · rfl
    · have h3 := takeWhile_digits r [')'] hr (by intro c hc; simp at hc; subst hc; decide)
      simp only [repeatPart, h3.1, h3.2]
  rw [hr']
  by_cases hw0 : w = []
  · rw [if_pos hw0, hw0]; rfl
  · rw [if_neg hw0, pyInt_digits w hw hw0]; rfl

theorem mkFraction_ok (a b : ℤ) (h : b ≠ 0) : mkFraction a b = .ok ((a : ℚ) / b) := by
  unfold mkFraction; rw [if_neg h]

theorem addDigits_spec (x : ℚ) (s : Str) (h : AllDigits s) (den : ℤ) (hd : s ≠ [] → den ≠ 0) :
    addDigits x s den = .ok (x + (digitsFold 0 s : ℚ) / den) := by
  unfold addDigits
  by_cases h0 : s = []
  · rw [if_pos h0, h0]; simp [digitsFold]
  · rw [if_neg h0, pyInt_digits s h h0]
    simp only [bind, Except.bind, mkFraction_ok _ _ (hd h0), pure, Except.pure]
    push_cast; rfl

theorem parseFraction_decimal (w f r : Str) (hw : AllDigits w) (hf : AllDigits f) (hr : AllDigits r) (tl : Str)
    (htl : (r = [] ∧ tl = []) ∨ (r ≠ [] ∧ tl = '(' :: (r ++ [')']))) :
    parseFraction (w ++ '.' :: (f ++ tl)) = .ok ((digitsFold 0 w : ℚ) + (digitsFold 0 f : ℚ) / 10 ^ f.length +
      (digitsFold 0 r : ℚ) / (10 ^ f.length * (10 ^ r.length - 1))) := by
  have hno : ∀ c ∈ w ++ '.' :: (f ++ tl), c ≠ '/' ∧ c ≠ '⧸' := by
    intro c hc
    rw [List.mem_append, List.mem_cons, List.mem_append] at hc
    rcases hc with hc | hc | hc | hc
    · have := digit_facts c (hw c hc); exact ⟨this.2.2.2.2.1, this.2.2.2.2.2.1⟩
    · subst hc; decide
    · have := digit_facts c (hf c hc); exact ⟨this.2.2.2.2.1, this.2.2.2.2.2.1⟩
    · rcases htl with ⟨_, rfl⟩ | ⟨_, rfl⟩
      · simp at hc
      · rw [List.mem_cons, List.mem_append] at hc
        rcases hc with hc | hc | hc
        · subst hc; decide
        · have := digit_facts c (hr c hc); exact ⟨this.2.2.2.2.1, this.2.2.2.2.2.1⟩
        · simp at hc; subst hc; decide
  unfold parseFraction
  rw [if_neg (fun h => (hno _ h).1 rfl), if_neg (fun h => (hno _ h).2 rfl), if_neg (by simp),
    parseDecimal_spec w f r hw hf hr tl (by tauto)]
  have h10 : (10 : ℤ) ^ f.length ≠ 0 := by positivity
  simp only [bind, Except.bind]
  rw [addDigits_spec _ f hf _ (fun _ => h10)]
  simp only
  rw [addDigits_spec _ r hr _ (by
    intro hr0
    refine mul_ne_zero h10 ?_
    have h1 : 1 ≤ r.length := List.length_pos_iff.2 hr0
    have : (10 : ℤ) ^ 1 ≤ 10 ^ r.length := pow_le_pow_right₀ (by norm_num) h1
    omega)]
  push_cast; rfl

/-! ### Values -/

theorem decimalDigits_spec (den : ℕ) (hd : 0 < den) (m p : ℕ) (hp : p < den) :
    AllDigits (decimalDigits den m p) ∧ (decimalDigits den m p).length = m ∧
    ∃ rem, rem < den ∧ digitsFold 0 (decimalDigits den m p) * den + rem = p * 10 ^ m := by
  induction m generalizing p with
  | zero => exact ⟨by intro c hc; simp [decimalDigits] at hc, rfl, p, hp, by simp [decimalDigits, digitsFold]⟩
  | succ m ih =>
    obtain ⟨h1, h2, rem, h3, h4⟩ := ih (p * 10 % den) (Nat.mod_lt _ hd)
    have hlt : p * 10 / den < 10 := by rw [Nat.div_lt_iff_lt_mul hd]; omega
    rw [decimalDigits, natStr_small _ hlt]
    refine ⟨?_, by simp [h2], rem, h3, ?_⟩
    · intro c hc
      simp only [List.cons_append, List.nil_append, List.mem_cons] at hc
      rcases hc with rfl | hc
      · exact isDigit_ofNat _ hlt
      · exact h1 c hc
    · have hc : digitsFold 0 ([Char.ofNat (48 + p * 10 / den)] ++ decimalDigits den m (p * 10 % den)) =
          (p * 10 / den) * 10 ^ m + digitsFold 0 (decimalDigits den m (p * 10 % den)) := by
        rw [digitsFold_append, digitsFold_shift, h2]
        simp [digitsFold, ofNat_digit _ hlt]
      rw [hc]
      have := Nat.div_add_mod (p * 10) den
      calc ((p * 10 / den) * 10 ^ m + digitsFold 0 (decimalDigits den m (p * 10 % den))) * den + rem
          = (den * (p * 10 / den)) * 10 ^ m + (digitsFold 0 (decimalDigits den m (p * 10 % den)) * den + rem) := by ring
        _ = (den * (p * 10 / den) + p * 10 % den) * 10 ^ m := by rw [h4]; ring
        _ = p * 10 ^ (m + 1) := by rw [this]; ring

theorem intStr_nonneg (z : ℤ) (h : 0 ≤ z) : intStr z = natStr z.toNat := by
  unfold intStr; rw [if_neg (by omega)]; congr 1; omega

theorem parseFraction_int (n : ℕ) : parseFraction (natStr n) = .ok (n : ℚ) := by
  have hd := natStr_digits n
  unfold parseFraction
  rw [if_neg (fun h => (digit_facts _ (hd _ h)).2.2.2.2.1 rfl), if_neg (fun h => (digit_facts _ (hd _ h)).2.2.2.2.2.1 rfl),
    if_pos (fun h => (digit_facts _ (hd _ h)).2.2.2.2.2.2.1 rfl), pyInt_natStr]
  simp [bind, Except.bind, pure, Except.pure]

theorem parseRatio_spec (slash : Char) (hs : slash = '/' ∨ slash = '⧸') (sg sg' : Sign) (a b : Str) (ha : AllDigits a)
    (hb : AllDigits b) (ha0 : a ≠ []) (hb0 : b ≠ []) :
    parseFraction (sg.text ++ a ++ slash :: (sg'.text ++ b)) = mkFraction (sg.apply (digitsFold 0 a)) (sg'.apply (digitsFold 0 b)) := by
  have hno : ∀ (sg : Sign) (a : Str), AllDigits a → ∀ c ∈ sg.text ++ a, c ≠ '/' ∧ c ≠ '⧸' := by
    intro sg a ha c hc
    rcases List.mem_append.1 hc with hc | hc
    · cases sg <;> simp [Sign.text] at hc <;> subst hc <;> decide
    · have := digit_facts c (ha c hc); exact ⟨this.2.2.2.2.1, this.2.2.2.2.2.1⟩
  have hmem : ∀ c, c = '/' ∨ c = '⧸' → (c ∈ sg.text ++ a ++ slash :: (sg'.text ++ b) ↔ c = slash) := by
    intro c hc
    rw [List.mem_append, List.mem_cons]
    constructor
    · rintro (h | h | h)
      · rcases hc with rfl | rfl
        · exact absurd rfl (hno sg a ha _ h).1
        · exact absurd rfl (hno sg a ha _ h).2
      · exact h
      · rcases hc with rfl | rfl
        · exact absurd rfl (hno sg' b hb _ h).1
        · exact absurd rfl (hno sg' b hb _ h).2
    · rintro rfl; exact Or.inr (Or.inl rfl)
  have hpr : parseRatio slash (sg.text ++ a ++ slash :: (sg'.text ++ b)) =
      mkFraction (sg.apply (digitsFold 0 a)) (sg'.apply (digitsFold 0 b)) := by
    unfold parseRatio
    have h1 : slash ∉ sg.text ++ a := by
      intro h
      rcases hs with rfl | rfl
      · exact (hno sg a ha _ h).1 rfl
      · exact (hno sg a ha _ h).2 rfl
    have h2 : slash ∉ sg'.text ++ b := by
      intro h
      rcases hs with rfl | rfl
      · exact (hno sg' b hb _ h).1 rfl
      · exact (hno sg' b hb _ h).2 rfl
    rw [splitChar_mid _ _ _ _ h1, splitChar_none _ _ _ h2]
    simp only [List.nil_append, pyInt_signed sg a ha ha0, pyInt_signed sg' b hb hb0, bind, Except.bind]
  unfold parseFraction
  rcases hs with rfl | rfl
  · rw [if_pos ((hmem '/' (Or.inl rfl)).2 rfl), hpr]
  · rw [if_neg (fun h => absurd ((hmem '/' (Or.inl rfl)).1 h) (by decide)), if_pos ((hmem '⧸' (Or.inr rfl)).2 rfl), hpr]

theorem rat_split (f : ℚ) (hf : 0 ≤ f) :
    f = ((f.num / f.den : ℤ) : ℚ) + ((f.num.natAbs % f.den : ℕ) : ℚ) / f.den := by
  have hd : (f.den : ℚ) ≠ 0 := by exact_mod_cast f.den_nz
  have hn : 0 ≤ f.num := Rat.num_nonneg.2 hf
  have h1 : f.num = f.den * (f.num / f.den) + ((f.num.natAbs % f.den : ℕ) : ℤ) := by
    have h2 : ((f.num.natAbs % f.den : ℕ) : ℤ) = f.num % f.den := by
      push_cast; rw [abs_of_nonneg hn]
    rw [h2]; exact (Int.mul_ediv_add_emod _ _).symm
  have h2 : (f.num : ℚ) = f.den * ((f.num / f.den : ℤ) : ℚ) + ((f.num.natAbs % f.den : ℕ) : ℚ) := by
    have := congrArg (Int.cast : ℤ → ℚ) h1
    rw [Int.cast_add, Int.cast_mul, Int.cast_natCast, Int.cast_natCast] at this
    exact this
  nth_rw 1 [← Rat.num_div_den f]
  rw [h2]; field_simp

/-- The text of a value as `format_fractions` writes it, with the given slash. -/
def valueStrWith (slash : Char) (f : ℚ) : Str := replaceChar '⧸' slash (valueStr f)

theorem replaceChar_not_mem (a b : Char) (s : Str) (h : a ∉ s) : replaceChar a b s = s := by
  unfold replaceChar
  conv_rhs => rw [← List.map_id s]
  refine List.map_congr_left ?_
  intro c hc
  rw [if_neg (by rintro rfl; exact h hc)]; rfl

theorem allDigits_no (s : Str) (h : AllDigits s) : '/' ∉ s ∧ '⧸' ∉ s ∧ '.' ∉ s ∧ 't' ∉ s :=
  ⟨fun hm => (digit_facts _ (h _ hm)).2.2.2.2.1 rfl, fun hm => (digit_facts _ (h _ hm)).2.2.2.2.2.1 rfl,
    fun hm => (digit_facts _ (h _ hm)).2.2.2.2.2.2.1 rfl, fun hm => (digit_facts _ (h _ hm)).2.2.2.2.2.2.2.1 rfl⟩

/-- The three shapes of the text of a value. -/
theorem valueStr_shape (f : ℚ) (hf : 0 ≤ f) :
    (∃ n : ℕ, valueStr f = natStr n ∧ f = n) ∨
    (f.den ≠ 1 ∧ valueStr f = natStr f.num.toNat ++ '⧸' :: natStr f.den) ∨
    (∃ (n : ℕ) (ds : Str), valueStr f = natStr n ++ '.' :: ds ∧ AllDigits ds ∧ ds ≠ [] ∧ f = n + (digitsFold 0 ds : ℚ) / 10 ^ ds.length) := by
  have hn : 0 ≤ f.num := Rat.num_nonneg.2 hf
  have hd : (f.den : ℚ) ≠ 0 := by exact_mod_cast f.den_nz
  have other : valueStr f = replaceChar '/' '⧸' (fracStr f) →
      (∃ n : ℕ, valueStr f = natStr n ∧ f = n) ∨ (f.den ≠ 1 ∧ valueStr f = natStr f.num.toNat ++ '⧸' :: natStr f.den) := by
    intro h
    rw [h]
    unfold fracStr
    by_cases h1 : f.den = 1
    · left
      refine ⟨f.num.toNat, ?_, ?_⟩
      · rw [if_pos h1, intStr_nonneg _ hn, replaceChar_not_mem _ _ _ (allDigits_no _ (natStr_digits _)).1]
      · have : f = f.num := by
          conv_lhs => rw [← Rat.num_div_den f, h1]
          simp
        have h2 : (f.num.toNat : ℤ) = f.num := by omega
        rw [← Int.cast_natCast, h2]; exact this
    · right
      refine ⟨h1, ?_⟩
      rw [if_neg h1, intStr_nonneg _ hn]
      unfold replaceChar
      rw [List.map_append, List.map_cons]
      have e1 := replaceChar_not_mem '/' '⧸' _ (allDigits_no _ (natStr_digits f.num.toNat)).1
      have e2 := replaceChar_not_mem '/' '⧸' _ (allDigits_no _ (natStr_digits f.den)).1
      unfold replaceChar at e1 e2
      rw [e1, e2]; simp
  obtain ⟨a, b, r, h1, h2, h3, h4⟩ := decimalInfo_split f
  by_cases hr : r = 1
  · rw [if_pos hr] at h4
    cases hm : max a b with
    | zero =>
      rw [hm] at h4
      have : valueStr f = replaceChar '/' '⧸' (fracStr f) := by unfold valueStr; rw [h4]
      rcases other this with h | h
      · exact Or.inl h
      · exact Or.inr (Or.inl h)
    | succ m =>
      rw [hm] at h4
      right; right
      obtain ⟨d1, d2, rem, d3, d4⟩ := decimalDigits_spec f.den f.den_pos (m + 1) (f.num.natAbs % f.den) (Nat.mod_lt _ f.den_pos)
      refine ⟨(f.num / f.den).toNat, decimalDigits f.den (m + 1) (f.num.natAbs % f.den), ?_, d1, ?_, ?_⟩
      · unfold valueStr
        rw [h4]
        simp only
        rw [Int.fdiv_eq_ediv_of_nonneg _ (by positivity), intStr_nonneg _ (Int.ediv_nonneg hn (by positivity))]
      · intro h; rw [h] at d2; simp at d2
      · have hex : f.den ∣ 10 ^ (m + 1) := by
          have := (exactWith_iff f h1 h2 h3 (m + 1)).2 ⟨hr, by omega, by omega⟩
          unfold ExactWith at this
          have h10 : (10 : ℚ) ^ (m + 1) = ((10 ^ (m + 1) : ℕ) : ℚ) := by push_cast; rfl
          rw [h10] at this
          exact (integral_mul_iff f _).1 this
        have hrem : rem = 0 := by
          have h5 : f.den ∣ rem := by
            have h6 : f.den ∣ digitsFold 0 (decimalDigits f.den (m + 1) (f.num.natAbs % f.den)) * f.den + rem := by
              rw [d4]; exact hex.mul_left _
            exact (Nat.dvd_add_right (Dvd.intro_left _ rfl)).1 h6
          exact Nat.eq_zero_of_dvd_of_lt h5 d3
        rw [hrem, add_zero] at d4
        have d5 : (digitsFold 0 (decimalDigits f.den (m + 1) (f.num.natAbs % f.den)) : ℚ) * f.den =
            ((f.num.natAbs % f.den : ℕ) : ℚ) * 10 ^ (m + 1) := by exact_mod_cast d4
        have h10 : (10 : ℚ) ^ (m + 1) ≠ 0 := by positivity
        have hw : (((f.num / f.den).toNat : ℕ) : ℚ) = ((f.num / f.den : ℤ) : ℚ) := by
          have : (((f.num / f.den).toNat : ℕ) : ℤ) = f.num / f.den := Int.toNat_of_nonneg (Int.ediv_nonneg hn (by positivity))
          exact_mod_cast this
        rw [d2, hw]
        conv_lhs => rw [rat_split f hf]
        congr 1
        rw [div_eq_div_iff hd h10]; linarith
  · rw [if_neg hr] at h4
    have : valueStr f = replaceChar '/' '⧸' (fracStr f) := by
      unfold valueStr; rw [h4]; split_ifs <;> rfl
    rcases other this with h | h
    · exact Or.inl h
    · exact Or.inr (Or.inl h)

theorem getLast_digit (s : Str) (h : AllDigits s) (hne : s ≠ []) (pre : Str) : (pre ++ s).getLast? ≠ some 'x' := by
  rw [List.getLast?_append_of_ne_nil _ hne]
  intro hx
  exact (digit_facts _ (h _ (List.mem_of_getLast? hx))).2.2.2.2.2.2.2.2.1 rfl

/-- The text of a value is one word that parses to the value, with either slash. -/
theorem valueStr_parse (f : ℚ) (hf : 0 ≤ f) (slash : Char) (hs : slash = '/' ∨ slash = '⧸') :
    Word (valueStrWith slash f) ∧ (valueStrWith slash f).getLast? ≠ some 'x' ∧ 't' ∉ valueStrWith slash f ∧
    parseFraction (valueStrWith slash f) = .ok f := by
  have dw : ∀ s, AllDigits s → ∀ c ∈ s, isSpace c = false := fun s h c hc => (digit_facts c (h c hc)).1
  unfold valueStrWith
  rcases valueStr_shape f hf with ⟨n, h1, h2⟩ | ⟨h1, h2⟩ | ⟨n, ds, h1, h2, h3, h4⟩
  · have hd := natStr_digits n
    rw [h1, replaceChar_not_mem _ _ _ (allDigits_no _ hd).2.1]
    refine ⟨⟨natStr_ne n, dw _ hd⟩, ?_, (allDigits_no _ hd).2.2.2, ?_⟩
    · have := getLast_digit _ hd (natStr_ne n) []; simpa using this
    · rw [parseFraction_int, h2]
  · have hd1 := natStr_digits f.num.toNat
    have hd2 := natStr_digits f.den
    have hrep : replaceChar '⧸' slash (valueStr f) = natStr f.num.toNat ++ slash :: natStr f.den := by
      rw [h2]
      have e1 := replaceChar_not_mem '⧸' slash _ (allDigits_no _ hd1).2.1
      have e2 := replaceChar_not_mem '⧸' slash _ (allDigits_no _ hd2).2.1
      unfold replaceChar at *
      rw [List.map_append, List.map_cons, e1, e2]; simp
    rw [hrep]
    refine ⟨⟨by simp, ?_⟩, ?_, ?_, ?_⟩
    · intro c hc
      rw [List.mem_append, List.mem_cons] at hc
      rcases hc with hc | hc | hc
      · exact dw _ hd1 c hc
      · subst hc; rcases hs with rfl | rfl <;> decide
      · exact dw _ hd2 c hc
    · have := getLast_digit _ hd2 (natStr_ne f.den) (natStr f.num.toNat ++ [slash])
      simpa using this
    · rw [List.mem_append, List.mem_cons]
      rintro (h | h | h)
      · exact (allDigits_no _ hd1).2.2.2 h
      · rcases hs with rfl | rfl <;> exact absurd h (by decide)
      · exact (allDigits_no _ hd2).2.2.2 h
    · have := parseRatio_spec slash hs .none .none (natStr f.num.toNat) (natStr f.den) hd1 hd2 (natStr_ne _) (natStr_ne _)
      simp only [Sign.text, List.nil_append, Sign.apply, natStr_val] at this
      rw [this, mkFraction_ok _ _ (by exact_mod_cast f.den_nz)]
      have hn : ((f.num.toNat : ℕ) : ℤ) = f.num := Int.toNat_of_nonneg (Rat.num_nonneg.2 hf)
      have hn' : (((f.num.toNat : ℕ) : ℤ) : ℚ) = (f.num : ℚ) := by rw [hn]
      rw [hn', Int.cast_natCast, Rat.num_div_den]
  · have hd1 := natStr_digits n
    have hno : '⧸' ∉ natStr n ++ '.' :: ds := by
      rw [List.mem_append, List.mem_cons]
      rintro (h | h | h)
      · exact (allDigits_no _ hd1).2.1 h
      · exact absurd h (by decide)
      · exact (allDigits_no _ h2).2.1 h
    rw [h1, replaceChar_not_mem _ _ _ hno]
    refine ⟨⟨by simp, ?_⟩, ?_, ?_, ?_⟩
    · intro c hc
      rw [List.mem_append, List.mem_cons] at hc
      rcases hc with hc | hc | hc
      · exact dw _ hd1 c hc
      · subst hc; decide
      · exact dw _ h2 c hc
    · have := getLast_digit _ h2 h3 (natStr n ++ ['.'])
      simpa using this
    · rw [List.mem_append, List.mem_cons]
      rintro (h | h | h)
      · exact (allDigits_no _ hd1).2.2.2 h
      · exact absurd h (by decide)
      · exact (allDigits_no _ h2).2.2.2 h
    · have := parseFraction_decimal (natStr n) ds [] hd1 h2 (by intro c hc; simp at hc) [] (Or.inl ⟨rfl, rfl⟩)
      rw [List.append_nil] at this
      rw [this, natStr_val, h4]
      simp [digitsFold]

/-! ### Lists of values -/

/-- The words `format_fractions` writes for one value with a count. -/
def valueWords (slash : Char) (kv : ℚ × ℕ) : List Str :=
  if 1 < kv.2 then [natStr kv.2 ++ ['x'], valueStrWith slash kv.1] else [valueStrWith slash kv.1]

theorem valueWords_ne (slash : Char) (kv : ℚ × ℕ) : valueWords slash kv ≠ [] := by unfold valueWords; split <;> simp

theorem replaceChar_append (a b : Char) (s t : Str) : replaceChar a b (s ++ t) = replaceChar a b s ++ replaceChar a b t := by
  simp [replaceChar]

theorem replaceChar_cons (a b c : Char) (t : Str) : replaceChar a b (c :: t) = (if c = a then b else c) :: replaceChar a b t := by
  simp [replaceChar]

theorem replaceChar_joinSp (a b : Char) (ha : a ≠ ' ') (l : List Str) : replaceChar a b (joinSp l) = joinSp (l.map (replaceChar a b)) := by
  induction l with
  | nil => rfl
  | cons s l ih =>
    cases l with
    | nil => rfl
    | cons t l =>
      rw [joinSp, replaceChar_append, replaceChar_cons, if_neg (Ne.symm ha), ih]; rfl

theorem formatFractions_words (slash : Char) (fs : List ℚ) :
    replaceChar '⧸' slash (formatFractions fs) = joinSp ((counter fs).flatMap (valueWords slash)) := by
  unfold formatFractions
  rw [replaceChar_joinSp _ _ (by decide), List.flatMap_def, ← joinSp_map _ (by
    intro l hl
    obtain ⟨kv, _, rfl⟩ := List.mem_map.1 hl
    exact valueWords_ne slash kv), List.map_map, List.map_map]
  congr 1
  refine List.map_congr_left ?_
  intro kv _
  simp only [Function.comp]
  unfold withCount valueWords
  split
  · rw [replaceChar_append, replaceChar_cons, replaceChar_cons, if_neg (by decide), if_neg (by decide),
      replaceChar_not_mem _ _ _ (allDigits_no _ (natStr_digits _)).2.1]
    simp [joinSp, valueStrWith]
  · rfl

theorem count_word (n : ℕ) : Word (natStr n ++ ['x']) ∧ 't' ∉ natStr n ++ ['x'] := by
  have hd := natStr_digits n
  refine ⟨⟨by simp, ?_⟩, ?_⟩
  · intro c hc
    rcases List.mem_append.1 hc with hc | hc
    · exact (digit_facts c (hd c hc)).1
    · simp at hc; subst hc; decide
  · intro h
    rcases List.mem_append.1 h with h | h
    · exact (allDigits_no _ hd).2.2.2 h
    · simp at h

theorem valueWords_word (slash : Char) (hs : slash = '/' ∨ slash = '⧸') (d : Dict ℚ ℕ) (hd : ∀ kv ∈ d, 0 ≤ kv.1) :
    ∀ s ∈ d.flatMap (valueWords slash), Word s ∧ 't' ∉ s := by
  intro s h
  obtain ⟨kv, hkv, h⟩ := List.mem_flatMap.1 h
  have hv := valueStr_parse kv.1 (hd kv hkv) slash hs
  unfold valueWords at h
  split at h
  · simp only [List.mem_cons, List.not_mem_nil, or_false] at h
    rcases h with rfl | rfl
    · exact count_word _
    · exact ⟨hv.1, hv.2.2.1⟩
  · simp only [List.mem_cons, List.not_mem_nil, or_false] at h
    subst h; exact ⟨hv.1, hv.2.2.1⟩

theorem parseArgs_words (slash : Char) (hs : slash = '/' ∨ slash = '⧸') (isT : Bool) (d : Dict ℚ ℕ) (hd : ∀ kv ∈ d, 0 ≤ kv.1 ∧ 1 ≤ kv.2)
    (acc : List ℚ) : parseArgs isT (d.flatMap (valueWords slash)) acc = .ok (some (acc ++ elements d)) := by
  induction d generalizing acc with
  | nil => simp [parseArgs, elements]
  | cons kv d ih =>
    obtain ⟨h0, h1⟩ := hd kv (by simp)
    have hv := valueStr_parse kv.1 h0 slash hs
    have ih := ih (fun kv hkv => hd kv (by simp [hkv]))
    rw [List.flatMap_cons]
    have he : elements (kv :: d) = List.replicate kv.2 kv.1 ++ elements d := rfl
    rw [he]
    have hw : valueWords slash kv = if 1 < kv.2 then [natStr kv.2 ++ ['x'], valueStrWith slash kv.1] else [valueStrWith slash kv.1] := rfl
    rw [hw]
    by_cases h : 1 < kv.2
    · rw [if_pos h]
      simp only [List.cons_append, List.nil_append]
      rw [parseArgs, if_neg (by simp), if_neg (by
        simp only [List.length_append, List.length_singleton, List.dropLast_concat, not_or]
        refine ⟨?_, ?_⟩
        · have := List.length_pos_iff.2 (natStr_ne kv.2); omega
        · simp only [Bool.not_eq_false, List.all_eq_true]; exact natStr_digits kv.2)]
      simp only [List.dropLast_concat, pyInt_natStr, bind, Except.bind, hv.2.2.2]
      have := ih (acc ++ List.replicate (Int.toNat (kv.2 : ℤ)) kv.1)
      rw [this]; simp
    · rw [if_neg h]
      have h2 : kv.2 = 1 := by omega
      simp only [List.cons_append, List.nil_append]
      rw [parseArgs, if_pos hv.2.1, hv.2.2.2]
      simp only [bind, Except.bind]
      have := ih (acc ++ [kv.1])
      rw [this, h2]; simp

/-- Round trip of a problem name, with either slash. -/
theorem parse_problemName (slash : Char) (hs : slash = '/' ∨ slash = '⧸') (s t : List ℚ) (hs0 : s ≠ []) (ht0 : t ≠ [])
    (hsn : ∀ f ∈ s, 0 ≤ f) (htn : ∀ f ∈ t, 0 ≤ f) :
    parseUserInput (replaceChar '⧸' slash (problemName s t)) = .ok (some (elements (counter s), elements (counter t))) := by
  have hds : ∀ (l : List ℚ), (∀ f ∈ l, 0 ≤ f) → ∀ kv ∈ counter l, 0 ≤ kv.1 ∧ 1 ≤ kv.2 := by
    intro l hl kv hkv
    exact ⟨hl _ ((mem_counter_keys l kv.1).1 (List.mem_map.2 ⟨kv, hkv, rfl⟩)), counter_pos l kv hkv⟩
  have hne : ∀ (l : List ℚ), l ≠ [] → (counter l).flatMap (valueWords slash) ≠ [] := by
    intro l hl h
    cases l with
    | nil => exact hl rfl
    | cons x l =>
      have hx := (mem_counter_keys (x :: l) x).2 (by simp)
      obtain ⟨kv, hkv, _⟩ := List.mem_map.1 hx
      rw [List.flatMap_eq_nil_iff] at h
      exact valueWords_ne slash kv (h kv hkv)
  have hws := valueWords_word slash hs (counter s) (fun kv hkv => (hds s hsn kv hkv).1)
  have hwt := valueWords_word slash hs (counter t) (fun kv hkv => (hds t htn kv hkv).1)
  have hname : replaceChar '⧸' slash (problemName s t) =
      (joinSp ((counter s).flatMap (valueWords slash)) ++ [' ']) ++ 't' :: 'o' :: (' ' :: joinSp ((counter t).flatMap (valueWords slash))) := by
    unfold problemName
    rw [replaceChar_append, replaceChar_append, formatFractions_words, formatFractions_words,
      replaceChar_not_mem _ _ [' ', 't', 'o', ' '] (by decide)]
    simp
  rw [hname]
  generalize hA : (counter s).flatMap (valueWords slash) = A at *
  generalize hB : (counter t).flatMap (valueWords slash) = B at *
  have hnoT : ∀ L : List Str, (∀ s ∈ L, Word s ∧ 't' ∉ s) → 't' ∉ joinSp L := by
    intro L hL hm
    rcases mem_joinSp L 't' hm with h | ⟨u, hu, hc⟩
    · exact absurd h (by decide)
    · exact (hL u hu).2 hc
  unfold parseUserInput
  rw [if_neg (by
    rw [splitChar_length, hasTo_mid]
    simp only [List.count_append, List.count_cons, List.count_nil]
    simp; omega)]
  rw [splitTo_mid _ _ _ (by
    rw [List.mem_append]; rintro (h | h)
    · exact hnoT A hws h
    · simp at h), splitTo_none _ _ (by
    rw [List.mem_cons]; rintro (h | h)
    · exact absurd h (by decide)
    · exact hnoT B hwt h)]
  simp only [List.nil_append, splitWs_strip]
  have h1 : splitWs (joinSp A ++ [' ']) [] = A := by
    rw [splitWs_concat_space _ _ _ (by decide), splitWs_joinSp _ (fun s hs => (hws s hs).1)]
  have h2 : splitWs (' ' :: joinSp B) [] = B := by
    rw [splitWs, if_pos (by decide), if_pos rfl, splitWs_joinSp _ (fun s hs => (hwt s hs).1)]
  rw [h1, h2, if_neg (by rw [← hA]; exact hne s hs0), if_neg (by rw [← hB]; exact hne t ht0)]
  have p1 := parseArgs_words slash hs false (counter s) (hds s hsn) []
  have p2 := parseArgs_words slash hs true (counter t) (hds t htn) []
  rw [hA] at p1; rw [hB] at p2
  simp only [p1, p2, bind, Except.bind, List.nil_append]
  rfl

theorem natStr_no_slash (n : ℕ) : '/' ∉ natStr n := (allDigits_no _ (natStr_digits n)).1

theorem intStr_no_slash (z : ℤ) : '/' ∉ intStr z := by
  unfold intStr; split
  · rw [List.mem_cons]; rintro (h | h)
    · exact absurd h (by decide)
    · exact natStr_no_slash _ h
  · exact natStr_no_slash _

theorem valueStr_no_slash (f : ℚ) : '/' ∉ valueStr f := by
  unfold valueStr
  split
  · rw [List.mem_append, List.mem_cons]
    rintro (h | h | h)
    · exact intStr_no_slash _ h
    · exact absurd h (by decide)
    · exact (allDigits_no _ (decimalDigits_spec f.den f.den_pos _ _ (Nat.mod_lt _ f.den_pos)).1).1 h
  · intro h
    unfold replaceChar at h
    obtain ⟨c, _, hc⟩ := List.mem_map.1 h
    split at hc
    · exact absurd hc (by decide)
    · rename_i h2; exact h2 hc

end Satis.Utils
