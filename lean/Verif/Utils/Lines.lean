import Verif.Utils.Literals
import Verif.Utils.LineSpec

/-! Lemmas about the reading of lines: each function of the parser accepts exactly what `LineSpec` describes. -/

namespace Satis.Utils
open Satis Spec

theorem white_iff (c : Char) : isSpace c = true ↔ White c := by
  unfold isSpace White whiteSpace
  simp only [Bool.or_eq_true, Bool.and_eq_true, decide_eq_true_eq, beq_iff_eq, List.mem_cons, List.not_mem_nil, or_false]
  omega

theorem digit?_char {c : Char} {d : ℕ} (h : digit? c = some d) : ∃ f : Fin 10, f.val = d ∧ digitChar f = c := by
  unfold digit? at h
  split at h
  · rename_i q
    simp only [Option.some.injEq] at h
    have h2 : c = Char.ofNat c.toNat := (Char.ofNat_toNat c).symm
    obtain ⟨a, b⟩ := q
    generalize c.toNat = n at *
    subst h2
    subst h
    interval_cases n <;> decide
  · simp at h

theorem allDigits_iff (s : Str) : AllDigits s ↔ ∃ ds : List (Fin 10), s = ds.map digitChar := by
  constructor
  · intro h
    induction s with
    | nil => exact ⟨[], rfl⟩
    | cons c s ih =>
      obtain ⟨ds, hds⟩ := ih fun c hc => h c (by simp [hc])
      obtain ⟨d, hd⟩ := Option.isSome_iff_exists.1 (h c (by simp))
      obtain ⟨f, -, hf⟩ := digit?_char hd
      exact ⟨f :: ds, by simp [hf, hds]⟩
  · rintro ⟨ds, rfl⟩
    exact allDigits_map ds

theorem natLit_sound : ∀ (s : Str) (acc : ℕ) (prev : Bool) (n : ℕ), natLit acc prev s = some n →
    ∃ g gs, (prev = false → g ≠ []) ∧ (∀ x ∈ gs, x ≠ []) ∧ s = underscored g gs ∧
      n = acc * 10 ^ (g :: gs).flatten.length + digitsNat (g :: gs).flatten
  | [], acc, prev, n, h => by
    unfold natLit at h
    split at h
    · rename_i q
      simp only [Option.some.injEq] at h
      exact ⟨[], [], by simp [q], by simp, rfl, by simp [digitsNat, h]⟩
    · simp at h
  | c :: cs, acc, prev, n, h => by
    unfold natLit at h
    split at h
    · rename_i q
      split at h
      · rename_i hp
        obtain ⟨g, gs, h1, h2, h3, h4⟩ := natLit_sound cs acc false n h
        refine ⟨[], g :: gs, by simp [hp], fun x hx => ?_, by rw [underscored, ← h3, q]; rfl, by simpa using h4⟩
        rcases List.mem_cons.1 hx with rfl | hx
        · exact h1 rfl
        · exact h2 x hx
      · simp at h
    · cases hd : digit? c with
      | none => rw [hd] at h; simp at h
      | some d =>
        rw [hd] at h
        obtain ⟨g, gs, h1, h2, h3, h4⟩ := natLit_sound cs _ true n h
        obtain ⟨f, hf, hc⟩ := digit?_char hd
        refine ⟨f :: g, gs, by simp, h2, ?_, ?_⟩
        · rw [h3, ← hc]
          cases gs <;> simp [underscored]
        · rw [h4, ← hf]
          simp only [List.flatten_cons, List.cons_append, List.length_cons, digitsNat, pow_succ]
          ring

theorem natLit_group (t : Str) : ∀ (g : List (Fin 10)) (acc : ℕ) (prev : Bool), natLit acc prev (g.map digitChar ++ t) =
    natLit (acc * 10 ^ g.length + digitsNat g) (prev || decide (g ≠ [])) t
  | [], acc, prev => by simp [digitsNat]
  | d :: g, acc, prev => by
    have hc : digitChar d ≠ '_' := by revert d; decide
    rw [List.map_cons, List.cons_append, natLit, if_neg hc, digitChar_digit]
    simp only
    rw [natLit_group t g]
    congr 1
    · simp only [List.length_cons, digitsNat, pow_succ]
      ring
    · simp

theorem natLit_complete : ∀ (gs : List (List (Fin 10))) (g : List (Fin 10)) (acc : ℕ) (prev : Bool), (prev = true ∨ g ≠ []) → (∀ x ∈ gs, x ≠ []) →
    natLit acc prev (underscored g gs) = some (acc * 10 ^ (g :: gs).flatten.length + digitsNat (g :: gs).flatten)
  | [], g, acc, prev, h, _ => by
    have := natLit_group [] g acc prev
    rw [List.append_nil] at this
    rw [underscored, this, natLit, if_pos (by simpa using h)]
    simp
  | k :: gs, g, acc, prev, h, hgs => by
    rw [underscored, natLit_group, natLit, if_pos rfl, if_pos (by simpa using h), natLit_complete gs k _ false (.inr (hgs k (by simp))) fun x hx =>
      hgs x (by simp [hx])]
    simp only [List.flatten_cons, List.length_append, digitsNat_append, pow_add]
    congr 1
    ring

theorem underscored_head {g : List (Fin 10)} {gs : List (List (Fin 10))} (hg : g ≠ []) : ∃ d t, underscored g gs = digitChar d :: t := by
  cases g with
  | nil => exact absurd rfl hg
  | cons d g => cases gs <;> exact ⟨d, _, rfl⟩

theorem digitChar_no (d : Fin 10) : digitChar d ≠ '-' ∧ digitChar d ≠ '+' ∧ digitChar d ≠ '/' ∧ digitChar d ≠ '⧸' ∧ digitChar d ≠ '.' ∧
    isSpace (digitChar d) = false ∧ digitChar d ≠ '_' ∧ digitChar d ≠ 'x' := by
  revert d; decide

theorem signedLit_iff (s : Str) (z : ℤ) : signedLit s = some z ↔ IntText s z := by
  constructor
  · intro h
    have body : ∀ (sg : Sign) (t : Str), (natLit 0 false t).map (fun n : ℕ => sg.apply n) = some z → IntText (sg.text ++ t) z := by
      intro sg t ht
      rw [Option.map_eq_some_iff] at ht
      obtain ⟨n, hn, rfl⟩ := ht
      obtain ⟨g, gs, h1, h2, h3, h4⟩ := natLit_sound t 0 false n hn
      refine ⟨sg, g, gs, fun x hx => ?_, by rw [h3], by rw [h4]; simp⟩
      rcases List.mem_cons.1 hx with rfl | hx
      · exact h1 rfl
      · exact h2 x hx
    unfold signedLit at h
    split at h
    · exact body .minus _ h
    · exact body .plus _ h
    · exact body .none _ h
  · rintro ⟨sg, g, gs, h1, rfl, rfl⟩
    have hn := natLit_complete gs g 0 false (.inr (h1 g (by simp))) fun x hx => h1 x (by simp [hx])
    rw [Nat.zero_mul, Nat.zero_add] at hn
    cases sg with
    | minus => simp only [Sign.text, List.cons_append, List.nil_append, signedLit, hn, Option.map_some, Sign.apply]
    | plus => simp only [Sign.text, List.cons_append, List.nil_append, signedLit, hn, Option.map_some, Sign.apply]
    | none =>
      simp only [Sign.text, List.nil_append, Sign.apply]
      obtain ⟨d, t, hd⟩ := underscored_head (gs := gs) (h1 g (by simp))
      rw [hd] at hn ⊢
      have hno := digitChar_no d
      unfold signedLit
      split
      · rename_i heq; simp only [List.cons.injEq] at heq; exact absurd heq.1 hno.1
      · rename_i heq; simp only [List.cons.injEq] at heq; exact absurd heq.1 hno.2.1
      · rw [hn]; rfl

theorem mem_underscored {c : Char} : ∀ {gs : List (List (Fin 10))} {g : List (Fin 10)}, c ∈ underscored g gs → c = '_' ∨ ∃ d, c = digitChar d
  | [], g, h => by
    rw [underscored, List.mem_map] at h
    obtain ⟨d, -, rfl⟩ := h
    exact .inr ⟨d, rfl⟩
  | k :: gs, g, h => by
    rw [underscored, List.mem_append, List.mem_cons, List.mem_map] at h
    rcases h with ⟨d, -, rfl⟩ | h | h
    · exact .inr ⟨d, rfl⟩
    · exact .inl h
    · exact mem_underscored h

theorem intText_chars {t : Str} {z : ℤ} (h : IntText t z) : ∀ c ∈ t, isSpace c = false ∧ c ≠ '/' ∧ c ≠ '⧸' ∧ c ≠ '.' := by
  obtain ⟨sg, g, gs, h1, rfl, rfl⟩ := h
  intro c hc
  rcases List.mem_append.1 hc with hc | hc
  · cases sg <;> simp [Sign.text] at hc <;> subst hc <;> decide
  · rcases mem_underscored hc with rfl | ⟨d, rfl⟩
    · decide
    · have := digitChar_no d
      exact ⟨this.2.2.2.2.2.1, this.2.2.1, this.2.2.2.1, this.2.2.2.2.1⟩

theorem pyInt_iff {s : Str} (hs : ∀ c ∈ s, isSpace c = false) (z : ℤ) : pyInt s = .ok z ↔ IntText s z := by
  rw [← signedLit_iff]
  unfold pyInt
  rw [strip_nospace hs]
  cases signedLit s <;> simp

theorem splitChar_two {sep : Char} : ∀ {s cur a b : Str}, splitChar sep s cur = [a, b] → ∃ a', a = cur ++ a' ∧ s = a' ++ sep :: b ∧ sep ∉ a' ∧ sep ∉ b
  | [], cur, a, b, h => by simp [splitChar] at h
  | c :: s, cur, a, b, h => by
    rw [splitChar] at h
    split at h
    · rename_i q
      have hl := splitChar_length sep s []
      have ⟨h1, h2⟩ := List.cons.inj h
      rw [h2] at hl
      have hno : sep ∉ s := by
        rw [← List.count_eq_zero]
        simp only [List.length_singleton] at hl
        omega
      rw [splitChar_none sep s [] hno] at h2
      simp only [List.nil_append, List.cons.injEq, and_true] at h2
      subst h2
      exact ⟨[], by simp [h1], by simp [q], by simp, hno⟩
    · rename_i q
      obtain ⟨a', h1, h2, h3, h4⟩ := splitChar_two h
      exact ⟨c :: a', by simp [h1], by simp [h2], by simp [h3, Ne.symm q], h4⟩

theorem parseRatio_iff {slash : Char} (hsl : slash = '/' ∨ slash = '⧸') {s : Str} (hs : ∀ c ∈ s, isSpace c = false) (q : ℚ) :
    parseRatio slash s = .ok q ↔ ∃ a b n d, s = a ++ slash :: b ∧ IntText a n ∧ IntText b d ∧ d ≠ 0 ∧ q = (n : ℚ) / (d : ℚ) := by
  constructor
  · intro h
    unfold parseRatio at h
    split at h
    · rename_i a b heq
      obtain ⟨a', rfl, rfl, h3, h4⟩ := splitChar_two heq
      cases hn : pyInt a with
      | error e => rw [hn] at h; simp [bind, Except.bind] at h
      | ok n =>
        cases hd : pyInt b with
        | error e => rw [hn, hd] at h; simp [bind, Except.bind] at h
        | ok d =>
          rw [hn, hd] at h
          simp only [bind, Except.bind, mkFraction] at h
          split at h
          · simp at h
          · rename_i hd0
            simp only [Except.ok.injEq] at h
            exact ⟨a, b, n, d, rfl, (pyInt_iff (fun c hc => hs c (by simp [hc])) n).1 hn, (pyInt_iff (fun c hc => hs c (by simp [hc])) d).1 hd,
              hd0, h.symm⟩
    · simp at h
  · rintro ⟨a, b, n, d, rfl, ha, hb, hd, rfl⟩
    have na : slash ∉ a := fun hm => by
      have := intText_chars ha _ hm
      rcases hsl with rfl | rfl
      · exact this.2.1 rfl
      · exact this.2.2.1 rfl
    have nb : slash ∉ b := fun hm => by
      have := intText_chars hb _ hm
      rcases hsl with rfl | rfl
      · exact this.2.1 rfl
      · exact this.2.2.1 rfl
    unfold parseRatio
    rw [splitChar_mid _ _ _ _ na, splitChar_none _ _ _ nb]
    simp only [List.nil_append, (pyInt_iff (fun c hc => hs c (by simp [hc])) n).2 ha, (pyInt_iff (fun c hc => hs c (by simp [hc])) d).2 hb, bind,
      Except.bind, mkFraction_ok _ _ hd]

theorem dropWhile_head {s : Str} {p : Char → Bool} : ∀ c, (s.dropWhile p).head? = some c → p c = false := by
  intro c h
  have := List.head?_dropWhile_not p s
  rw [h] at this
  simpa using this

theorem takeWhile_all : ∀ s : Str, AllDigits (s.takeWhile isDigit)
  | [] => by intro c hc; simp at hc
  | c :: s => by
    intro e he
    rw [List.takeWhile_cons] at he
    split at he
    · rename_i q
      rcases List.mem_cons.1 he with rfl | he
      · exact q
      · exact takeWhile_all s e he
    · simp at he

/-- What the pattern of a repeating block finds. -/
theorem repeatPart_cases (t : Str) : (repeatPart t = [] ∧ NoBlock t) ∨
    ∃ (r : List (Fin 10)) (rest : Str), r ≠ [] ∧ t = '(' :: (r.map digitChar ++ ')' :: rest) ∧ repeatPart t = r.map digitChar := by
  cases t with
  | nil => exact .inl ⟨rfl, fun r _ h => by simp at h⟩
  | cons c s =>
    by_cases hc : c = '('
    · subst hc
      obtain ⟨r, hr⟩ := (allDigits_iff (s.takeWhile isDigit)).1 (takeWhile_all _)
      have hsplit : s = r.map digitChar ++ s.dropWhile isDigit := by
        rw [← hr, List.takeWhile_append_dropWhile]
      cases hd : s.dropWhile isDigit with
      | nil =>
        refine .inl ⟨by simp [repeatPart, hd], fun r' _ h => ?_⟩
        rw [List.cons_prefix_cons] at h
        have : ')' ∈ s := h.2.subset (by simp)
        rw [hsplit, hd, List.append_nil] at this
        have := allDigits_map r _ this
        exact absurd this (by decide)
      | cons e rest =>
        by_cases he : e = ')'
        · subst he
          by_cases hr0 : r = []
          · subst hr0
            refine .inl ⟨by simp [repeatPart, hd, hr], fun r' hr' h => ?_⟩
            rw [hsplit, hd] at h
            cases r' with
            | nil => exact hr' rfl
            | cons d r' =>
              simp only [List.map_nil, List.nil_append, List.map_cons, List.cons_append, List.cons_prefix_cons, true_and] at h
              exact absurd h.1 (by clear h hr'; revert d; decide)
          · exact .inr ⟨r, rest, hr0, by rw [hsplit, hd], by simp [repeatPart, hd, hr]⟩
        · refine .inl ⟨?_, fun r' _ h => ?_⟩
          · simp only [repeatPart, hd]
            split
            · rename_i heq
              exact absurd (List.cons.inj heq).1 he
            · rfl
          · rw [List.cons_prefix_cons] at h
            obtain ⟨tl, htl⟩ := h.2
            have a := takeWhile_digits (r'.map digitChar) (')' :: tl) (allDigits_map r') (by intro c hc; simp at hc; subst hc; decide)
            rw [List.append_assoc, List.singleton_append] at htl
            rw [htl] at a
            rw [a.2] at hd
            exact he (List.cons.inj hd).1.symm
    · refine .inl ⟨?_, fun r _ h => ?_⟩
      · unfold repeatPart
        split
        · rename_i heq
          exact absurd (List.cons.inj heq).1 hc
        · rfl
      · rw [List.cons_prefix_cons] at h
        exact hc h.1.symm

theorem decimal_value (w f : List (Fin 10)) : decimalValue w f = (digitsNat w : ℚ) + (digitsNat f : ℚ) / 10 ^ f.length := by
  unfold decimalValue
  rw [digitsNat_append]
  have hF : (10 : ℚ) ^ f.length ≠ 0 := by positivity
  push_cast
  rw [add_div, mul_div_cancel_right₀ _ hF]

theorem repeating_value (w f r : List (Fin 10)) (hr : r ≠ []) (q : ℚ) : (Literal.repeating w f r).Denotes q ↔
    q = (digitsNat w : ℚ) + (digitsNat f : ℚ) / 10 ^ f.length + (digitsNat r : ℚ) / (10 ^ f.length * (10 ^ r.length - 1)) := by
  have h : (Literal.repeating w f r).Denotes ((digitsNat w : ℚ) + (digitsNat f : ℚ) / 10 ^ f.length +
      (digitsNat r : ℚ) / (10 ^ f.length * (10 ^ r.length - 1))) := by
    obtain ⟨x, h1, h2⟩ := literal_denotes (.repeating w f r) hr
    have := parseFraction_decimal _ _ _ (allDigits_map w) (allDigits_map f) (allDigits_map r) _ (Or.inr ⟨by simpa using hr, rfl⟩)
    simp only [Literal.text] at h1
    rw [this] at h1
    simp only [Except.ok.injEq, digitsFold_map, List.length_map] at h1
    rw [h1]
    exact h2
  constructor
  · intro h'
    exact tendsto_nhds_unique h' h
  · rintro rfl
    exact h

/-- The value of a decimal from its parts, with anything behind it. -/
theorem decimal_parse (w f r : List (Fin 10)) (t : Str) (hd : NoDigit t) (hr : repeatPart t = r.map digitChar) (hw : '/' ∉ t ∧ '⧸' ∉ t) :
    parseFraction (w.map digitChar ++ '.' :: (f.map digitChar ++ t)) = .ok ((digitsNat w : ℚ) + (digitsNat f : ℚ) / 10 ^ f.length +
      (digitsNat r : ℚ) / (10 ^ f.length * (10 ^ r.length - 1))) := by
  have head : ∀ c, t.head? = some c → isDigit c = false := by
    intro c hc
    by_contra q
    rw [Bool.not_eq_false] at q
    obtain ⟨d, h⟩ := Option.isSome_iff_exists.1 q
    obtain ⟨e, -, rfl⟩ := digit?_char h
    exact hd e hc
  have h1 := takeWhile_digits (w.map digitChar) ('.' :: (f.map digitChar ++ t)) (allDigits_map w) (by intro c hc; simp at hc; subst hc; decide)
  have h2 := takeWhile_digits (f.map digitChar) t (allDigits_map f) head
  have hno : ∀ c ∈ w.map digitChar ++ '.' :: (f.map digitChar ++ t), c ≠ '/' ∧ c ≠ '⧸' := by
    intro c hc
    rw [List.mem_append, List.mem_cons, List.mem_append] at hc
    rcases hc with hc | hc | hc | hc
    · have := digit_facts c (allDigits_map w c hc); exact ⟨this.2.2.2.2.1, this.2.2.2.2.2.1⟩
    · subst hc; decide
    · have := digit_facts c (allDigits_map f c hc); exact ⟨this.2.2.2.2.1, this.2.2.2.2.2.1⟩
    · exact ⟨fun e => hw.1 (e ▸ hc), fun e => hw.2 (e ▸ hc)⟩
  have hp : parseDecimal (w.map digitChar ++ '.' :: (f.map digitChar ++ t)) = .ok (digitsNat w, f.map digitChar, r.map digitChar) := by
    unfold parseDecimal
    simp only [h1.1, h1.2, h2.1, h2.2, hr]
    by_cases hw0 : w.map digitChar = []
    · rw [if_pos hw0]
      rw [List.map_eq_nil_iff] at hw0
      rw [hw0]
      rfl
    · rw [if_neg hw0, pyInt_digits _ (allDigits_map w) hw0, digitsFold_map]
      rfl
  unfold parseFraction
  rw [if_neg (fun h => (hno _ h).1 rfl), if_neg (fun h => (hno _ h).2 rfl), if_neg (by simp), hp]
  have h10 : (10 : ℤ) ^ (f.map digitChar).length ≠ 0 := by positivity
  simp only [bind, Except.bind]
  rw [addDigits_spec _ _ (allDigits_map f) _ (fun _ => h10)]
  simp only
  rw [addDigits_spec _ _ (allDigits_map r) _ (by
    intro hr0
    refine mul_ne_zero h10 ?_
    have h1 : 1 ≤ (r.map digitChar).length := List.length_pos_iff.2 hr0
    have : (10 : ℤ) ^ 1 ≤ 10 ^ (r.map digitChar).length := pow_le_pow_right₀ (by norm_num) h1
    omega), digitsFold_map, digitsFold_map, List.length_map, List.length_map]
  push_cast; rfl

theorem noDigit_dropWhile (s : Str) : NoDigit (s.dropWhile isDigit) := by
  intro d h
  have := dropWhile_head _ h
  unfold isDigit at this
  rw [digitChar_digit] at this
  simp at this

theorem parseFraction_iff {s : Str} (hs : ∀ c ∈ s, isSpace c = false) (q : ℚ) : parseFraction s = .ok q ↔ Number s q := by
  constructor
  · intro h
    by_cases h1 : '/' ∈ s
    · unfold parseFraction at h
      rw [if_pos h1] at h
      obtain ⟨a, b, n, d, rfl, ha, hb, hd, rfl⟩ := (parseRatio_iff (.inl rfl) hs q).1 h
      exact Number.ratio false ha hb hd
    by_cases h2 : '⧸' ∈ s
    · unfold parseFraction at h
      rw [if_neg h1, if_pos h2] at h
      obtain ⟨a, b, n, d, rfl, ha, hb, hd, rfl⟩ := (parseRatio_iff (.inr rfl) hs q).1 h
      exact Number.ratio true ha hb hd
    by_cases h3 : '.' ∈ s
    · have hp : ∃ t, s.dropWhile isDigit = '.' :: t := by
        unfold parseFraction at h
        rw [if_neg h1, if_neg h2, if_neg (not_not.2 h3)] at h
        unfold parseDecimal at h
        split at h
        · rename_i t heq
          exact ⟨t, heq⟩
        · simp [bind, Except.bind] at h
      obtain ⟨t, ht⟩ := hp
      obtain ⟨w, hw⟩ := (allDigits_iff (s.takeWhile isDigit)).1 (takeWhile_all _)
      obtain ⟨f, hf⟩ := (allDigits_iff (t.takeWhile isDigit)).1 (takeWhile_all _)
      have hsplit : s = w.map digitChar ++ '.' :: (f.map digitChar ++ t.dropWhile isDigit) := by
        rw [← hf, List.takeWhile_append_dropWhile, ← ht, ← hw, List.takeWhile_append_dropWhile]
      obtain ⟨u, hu⟩ : ∃ u, u = t.dropWhile isDigit := ⟨_, rfl⟩
      have hnd : NoDigit u := hu ▸ noDigit_dropWhile t
      rw [← hu] at hsplit
      have hig : Ignored u := ⟨fun hm => h1 (by rw [hsplit]; simp [hm]), fun hm => h2 (by rw [hsplit]; simp [hm])⟩
      rcases repeatPart_cases u with ⟨hr, hb⟩ | ⟨r, rest, hr0, hue, hr⟩
      · have := decimal_parse w f [] u hnd (by rw [hr]; rfl) hig
        rw [← hsplit, h] at this
        simp only [Except.ok.injEq] at this
        have hq : (Literal.decimal w f).Denotes q := by
          show q = decimalValue w f
          rw [this, decimal_value]
          simp [digitsNat]
        have := Number.decimal hq hig hnd hb
        rw [hsplit]
        simpa [Literal.text] using this
      · have := decimal_parse w f r u hnd hr hig
        rw [← hsplit, h] at this
        simp only [Except.ok.injEq] at this
        have hig' : Ignored rest := ⟨fun hm => hig.1 (by rw [hue]; simp [hm]), fun hm => hig.2 (by rw [hue]; simp [hm])⟩
        have := Number.repeating hr0 ((repeating_value w f r hr0 q).2 this) hig'
        rw [hsplit, hue]
        simpa [Literal.text] using this
    · unfold parseFraction at h
      rw [if_neg h1, if_neg h2, if_pos h3] at h
      cases hn : pyInt s with
      | error e => rw [hn] at h; simp [bind, Except.bind] at h
      | ok n =>
        rw [hn] at h
        simp only [bind, Except.bind, pure, Except.pure, Except.ok.injEq] at h
        rw [← h]
        exact Number.integer ((pyInt_iff hs n).1 hn)
  · intro h
    cases h with
    | @integer _ z hz =>
      have hno := intText_chars hz
      unfold parseFraction
      rw [if_neg (fun h => (hno _ h).2.1 rfl), if_neg (fun h => (hno _ h).2.2.1 rfl), if_pos (fun h => (hno _ h).2.2.2 rfl), (pyInt_iff hs z).2 hz]
      rfl
    | @ratio a b n d big ha hb hd =>
      have na := intText_chars ha
      have nb := intText_chars hb
      unfold parseFraction
      cases big with
      | false =>
        rw [if_pos (by simp)]
        exact (parseRatio_iff (.inl rfl) hs _).2 ⟨a, b, n, d, rfl, ha, hb, hd, rfl⟩
      | true =>
        rw [if_neg, if_pos (by simp)]
        · exact (parseRatio_iff (.inr rfl) hs _).2 ⟨a, b, n, d, rfl, ha, hb, hd, rfl⟩
        · rw [List.mem_append, List.mem_cons]
          rintro (h | h | h)
          · exact (na _ h).2.1 rfl
          · simp at h
          · exact (nb _ h).2.1 rfl
    | @decimal w f rest _ hq hi hd hb =>
      have hr : repeatPart rest = [] := by
        rcases repeatPart_cases rest with ⟨h, -⟩ | ⟨r, tl, hr0, hue, -⟩
        · exact h
        · exact absurd ⟨tl, by rw [hue]; simp⟩ (hb r hr0)
      have := decimal_parse w f [] rest hd (by rw [hr]; rfl) hi
      have hq' : q = decimalValue w f := hq
      simp only [Literal.text, List.append_assoc, List.cons_append]
      rw [this, hq', decimal_value]
      simp [digitsNat]
    | @repeating w f r rest _ hr0 hq hi =>
      have hr : repeatPart ('(' :: (r.map digitChar ++ ')' :: rest)) = r.map digitChar := by
        have h3 := takeWhile_digits (r.map digitChar) (')' :: rest) (allDigits_map r) (by intro c hc; simp at hc; subst hc; decide)
        simp only [repeatPart, h3.1, h3.2]
      have := decimal_parse w f r ('(' :: (r.map digitChar ++ ')' :: rest)) (fun d h => by
        simp only [List.head?_cons, Option.some.injEq] at h
        exact absurd h.symm (by revert d; decide)) hr (by
        have hdg := fun c hc => digit_facts c (allDigits_map r c hc)
        constructor
        · rw [List.mem_cons, List.mem_append, List.mem_cons]
          rintro (h | h | h | h)
          · exact absurd h (by decide)
          · exact (hdg _ h).2.2.2.2.1 rfl
          · exact absurd h (by decide)
          · exact hi.1 h
        · rw [List.mem_cons, List.mem_append, List.mem_cons]
          rintro (h | h | h | h)
          · exact absurd h (by decide)
          · exact (hdg _ h).2.2.2.2.2.1 rfl
          · exact absurd h (by decide)
          · exact hi.2 h)
      rw [← (repeating_value w f r hr0 q).1 hq] at this
      simpa [Literal.text] using this

/-! ### Words -/

theorem white_false (c : Char) : isSpace c = false ↔ ¬ White c := by rw [← white_iff, Bool.not_eq_true]

theorem splitWs_blank : ∀ (b t : Str), (∀ c ∈ b, White c) → splitWs (b ++ t) [] = splitWs t []
  | [], t, _ => rfl
  | c :: b, t, h => by
    rw [List.cons_append, splitWs, if_pos ((white_iff c).2 (h c (by simp))), if_pos rfl]
    exact splitWs_blank b t fun c hc => h c (by simp [hc])

theorem words_cons {c : Char} (hc : White c) {t : Str} {ws : List Str} (h : Words t ws) : Words (c :: t) ws := by
  cases h with
  | blank h => exact .blank fun e he => by rcases List.mem_cons.1 he with rfl | he <;> [exact hc; exact h e he]
  | @word b w rest ws h1 h2 h3 h4 h5 =>
    exact .word (b := c :: b) (fun e he => by rcases List.mem_cons.1 he with rfl | he <;> [exact hc; exact h1 e he]) h2 h3 h4 h5

theorem words_splitWs : ∀ (s cur : Str), (∀ c ∈ cur, ¬ White c) → Words (cur ++ s) (splitWs s cur)
  | [], cur, h => by
    rw [splitWs, List.append_nil]
    split
    · rename_i q
      rw [q]
      exact .blank (by simp)
    · rename_i q
      have := Words.word (b := []) (w := cur) (rest := []) (ws := []) (by simp) q h (by simp) (.blank (by simp))
      simpa using this
  | c :: s, cur, h => by
    rw [splitWs]
    split
    · rename_i q
      have hw := (white_iff c).1 q
      have next := words_cons hw (words_splitWs s [] (by simp))
      split
      · rename_i q
        rw [q]
        exact next
      · rename_i q
        have := Words.word (b := []) (by simp) q h (by simp [hw]) next
        simpa using this
    · rename_i q
      have := words_splitWs s (cur ++ [c]) fun e he => by
        rcases List.mem_append.1 he with he | he
        · exact h e he
        · rw [List.mem_singleton.1 he, ← white_iff]
          exact q
      simpa using this

theorem words_eq {s : Str} {ws : List Str} (h : Words s ws) : splitWs s [] = ws := by
  induction h with
  | blank h =>
    have := splitWs_blank _ [] h
    rw [List.append_nil] at this
    rw [this]
    rfl
  | @word b w rest ws h1 h2 h3 h4 h5 ih =>
    rw [splitWs_blank _ _ h1, splitWs_nospace _ _ _ fun c hc => (white_false c).2 (h3 c hc), List.nil_append]
    cases rest with
    | nil =>
      rw [splitWs, if_neg h2, ← ih]
      rfl
    | cons c rest =>
      have hc := (white_iff c).2 (h4 c rfl)
      rw [splitWs, if_pos hc, if_pos rfl] at ih
      rw [splitWs, if_pos hc, if_neg h2, ih]

theorem words_iff (s : Str) (ws : List Str) : splitWs (strip s) [] = ws ↔ Words s ws := by
  rw [splitWs_strip]
  exact ⟨fun h => h ▸ words_splitWs s [] (by simp), words_eq⟩

theorem words_noSpace {s : Str} {ws : List Str} (h : Words s ws) : ∀ w ∈ ws, ∀ c ∈ w, isSpace c = false := by
  induction h with
  | blank h => simp
  | word h1 h2 h3 h4 h5 ih =>
    intro w hw
    rcases List.mem_cons.1 hw with rfl | hw
    · exact fun c hc => (white_false c).2 (h3 c hc)
    · exact ih w hw

/-! ### Values -/

theorem parseArgs_sound (isT : Bool) : ∀ (n : ℕ) (ws : List Str), ws.length ≤ n → (∀ w ∈ ws, ∀ c ∈ w, isSpace c = false) → ∀ (acc vs : List ℚ),
    parseArgs isT ws acc = .ok (some vs) → ∃ us, vs = acc ++ us ∧ Values ws us := by
  intro n
  induction n with
  | zero =>
    intro ws hl _ acc vs h
    obtain rfl : ws = [] := List.length_eq_zero_iff.1 (by omega)
    simp only [parseArgs, Except.ok.injEq, Option.some.injEq] at h
    exact ⟨[], by simp [h], .nil⟩
  | succ n ih =>
    intro ws hl hns acc vs h
    cases ws with
    | nil =>
      simp only [parseArgs, Except.ok.injEq, Option.some.injEq] at h
      exact ⟨[], by simp [h], .nil⟩
    | cons s rest =>
      rw [List.length_cons] at hl
      rw [parseArgs.eq_def] at h
      simp only at h
      split at h
      · rename_i hx
        cases hv : parseFraction s with
        | error e => rw [hv] at h; simp [bind, Except.bind] at h
        | ok v =>
          rw [hv] at h
          simp only [bind, Except.bind] at h
          obtain ⟨us, rfl, hus⟩ := ih rest (by omega) (fun w hw => hns w (by simp [hw])) _ _ h
          exact ⟨v :: us, by simp, .one hx ((parseFraction_iff (hns s (by simp)) v).1 hv) hus⟩
      · rename_i hx
        rw [not_not] at hx
        split at h
        · simp at h
        · rename_i hd
          rw [not_or, not_lt, Bool.not_eq_false] at hd
          obtain ⟨m, hm⟩ := (allDigits_iff s.dropLast).1 fun c hc => List.all_eq_true.1 hd.2 c hc
          have hs : s = m.map digitChar ++ ['x'] := by
            have hne : s ≠ [] := by rintro rfl; simp at hd
            rw [← hm]
            rw [List.getLast?_eq_getLast_of_ne_nil hne, Option.some.injEq] at hx
            rw [← hx, List.dropLast_append_getLast]
          have hm0 : m ≠ [] := by
            rintro rfl
            rw [hs] at hd
            simp at hd
          have hp : pyInt s.dropLast = .ok (digitsNat m : ℤ) := by
            rw [hm, pyInt_digits _ (allDigits_map m) (by simpa using hm0), digitsFold_map]
          rw [hp] at h
          simp only [bind, Except.bind] at h
          cases rest with
          | nil =>
            simp only at h
            cases isT <;> simp at h
          | cons u rest =>
            simp only at h
            cases hv : parseFraction u with
            | error e => rw [hv] at h; simp at h
            | ok v =>
              rw [hv] at h
              simp only at h
              rw [List.length_cons] at hl
              obtain ⟨us, rfl, hus⟩ := ih rest (by omega) (fun w hw => hns w (by simp [hw])) _ _ h
              refine ⟨List.replicate (digitsNat m) v ++ us, by simp, ?_⟩
              rw [hs]
              exact .many hm0 ((parseFraction_iff (hns u (by simp)) v).1 hv) hus

theorem parseArgs_complete (isT : Bool) {ws : List Str} {us : List ℚ} (h : Values ws us) : (∀ w ∈ ws, ∀ c ∈ w, isSpace c = false) →
    ∀ acc, parseArgs isT ws acc = .ok (some (acc ++ us)) := by
  induction h with
  | nil => intro _ acc; simp [parseArgs]
  | @one w v ws vs hx hv hus ih =>
    intro hns acc
    rw [parseArgs.eq_def]
    simp only
    rw [if_pos hx, (parseFraction_iff (hns w (by simp)) v).2 hv]
    simp only [bind, Except.bind]
    rw [ih (fun w hw => hns w (by simp [hw]))]
    simp
  | @many m w v ws vs hm hv hus ih =>
    intro hns acc
    rw [parseArgs.eq_def]
    simp only
    rw [if_neg (by simp), if_neg (by
      rw [List.dropLast_concat, not_or, not_lt, Bool.not_eq_false, List.all_eq_true]
      refine ⟨?_, allDigits_map m⟩
      have := List.length_pos_iff.2 hm
      simp only [List.length_append, List.length_map, List.length_singleton]
      omega), List.dropLast_concat, pyInt_digits _ (allDigits_map m) (by simpa using hm), digitsFold_map]
    simp only [bind, Except.bind]
    rw [(parseFraction_iff (hns w (by simp)) v).2 hv]
    simp only [Int.toNat_natCast]
    rw [ih (fun w hw => hns w (by simp [hw]))]
    simp

/-! ### The separator -/

theorem noTo_cons {c : Char} {t : Str} (h : NoTo (c :: t)) : NoTo t := fun w => h (w.trans (List.infix_cons (List.infix_refl _)))

theorem not_noTo (a b : Str) : ¬ NoTo (a ++ 't' :: 'o' :: b) := fun h => h ⟨a, b, by simp⟩

/-- The first characters of a text without the separator are not the separator. -/
theorem splitTo_step {c : Char} {t : Str} (h : ¬ ∃ u, c :: t = 't' :: 'o' :: u) (cur : Str) : splitTo (c :: t) cur = splitTo t (cur ++ [c]) := by
  rw [splitTo.eq_def]
  split
  · simp at *
  · rename_i heq
    exact absurd ⟨_, heq⟩ h
  · rename_i heq
    obtain ⟨rfl, rfl⟩ := List.cons.inj heq
    rfl

theorem splitTo_noTo : ∀ (s cur : Str), NoTo s → splitTo s cur = [cur ++ s]
  | [], cur, _ => by simp [splitTo]
  | c :: s, cur, h => by
    rw [splitTo_step (fun ⟨u, hu⟩ => not_noTo [] u (by rw [List.nil_append, ← hu]; exact h)), splitTo_noTo s _ (noTo_cons h)]
    simp

theorem splitTo_first : ∀ (a b cur : Str), NoTo a → splitTo (a ++ 't' :: 'o' :: b) cur = (cur ++ a) :: splitTo b []
  | [], b, cur, _ => by simp [splitTo]
  | c :: a, b, cur, h => by
    rw [List.cons_append, splitTo_step, splitTo_first a b _ (noTo_cons h)]
    · simp
    · rintro ⟨u, hu⟩
      obtain ⟨rfl, hu'⟩ := List.cons.inj hu
      cases a with
      | nil => simp at hu'
      | cons e a =>
        rw [List.cons_append] at hu'
        obtain ⟨rfl, -⟩ := List.cons.inj hu'
        exact not_noTo [] a h

theorem split_or : ∀ s : Str, NoTo s ∨ ∃ a b, s = a ++ 't' :: 'o' :: b ∧ NoTo a
  | [] => .inl fun h => by simp [List.infix_nil] at h
  | c :: s => by
    by_cases q : ∃ u, c :: s = 't' :: 'o' :: u
    · obtain ⟨u, hu⟩ := q
      exact .inr ⟨[], u, hu, fun h => by simp [List.infix_nil] at h⟩
    have no : ∀ t, NoTo t → t <+: s → NoTo (c :: t) := by
      intro t ht hp hi
      rcases List.infix_cons_iff.1 hi with hi | hi
      · obtain ⟨u, hu⟩ := hi
        obtain ⟨v, rfl⟩ := hp
        exact q ⟨u ++ v, by rw [← List.cons_append, ← hu]; simp⟩
      · exact ht hi
    rcases split_or s with h | ⟨a, b, rfl, ha⟩
    · exact .inl (no s h (List.prefix_refl _))
    · exact .inr ⟨c :: a, b, rfl, no a ha (List.prefix_append _ _)⟩

theorem hasTo_iff : ∀ s : Str, hasTo s = true ↔ ¬ NoTo s
  | [] => by simp [hasTo, NoTo, List.infix_nil]
  | [c] => by
    simp only [hasTo, NoTo, Bool.false_eq_true, false_iff, not_not]
    intro h
    have := h.length_le
    simp at this
  | c :: d :: s => by
    rw [hasTo, Bool.or_eq_true, hasTo_iff (d :: s)]
    simp only [NoTo, not_not, Bool.and_eq_true, beq_iff_eq]
    rw [List.infix_cons_iff (l₁ := ['t', 'o']) (a := c)]
    simp only [List.cons_prefix_cons, List.nil_prefix, and_true]
    constructor
    · rintro (⟨rfl, rfl⟩ | h)
      · exact .inl ⟨rfl, rfl⟩
      · exact .inr h
    · rintro (⟨rfl, rfl⟩ | h)
      · exact .inl ⟨rfl, rfl⟩
      · exact .inr h

theorem parseUserInput_iff (s : Str) (sv tv : List ℚ) : parseUserInput s = .ok (some (sv, tv)) ↔
    Line s sv tv ∨ ((s.count ' ' < 2 ∨ NoTo s) ∧ sv = [] ∧ tv = []) := by
  have guard : ((splitChar ' ' s []).length < 3 ∨ hasTo s = false) ↔ (s.count ' ' < 2 ∨ NoTo s) := by
    rw [splitChar_length, ← Bool.not_eq_true, hasTo_iff, not_not]
    constructor
    · rintro (h | h) <;> [exact .inl (by omega); exact .inr h]
    · rintro (h | h) <;> [exact .inl (by omega); exact .inr h]
  unfold parseUserInput
  by_cases hg : s.count ' ' < 2 ∨ NoTo s
  · rw [if_pos (guard.2 hg)]
    simp only [Except.ok.injEq, Option.some.injEq, Prod.mk.injEq]
    constructor
    · rintro ⟨rfl, rfl⟩
      exact .inr ⟨hg, rfl, rfl⟩
    · rintro (⟨h1, a, b, _, _, rfl, _⟩ | ⟨-, rfl, rfl⟩)
      · rcases hg with h | h
        · omega
        · exact absurd h (not_noTo a b)
      · exact ⟨rfl, rfl⟩
  rw [if_neg fun h => hg (guard.1 h)]
  rw [not_or, not_lt] at hg
  have drop : (Line s sv tv ∨ (s.count ' ' < 2 ∨ NoTo s) ∧ sv = [] ∧ tv = []) ↔ Line s sv tv :=
    ⟨fun h => h.resolve_right fun w => by rcases w.1 with w | w <;> [omega; exact hg.2 w], .inl⟩
  rw [drop]
  rcases split_or s with h | ⟨a, b, rfl, ha⟩
  · exact absurd h hg.2
  rw [splitTo_first a b [] ha]
  rcases split_or b with hb | ⟨b1, b2, rfl, hb1⟩
  · rw [splitTo_noTo b [] hb]
    simp only [List.nil_append]
    obtain ⟨wa, hwa⟩ : ∃ wa, wa = splitWs (strip a) [] := ⟨_, rfl⟩
    obtain ⟨wb, hwb⟩ : ∃ wb, wb = splitWs (strip b) [] := ⟨_, rfl⟩
    have Wa := (words_iff a wa).1 hwa.symm
    have Wb := (words_iff b wb).1 hwb.symm
    rw [← hwa, ← hwb]
    have line : Line (a ++ 't' :: 'o' :: b) sv tv ↔ wa ≠ [] ∧ wb ≠ [] ∧ Values wa sv ∧ Values wb tv := by
      constructor
      · rintro ⟨-, a', b', wa', wb', he, ha', hb', Wa', Wb', h1, h2, h3, h4⟩
        have e1 := splitTo_first a b [] ha
        have e2 := splitTo_first a' b' [] ha'
        rw [he, e2, splitTo_noTo b [] hb, splitTo_noTo b' [] hb'] at e1
        simp only [List.nil_append, List.cons.injEq, and_true] at e1
        obtain ⟨rfl, rfl⟩ := e1
        have q1 : wa' = wa := by rw [hwa, (words_iff _ _).2 Wa']
        have q2 : wb' = wb := by rw [hwb, (words_iff _ _).2 Wb']
        subst q1
        subst q2
        exact ⟨h1, h2, h3, h4⟩
      · rintro ⟨h1, h2, h3, h4⟩
        exact ⟨hg.1, a, b, wa, wb, rfl, ha, hb, Wa, Wb, h1, h2, h3, h4⟩
    rw [line]
    by_cases h1 : wa = []
    · rw [if_pos h1]
      simp [h1]
    rw [if_neg h1]
    by_cases h2 : wb = []
    · rw [if_pos h2]
      simp [h2]
    rw [if_neg h2]
    constructor
    · intro h
      cases hs : parseArgs false wa [] with
      | error e => rw [hs] at h; simp [bind, Except.bind] at h
      | ok o =>
        rw [hs] at h
        cases o with
        | none => simp [bind, Except.bind, pure, Except.pure] at h
        | some s' =>
          simp only [bind, Except.bind] at h
          cases ht : parseArgs true wb [] with
          | error e => rw [ht] at h; simp at h
          | ok o =>
            rw [ht] at h
            cases o with
            | none => simp [pure, Except.pure] at h
            | some t' =>
              simp only [pure, Except.pure, Except.ok.injEq, Option.some.injEq, Prod.mk.injEq] at h
              obtain ⟨rfl, rfl⟩ := h
              obtain ⟨u, hu, v1⟩ := parseArgs_sound false _ wa (le_refl _) (words_noSpace Wa) _ _ hs
              obtain ⟨v, hv, v2⟩ := parseArgs_sound true _ wb (le_refl _) (words_noSpace Wb) _ _ ht
              rw [List.nil_append] at hu hv
              rw [hu, hv]
              exact ⟨h1, h2, v1, v2⟩
    · rintro ⟨-, -, v1, v2⟩
      rw [parseArgs_complete false v1 (words_noSpace Wa), parseArgs_complete true v2 (words_noSpace Wb)]
      rfl
  · rw [splitTo_first b1 b2 [] hb1]
    have : ∀ (t cur : Str), splitTo t cur ≠ [] := by
      intro t
      induction t with
      | nil => intro cur; simp [splitTo]
      | cons c t ih =>
        intro cur
        by_cases q : ∃ u, c :: t = 't' :: 'o' :: u
        · obtain ⟨u, hu⟩ := q
          rw [hu, splitTo]
          simp
        · rw [splitTo_step q]
          exact ih _
    obtain ⟨x, xs, hx⟩ := List.exists_cons_of_ne_nil (this b2 [])
    rw [hx]
    simp only [reduceCtorEq, false_iff]
    rintro ⟨-, a', b', -, -, he, ha', hb', -⟩
    have e1 := splitTo_first a (b1 ++ 't' :: 'o' :: b2) [] ha
    have e2 := splitTo_first a' b' [] ha'
    rw [he, e2, splitTo_noTo b' [] hb', splitTo_first b1 b2 [] hb1, hx] at e1
    simp at e1

end Satis.Utils
