import Verif.Utils.Lines

/-!
C88: which texts `parse_fraction` takes for numbers. C89: a typed line is read as exactly the values it lists.
-/

namespace Satis.Utils
open Satis Spec

/-- The complete literals: integers, quotients of integers, decimals, with nothing behind. -/
inductive Complete : List Char → ℚ → Prop
  | integer {t z} : IntText t z → Complete t z
  | ratio {a b n d} (big : Bool) : IntText a n → IntText b d → d ≠ 0 → Complete (a ++ (if big then '⧸' else '/') :: b) ((n : ℚ) / d)
  | decimal {w f q} : (Literal.decimal w f).Denotes q → Complete (Literal.decimal w f).text q
  | repeating {w f r q} : r ≠ [] → (Literal.repeating w f r).Denotes q → Complete (Literal.repeating w f r).text q

/-- Every complete literal is read as the number it denotes. What else is read is a decimal followed by something without a slash: for every word
the result is a number exactly if `Number` holds. Missing from the full claim: the texts of the second kind should be refused. -/
theorem C88_numbers_partial (s : List Char) (hs : ∀ c ∈ s, ¬ White c) (q : ℚ) : (Complete s q → parseFraction s = .ok q) ∧
    (parseFraction s = .ok q ↔ Number s q) := by
  have hs' : ∀ c ∈ s, isSpace c = false := fun c hc => (white_false c).2 (hs c hc)
  have main := parseFraction_iff hs' q
  refine ⟨fun h => main.2 ?_, main⟩
  cases h with
  | integer h => exact .integer h
  | ratio big ha hb hd => exact .ratio big ha hb hd
  | decimal h =>
    have := Number.decimal (rest := []) h ⟨by simp, by simp⟩ (fun d => by simp) (fun r _ h => by simp at h)
    simpa using this
  | repeating hr h =>
    have := Number.repeating (rest := []) hr h ⟨by simp, by simp⟩
    simpa using this

/-- A decimal is read although letters follow it: `1.5abc` as 3/2, `1.2.3` as 6/5 and `1.5(3` as 3/2. -/
theorem C88_complete_false : (¬ ∀ (s : List Char) (q : ℚ), (∀ c ∈ s, ¬ White c) → (parseFraction s = .ok q ↔ Complete s q)) ∧
    parseFraction "1.5abc".toList = .ok (3 / 2) ∧ parseFraction "1.2.3".toList = .ok (6 / 5) ∧ parseFraction "1.5(3".toList = .ok (3 / 2) := by
  refine ⟨fun h => ?_, by decide +kernel, by decide +kernel, by decide +kernel⟩
  have hw : ∀ c ∈ "1.5a".toList, ¬ White c := by
    intro c hc
    have : isSpace c = false := by
      have e : "1.5a".toList = ['1', '.', '5', 'a'] := by decide
      rw [e] at hc
      simp only [List.mem_cons, List.not_mem_nil, or_false] at hc
      rcases hc with rfl | rfl | rfl | rfl <;> decide
    exact (white_false c).1 this
  have h1 := (h "1.5a".toList (3 / 2) hw).1 (by decide +kernel)
  have digits : ∀ {d : Fin 10}, digitChar d ≠ 'a' := fun {d} => by revert d; decide
  have int : ∀ {t z}, IntText t z → 'a' ∉ t := by
    rintro t z ⟨sg, g, gs, -, rfl, -⟩ hm
    rcases List.mem_append.1 hm with hm | hm
    · cases sg <;> simp [Sign.text] at hm
    · rcases mem_underscored hm with hm | ⟨d, hm⟩
      · exact absurd hm (by decide)
      · exact digits hm.symm
  have dig : ∀ ds : List (Fin 10), 'a' ∉ ds.map digitChar := fun ds hm => by
    obtain ⟨d, -, hd⟩ := List.mem_map.1 hm
    exact digits hd
  have mem : 'a' ∈ "1.5a".toList := by decide
  generalize "1.5a".toList = t at h1 mem
  generalize (3 / 2 : ℚ) = q at h1
  cases h1 with
  | integer h => exact int h mem
  | ratio big ha hb =>
    rw [List.mem_append, List.mem_cons] at mem
    rcases mem with m | m | m
    · exact int ha m
    · cases big <;> simp at m
    · exact int hb m
  | decimal h =>
    simp only [Literal.text, List.mem_append, List.mem_cons] at mem
    rcases mem with m | m | m
    · exact dig _ m
    · exact absurd m (by decide)
    · exact dig _ m
  | repeating _ h =>
    simp only [Literal.text, List.mem_append, List.mem_cons, List.not_mem_nil, or_false] at mem
    rcases mem with m | m | m | m | m | m
    · exact dig _ m
    · exact absurd m (by decide)
    · exact dig _ m
    · exact absurd m (by decide)
    · exact dig _ m
    · exact absurd m (by decide)

/-- A line gives the sources `sv` and the targets `tv` exactly if it lists them; with less than two spaces or without "to" it gives two empty
lists. All other lines give no values: the parser reports an error or raises. -/
theorem C89_line (s : List Char) (sv tv : List ℚ) : parseUserInput s = .ok (some (sv, tv)) ↔
    Line s sv tv ∨ ((s.count ' ' < 2 ∨ NoTo s) ∧ sv = [] ∧ tv = []) := parseUserInput_iff s sv tv

/-- A line has one reading. -/
theorem C89_unique (s : List Char) (sv tv sv' tv' : List ℚ) (h : Line s sv tv) (h' : Line s sv' tv') : sv = sv' ∧ tv = tv' := by
  have a := (C89_line s sv tv).2 (.inl h)
  have b := (C89_line s sv' tv').2 (.inl h')
  rw [a] at b
  simpa using b

/-- A word is a number in one way. -/
theorem C89_number_unique (s : List Char) (hs : ∀ c ∈ s, ¬ White c) (q q' : ℚ) (h : Number s q) (h' : Number s q') : q = q' := by
  have a := (C88_numbers_partial s hs q).2.2 h
  have b := (C88_numbers_partial s hs q').2.2 h'
  rw [a] at b
  simpa using b

-- Lines that list values, one that lists none, one refused and two that raise.
example : parseUserInput "2x 1_0 0.(3)\t-7/2 to 3x +5".toList = .ok (some ([10, 10, 1 / 3, -7 / 2], [5, 5, 5])) ∧
    parseUserInput "0x 5 to 0x 3".toList = .ok (some ([], [])) ∧ parseUserInput "1 2 3".toList = .ok (some ([], [])) ∧
    parseUserInput "x 5 to 3".toList = .ok none ∧ parseUserInput "5 to 3x".toList = .ok none ∧
    parseUserInput "5 3x to 3".toList = .error .indexError ∧ parseUserInput "5 to 3 to 2".toList = .error .valueError := by
  refine ⟨?_, ?_, ?_, ?_, ?_, ?_, ?_⟩ <;> decide +kernel

example : Line "2x 10 0.(3) to 3".toList [10, 10, 1 / 3] [3] :=
  ((C89_line _ _ _).1 (show parseUserInput "2x 10 0.(3) to 3".toList = .ok (some ([10, 10, 1 / 3], [3])) by decide +kernel)).resolve_right
    fun h => by simp at h

end Satis.Utils
