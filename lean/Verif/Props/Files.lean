import Verif.Run.Files
import Mathlib.Data.List.Nodup
import Mathlib.Data.List.Infix
import Mathlib.Data.List.Induction
/-!
# C51, C52: cleaning the directory, the command history
-/

namespace Satis.Files

/-! ## Specification -/

/-- A text that starts as `config.solution_regex` says: `solution`, digits, perhaps `_expanded`, then `.png` or `.data`. -/
def StartsLikeSolution (digit : Char → Bool) (f : List Char) : Prop :=
  ∃ ds x e rest, f = solutionText ++ ds ++ x ++ e ++ rest ∧ ds ≠ [] ∧ (∀ c ∈ ds, digit c = true) ∧
    (x = [] ∨ x = expandedText) ∧ (e = pngText ∨ e = dataText)

/-- A name that `Tree.save` can have given to a file: `solution`, a number, perhaps `_expanded`, then `.png` or `.data`. -/
def Own (f : List Char) : Prop :=
  ∃ i : Nat, ∃ x e, f = solutionText ++ (toString i).toList ++ x ++ e ∧ (x = [] ∨ x = expandedText) ∧
    (e = pngText ∨ e = dataText)

/-- `out` holds the entries of `l` once each, in the order of their last uses. -/
structure ByLastUse {α : Type} (l out : List α) : Prop where
  once : out.Nodup
  same : ∀ x, x ∈ out ↔ x ∈ l
  order : ∀ x y, [x, y].Sublist out → ∃ l1 l2, l = l1 ++ x :: l2 ∧ x ∉ l2 ∧ y ∈ l2

example : solutionText = "solution".toList ∧ expandedText = "_expanded".toList ∧ pngText = ".png".toList ∧
    dataText = ".data".toList := by
  decide +kernel

/-! ## The matcher -/

/-- The language of a pattern. -/
inductive Lang : Rx → List Char → Prop
  | set {p c} : p c = true → Lang (.set p) [c]
  | some {p l} : l ≠ [] → (∀ c ∈ l, p c = true) → Lang (.some p) l
  | eps : Lang .eps []
  | seq {a b l l'} : Lang a l → Lang b l' → Lang (.seq a b) (l ++ l')
  | left {a b l} : Lang a l → Lang (.alt a b) l
  | right {a b l} : Lang b l → Lang (.alt a b) l

theorem runSome_iff {p : Char → Bool} {k : List Char → Bool} {s : List Char} :
    runSome p k s = true ↔ ∃ l rest, s = l ++ rest ∧ l ≠ [] ∧ (∀ c ∈ l, p c = true) ∧ k rest = true := by
  induction s with
  | nil =>
    simp only [runSome]
    constructor
    · simp
    · rintro ⟨l, rest, h, h', -⟩
      exact absurd (List.append_eq_nil_iff.mp h.symm).1 h'
  | cons c cs ih =>
    simp only [runSome, Bool.and_eq_true, Bool.or_eq_true, ih]
    constructor
    · rintro ⟨h1, ⟨l, rest, rfl, -, h3, h4⟩ | h2⟩
      · exact ⟨c :: l, rest, rfl, by simp, by simpa [h1] using h3, h4⟩
      · exact ⟨[c], cs, rfl, by simp, by simpa using h1, h2⟩
    · rintro ⟨l, rest, h1, h2, h3, h4⟩
      cases l with
      | nil => exact absurd rfl h2
      | cons d l =>
        obtain ⟨rfl, rfl⟩ : c = d ∧ cs = l ++ rest := by simpa using h1
        refine ⟨h3 c (by simp), ?_⟩
        by_cases hl : l = []
        · subst hl
          exact Or.inr h4
        · exact Or.inl ⟨l, rest, rfl, hl, fun x hx => h3 x (by simp [hx]), h4⟩

theorem run_iff {r : Rx} {k : List Char → Bool} {s : List Char} :
    run r k s = true ↔ ∃ l rest, s = l ++ rest ∧ Lang r l ∧ k rest = true := by
  induction r generalizing k s with
  | set p =>
    cases s with
    | nil =>
      simp only [run]
      constructor
      · simp
      · rintro ⟨l, rest, h, hl, -⟩
        cases hl
        simp at h
    | cons c cs =>
      simp only [run, Bool.and_eq_true]
      constructor
      · rintro ⟨h1, h2⟩
        exact ⟨[c], cs, rfl, .set h1, h2⟩
      · rintro ⟨l, rest, h, hl, h2⟩
        cases hl with
        | set h3 =>
          obtain ⟨rfl, rfl⟩ : c = _ ∧ cs = rest := by simpa using h
          exact ⟨h3, h2⟩
  | some p =>
    simp only [run, runSome_iff]
    constructor
    · rintro ⟨l, rest, h1, h2, h3, h4⟩
      exact ⟨l, rest, h1, .some h2 h3, h4⟩
    · rintro ⟨l, rest, h1, hl, h4⟩
      cases hl with
      | some h2 h3 => exact ⟨l, rest, h1, h2, h3, h4⟩
  | eps =>
    simp only [run]
    constructor
    · intro h
      exact ⟨[], s, rfl, .eps, h⟩
    · rintro ⟨l, rest, rfl, hl, h⟩
      cases hl
      exact h
  | seq a b iha ihb =>
    simp only [run, iha, ihb]
    constructor
    · rintro ⟨l, rest, rfl, h1, l', rest', rfl, h2, h3⟩
      exact ⟨l ++ l', rest', by simp, .seq h1 h2, h3⟩
    · rintro ⟨l, rest, rfl, hl, h3⟩
      cases hl with
      | @seq _ _ l l' h1 h2 => exact ⟨l, l' ++ rest, by simp, h1, l', rest, rfl, h2, h3⟩
  | alt a b iha ihb =>
    simp only [run, Bool.or_eq_true, iha, ihb]
    constructor
    · rintro (⟨l, rest, h1, h2, h3⟩ | ⟨l, rest, h1, h2, h3⟩)
      · exact ⟨l, rest, h1, .left h2, h3⟩
      · exact ⟨l, rest, h1, .right h2, h3⟩
    · rintro ⟨l, rest, h1, hl, h3⟩
      cases hl with
      | left h2 => exact Or.inl ⟨l, rest, h1, h2, h3⟩
      | right h2 => exact Or.inr ⟨l, rest, h1, h2, h3⟩

theorem lang_lit {t l : List Char} : Lang (.lit t) l ↔ l = t := by
  induction t generalizing l with
  | nil =>
    simp only [Rx.lit]
    constructor
    · rintro ⟨⟩
      rfl
    · rintro rfl
      exact .eps
  | cons c t ih =>
    simp only [Rx.lit]
    constructor
    · intro h
      cases h with
      | seq h1 h2 =>
        cases h1 with
        | set h1 =>
          obtain rfl := ih.mp h2
          simpa using h1
    · rintro rfl
      exact Lang.seq (l := [c]) (.set (by simp)) (ih.mpr rfl)

theorem match_iff {digit : Char → Bool} {f : List Char} :
    isMatch (solutionRegex digit) f = true ↔ StartsLikeSolution digit f := by
  unfold isMatch solutionRegex
  rw [run_iff]
  constructor
  · rintro ⟨l, rest, rfl, hl, -⟩
    cases hl with
    | seq h1 hl =>
    cases hl with
    | seq h2 hl =>
    cases hl with
    | seq h3 hl =>
    cases hl with
    | seq h4 h5 =>
    cases h2 with
    | some h6 h7 =>
    rw [lang_lit] at h1 h4
    subst h1 h4
    cases h3 with
    | left h3 =>
      rw [lang_lit] at h3
      cases h5 with
      | left h5 => rw [lang_lit] at h5; subst h3 h5; exact ⟨_, expandedText, pngText, rest, by simp [pngText], h6, h7, Or.inr rfl, Or.inl rfl⟩
      | right h5 => rw [lang_lit] at h5; subst h3 h5; exact ⟨_, expandedText, dataText, rest, by simp [dataText], h6, h7, Or.inr rfl, Or.inr rfl⟩
    | right h3 =>
      cases h3
      cases h5 with
      | left h5 => rw [lang_lit] at h5; subst h5; exact ⟨_, [], pngText, rest, by simp [pngText], h6, h7, Or.inl rfl, Or.inl rfl⟩
      | right h5 => rw [lang_lit] at h5; subst h5; exact ⟨_, [], dataText, rest, by simp [dataText], h6, h7, Or.inl rfl, Or.inr rfl⟩
  · rintro ⟨ds, x, e, rest, rfl, h1, h2, h3, h4⟩
    refine ⟨solutionText ++ (ds ++ (x ++ e)), rest, by simp, .seq (lang_lit.mpr rfl) (.seq (.some h1 h2) (.seq ?_ ?_)), rfl⟩
    · rcases h3 with rfl | rfl
      · exact .right .eps
      · exact .left (lang_lit.mpr rfl)
    · rcases h4 with rfl | rfl
      · exact .seq (l := ['.']) (l' := ['p', 'n', 'g']) (lang_lit.mpr rfl) (.left (lang_lit.mpr rfl))
      · exact .seq (l := ['.']) (l' := ['d', 'a', 't', 'a']) (lang_lit.mpr rfl) (.right (lang_lit.mpr rfl))

theorem mem_written {n : Nat} {f : List Char} : f ∈ written n ↔
    ∃ i < n, ∃ x e, f = solutionText ++ (toString i).toList ++ x ++ e ∧ (x = [] ∨ x = expandedText) ∧
      (e = pngText ∨ e = dataText) := by
  have hd : ∀ i : Nat, (toString i).toList = decimal i := fun i => by
    show i.repr.toList = _
    rw [Nat.toList_repr]; rfl
  simp only [written, List.mem_flatMap, List.mem_range, treeSave, nodeSave, solutionsFilename, hd, List.mem_append, List.mem_cons,
    List.not_mem_nil, or_false]
  generalize solutionText = S
  generalize expandedText = X
  generalize pngText = E
  generalize dataText = D
  constructor
  · rintro ⟨i, hi, (h | h) | (h | h)⟩
    · exact ⟨i, hi, [], E, by rw [h, List.append_nil], Or.inl rfl, Or.inl rfl⟩
    · exact ⟨i, hi, [], D, by rw [h, List.append_nil], Or.inl rfl, Or.inr rfl⟩
    · exact ⟨i, hi, X, E, h, Or.inr rfl, Or.inl rfl⟩
    · exact ⟨i, hi, X, D, h, Or.inr rfl, Or.inr rfl⟩
  · rintro ⟨i, hi, x, e, h, h1 | h1, h2 | h2⟩ <;> rw [h1, h2] at h
    · exact ⟨i, hi, Or.inl (Or.inl (by rw [h, List.append_nil]))⟩
    · exact ⟨i, hi, Or.inl (Or.inr (by rw [h, List.append_nil]))⟩
    · exact ⟨i, hi, Or.inr (Or.inl h)⟩
    · exact ⟨i, hi, Or.inr (Or.inr h)⟩

theorem own_iff {f : List Char} : Own f ↔ ∃ n, f ∈ written n := by
  simp only [mem_written]
  constructor
  · rintro ⟨i, h⟩
    exact ⟨i + 1, i, by omega, h⟩
  · rintro ⟨-, i, -, h⟩
    exact ⟨i, h⟩

theorem own_starts {digit : Char → Bool} (hd : ∀ c : Char, c.isDigit = true → digit c = true) {f : List Char} (h : Own f) :
    StartsLikeSolution digit f := by
  obtain ⟨i, x, e, rfl, h1, h2⟩ := h
  have h3 : (toString i).toList = Nat.toDigits 10 i := by
    show i.repr.toList = _
    rw [Nat.toList_repr]
  refine ⟨(toString i).toList, x, e, [], by simp, by rw [h3]; exact Nat.toDigits_ne_nil, fun c hc => hd c ?_, h1, h2⟩
  rw [h3] at hc
  exact Nat.isDigit_of_mem_toDigits (by decide) (by decide) hc

/-! ## C51 -/

/-- C51, the part on the solver's own files: `clear_solution_files` removes every file that a run with any number of solutions has
written, and it removes a file only if its name starts with `solution`, digits, perhaps `_expanded`, and `.png` or `.data`. Missing:
that only the solver's own files are removed, which is false (`C51_overmatch_false`): the pattern is not anchored at the end. -/
theorem C51_clear_partial {digit : Char → Bool} (hd : ∀ c : Char, c.isDigit = true → digit c = true) (dir : List (List Char)) :
    (∀ n, ∀ f ∈ written n, f ∉ clear digit dir) ∧
    (∀ f, f ∈ clear digit dir ↔ f ∈ dir ∧ ¬ StartsLikeSolution digit f) := by
  have key : ∀ f, f ∈ clear digit dir ↔ f ∈ dir ∧ ¬ StartsLikeSolution digit f := by
    intro f
    simp only [clear, List.mem_filter, Bool.not_eq_true', ← match_iff, Bool.not_eq_true]
  exact ⟨fun n f hf hc => ((key f).mp hc).2 (own_starts hd (own_iff.mpr ⟨n, hf⟩)), key⟩

/-- C51 is false as stated: files that no run writes are removed. -/
theorem C51_overmatch_false {digit : Char → Bool} (hd : ∀ c : Char, c.isDigit = true → digit c = true) :
    ∃ f, ¬ Own f ∧ f ∉ clear digit [f] := by
  refine ⟨"solution0.png.bak".toList, ?_, ?_⟩
  · rintro ⟨i, x, e, h, -, h2⟩
    have := congrArg List.getLast? h
    rw [List.getLast?_append] at this
    rcases h2 with h2 | h2 <;> rw [h2] at this <;> simp [pngText, dataText] at this
  · rw [(C51_clear_partial hd _).2]
    rintro ⟨-, h⟩
    exact h ⟨['0'], [], pngText, ".bak".toList, rfl, by decide, by simpa using hd '0' (by decide), Or.inl rfl, Or.inl rfl⟩

theorem mem_foldl_write {l dir : List (List Char)} {f : List Char} : f ∈ l.foldl write dir ↔ f ∈ dir ∨ f ∈ l := by
  induction l generalizing dir with
  | nil => simp
  | cons a l ih =>
    rw [List.foldl_cons, ih, write]
    split
    · simp only [List.mem_cons]
      constructor
      · rintro (h | h)
        · exact Or.inl h
        · exact Or.inr (Or.inr h)
      · rintro (h | rfl | h)
        · exact Or.inl h
        · exact Or.inl (by assumption)
        · exact Or.inr h
    · simp only [List.mem_append, List.mem_cons, List.not_mem_nil, or_false]
      tauto

/-- C51. After a run with `n > 0` solutions, the solver's own files in the directory are exactly those of this run: no file of an
earlier run with more solutions is left over. -/
theorem C51_conclude {digit : Char → Bool} (hd : ∀ c : Char, c.isDigit = true → digit c = true) (dir : Option (List (List Char)))
    {n : Nat} (hn : 0 < n) :
    ∃ d, conclude digit dir n = some d ∧ ∀ f, Own f → (f ∈ d ↔ f ∈ written n) := by
  refine ⟨_, by unfold conclude; rw [if_neg (by omega)], fun f hf => ?_⟩
  rw [mem_foldl_write]
  constructor
  · rintro (h | h)
    · cases dir with
      | none => simp at h
      | some d => exact absurd (own_starts hd hf) ((C51_clear_partial hd d).2 f |>.mp h).2
    · exact h
  · exact Or.inr

/-- The parts of a name: the digits after `solution`. -/
theorem name_parts {i j : Nat} {s t : List Char} (hs : ∀ c ∈ s.head?, c.isDigit = false) (ht : ∀ c ∈ t.head?, c.isDigit = false)
    (h : decimal i ++ s = decimal j ++ t) : i = j ∧ s = t := by
  have take : ∀ (i : Nat) (s : List Char), (∀ c ∈ s.head?, c.isDigit = false) → (decimal i ++ s).takeWhile Char.isDigit = decimal i := by
    intro i s hs
    have h1 : ∀ c ∈ decimal i, c.isDigit = true := fun c hc => Nat.isDigit_of_mem_toDigits (by decide) (by decide) hc
    rw [List.takeWhile_append_of_pos h1]
    cases s with
    | nil => simp
    | cons c s => rw [List.takeWhile_cons_of_neg (by simp [hs c (by simp)])]; simp
  have h1 : decimal i = decimal j := by rw [← take i s hs, h, take j t ht]
  refine ⟨?_, by rw [h1] at h; exact List.append_cancel_left h⟩
  have h2 := congrArg (fun l => Nat.ofDigitChars 10 l 0) h1
  simpa [decimal, Nat.ofDigitChars_ten_toDigits] using h2

/-- C62. The files of one run do not overwrite each other: the names are pairwise different, four for each solution. -/
theorem C62_names_distinct (n : Nat) : (written n).Nodup ∧ (written n).length = 4 * n := by
  constructor
  · rw [written, List.nodup_flatMap]
    constructor
    · intro i _
      simp only [treeSave, nodeSave, List.append_assoc, List.cons_append, List.nil_append, List.nodup_cons, List.mem_cons,
        List.append_cancel_left_eq, List.not_mem_nil, or_false, not_false_eq_true, List.nodup_nil, and_true]
      decide
    · refine List.nodup_range.imp fun {i j} hij => ?_
      simp only [Function.onFun, List.disjoint_left]
      intro f h1 h2
      apply hij
      simp only [treeSave, nodeSave, solutionsFilename, List.append_assoc, List.mem_append, List.mem_cons, List.not_mem_nil,
        or_false] at h1 h2
      have fin : ∀ {s t : List Char}, (∀ c ∈ s.head?, c.isDigit = false) → (∀ c ∈ t.head?, c.isDigit = false) →
          f = solutionText ++ (decimal i ++ s) → f = solutionText ++ (decimal j ++ t) → i = j := by
        intro s t hs ht e1 e2
        rw [e1] at e2
        exact (name_parts hs ht (List.append_cancel_left e2)).1
      rcases h1 with (h1 | h1) | (h1 | h1) <;> rcases h2 with (h2 | h2) | (h2 | h2) <;>
        exact fin (by decide) (by decide) h1 h2
  · simp [written, treeSave, nodeSave, List.length_flatMap]
    omega

/-- Two solutions, a directory with files of an earlier run with three, and a file of the user's. -/
example : conclude Char.isDigit (some ["solution2.png".toList, "notes.txt".toList, "solution0.data".toList, "solution.png".toList]) 1 =
    some (["notes.txt", "solution.png", "solution0.png", "solution0.data", "solution0_expanded.png", "solution0_expanded.data"].map
      String.toList) := by
  decide +kernel

/-! ## C52 -/

/-- The commands appended, slashes normalised. -/
def commands (l : List Use) : List (List Char) :=
  l.filterMap fun u => match u with
    | .append s => some (s.map fun c => if c = '⧸' then '/' else c)
    | .prompt => none

theorem ByLastUse.append {α : Type} [BEq α] [LawfulBEq α] {l out : List α} (h : ByLastUse l out) (a : α) :
    ByLastUse (l ++ [a]) (out.erase a ++ [a]) := by
  obtain ⟨h1, h2, h3⟩ := h
  refine ⟨?_, ?_, ?_⟩
  · rw [List.nodup_append]
    refine ⟨h1.erase a, by simp, ?_⟩
    intro x hx y hy hxy
    simp only [List.mem_singleton] at hy
    subst hxy hy
    exact h1.not_mem_erase hx
  · intro x
    by_cases hx : x = a
    · simp [hx]
    · simp [hx, List.mem_erase_of_ne hx, h2]
  · intro x y hxy
    rw [List.sublist_append_iff] at hxy
    obtain ⟨p, q, hpq, hp, hq⟩ := hxy
    have hq' : q = [] ∨ q = [a] := by
      cases q with
      | nil => exact Or.inl rfl
      | cons b q =>
        have := List.sublist_singleton.mp hq
        rcases this with h | h
        · simp at h
        · exact Or.inr h
    rcases hq' with rfl | rfl
    · rw [List.append_nil] at hpq
      subst hpq
      obtain ⟨l1, l2, rfl, h4, h5⟩ := h3 x y (hp.trans List.erase_sublist)
      have hxa : x ≠ a := fun hx => h1.not_mem_erase (hx ▸ hp.subset (by simp : x ∈ [x, y]))
      exact ⟨l1, l2 ++ [a], by simp, by simp [h4, hxa], by simp [h5]⟩
    · obtain ⟨rfl, hya⟩ : p = [x] ∧ y = a := by
        cases p with
        | nil => simp at hpq
        | cons b p =>
          cases p with
          | nil => simp at hpq; exact ⟨by rw [hpq.1], hpq.2⟩
          | cons _ _ => simp at hpq
      subst hya
      have hx : x ∈ out.erase y := hp.subset (by simp)
      have hxy' : x ≠ y := fun h => h1.not_mem_erase (h ▸ hx)
      have hxl : x ∈ l := (h2 x).mp (List.mem_of_mem_erase hx)
      obtain ⟨l1, l2, rfl, h4⟩ : ∃ l1 l2, l = l1 ++ x :: l2 ∧ x ∉ l2 := by
        clear h2 h3
        induction l with
        | nil => simp at hxl
        | cons b l ih =>
          by_cases hb : x ∈ l
          · obtain ⟨l1, l2, rfl, h⟩ := ih hb
            exact ⟨b :: l1, l2, rfl, h⟩
          · have : x = b := by simpa [hb] using hxl
            exact ⟨[], l, by rw [this]; rfl, hb⟩
      exact ⟨l1, l2 ++ [y], by simp, by simp [h4, hxy'], by simp⟩

/-- C52. After any sequence of commands and prompts, `_storage` holds each command once, in the order of last use, and
`_loaded_strings`, once a prompt has been shown or before, is the same list, newest first. -/
theorem C52_history (l : List Use) :
    ByLastUse (commands l) (history l).storage ∧ (history l).loaded = (history l).storage.reverse := by
  induction l using List.reverseRecOn with
  | nil => exact ⟨⟨by simp [history, History.empty], by simp [history, History.empty, commands], by simp [history, History.empty]⟩, rfl⟩
  | append_singleton l u ih =>
    obtain ⟨h1, h2⟩ := ih
    have hh : history (l ++ [u]) = (history l).use u := by simp [history]
    rw [hh]
    cases u with
    | prompt =>
      have hc : commands (l ++ [.prompt]) = commands l := by simp [commands]
      rw [hc]
      simp only [History.use, History.load]
      split
      · exact ⟨h1, h2⟩
      · exact ⟨h1, rfl⟩
    | append s =>
      have hc : commands (l ++ [.append s]) = commands l ++ [normalise s] := by simp [commands, normalise]
      rw [hc]
      simp only [History.use, History.append]
      have e1 : (if normalise s ∈ (history l).storage then (history l).storage.erase (normalise s) else (history l).storage) =
          (history l).storage.erase (normalise s) := by
        split
        · rfl
        · rw [List.erase_of_not_mem (by assumption)]
      have e2 : (if normalise s ∈ (history l).loaded then (history l).loaded.erase (normalise s) else (history l).loaded) =
          (history l).loaded.erase (normalise s) := by
        split
        · rfl
        · rw [List.erase_of_not_mem (by assumption)]
      rw [e1, e2]
      refine ⟨h1.append _, ?_⟩
      rw [h2, List.reverse_append, List.reverse_singleton, List.singleton_append]
      congr 1
      rw [(List.nodup_reverse.mpr h1.once).erase_eq_filter, h1.once.erase_eq_filter, List.filter_reverse]

theorem history_nodup (l : List (List Char)) (h : (l.map normalise).Nodup) :
    (history (l.map .append)).storage = l.map normalise := by
  induction l using List.reverseRecOn with
  | nil => rfl
  | append_singleton l s ih =>
    rw [List.map_append, List.nodup_append] at h
    have hi := ih h.1
    have hh : history ((l ++ [s]).map .append) = (history (l.map .append)).append s := by simp [history, History.use]
    have hn : normalise s ∉ (history (l.map .append)).storage := by
      rw [hi]
      intro hm
      exact h.2.2 _ hm _ (by simp) rfl
    rw [hh, History.append]
    simp only [if_neg hn]
    rw [hi]
    simp

theorem normalise_inj {a b : List Char} (ha : '/' ∉ a) (hb : '/' ∉ b) (h : normalise a = normalise b) : a = b := by
  induction a generalizing b with
  | nil => cases b with
    | nil => rfl
    | cons y b => simp [normalise] at h
  | cons x a ih => cases b with
    | nil => simp [normalise] at h
    | cons y b =>
      simp only [normalise, List.map_cons, List.cons.injEq] at h
      simp only [List.mem_cons, not_or] at ha hb
      have hxy : x = y := by
        have h1 := h.1
        split at h1 <;> split at h1
        · simp_all
        · exact absurd h1 hb.1
        · exact absurd h1.symm ha.1
        · exact h1
      rw [hxy, ih ha.2 hb.2 h.2]

/-- C52. At the start the history holds the directories with `to` in their names, the most recently modified last in `_storage` (and
so first in `_loaded_strings`). -/
theorem C52_recent (dirs : List (List Char × Bool × Int)) (h1 : (dirs.map (·.1)).Nodup) (h2 : ∀ d ∈ dirs, '/' ∉ d.1) :
    ∃ ds : List (List Char × Bool × Int), ds.Nodup ∧ (∀ d, d ∈ ds ↔ d ∈ dirs ∧ d.2.1 = true ∧ ['t', 'o'] <:+: d.1) ∧
      ds.Pairwise (fun a b => a.2.2 ≤ b.2.2) ∧ (history (recent dirs)).storage = ds.map fun d => normalise d.1 := by
  have hp := List.perm_insertionSort (fun a b => a.2.2 ≤ b.2.2)
    (dirs.filter fun d => d.2.1 && d.1.tails.any fun t => ['t', 'o'].isPrefixOf t)
  have hsub : ((dirs.filter fun d => d.2.1 && d.1.tails.any fun t => ['t', 'o'].isPrefixOf t).map (·.1)).Sublist (dirs.map (·.1)) :=
    List.filter_sublist.map _
  refine ⟨_, hp.nodup_iff.mpr (h1.of_map.filter _), fun d => ?_, ?_, ?_⟩
  · rw [hp.mem_iff, List.mem_filter, Bool.and_eq_true, List.any_eq_true]
    refine and_congr_right fun _ => and_congr_right fun _ => ?_
    simp only [List.mem_tails, List.isPrefixOf_iff_prefix]
    constructor
    · rintro ⟨t, h3, h4⟩
      exact h4.isInfix.trans h3.isInfix
    · rintro ⟨a, b, h3⟩
      exact ⟨['t', 'o'] ++ b, ⟨a, by rw [← h3]; simp⟩, ⟨b, rfl⟩⟩
  · haveI : Std.Total (fun a b : List Char × Bool × Int => a.2.2 ≤ b.2.2) := ⟨fun a b => le_total a.2.2 b.2.2⟩
    haveI : IsTrans (List Char × Bool × Int) (fun a b => a.2.2 ≤ b.2.2) := ⟨fun a b c h h' => le_trans h h'⟩
    exact List.pairwise_insertionSort _ _
  · rw [recent, history_nodup, List.map_map]
    · rfl
    · rw [List.map_map]
      refine List.Nodup.map_on ?_ (hp.nodup_iff.mpr (h1.of_map.filter _))
      intro x hx y hy hxy
      have mem : ∀ z ∈ (dirs.filter fun d => d.2.1 && d.1.tails.any fun t => ['t', 'o'].isPrefixOf t).insertionSort
          (fun a b => a.2.2 ≤ b.2.2), z ∈ dirs := fun z hz => (List.mem_filter.mp (hp.mem_iff.mp hz)).1
      exact List.inj_on_of_nodup_map h1 (mem x hx) (mem y hy) (normalise_inj (h2 x (mem x hx)) (h2 y (mem y hy)) hxy)

/-- Three directories and a file. -/
example : (history (recent [("6 to 2".toList, true, 30), ("old".toList, true, 1), ("7⧸2 to 1".toList, true, 20),
    ("to do".toList, false, 25)])).storage = ["7/2 to 1".toList, "6 to 2".toList] := by
  decide +kernel

/-- Three commands, one of them twice and with the other slash, and a prompt between. -/
example : history [.append "3 to 1 2".toList, .append "7⧸2 to 1".toList, .prompt, .append "9 to 4".toList, .append "7/2 to 1".toList] =
    ⟨["3 to 1 2".toList, "9 to 4".toList, "7/2 to 1".toList], ["7/2 to 1".toList, "9 to 4".toList, "3 to 1 2".toList], true⟩ := by
  decide +kernel

end Satis.Files
