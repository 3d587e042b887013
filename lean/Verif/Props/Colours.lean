import Verif.Side.Colours
import Mathlib.Tactic.Ring
import Mathlib.Tactic.Linarith

/-!
C91: reading the items of a merger from a video (`tests/analyze_merger.py`).
-/

namespace Satis.Video

/-- An item on the belt. -/
inductive Item
  | r
  | g
  | b
  deriving DecidableEq, Repr

/-- The letter of an item. -/
def Item.char : Item → Char
  | .r => 'r'
  | .g => 'g'
  | .b => 'b'

/-- What a pixel shows: nothing if all channels are below 10, otherwise the brightest channel, red before green before blue. -/
def Shows (p : Pixel) : Option Item → Prop
  | none => p.r < 10 ∧ p.g < 10 ∧ p.b < 10
  | some .r => ¬ (p.r < 10 ∧ p.g < 10 ∧ p.b < 10) ∧ p.g ≤ p.r ∧ p.b ≤ p.r
  | some .g => ¬ (p.r < 10 ∧ p.g < 10 ∧ p.b < 10) ∧ p.r < p.g ∧ p.b ≤ p.g
  | some .b => ¬ (p.r < 10 ∧ p.g < 10 ∧ p.b < 10) ∧ p.r < p.b ∧ p.g < p.b

/-- The colour of what is shown. -/
def colourOf : Option Item → Colour
  | none => .black
  | some .r => .r
  | some .g => .g
  | some .b => .b

theorem colourOf_inj {x y : Option Item} (h : colourOf x = colourOf y) : x = y := by
  rcases x with _ | x <;> rcases y with _ | y <;> (try cases x) <;> (try cases y) <;> simp_all [colourOf]

/-- `closest_color` gives what the pixel shows, and only that. -/
theorem C91_colour (p : Pixel) (x : Option Item) : closestColor p.r p.g p.b = colourOf x ↔ Shows p x := by
  obtain ⟨b, g, r⟩ := p
  have d1 : distance (0, 255, 0) ((r : ℤ), (g : ℤ), (b : ℤ)) < distance (255, 0, 0) ((r : ℤ), (g : ℤ), (b : ℤ)) ↔ r < g := by
    simp only [distance]
    constructor
    · intro h; have : (r : ℤ) < g := by nlinarith
      exact_mod_cast this
    · intro h; have : (r : ℤ) < g := by exact_mod_cast h
      nlinarith
  have d2 : distance (0, 0, 255) ((r : ℤ), (g : ℤ), (b : ℤ)) < distance (255, 0, 0) ((r : ℤ), (g : ℤ), (b : ℤ)) ↔ r < b := by
    simp only [distance]
    constructor
    · intro h; have : (r : ℤ) < b := by nlinarith
      exact_mod_cast this
    · intro h; have : (r : ℤ) < b := by exact_mod_cast h
      nlinarith
  have d3 : distance (0, 0, 255) ((r : ℤ), (g : ℤ), (b : ℤ)) < distance (0, 255, 0) ((r : ℤ), (g : ℤ), (b : ℤ)) ↔ g < b := by
    simp only [distance]
    constructor
    · intro h; have : (g : ℤ) < b := by nlinarith
      exact_mod_cast this
    · intro h; have : (g : ℤ) < b := by exact_mod_cast h
      nlinarith
  by_cases h : r < 10 ∧ g < 10 ∧ b < 10
  · rcases x with _ | x
    · simp [closestColor, h, colourOf, Shows]
    · cases x <;> simp [closestColor, h, colourOf, Shows]
  · simp only [closestColor, if_neg h, references, nearest, d1]
    by_cases h1 : r < g
    · simp only [if_pos h1, d3]
      by_cases h2 : g < b
      · rcases x with _ | x
        · simpa [h2, colourOf, Shows] using h
        · cases x <;> simp only [h2, colourOf, Shows, h, not_false_eq_true, true_and, if_true] <;> simp <;> omega
      · rcases x with _ | x
        · simpa [h2, colourOf, Shows] using h
        · cases x <;> simp only [h2, colourOf, Shows, h, not_false_eq_true, true_and, if_false] <;> simp <;> omega
    · simp only [if_neg h1, d2]
      by_cases h2 : r < b
      · rcases x with _ | x
        · simpa [h2, colourOf, Shows] using h
        · cases x <;> simp only [h2, colourOf, Shows, h, not_false_eq_true, true_and, if_true] <;> simp <;> omega
      · rcases x with _ | x
        · simpa [h2, colourOf, Shows] using h
        · cases x <;> simp only [h2, colourOf, Shows, h, not_false_eq_true, true_and, if_false] <;> simp <;> omega

/-- A part of a video: `gap` frames of empty belt, then an item for `more + 1` frames. -/
structure Part where
  gap : ℕ
  item : Item
  more : ℕ
  deriving DecidableEq, Repr

/-- What the frames of a part show. -/
def Part.frames (s : Part) : List (Option Item) := List.replicate s.gap none ++ List.replicate (s.more + 1) (some s.item)

/-- What the frames of a video show: its parts and empty belt at the end. -/
def video (parts : List Part) (tail : ℕ) : List (Option Item) := parts.flatMap Part.frames ++ List.replicate tail none

/-- Equal neighbours are separated by at least one frame of empty belt. -/
def Separated (a b : Part) : Prop := a.item = b.item → 0 < b.gap

/-- The filter on what is shown. -/
def changes (previous : Option (Option Item)) : List (Option Item) → List (Option Item)
  | [] => []
  | x :: xs => if some x ≠ previous then x :: changes (some x) xs else changes previous xs

theorem filterColours_eq {ps : List Pixel} {xs : List (Option Item)} (h : List.Forall₂ Shows ps xs) :
    ∀ prev : Option (Option Item), filterColours (prev.map colourOf) ps = (changes prev xs).map colourOf := by
  induction h with
  | nil => intro prev; rfl
  | @cons p x ps xs hp _ ih =>
    intro prev
    rw [filterColours, (C91_colour p x).2 hp, changes]
    have e : (some (colourOf x) ≠ prev.map colourOf) ↔ (some x ≠ prev) := by
      rcases prev with _ | y
      · simp
      · simp only [Option.map_some, ne_eq, Option.some.injEq]
        exact not_congr ⟨colourOf_inj, fun h => by rw [h]⟩
    by_cases q : some x ≠ prev
    · simp only [if_pos (e.2 q), if_pos q, List.map_cons]
      rw [← ih (some x)]; rfl
    · simp only [if_neg (mt e.1 q), if_neg q]
      exact ih prev

theorem letter_colourOf (out : List Char) (x : Option Item) : letter out (colourOf x) = out ++ (x.map Item.char).toList := by
  rcases x with _ | x
  · simp [letter, colourOf]
  · cases x <;> rfl

theorem foldl_letter (xs : List (Option Item)) : ∀ out, (xs.map colourOf).foldl letter out = out ++ (xs.filterMap id).map Item.char := by
  induction xs with
  | nil => simp
  | cons x xs ih =>
    intro out
    rw [List.map_cons, List.foldl_cons, letter_colourOf, ih]
    rcases x with _ | x <;> simp

theorem changes_same (x : Option Item) (n : ℕ) (xs : List (Option Item)) :
    changes (some x) (List.replicate n x ++ xs) = changes (some x) xs := by
  induction n with
  | zero => rfl
  | succ n ih => simp [List.replicate_succ, changes, ih]

theorem changes_gap (y : Option Item) (n : ℕ) (xs : List (Option Item)) :
    (changes (some y) (List.replicate n none ++ xs)).filterMap id = (changes (some (if n = 0 then y else none)) xs).filterMap id := by
  rcases n with _ | n
  · simp
  · rw [List.replicate_succ, List.cons_append, changes]
    by_cases h : some none ≠ some y
    · rw [if_pos h, changes_same]; simp
    · rw [if_neg h]
      have : y = none := by simpa [eq_comm] using h
      subst this
      rw [changes_same]; simp

theorem changes_first (n : ℕ) (xs : List (Option Item)) (i : Item) :
    (changes none (List.replicate n none ++ some i :: xs)).filterMap id = i :: (changes (some (some i)) xs).filterMap id := by
  rcases n with _ | n
  · simp [changes]
  · rw [List.replicate_succ, List.cons_append, changes, if_pos (by simp), changes_same, changes, if_pos (by simp)]; simp

theorem changes_none (n : ℕ) : ∀ y, (changes y (List.replicate n none)).filterMap id = [] := by
  induction n with
  | zero => intro y; rfl
  | succ n ih =>
    intro y
    rw [List.replicate_succ, changes]
    split
    · rw [List.filterMap_cons]; exact ih _
    · exact ih _

/-- The items read after the item `i` has just been seen are at most those of the video, and all of them exactly if equal neighbours are
separated. -/
theorem changes_parts (tail : ℕ) : ∀ (parts : List Part) (a : Part),
    ((changes (some (some a.item)) (video parts tail)).filterMap id).length ≤ parts.length ∧
    ((changes (some (some a.item)) (video parts tail)).filterMap id = parts.map Part.item ↔ List.IsChain Separated (a :: parts)) := by
  intro parts
  induction parts with
  | nil =>
    intro a
    have e := changes_none tail (some (some a.item))
    have v : video [] tail = List.replicate tail none := rfl
    rw [v, e]
    simp
  | cons s parts ih =>
    intro a
    have e : video (s :: parts) tail =
        List.replicate s.gap none ++ (some s.item :: (List.replicate s.more (some s.item) ++ video parts tail)) := by
      simp [video, Part.frames, List.replicate_succ]
    obtain ⟨ih1, ih2⟩ := ih s
    rw [e, changes_gap, changes, List.isChain_cons_cons]
    by_cases h : a.item = s.item ∧ s.gap = 0
    · rw [if_neg (by simp [h.1, h.2]), if_pos h.2, h.1, changes_same]
      refine ⟨by simp only [List.length_cons]; omega, ⟨fun q => ?_, fun q => absurd (q.1 h.1) (by omega)⟩⟩
      have := congrArg List.length q
      simp only [List.length_map, List.length_cons] at this
      omega
    · have hs : Separated a s := fun q => by
        rcases Nat.eq_zero_or_pos s.gap with z | z
        · exact absurd ⟨q, z⟩ h
        · exact z
      rw [if_pos (by
        split
        · rename_i z
          intro q
          have : s.item = a.item := by simpa using q
          exact h ⟨this.symm, z⟩
        · simp), changes_same]
      simp only [List.filterMap_cons, id, List.length_cons, List.map_cons, List.cons.injEq, true_and, Nat.add_le_add_iff_right]
      exact ⟨ih1, ih2.trans ⟨fun q => ⟨hs, q⟩, fun q => q.2⟩⟩

/-- C91: the letters appended for a video are exactly the items on the belt, each once and in order, if and only if equal neighbours are
separated by at least one frame of empty belt. Otherwise some items are missed. -/
theorem C91_items (out : List Char) (frames : List Pixel) (parts : List Part) (tail : ℕ) (h : List.Forall₂ Shows frames (video parts tail)) :
    analyze out frames = out ++ (parts.map fun s => s.item.char) ↔ List.IsChain Separated parts := by
  have e : analyze out frames = out ++ ((changes none (video parts tail)).filterMap id).map Item.char := by
    rw [analyze, ← foldl_letter, ← filterColours_eq h none]; rfl
  have hc : Function.Injective Item.char := by intro x y; cases x <;> cases y <;> simp [Item.char]
  have m : (parts.map fun s => s.item.char) = (parts.map Part.item).map Item.char := by rw [List.map_map]; rfl
  rw [e, List.append_cancel_left_eq, m, (List.map_injective_iff.2 hc).eq_iff]
  rcases parts with _ | ⟨s, parts⟩
  · have v : video [] tail = List.replicate tail none := rfl
    rw [v, changes_none]
    simp
  · have e : video (s :: parts) tail =
        List.replicate s.gap none ++ (some s.item :: (List.replicate s.more (some s.item) ++ video parts tail)) := by
      simp [video, Part.frames, List.replicate_succ]
    rw [e, changes_first, changes_same, List.map_cons, List.cons.injEq]
    exact ⟨fun q => (changes_parts tail parts s).2.1 q.2, fun q => ⟨rfl, (changes_parts tail parts s).2.2 q⟩⟩

/-- A record of letters. -/
def Letters (out : List Char) : Prop := ∀ c ∈ out, c = 'r' ∨ c = 'g' ∨ c = 'b'

theorem count_letters {out : List Char} (h : Letters out) : out.count 'g' + out.count 'r' + out.count 'b' = out.length := by
  induction out with
  | nil => rfl
  | cons c out ih =>
    have i := ih fun x hx => h x (List.mem_cons_of_mem _ hx)
    rcases h c (by simp) with rfl | rfl | rfl <;> simp <;> omega

theorem shares_sum {n x y z s g r b : ℕ} (hl : 0 < n) (e : x + y + z = n) (h1 : g * n ≤ x * s) (h2 : x * s < (g + 1) * n)
    (h3 : r * n ≤ y * s) (h4 : y * s < (r + 1) * n) (h5 : b * n ≤ z * s) (h6 : z * s < (b + 1) * n) :
    s < g + r + b + 3 ∧ g + r + b ≤ s := by
  subst e
  constructor
  · by_contra q
    have : (g + r + b + 3) * (x + y + z) ≤ s * (x + y + z) := Nat.mul_le_mul_right _ (by omega)
    nlinarith
  · by_contra q
    have : (s + 1) * (x + y + z) ≤ (g + r + b) * (x + y + z) := Nat.mul_le_mul_right _ (by omega)
    nlinarith

/-- C91: the shares printed are the parts of 780 that fall to each letter, rounded down; they add up to at most 780 and miss at most 2. For an
empty record they raise. -/
theorem C91_shares (out : List Char) (h : Letters out) :
    (out = [] → ∀ c, share out c = .error .zeroDivision) ∧
    (out ≠ [] → ∃ g r b, share out 'g' = .ok g ∧ share out 'r' = .ok r ∧ share out 'b' = .ok b ∧
      (∀ c k, share out c = .ok k → k * out.length ≤ out.count c * 780 ∧ out.count c * 780 < (k + 1) * out.length) ∧
      778 ≤ g + r + b ∧ g + r + b ≤ 780) := by
  refine ⟨fun e c => by simp [share, e], fun e => ?_⟩
  have hl : 0 < out.length := List.length_pos_iff.2 e
  have key : ∀ c k, share out c = .ok k → k * out.length ≤ out.count c * 780 ∧ out.count c * 780 < (k + 1) * out.length := by
    intro c k hk
    rw [share, if_neg hl.ne'] at hk
    cases hk
    refine ⟨Nat.div_mul_le_self _ _, ?_⟩
    rw [Nat.mul_comm (_ + 1)]
    exact Nat.lt_mul_div_succ _ hl
  refine ⟨_, _, _, by rw [share, if_neg hl.ne'], by rw [share, if_neg hl.ne'], by rw [share, if_neg hl.ne'], key, ?_⟩
  have kg := key 'g' _ (by rw [share, if_neg hl.ne'])
  have kr := key 'r' _ (by rw [share, if_neg hl.ne'])
  have kb := key 'b' _ (by rw [share, if_neg hl.ne'])
  have s := count_letters h
  have t := shares_sum hl s kg.1 kg.2 kr.1 kr.2 kb.1 kb.2
  exact ⟨by omega, t.2⟩

/-! ## Examples -/

/-- Two blue items separated by one dark frame, a red one right after: the hypotheses are met and all three are read. Without the dark frame
the second blue item is missed. -/
example :
    List.Forall₂ Shows [⟨200, 30, 40⟩, ⟨3, 9, 0⟩, ⟨90, 80, 89⟩, ⟨20, 20, 20⟩] (video [⟨0, .b, 0⟩, ⟨1, .b, 0⟩, ⟨0, .r, 0⟩] 0) ∧
    List.IsChain Separated [⟨0, .b, 0⟩, ⟨1, .b, 0⟩, ⟨0, .r, 0⟩] ∧
    analyze [] [⟨200, 30, 40⟩, ⟨3, 9, 0⟩, ⟨90, 80, 89⟩, ⟨20, 20, 20⟩] = ['b', 'b', 'r'] ∧
    analyze [] [⟨200, 30, 40⟩, ⟨90, 80, 89⟩, ⟨20, 20, 20⟩] = ['b', 'r'] := by
  refine ⟨?_, ?_, by decide, by decide⟩
  · simp [video, Part.frames, Shows]
  · simp [Separated]

/-- The first 21 letters of the record in the script. -/
example : Letters "rbgrbbrbbgrbbrbgrbbrb".toList ∧ share "rbgrbbrbbgrbbrbgrbbrb".toList 'b' = .ok 408 ∧
    share "rbgrbbrbbgrbbrbgrbbrb".toList 'r' = .ok 260 ∧ share "rbgrbbrbbgrbbrbgrbbrb".toList 'g' = .ok 111 := by
  refine ⟨?_, by decide, by decide, by decide⟩
  unfold Letters
  decide

end Satis.Video
