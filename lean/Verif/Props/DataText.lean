import Verif.Graph.WholeArgs
import Verif.Graph.DataTextRefuse
import Verif.Graph.DataTextCut
import Verif.Props.Save
/-!
# The text of saved data
-/

namespace Satis
open Satis.Graph Satis.Graph.Example Satis.Utils

/-! ## C104 — the text of a `.data` file -/

/-- C104, the text can be loaded: C48 for the characters of the file. The ids are numbers of 128 bits, and the values that are still to be extracted or split off
are whole. Then loading the text that was written for a node rebuilds the graph: there is a one-to-one correspondence `f` between the nodes linked to the
saved one and the new nodes, which have the same ids, values, levels and pending expansions, and `f` of the parents and children in the same order. -/
theorem C104_round_trip (h : Heap ℚ) (U : Addr → Prop) (H : Region h U) (root : Addr) (hr : U root) (hv : ∀ a, U a → 0 ≤ (h.get a).value)
    (hid : ∀ a, U a → (h.get a).id < 2 ^ 128) (hx : ∀ a, U a → ∀ c, .extract c ∈ (h.get a).expands ∨ .split c ∈ (h.get a).expands → c.den = 1)
    (h0 : Heap ℚ) :
    ∃ text h' roots f, Settles (fun fuel => (wrap fuel h root).map dataText) (.ok text) ∧ unwrapText h0 text = .ok (h', roots) ∧
      (∀ a b, Connected h root a → Connected h root b → f a = f b → a = b) ∧
      (∀ x, h0.next ≤ x ∧ x < h'.next ↔ ∃ a, Connected h root a ∧ f a = x) ∧
      (∀ a, Connected h root a → (h'.get (f a)).id = (h.get a).id ∧ (h'.get (f a)).value = (h.get a).value ∧
        (h'.get (f a)).level = (h.get a).level ∧ (h'.get (f a)).expands = (h.get a).expands ∧
        (h'.get (f a)).parents = (h.get a).parents.map f ∧ (h'.get (f a)).children = (h.get a).children.map f) ∧
      roots.Nodup ∧ (∀ x, x ∈ roots ↔ ∃ a, Connected h root a ∧ (h.get a).level = some 0 ∧ f a = x) ∧
      ∀ x, x < h0.next → h'.get x = h0.get x := by
  obtain ⟨data, h', roots, f, h1, h2, h3⟩ := C48_round_trip h U H root hr hv h0
  obtain ⟨order, -, hmem, hset⟩ := wrap_settles H root hr
  have hU : ∀ a ∈ order, U a := fun a ha => ((hmem a).1 ha).inside H hr
  have hd : data = order.map (nodeData h) := by
    obtain ⟨n, hn⟩ := h1
    obtain ⟨m, hm⟩ := hset
    have e1 := hn (max n m) (le_max_left _ _)
    have e2 := hm (max n m) (le_max_right _ _)
    exact Except.ok.inj (e1.symm.trans e2)
  have hfit : ∀ d ∈ data, Writable d := by
    rw [hd]
    intro d hd
    obtain ⟨a, ha, rfl⟩ := List.mem_map.1 hd
    have ua := hU a ha
    refine ⟨hid a ua, fun i hi => ?_, fun i hi => ?_, fun e he => ?_⟩
    · obtain ⟨p, hp, rfl⟩ := List.mem_map.1 hi
      exact hid p (H.parents a ua p hp)
    · obtain ⟨p, hp, rfl⟩ := List.mem_map.1 hi
      exact hid p (H.children a ua p hp)
    · cases e with
      | extract c => exact hx a ua c (.inl he)
      | split c => exact hx a ua c (.inr he)
      | divide d => trivial
      | merge t => trivial
  refine ⟨dataText data, h', roots, f, ?_, (unwrapText_eq h0 data hfit).trans h2, h3⟩
  obtain ⟨n, hn⟩ := h1
  exact ⟨n, fun k hk => by simp only [hn k hk]; rfl⟩

/-- C104, what the text keeps: if the ids are numbers of 128 bits then the text is read like the tuples it was made from, except that it cannot be read at all
if a value that is still to be extracted or split off is not whole (it is written as a call of `Fraction`). -/
theorem C104_exact (h0 : Heap ℚ) (data : List (NodeData ℚ))
    (hid : ∀ d ∈ data, d.id < 2 ^ 128 ∧ (∀ i ∈ d.parents, i < 2 ^ 128) ∧ ∀ i ∈ d.children, i < 2 ^ 128) :
    ((∀ d ∈ data, ∀ c, .extract c ∈ d.expands ∨ .split c ∈ d.expands → c.den = 1) → unwrapText h0 (dataText data) = unwrap h0 data) ∧
    ((∃ d ∈ data, ∃ c, (.extract c ∈ d.expands ∨ .split c ∈ d.expands) ∧ c.den ≠ 1) → unwrapText h0 (dataText data) = .error .valueError) := by
  constructor
  · intro hx
    refine unwrapText_eq h0 data fun d hd => ⟨(hid d hd).1, (hid d hd).2.1, (hid d hd).2.2, fun e he => ?_⟩
    cases e with
    | extract c => exact hx d hd c (.inl he)
    | split c => exact hx d hd c (.inr he)
    | divide d => trivial
    | merge t => trivial
  · rintro ⟨d, hd, c, hc, hn⟩
    refine unwrapText_refused h0 data ⟨d, hd, ?_⟩
    rcases hc with hc | hc
    · exact ⟨_, hc, hn⟩
    · exact ⟨_, hc, hn⟩

/-- C104, different data have different texts. -/
theorem C104_injective (data data' : List (NodeData ℚ))
    (hid : ∀ d ∈ data ++ data', d.id < 2 ^ 128 ∧ (∀ i ∈ d.parents, i < 2 ^ 128) ∧ ∀ i ∈ d.children, i < 2 ^ 128)
    (hx : ∀ d ∈ data ++ data', ∀ c, .extract c ∈ d.expands ∨ .split c ∈ d.expands → c.den = 1) (e : dataText data = dataText data') : data = data' := by
  have hfit : ∀ d ∈ data ++ data', Writable d := fun d hd => ⟨(hid d hd).1, (hid d hd).2.1, (hid d hd).2.2, fun e he => by
    cases e with
    | extract c => exact hx d hd c (.inl he)
    | split c => exact hx d hd c (.inr he)
    | divide d => trivial
    | merge t => trivial⟩
  have hf1 : ∀ d ∈ data, Writable d := fun d hd => hfit d (by simp [hd])
  have hf2 : ∀ d ∈ data', Writable d := fun d hd => hfit d (by simp [hd])
  have hp : ∀ l : List (NodeData ℚ), (∀ d ∈ l, Writable d) → PlainAll (l.map dataVal) := fun l hl => (plainAll_iff _).2 fun v hv => by
    obtain ⟨d, hd, rfl⟩ := List.mem_map.1 hv
    exact dataVal_plain (hl d hd)
  have e1 := (literalEval_text data (hp _ hf1)).symm.trans ((congrArg literalEval e).trans (literalEval_text data' (hp _ hf2)))
  simp only [Except.ok.injEq, PyVal.list.injEq] at e1
  have key : ∀ l l' : List (NodeData ℚ), (∀ d ∈ l, Writable d) → (∀ d ∈ l', Writable d) → l.map dataVal = l'.map dataVal → l = l' := by
    intro l
    induction l with
    | nil =>
      intro l' _ _ q
      cases l' with
      | nil => rfl
      | cons d l' => simp at q
    | cons d l ih =>
      intro l' g1 g2 q
      cases l' with
      | nil => simp at q
      | cons d' l' =>
        simp only [List.map_cons, List.cons.injEq] at q
        have hd := g1 d (by simp)
        have hd' := g2 d' (by simp)
        have q1 := (tupleOf_dataVal hd).symm.trans ((congrArg tupleOf q.1).trans (tupleOf_dataVal hd'))
        simp only [Except.ok.injEq, asText, TextData.mk.injEq] at q1
        obtain ⟨a1, a2, a3, a4, a5, a6⟩ := q1
        have inj : ∀ x y : List Uid, (∀ i ∈ x, Short i) → (∀ i ∈ y, Short i) → x.map uuidStr = y.map uuidStr → x = y := by
          intro x
          induction x with
          | nil => intro y _ _ w; cases y with
            | nil => rfl
            | cons j y => simp at w
          | cons i x ihx => intro y s1 s2 w; cases y with
            | nil => simp at w
            | cons j y =>
              simp only [List.map_cons, List.cons.injEq] at w
              rw [uuidStr_inj (s1 i (by simp)) (s2 j (by simp)) w.1,
                ihx y (fun k hk => s1 k (by simp [hk])) (fun k hk => s2 k (by simp [hk])) w.2]
        have : d = d' := by
          obtain ⟨v, i, lv, ps, cs, es⟩ := d
          obtain ⟨v', i', lv', ps', cs', es'⟩ := d'
          simp only at a1 a2 a3 a4 a5 a6
          have b2 : i = i' := uuidStr_inj hd.id hd'.id a2
          have b4 : ps = ps' := inj _ _ hd.parents hd'.parents a4
          have b5 : cs = cs' := inj _ _ hd.children hd'.children a5
          rw [a1, b2, a3, b4, b5, a6]
        rw [this, ih l' (fun x hx => g1 x (by simp [hx])) (fun x hx => g2 x (by simp [hx])) q.2]
  exact key data data' hf1 hf2 e1

/-- C104, for the files of the program: whatever is written for the solutions of a search, before and after expansion, loses nothing by being written as
text. -/
theorem C104_written (cfg : Config) (fuel : Nat) (leaves : List Addr) (h : Heap Int) (ts : List (TreeObj ℚ)) (x : Heap ℚ × List (Saved ℚ × Saved ℚ))
    (e : concludeAll cfg fuel leaves h.toRat ts = .ok x) (s : Saved ℚ × Saved ℚ) (hs : s ∈ x.2) (data : List (NodeData ℚ))
    (hdata : data = s.1.2 ∨ data = s.2.2) (hid : ∀ d ∈ data, d.id < 2 ^ 128 ∧ (∀ i ∈ d.parents, i < 2 ^ 128) ∧ ∀ i ∈ d.children, i < 2 ^ 128)
    (h0 : Heap ℚ) : unwrapText h0 (dataText data) = unwrap h0 data := by
  have hw := AllWhole.concludeAll cfg fuel leaves ts _ (toRat_whole h) x e s hs
  refine unwrapText_eq h0 data fun d hd => ⟨(hid d hd).1, (hid d hd).2.1, (hid d hd).2.2, ?_⟩
  rcases hdata with rfl | rfl
  · exact hw.1 d hd
  · exact hw.2 d hd

theorem dataVals_plain {data : List (NodeData ℚ)}
    (hid : ∀ d ∈ data, d.id < 2 ^ 128 ∧ (∀ i ∈ d.parents, i < 2 ^ 128) ∧ ∀ i ∈ d.children, i < 2 ^ 128)
    (hx : ∀ d ∈ data, ∀ c, .extract c ∈ d.expands ∨ .split c ∈ d.expands → c.den = 1) : PlainAll (data.map dataVal) := by
  rw [plainAll_iff]
  intro v hv
  obtain ⟨d, hd, rfl⟩ := List.mem_map.1 hv
  refine dataVal_plain ⟨(hid d hd).1, (hid d hd).2.1, (hid d hd).2.2, fun e he => ?_⟩
  cases e with
  | extract c => exact hx d hd c (.inl he)
  | split c => exact hx d hd c (.inr he)
  | divide d => trivial
  | merge t => trivial

/-- C104, a file that was not written to the end is refused: no part of a text, from its beginning but without its end, can be loaded. -/
theorem C104_cut (data : List (NodeData ℚ)) (hid : ∀ d ∈ data, d.id < 2 ^ 128 ∧ (∀ i ∈ d.parents, i < 2 ^ 128) ∧ ∀ i ∈ d.children, i < 2 ^ 128)
    (hx : ∀ d ∈ data, ∀ c, .extract c ∈ d.expands ∨ .split c ∈ d.expands → c.den = 1) (part rest : Str) (e : dataText data = part ++ rest)
    (hr : rest ≠ []) (h0 : Heap ℚ) : unwrapText h0 part = .error .valueError := by
  unfold unwrapText
  rw [literalEval_cut data (dataVals_plain hid hx) part rest e hr]
  rfl

/-- C104, a file that goes on: white space at the end makes no difference, and anything else is refused. (After a `#`, a comma or a backslash Python would read
on, which the model of the reader does not.) -/
theorem C104_goes_on (data : List (NodeData ℚ)) (hid : ∀ d ∈ data, d.id < 2 ^ 128 ∧ (∀ i ∈ d.parents, i < 2 ^ 128) ∧ ∀ i ∈ d.children, i < 2 ^ 128)
    (hx : ∀ d ∈ data, ∀ c, .extract c ∈ d.expands ∨ .split c ∈ d.expands → c.den = 1) (more : Str) (h0 : Heap ℚ) :
    ((∀ c ∈ more, c ∈ [' ', '\t', '\n', '\r', '\x0c']) → unwrapText h0 (dataText data ++ more) = unwrapText h0 (dataText data)) ∧
    (∀ w c s, more = w ++ c :: s → (∀ d ∈ w, d ∈ [' ', '\t', '\n', '\r', '\x0c']) → c ∉ [' ', '\t', '\n', '\r', '\x0c', '#', ',', '\\'] →
      unwrapText h0 (dataText data ++ more) = .error .valueError) := by
  have hp := dataVals_plain hid hx
  have hb : ∀ c : Char, c ∈ [' ', '\t', '\n', '\r', '\x0c'] ↔ isBlank c = true := by
    intro c
    unfold isBlank
    simp [or_assoc]
  constructor
  · intro hm
    unfold unwrapText
    rw [literalEval_append data hp, literalEval_text data hp, if_pos]
    have := skip_blank (s := []) fun c hc => (hb c).1 (hm c hc)
    rwa [List.append_nil] at this
  · rintro w c s rfl hw hc
    have hc' : isBlank c = false := by
      rw [← Bool.not_eq_true, ← hb]
      intro hm
      exact hc (List.mem_append_left ['#', ',', '\\'] hm)
    unfold unwrapText
    rw [literalEval_append data hp, if_neg]
    · rfl
    · rw [skip_blank fun d hd => (hb d).1 (hw d hd), skip_opens hc']
      simp

/-- Of the 363 shorter beginnings of a text of 363 characters none can be loaded; with a line end it can, with a bracket it cannot. -/
example : (do
    let text ← (wrap 10 (extracted 8 5) 0).map dataText
    return (text.length, ((List.range text.length).filter fun n => (unwrapText (extracted 8 5) (text.take n)).toOption.isSome).length,
      (unwrapText (extracted 8 5) (text ++ ['\n'])).toOption.isSome, (unwrapText (extracted 8 5) (text ++ [']'])).toOption.isSome) :
    Py (Nat × Nat × Bool × Bool)).toOption = some (363, 0, true, false) := by decide +kernel

/-- A request whose only solution is written twice; the ids are small, and both texts are read, each with one root. -/
example : ((saved "8 to 5 3" 100).toOption.map fun l => l.map fun s => (s.1.2.length, s.2.2.length,
      decide (∀ d ∈ s.1.2 ++ s.2.2, d.id < 2 ^ 128 ∧ (∀ i ∈ d.parents, i < 2 ^ 128) ∧ ∀ i ∈ d.children, i < 2 ^ 128),
      ((unwrapText (extracted 8 5) (dataText s.1.2)).toOption.map fun y => y.2.length).getD 0,
      ((unwrapText (extracted 8 5) (dataText s.2.2)).toOption.map fun y => y.2.length).getD 0)) =
    some [(3, 4, true, 1, 1)] := by decide +kernel

/-- The text for `5` extracted from `8`, with the extraction pending, and how it looks when it is loaded into a heap that holds it already. -/
example : Region (extracted 8 5) (· < (extracted 8 5).next) ∧ (∀ a, a < (extracted 8 5).next → 0 ≤ ((extracted 8 5).get a).value ∧ ((extracted 8 5).get a).id < 2 ^ 128) ∧
    ((wrap 10 (extracted 8 5) 0).map dataText).toOption = some ("[\n" ++
      "\t((8, 1), '00000000-0000-0000-0000-000000000000', 0, [], ['00000000-0000-0000-0000-000000000001', '00000000-0000-0000-0000-000000000002'], [(0, (5,))]),\n" ++
      "\t((3, 1), '00000000-0000-0000-0000-000000000001', 1, ['00000000-0000-0000-0000-000000000000'], [], []),\n" ++
      "\t((5, 1), '00000000-0000-0000-0000-000000000002', 1, ['00000000-0000-0000-0000-000000000000'], [], [])\n]").toList ∧
    ((unwrapText (extracted 8 5) (dataText ((wrap 10 (extracted 8 5) 0).toOption.getD []))).toOption.map fun r => (shape r.1, r.2)) = some
      ([(8, [], [1, 2]), (3, [0], []), (5, [0], []), (8, [], [4, 5]), (3, [3], []), (5, [3], [])], [3]) :=
  ⟨region_all (by decide +kernel), by decide +kernel, by decide +kernel, by decide +kernel⟩

/-- An id with other digits, a fraction for a value, no level, and the other three expansions. -/
example : dataText [⟨-5 / 2, 0x0123456789abcdef0123456789abcdef, none, [], [], [.divide 10, .merge 3, .split 60]⟩] =
    "[\n\t((-5, 2), '01234567-89ab-cdef-0123-456789abcdef', None, [], [], [(1, (10,)), (2, (3,)), (3, (60,))])\n]".toList := by
  decide +kernel

/-- A half to be extracted: the text cannot be read, whereas the tuple can. -/
example : dataText [⟨5, 0, some 0, [], [], [.extract (1 / 2)]⟩] =
      "[\n\t((5, 1), '00000000-0000-0000-0000-000000000000', 0, [], [], [(0, (Fraction(1, 2),))])\n]".toList ∧
    (∀ h0, unwrapText h0 (dataText [⟨5, 0, some 0, [], [], [.extract (1 / 2)]⟩]) = .error .valueError) ∧
    (unwrap (extracted 8 5) [⟨5, 0, some 0, [], [], [.extract (1 / 2)]⟩]).toOption.isSome = true := by
  refine ⟨by decide +kernel, fun h0 => ?_, by decide +kernel⟩
  exact (C104_exact h0 [⟨5, 0, some 0, [], [], [.extract (1 / 2)]⟩] (by simp)).2 ⟨_, List.mem_singleton_self _, 1 / 2, .inl (List.mem_singleton_self _), by norm_num⟩

end Satis
