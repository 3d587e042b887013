import Verif.Graph.DataTextLemmas
/-!
# Texts that are refused
-/

namespace Satis.Graph
open Satis Satis.Utils

mutual
/-- Only strings that need no escapes; fractions are allowed. -/
def Clean : PyVal → Prop
  | .str s => ∀ c ∈ s, c ≠ '\'' ∧ c ≠ '\\' ∧ c ≠ '\n'
  | .list l => CleanAll l
  | .tuple l => CleanAll l
  | _ => True
def CleanAll : List PyVal → Prop
  | [] => True
  | v :: l => Clean v ∧ CleanAll l
end

theorem cleanAll_iff (l : List PyVal) : CleanAll l ↔ ∀ v ∈ l, Clean v := by
  induction l with
  | nil => simp [CleanAll]
  | cons v l ih => simp [CleanAll, ih]

theorem reprVal_opens (v : PyVal) : ∃ c s, reprVal v = c :: s ∧ Opens c := by
  cases v with
  | int z => rw [reprVal]; exact intStr_head z
  | nothing => exact ⟨'N', ['o', 'n', 'e'], by rw [reprVal], by decide, by decide, by decide, by decide⟩
  | str s => exact ⟨'\'', s ++ ['\''], by rw [reprVal], by decide, by decide, by decide, by decide⟩
  | list l => exact ⟨'[', _, by rw [reprVal], by decide, by decide, by decide, by decide⟩
  | tuple l => exact ⟨'(', _, by rw [reprVal], by decide, by decide, by decide, by decide⟩
  | fraction n d => exact ⟨'F', _, by rw [reprVal]; rfl, by decide, by decide, by decide, by decide⟩

/-! ### More fuel changes nothing -/

theorem read_mono : ∀ fuel, (∀ s x, readVal fuel s = some x → readVal (fuel + 1) s = some x) ∧
    ∀ close s x, readItems fuel close s = some x → readItems (fuel + 1) close s = some x := by
  intro fuel
  induction fuel with
  | zero =>
    refine ⟨fun s x h => ?_, fun close s x h => ?_⟩
    · simp [readVal] at h
    · simp [readItems] at h
  | succ fuel ih =>
    refine ⟨fun s x h => ?_, fun close s x h => ?_⟩
    · cases s with
      | nil => simp [readVal] at h
      | cons c r =>
        rw [readVal] at h ⊢
        split_ifs at h ⊢ with h1 h2 h3 h4 h5
        · obtain ⟨y, hy, e⟩ := Option.map_eq_some_iff.1 h
          rw [ih.2 _ _ _ hy]
          exact congrArg some e
        · obtain ⟨y, hy, e⟩ := Option.map_eq_some_iff.1 h
          rw [ih.2 _ _ _ hy]
          exact congrArg some e
        · exact h
        · exact h
        · exact h
        · exact h
    · rw [readItems] at h ⊢
      cases hs : skip s with
      | nil => rw [hs] at h; simp at h
      | cons c r =>
        rw [hs] at h
        simp only at h ⊢
        split_ifs at h ⊢ with h1
        · exact h
        · cases hv : readVal fuel (c :: r) with
          | none => rw [hv] at h; simp at h
          | some y =>
            obtain ⟨v, r'⟩ := y
            rw [hv] at h
            rw [ih.1 _ _ hv]
            simp only at h ⊢
            cases hr : skip r' with
            | nil => rw [hr] at h; simp at h
            | cons d r'' =>
              rw [hr] at h
              simp only at h ⊢
              split_ifs at h ⊢ with h2 h3
              · exact h
              · obtain ⟨y, hy, e⟩ := Option.map_eq_some_iff.1 h
                rw [ih.2 _ _ _ hy]
                exact congrArg some e

theorem readVal_more {fuel : Nat} {s : Str} {x : PyVal × Str} (h : readVal fuel s = some x) : ∀ k, readVal (fuel + k) s = some x := by
  intro k
  induction k with
  | zero => exact h
  | succ k ih => exact (read_mono _).1 _ _ ih

theorem plain_read {v : PyVal} (hv : Plain v) {fuel : Nat} {r : Str} (hr : Stops r) {x : PyVal × Str} (h : readVal fuel (reprVal v ++ r) = some x) :
    x = (v, r) := by
  have h1 := readVal_more h (need v)
  rw [reads v hv (fuel + need v) r (by omega) hr] at h1
  exact (Option.some.inj h1).symm

/-! ### Fractions are refused -/

/-- `v` is refused wherever it stands. -/
def Refuses (v : PyVal) : Prop := ∀ fuel r, readVal fuel (reprVal v ++ r) = none

theorem readItems_refused {v : PyVal} (h : Refuses v) {close : Char} (hc : close = ']' ∨ close = ')') {w : Str} (hw : ∀ c ∈ w, isBlank c = true)
    (fuel : Nat) (r : Str) : readItems fuel close (w ++ (reprVal v ++ r)) = none := by
  cases fuel with
  | zero => rfl
  | succ fuel =>
    obtain ⟨c, s, e, ho, h1, h2, h3⟩ := reprVal_opens v
    have hread := h fuel r
    rw [readItems, skip_blank hw]
    rw [e, List.cons_append] at hread ⊢
    rw [skip_opens ho]
    have hne : c ≠ close := by rcases hc with rfl | rfl <;> assumption
    simp only
    rw [if_neg hne, hread]

theorem readItems_passed {v : PyVal} (hv : Plain v) {close : Char} (hc : close = ']' ∨ close = ')') {w r : Str} (hw : ∀ c ∈ w, isBlank c = true)
    (h : ∀ fuel, readItems fuel close r = none) (fuel : Nat) : readItems fuel close (w ++ (reprVal v ++ ',' :: r)) = none := by
  cases fuel with
  | zero => rfl
  | succ fuel =>
    obtain ⟨c, s, e, ho, h1, h2, h3⟩ := reprVal_opens v
    have hst : Stops (',' :: r) := by
      intro d hd
      obtain rfl : ',' = d := by simpa using hd
      decide
    have hne : c ≠ close := by rcases hc with rfl | rfl <;> assumption
    have hne' : ',' ≠ close := by rcases hc with rfl | rfl <;> decide
    rw [readItems, skip_blank hw]
    cases hq : readVal fuel (reprVal v ++ ',' :: r) with
    | none =>
      rw [e, List.cons_append] at hq ⊢
      rw [skip_opens ho]
      simp only
      rw [if_neg hne, hq]
    | some x =>
      obtain rfl := plain_read hv hst hq
      rw [e, List.cons_append] at hq ⊢
      rw [skip_opens ho]
      simp only
      rw [if_neg hne, hq]
      simp only
      rw [skip_opens (by decide)]
      simp only
      rw [if_neg hne', if_true, h fuel]
      rfl

/-- Items of which one is not plain. -/
theorem readItems_spoilt {close : Char} (hc : close = ']' ∨ close = ')') : ∀ (l : List PyVal) (v : PyVal), ¬ PlainAll (v :: l) →
    (∀ u ∈ v :: l, ¬ Plain u → Refuses u) → ∀ (w : Str), (∀ c ∈ w, isBlank c = true) → ∀ fuel r,
    readItems fuel close (w ++ (reprVal v ++ (reprMore l ++ r))) = none := by
  intro l
  induction l with
  | nil =>
    intro v hp hr w hw fuel r
    exact readItems_refused (hr v (by simp) fun q => hp ⟨q, trivial⟩) hc hw _ _
  | cons u l ih =>
    intro v hp hr w hw fuel r
    by_cases hv : Plain v
    · rw [reprMore, List.cons_append]
      refine readItems_passed hv hc hw (fun fuel => ?_) fuel
      have := ih u (fun q => hp ⟨hv, q⟩) (fun x hx => hr x (by simp only [List.mem_cons] at hx ⊢; tauto)) [' '] (by decide) fuel r
      simpa using this
    · exact readItems_refused (hr v (by simp) hv) hc hw _ _

mutual
theorem refuses : ∀ v : PyVal, Clean v → ¬ Plain v → Refuses v
  | .int _, _, h => by simp [Plain] at h
  | .nothing, _, h => by simp [Plain] at h
  | .str s, hc, h => by
    simp only [Plain] at h
    simp only [Clean] at hc
    exact absurd hc h
  | .fraction n d, _, _ => by
    intro fuel r
    cases fuel with
    | zero => rfl
    | succ fuel =>
      rw [reprVal, List.append_assoc, List.append_assoc, List.cons_append, readVal]
      rw [if_neg (by decide), if_neg (by decide), if_neg (by decide), if_neg (by decide), if_neg (by decide)]
      have : ∀ s, readNat ('F' :: s) = none := fun s => by
        have : ('F' :: s).takeWhile isDigit = [] := by rw [List.takeWhile_cons, if_neg (by decide)]
        simp [readNat, this]
      rw [this]
      rfl
  | .list l, hc, h => by
    intro fuel r
    cases fuel with
    | zero => rfl
    | succ fuel =>
      rw [reprVal, List.cons_append, readVal]
      simp only
      rw [if_true]
      match l, hc, h with
      | [], _, h => simp [Plain, PlainAll] at h
      | v :: l, hc, h =>
        have := readItems_spoilt (close := ']') (.inl rfl) l v h (refusesAll (v :: l) hc) [] (by simp) fuel ([']'] ++ r)
        rw [List.nil_append] at this
        rw [reprItems, List.append_assoc, List.append_assoc, this]
        rfl
  | .tuple l, hc, h => by
    intro fuel r
    cases fuel with
    | zero => rfl
    | succ fuel =>
      rw [reprVal, List.cons_append, readVal]
      simp only
      rw [if_neg (by decide), if_true]
      match l, hc, h with
      | [], _, h => simp [Plain, PlainAll] at h
      | v :: l, hc, h =>
        have := readItems_spoilt (close := ')') (.inr rfl) l v h (refusesAll (v :: l) hc) [] (by simp) fuel
          ((if (v :: l).length = 1 then [',', ')'] else [')']) ++ r)
        rw [List.nil_append] at this
        rw [reprItems, List.append_assoc, List.append_assoc, this]
        rfl
theorem refusesAll : ∀ l : List PyVal, CleanAll l → ∀ v ∈ l, ¬ Plain v → Refuses v
  | [], _ => by simp
  | v :: l, h => by
    have h1 := refuses v h.1
    have h2 := refusesAll l h.2
    intro u hu
    rcases List.mem_cons.1 hu with rfl | hu
    · exact h1
    · exact h2 u hu
end

theorem readItems_spoiltLines : ∀ l : List PyVal, ¬ PlainAll l → (∀ u ∈ l, ¬ Plain u → Refuses u) → ∀ fuel,
    readItems fuel ']' ('\n' :: (dataLines l ++ ['\n', ']'])) = none := by
  intro l
  induction l with
  | nil => intro h; exact absurd trivial h
  | cons v l ih =>
    intro hp hr fuel
    by_cases hv : Plain v
    · cases l with
      | nil => exact absurd ⟨hv, trivial⟩ hp
      | cons u l =>
        have := readItems_passed hv (close := ']') (.inl rfl) (w := ['\n', '\t']) (by decide)
          (ih (fun q => hp ⟨hv, q⟩) fun x hx => hr x (by simp only [List.mem_cons] at hx ⊢; tauto)) fuel
        simpa [dataLines] using this
    · cases l with
      | nil =>
        have := readItems_refused (hr v (by simp) hv) (close := ']') (.inl rfl) (w := ['\n', '\t']) (by decide) fuel ['\n', ']']
        simpa [dataLines] using this
      | cons u l =>
        have := readItems_refused (hr v (by simp) hv) (close := ']') (.inl rfl) (w := ['\n', '\t']) (by decide) fuel
          (',' :: '\n' :: (dataLines (u :: l) ++ ['\n', ']']))
        simpa [dataLines] using this

theorem dataVal_clean (d : NodeData ℚ) : Clean (dataVal d) := by
  simp only [dataVal, Clean, CleanAll, true_and, and_true]
  refine ⟨uuidStr_plain _, ?_, ?_, ?_, ?_⟩
  · cases d.level <;> simp [levelVal, Clean]
  · rw [cleanAll_iff]
    intro v hv
    obtain ⟨i, -, rfl⟩ := List.mem_map.1 hv
    simp only [Clean]
    exact uuidStr_plain i
  · rw [cleanAll_iff]
    intro v hv
    obtain ⟨i, -, rfl⟩ := List.mem_map.1 hv
    simp only [Clean]
    exact uuidStr_plain i
  · rw [cleanAll_iff]
    intro v hv
    obtain ⟨e, he, rfl⟩ := List.mem_map.1 hv
    have : ∀ c, Clean (argVal c) := fun c => by
      unfold argVal
      split_ifs <;> simp [Clean]
    cases e <;> simp [expandVal, Clean, CleanAll, this]

theorem dataVal_plain_whole {d : NodeData ℚ} (h : Plain (dataVal d)) : ∀ e ∈ d.expands, Whole e := by
  simp only [dataVal, Plain, PlainAll, true_and, and_true] at h
  intro e he
  have := (plainAll_iff _).1 h.2.2.2.2 (expandVal e) (List.mem_map_of_mem he)
  cases e with
  | extract c =>
    by_contra hn
    simp only [Whole] at hn
    simp [expandVal, argVal, hn, Plain, PlainAll] at this
  | split c =>
    by_contra hn
    simp only [Whole] at hn
    simp [expandVal, argVal, hn, Plain, PlainAll] at this
  | divide n => trivial
  | merge n => trivial

/-- A text with a fraction for an argument is not read. -/
theorem unwrapText_refused (h : Heap ℚ) (data : List (NodeData ℚ)) (hd : ∃ d ∈ data, ∃ e ∈ d.expands, ¬ Whole e) :
    unwrapText h (dataText data) = .error .valueError := by
  have hp : ¬ PlainAll (data.map dataVal) := by
    obtain ⟨d, hd, e, he, hn⟩ := hd
    intro q
    exact hn (dataVal_plain_whole ((plainAll_iff _).1 q _ (List.mem_map_of_mem hd)) e he)
  have hr := readItems_spoiltLines _ hp (fun v hv => by
    obtain ⟨d, -, rfl⟩ := List.mem_map.1 hv
    exact refuses _ (dataVal_clean d))
  have e : (dataText data).dropWhile (fun c => c == ' ' || c == '\t') = '[' :: '\n' :: (dataLines (data.map dataVal) ++ ['\n', ']']) := by
    simp [dataText]
  have : literalEval (dataText data) = .error .valueError := by
    unfold literalEval
    rw [e, readVal]
    simp only [if_true]
    rw [hr]
    rfl
  unfold unwrapText
  rw [this]
  rfl

end Satis.Graph
