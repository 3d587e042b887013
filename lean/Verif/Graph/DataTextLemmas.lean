import Verif.Graph.DataText
/-!
# Reading what was written
-/

namespace Satis.Graph
open Satis Satis.Utils

/-! ### Literals -/

mutual
/-- No fractions, and only strings that need no escapes. -/
def Plain : PyVal → Prop
  | .int _ => True
  | .nothing => True
  | .str s => ∀ c ∈ s, c ≠ '\'' ∧ c ≠ '\\' ∧ c ≠ '\n'
  | .list l => PlainAll l
  | .tuple l => PlainAll l
  | .fraction _ _ => False
def PlainAll : List PyVal → Prop
  | [] => True
  | v :: l => Plain v ∧ PlainAll l
end

theorem plainAll_iff (l : List PyVal) : PlainAll l ↔ ∀ v ∈ l, Plain v := by
  induction l with
  | nil => simp [PlainAll]
  | cons v l ih => simp [PlainAll, ih]

mutual
/-- The fuel that is needed. -/
def need : PyVal → Nat
  | .list l => 1 + needAll l
  | .tuple l => 1 + needAll l
  | _ => 1
def needAll : List PyVal → Nat
  | [] => 1
  | v :: l => 1 + max (need v) (needAll l)
end

/-- How the text of a literal begins. -/
def Opens (c : Char) : Prop := isBlank c = false ∧ c ≠ ']' ∧ c ≠ ')' ∧ c ≠ ','

theorem natStr_head (n : Nat) : ∃ c s, natStr n = c :: s ∧ isDigit c = true ∧ AllDigits s := by
  cases h : natStr n with
  | nil => exact absurd h (natStr_ne n)
  | cons c s =>
    have := natStr_digits n
    rw [h] at this
    exact ⟨c, s, rfl, this c (by simp), fun d hd => this d (by simp [hd])⟩

theorem digit_more (c : Char) (h : isDigit c = true) : isBlank c = false ∧ c ≠ '[' ∧ c ≠ ']' ∧ c ≠ '\'' ∧ c ≠ 'N' ∧ c ≠ ',' ∧ c ≠ '\\' ∧ c ≠ '\n' := by
  unfold isDigit digit? at h
  have h1 : 48 ≤ c.toNat ∧ c.toNat ≤ 57 := by
    by_contra hn; rw [if_neg hn] at h; simp at h
  have h2 : c = Char.ofNat c.toNat := (Char.ofNat_toNat c).symm
  obtain ⟨a, b⟩ := h1
  generalize c.toNat = n at *
  subst h2
  interval_cases n <;> decide

theorem digit_opens {c : Char} (h : isDigit c = true) : Opens c := by
  have h1 := digit_facts c h
  have h2 := digit_more c h
  exact ⟨h2.1, h2.2.2.1, h1.2.2.2.2.2.2.2.2.2.2.1, h2.2.2.2.2.2.1⟩

theorem intStr_head (z : Int) : ∃ c s, intStr z = c :: s ∧ Opens c := by
  unfold intStr
  split_ifs with h
  · exact ⟨'-', _, rfl, by decide, by decide, by decide, by decide⟩
  · obtain ⟨c, s, h1, h2, -⟩ := natStr_head z.natAbs
    exact ⟨c, s, h1, digit_opens h2⟩

theorem reprVal_head {v : PyVal} (hv : Plain v) : ∃ c s, reprVal v = c :: s ∧ Opens c := by
  cases v with
  | int z => rw [reprVal]; exact intStr_head z
  | nothing => exact ⟨'N', ['o', 'n', 'e'], by rw [reprVal], by decide, by decide, by decide, by decide⟩
  | str s => exact ⟨'\'', s ++ ['\''], by rw [reprVal], by decide, by decide, by decide, by decide⟩
  | list l => exact ⟨'[', _, by rw [reprVal], by decide, by decide, by decide, by decide⟩
  | tuple l => exact ⟨'(', _, by rw [reprVal], by decide, by decide, by decide, by decide⟩
  | fraction n d => simp [Plain] at hv

/-- Something that can follow a number. -/
def Stops (s : Str) : Prop := ∀ c ∈ s.head?, isDigit c = false

theorem takeWhile_digits {s r : Str} (hs : AllDigits s) (hr : Stops r) : (s ++ r).takeWhile isDigit = s ∧ (s ++ r).dropWhile isDigit = r := by
  induction s with
  | nil =>
    cases r with
    | nil => exact ⟨rfl, rfl⟩
    | cons c r =>
      have := hr c (by simp)
      simp [this]
  | cons c s ih =>
    obtain ⟨h1, h2⟩ := ih fun d hd => hs d (by simp [hd])
    have := hs c (by simp)
    simp [this, h1, h2]

/-- Only zero begins with 0. -/
theorem natStrAux_zero : ∀ (fuel n : Nat) (acc : Str), n < fuel → 0 < n → (natStrAux fuel n acc).head? ≠ some '0' := by
  intro fuel
  induction fuel with
  | zero => intro n acc h; omega
  | succ fuel ih =>
    intro n acc h hn
    unfold natStrAux
    simp only
    split_ifs with h0
    · have h10 : n < 10 := by omega
      simp only [List.head?_cons]
      interval_cases n <;> decide
    · exact ih _ _ (by omega) (by omega)

theorem readNat_natStr (n : Nat) (r : Str) (hr : Stops r) : readNat (natStr n ++ r) = some (n, r) := by
  obtain ⟨h1, h2⟩ := takeWhile_digits (natStr_digits n) hr
  unfold readNat
  simp only [h1, h2]
  have hval := natStr_val n
  unfold digitsFold at hval
  rw [hval, if_neg]
  rintro (h | ⟨h, c, hc, hne⟩)
  · exact natStr_ne n h
  · rcases Nat.eq_zero_or_pos n with rfl | hn
    · have : natStr 0 = ['0'] := by decide
      rw [this] at hc
      simp at hc
      exact hne hc
    · exact natStrAux_zero _ _ _ (by omega) hn h

theorem readStr_self : ∀ (s r : Str), (∀ c ∈ s, c ≠ '\'' ∧ c ≠ '\\' ∧ c ≠ '\n') → readStr (s ++ '\'' :: r) = some (s, r) := by
  intro s
  induction s with
  | nil => intro r _; rfl
  | cons c s ih =>
    intro r h
    obtain ⟨h1, h2, h3⟩ := h c (by simp)
    rw [List.cons_append, readStr, if_neg h1, if_neg (by tauto), ih r fun d hd => h d (by simp [hd])]
    rfl

theorem skip_opens {c : Char} {s : Str} (h : isBlank c = false) : skip (c :: s) = c :: s := by
  unfold skip
  rw [List.dropWhile_cons]
  simp [h]

theorem skip_blank {w s : Str} (h : ∀ c ∈ w, isBlank c = true) : skip (w ++ s) = skip s := by
  induction w with
  | nil => rfl
  | cons c w ih =>
    have := h c (by simp)
    show (c :: (w ++ s)).dropWhile isBlank = _
    rw [List.dropWhile_cons]
    simp only [this, if_true]
    exact ih fun d hd => h d (by simp [hd])

/-- `v` is read wherever it stands. -/
def Reads (v : PyVal) : Prop := ∀ fuel r, need v ≤ fuel → Stops r → readVal fuel (reprVal v ++ r) = some (v, r)

theorem readItems_last {v : PyVal} (hv : Plain v) (h : Reads v) {fuel : Nat} (hf : need v ≤ fuel) {close : Char} (hc : close = ']' ∨ close = ')')
    {w w' r : Str} (hw : ∀ c ∈ w, isBlank c = true) (hw' : ∀ c ∈ w', isBlank c = true) :
    readItems (fuel + 1) close (w ++ (reprVal v ++ (w' ++ close :: r))) = some ([v], false, r) := by
  obtain ⟨c, s, e, ho, h1, h2, h3⟩ := reprVal_head hv
  have hcc : isBlank close = false ∧ isDigit close = false := by rcases hc with rfl | rfl <;> decide
  have hst : Stops (w' ++ close :: r) := by
    intro d hd
    cases w' with
    | nil =>
      obtain rfl : close = d := by simpa using hd
      exact hcc.2
    | cons x w' =>
      obtain rfl : x = d := by simpa using hd
      have := hw' x (by simp)
      cases hq : isDigit x with
      | false => rfl
      | true => rw [(digit_more x hq).1] at this; simp at this
  rw [readItems, skip_blank hw]
  have hread := h fuel (w' ++ close :: r) hf hst
  rw [e, List.cons_append] at hread ⊢
  rw [skip_opens ho]
  simp only
  have hne : c ≠ close := by rcases hc with rfl | rfl <;> assumption
  rw [if_neg hne, hread]
  simp only
  rw [skip_blank hw', skip_opens hcc.1]
  simp

theorem readItems_next {v : PyVal} (hv : Plain v) (h : Reads v) {fuel : Nat} (hf : need v ≤ fuel) {close : Char} (hc : close = ']' ∨ close = ')')
    {w r : Str} (hw : ∀ c ∈ w, isBlank c = true) {l : List PyVal} {b : Bool} {r' : Str} (hr : readItems fuel close r = some (l, b, r')) :
    readItems (fuel + 1) close (w ++ (reprVal v ++ ',' :: r)) = some (v :: l, true, r') := by
  obtain ⟨c, s, e, ho, h1, h2, h3⟩ := reprVal_head hv
  have hst : Stops (',' :: r) := by
    intro d hd
    obtain rfl : ',' = d := by simpa using hd
    decide
  rw [readItems, skip_blank hw]
  have hread := h fuel (',' :: r) hf hst
  rw [e, List.cons_append] at hread ⊢
  rw [skip_opens ho]
  simp only
  have hne : c ≠ close := by rcases hc with rfl | rfl <;> assumption
  have hne' : ',' ≠ close := by rcases hc with rfl | rfl <;> decide
  rw [if_neg hne, hread]
  simp only
  rw [skip_opens (by decide)]
  simp only
  rw [if_neg hne', if_true, hr]
  rfl

theorem readItems_none {fuel : Nat} {close : Char} (hc : close = ']' ∨ close = ')') {w r : Str} (hw : ∀ c ∈ w, isBlank c = true) :
    readItems (fuel + 1) close (w ++ close :: r) = some ([], false, r) := by
  have hcc : isBlank close = false := by rcases hc with rfl | rfl <;> decide
  rw [readItems, skip_blank hw, skip_opens hcc]
  simp

/-- The items after a comma. -/
theorem readItems_more {close : Char} (hc : close = ']' ∨ close = ')') : ∀ (l : List PyVal) (v : PyVal), PlainAll (v :: l) →
    (∀ u ∈ v :: l, Reads u) → ∀ (w : Str), (∀ c ∈ w, isBlank c = true) → ∀ fuel r, needAll (v :: l) ≤ fuel →
    readItems fuel close (w ++ (reprVal v ++ (reprMore l ++ close :: r))) = some (v :: l, !l.isEmpty, r) := by
  intro l
  induction l with
  | nil =>
    intro v hp hr w hw fuel r hf
    simp only [needAll] at hf
    obtain ⟨fuel, rfl⟩ : ∃ k, fuel = k + 1 := ⟨fuel - 1, by omega⟩
    rw [reprMore, List.nil_append]
    exact readItems_last hp.1 (hr v (by simp)) (by omega) hc hw (w' := []) (by simp)
  | cons u l ih =>
    intro v hp hr w hw fuel r hf
    rw [needAll] at hf
    obtain ⟨fuel, rfl⟩ : ∃ k, fuel = k + 1 := ⟨fuel - 1, by omega⟩
    rw [reprMore, List.cons_append]
    have hin := ih u hp.2 (fun x hx => hr x (by simp only [List.mem_cons] at hx ⊢; tauto)) [' '] (by decide) fuel r (by omega)
    refine readItems_next hp.1 (hr v (by simp)) (by omega) hc hw (b := !l.isEmpty) ?_
    simpa using hin

mutual
theorem reads : ∀ v : PyVal, Plain v → Reads v
  | .int z, _ => by
    intro fuel r hf hr
    simp only [need] at hf
    obtain ⟨fuel, rfl⟩ : ∃ k, fuel = k + 1 := ⟨fuel - 1, by omega⟩
    rw [reprVal]
    unfold intStr
    split_ifs with h
    · rw [List.cons_append, readVal]
      simp only
      rw [if_neg (by decide), if_neg (by decide), if_neg (by decide), if_true]
      obtain ⟨c, s, e, hd, -⟩ := natStr_head z.natAbs
      have : skip (natStr z.natAbs ++ r) = natStr z.natAbs ++ r := by
        rw [e, List.cons_append]
        exact skip_opens (digit_more c hd).1
      rw [this, readNat_natStr _ _ hr]
      simp only [Option.map_some, Option.some.injEq, Prod.mk.injEq, PyVal.int.injEq, and_true]
      omega
    · obtain ⟨c, s, e, hd, -⟩ := natStr_head z.natAbs
      have hread := readNat_natStr z.natAbs r hr
      rw [e, List.cons_append] at hread ⊢
      have h1 := digit_facts c hd
      have h2 := digit_more c hd
      rw [readVal, if_neg h2.2.1, if_neg h1.2.2.2.2.2.2.2.2.2.1, if_neg h2.2.2.2.1, if_neg h1.2.2.1, if_neg h2.2.2.2.2.1, hread]
      simp only [Option.map_some, Option.some.injEq, Prod.mk.injEq, PyVal.int.injEq, and_true]
      omega
  | .nothing, _ => by
    intro fuel r hf _
    simp only [need] at hf
    obtain ⟨fuel, rfl⟩ : ∃ k, fuel = k + 1 := ⟨fuel - 1, by omega⟩
    rw [reprVal, List.cons_append, readVal]
    simp only
    rw [if_neg (by decide), if_neg (by decide), if_neg (by decide), if_neg (by decide), if_true]
    simp
  | .str s, h => by
    intro fuel r hf _
    simp only [need] at hf
    obtain ⟨fuel, rfl⟩ : ∃ k, fuel = k + 1 := ⟨fuel - 1, by omega⟩
    rw [reprVal, List.cons_append, readVal]
    simp only
    rw [if_neg (by decide), if_neg (by decide), if_true, List.append_assoc, List.singleton_append, readStr_self s r h]
    rfl
  | .list l, h => by
    intro fuel r hf _
    simp only [need] at hf
    obtain ⟨fuel, rfl⟩ : ∃ k, fuel = k + 1 := ⟨fuel - 1, by omega⟩
    rw [reprVal, List.cons_append, readVal]
    simp only
    rw [if_true]
    have hall := readsAll l h
    have : readItems fuel ']' (reprItems l ++ [']'] ++ r) = some (l, decide (2 ≤ l.length), r) := by
      rw [List.append_assoc, List.singleton_append]
      cases l with
      | nil =>
        simp only [needAll] at hf
        obtain ⟨fuel, rfl⟩ : ∃ k, fuel = k + 1 := ⟨fuel - 1, by omega⟩
        rw [reprItems]
        exact readItems_none (.inl rfl) (w := []) (by simp)
      | cons v l =>
        rw [reprItems, List.append_assoc]
        have := readItems_more (.inl rfl) l v h hall [] (by simp) fuel r (by omega)
        rw [List.nil_append] at this
        rw [this]
        cases l <;> simp
    rw [this]
    rfl
  | .tuple l, h => by
    intro fuel r hf _
    simp only [need] at hf
    obtain ⟨fuel, rfl⟩ : ∃ k, fuel = k + 1 := ⟨fuel - 1, by omega⟩
    rw [reprVal, List.cons_append, readVal]
    simp only
    rw [if_neg (by decide), if_true]
    have hall := readsAll l h
    match l, h, hall, hf with
    | [], _, _, hf =>
      simp only [needAll] at hf
      obtain ⟨fuel, rfl⟩ : ∃ k, fuel = k + 1 := ⟨fuel - 1, by omega⟩
      have := readItems_none (fuel := fuel) (close := ')') (.inr rfl) (w := []) (r := r) (by simp)
      rw [List.nil_append] at this
      simp only [reprItems, List.length_nil, List.nil_append, List.singleton_append, reduceIte, Nat.zero_ne_one]
      rw [this]
      rfl
    | [v], h, hall, hf =>
      simp only [needAll] at hf
      obtain ⟨fuel, rfl⟩ : ∃ k, fuel = k + 2 := ⟨fuel - 2, by omega⟩
      have hn := readItems_none (fuel := fuel) (close := ')') (.inr rfl) (w := []) (r := r) (by simp)
      have := readItems_next (fuel := fuel + 1) h.1 (hall v (by simp)) (by omega) (.inr rfl) (w := []) (by simp) hn
      rw [List.nil_append, List.nil_append] at this
      simp only [reprItems, reprMore, List.append_nil, List.length_singleton, reduceIte, List.append_assoc, List.cons_append, List.nil_append]
      rw [this]
      rfl
    | v :: u :: l, h, hall, hf =>
      have := readItems_more (.inr rfl) (u :: l) v h hall [] (by simp) fuel r (by omega)
      rw [List.nil_append] at this
      rw [if_neg (by simp), reprItems, List.append_assoc, List.append_assoc, List.singleton_append, this]
      rfl
  | .fraction n d, h => by simp [Plain] at h
theorem readsAll : ∀ l : List PyVal, PlainAll l → ∀ v ∈ l, Reads v
  | [], _ => by simp
  | v :: l, h => by
    have h1 := reads v h.1
    have h2 := readsAll l h.2
    intro u hu
    rcases List.mem_cons.1 hu with rfl | hu
    · exact h1
    · exact h2 u hu
end

theorem need_pos (v : PyVal) : 1 ≤ need v := by cases v <;> simp [need]

mutual
theorem need_le : ∀ v : PyVal, Plain v → need v ≤ (reprVal v).length
  | .int z, h => by
    obtain ⟨c, s, e, -⟩ := reprVal_head h
    rw [e]; simp [need]
  | .nothing, _ => by simp [need, reprVal]
  | .str s, _ => by simp [need, reprVal]
  | .list l, h => by
    have := needAll_le l h
    simp only [need, reprVal, List.length_cons, List.length_append, List.length_nil]
    omega
  | .tuple l, h => by
    have := needAll_le l h
    have : 1 ≤ (if l.length = 1 then [',', ')'] else [')']).length := by split_ifs <;> simp
    simp only [need, reprVal, List.length_cons, List.length_append]
    omega
  | .fraction _ _, h => by simp [Plain] at h
theorem needAll_le : ∀ l : List PyVal, PlainAll l → needAll l ≤ (reprItems l).length + 1
  | [], _ => by simp [needAll]
  | v :: l, h => by
    have h0 := need_pos v
    have h1 := need_le v h.1
    have h2 := needMore_le l h.2
    simp only [needAll, reprItems, List.length_append]
    omega
theorem needMore_le : ∀ l : List PyVal, PlainAll l → needAll l ≤ (reprMore l).length + 1
  | [], _ => by simp [needAll, reprMore]
  | v :: l, h => by
    have h0 := need_pos v
    have h1 := need_le v h.1
    have h2 := needMore_le l h.2
    simp only [needAll, reprMore, List.length_append, List.length_cons]
    omega
end

/-! ### The file -/

theorem readItems_lines : ∀ l : List PyVal, PlainAll l → (∀ v ∈ l, Reads v) → ∀ fuel, needAll l ≤ fuel →
    ∃ b, readItems fuel ']' ('\n' :: (dataLines l ++ ['\n', ']'])) = some (l, b, []) := by
  intro l
  induction l with
  | nil =>
    intro _ _ fuel hf
    simp only [needAll] at hf
    obtain ⟨fuel, rfl⟩ : ∃ k, fuel = k + 1 := ⟨fuel - 1, by omega⟩
    exact ⟨false, readItems_none (.inl rfl) (w := ['\n', '\n']) (by decide)⟩
  | cons v l ih =>
    intro hp hr fuel hf
    rw [needAll] at hf
    obtain ⟨fuel, rfl⟩ : ∃ k, fuel = k + 1 := ⟨fuel - 1, by omega⟩
    cases l with
    | nil =>
      refine ⟨false, ?_⟩
      have := readItems_last hp.1 (hr v (by simp)) (fuel := fuel) (by omega) (.inl rfl) (w := ['\n', '\t']) (w' := ['\n']) (r := [])
        (by decide) (by decide)
      simpa [dataLines] using this
    | cons u l =>
      obtain ⟨b, hb⟩ := ih hp.2 (fun x hx => hr x (by simp only [List.mem_cons] at hx ⊢; tauto)) fuel (by omega)
      refine ⟨true, ?_⟩
      have := readItems_next hp.1 (hr v (by simp)) (fuel := fuel) (by omega) (.inl rfl) (w := ['\n', '\t']) (by decide) hb
      simpa [dataLines] using this

theorem needAll_lines : ∀ l : List PyVal, PlainAll l → needAll l ≤ (dataLines l).length + 1 := by
  intro l
  induction l with
  | nil => intro _; simp [needAll, dataLines]
  | cons v l ih =>
    intro h
    have h0 := need_pos v
    have h1 := need_le v h.1
    have h2 := ih h.2
    cases l with
    | nil =>
      simp only [needAll, dataLines, List.length_cons] at *
      omega
    | cons u l =>
      rw [needAll]
      simp only [dataLines, List.length_cons, List.length_append] at *
      omega

theorem literalEval_text (data : List (NodeData ℚ)) (h : PlainAll (data.map dataVal)) :
    literalEval (dataText data) = .ok (.list (data.map dataVal)) := by
  have hlen : (dataText data).length = (dataLines (data.map dataVal)).length + 4 := by simp [dataText]
  unfold literalEval
  rw [hlen]
  have hn := needAll_lines _ h
  obtain ⟨b, hb⟩ := readItems_lines _ h (readsAll _ h) ((dataLines (data.map dataVal)).length + 4) (by omega)
  have e : (dataText data).dropWhile (fun c => c == ' ' || c == '\t') = '[' :: '\n' :: (dataLines (data.map dataVal) ++ ['\n', ']']) := by
    simp [dataText]
  rw [e, readVal]
  simp only [if_true]
  rw [hb]
  rfl

/-! ### Ids -/

theorem hexChar_facts (d : Nat) (h : d < 16) : hexDigit? (hexChar d) = some d ∧ hexChar d ≠ '-' ∧ hexChar d ≠ '\'' ∧ hexChar d ≠ '\\' ∧ hexChar d ≠ '\n' := by
  interval_cases d <;> decide

theorem hexStr_length (k n : Nat) : (hexStr k n).length = k := by
  induction k generalizing n with
  | zero => rfl
  | succ k ih => simp [hexStr, ih]

theorem hexStr_mem {k n : Nat} {c : Char} (h : c ∈ hexStr k n) : c ≠ '-' ∧ c ≠ '\'' ∧ c ≠ '\\' ∧ c ≠ '\n' := by
  induction k generalizing n with
  | zero => simp [hexStr] at h
  | succ k ih =>
    simp only [hexStr, List.mem_append, List.mem_singleton] at h
    rcases h with h | rfl
    · exact ih h
    · exact (hexChar_facts _ (Nat.mod_lt _ (by omega))).2

theorem hexNat_hexStr (k n : Nat) : hexNat (hexStr k n) = some (n % 16 ^ k) := by
  induction k generalizing n with
  | zero => simp [hexStr, hexNat, Nat.mod_one]
  | succ k ih =>
    have h1 := ih (n / 16)
    unfold hexNat at h1 ⊢
    rw [hexStr, List.foldlM_append, h1]
    simp only [Option.bind_eq_bind, Option.bind_some, List.foldlM_cons, List.foldlM_nil, (hexChar_facts _ (Nat.mod_lt n (by omega : 0 < 16))).1,
      Option.map_some]
    show some _ = some _
    congr 1
    rw [pow_succ, Nat.mul_comm (16 ^ k) 16, Nat.mod_mul]
    omega

theorem uuidStr_plain (n : Uid) : ∀ c ∈ uuidStr n, c ≠ '\'' ∧ c ≠ '\\' ∧ c ≠ '\n' := by
  intro c hc
  have key : c ∈ hexStr 32 n ∨ c = '-' := by
    unfold uuidStr at hc
    simp only [List.mem_append, List.mem_cons] at hc
    rcases hc with hc | hc | hc | hc | hc | hc | hc | hc | hc
    · exact .inl (List.mem_of_mem_take hc)
    · exact .inr hc
    · exact .inl (List.mem_of_mem_drop (List.mem_of_mem_take hc))
    · exact .inr hc
    · exact .inl (List.mem_of_mem_drop (List.mem_of_mem_take hc))
    · exact .inr hc
    · exact .inl (List.mem_of_mem_drop (List.mem_of_mem_take hc))
    · exact .inr hc
    · exact .inl (List.mem_of_mem_drop hc)
  rcases key with hc | rfl
  · exact (hexStr_mem hc).2
  · decide

theorem uuidStr_filter (n : Uid) : (uuidStr n).filter (· ≠ '-') = hexStr 32 n := by
  have key : ∀ l : Str, (∀ c ∈ l, c ∈ hexStr 32 n) → l.filter (· ≠ '-') = l := by
    intro l hl
    refine List.filter_eq_self.2 fun c hc => ?_
    simpa using (hexStr_mem (hl c hc)).1
  unfold uuidStr
  simp only [List.filter_append, List.filter_cons, ne_eq, not_true_eq_false, decide_false, Bool.false_eq_true, if_false]
  have k1 := key _ fun c hc => List.mem_of_mem_take (i := 8) hc
  have k2 := key _ fun c hc => List.mem_of_mem_drop (i := 8) (List.mem_of_mem_take (i := 4) hc)
  have k3 := key _ fun c hc => List.mem_of_mem_drop (i := 12) (List.mem_of_mem_take (i := 4) hc)
  have k4 := key _ fun c hc => List.mem_of_mem_drop (i := 16) (List.mem_of_mem_take (i := 4) hc)
  have k5 := key _ fun c hc => List.mem_of_mem_drop (i := 20) hc
  simp only [ne_eq] at k1 k2 k3 k4 k5
  rw [k1, k2, k3, k4, k5]
  generalize hexStr 32 n = s
  have e1 : s.drop 20 = (s.drop 16).drop 4 := by rw [List.drop_drop]
  have e2 : s.drop 16 = (s.drop 12).drop 4 := by rw [List.drop_drop]
  have e3 : s.drop 12 = (s.drop 8).drop 4 := by rw [List.drop_drop]
  rw [e1, List.take_append_drop, e2, List.take_append_drop, e3, List.take_append_drop, List.take_append_drop]

/-- The ids are numbers of 128 bits. -/
def Short (i : Uid) : Prop := i < 2 ^ 128

theorem readUuid_uuidStr {n : Uid} (h : Short n) : readUuid (uuidStr n) = .ok n := by
  unfold readUuid
  simp only
  rw [uuidStr_filter, hexStr_length, hexNat_hexStr]
  have e : (16 : Nat) ^ 32 = 2 ^ 128 := by norm_num
  have : n % 16 ^ 32 = n := Nat.mod_eq_of_lt (by rw [e]; exact h)
  rw [this, if_neg (by simp)]

theorem uuidStr_inj {a b : Uid} (ha : Short a) (hb : Short b) (h : uuidStr a = uuidStr b) : a = b := by
  have := readUuid_uuidStr ha
  rw [h, readUuid_uuidStr hb] at this
  exact (Except.ok.inj this).symm

/-! ### The tuples -/

/-- The argument is a whole number. -/
def Whole : Expand ℚ → Prop
  | .extract c => c.den = 1
  | .split c => c.den = 1
  | _ => True

/-- What is asked of a tuple. -/
structure Writable (d : NodeData ℚ) : Prop where
  id : Short d.id
  parents : ∀ i ∈ d.parents, Short i
  children : ∀ i ∈ d.children, Short i
  expands : ∀ e ∈ d.expands, Whole e

theorem argVal_plain {c : ℚ} (h : c.den = 1) : Plain (argVal c) := by simp [argVal, h, Plain]

theorem dataVal_plain {d : NodeData ℚ} (h : Writable d) : Plain (dataVal d) := by
  simp only [dataVal, Plain, PlainAll, true_and, and_true]
  refine ⟨uuidStr_plain _, ?_, ?_, ?_, ?_⟩
  · cases d.level <;> simp [levelVal, Plain]
  · rw [plainAll_iff]
    intro v hv
    obtain ⟨i, -, rfl⟩ := List.mem_map.1 hv
    simp only [Plain]
    exact uuidStr_plain i
  · rw [plainAll_iff]
    intro v hv
    obtain ⟨i, -, rfl⟩ := List.mem_map.1 hv
    simp only [Plain]
    exact uuidStr_plain i
  · rw [plainAll_iff]
    intro v hv
    obtain ⟨e, he, rfl⟩ := List.mem_map.1 hv
    have := h.expands e he
    cases e with
    | extract c => simp only [expandVal, Plain, PlainAll, true_and, and_true]; exact argVal_plain this
    | split c => simp only [expandVal, Plain, PlainAll, true_and, and_true]; exact argVal_plain this
    | divide n => simp [expandVal, Plain, PlainAll]
    | merge n => simp [expandVal, Plain, PlainAll]

/-- The tuple with texts for ids. -/
def asText (d : NodeData ℚ) : TextData :=
  ⟨d.value, uuidStr d.id, d.level, d.parents.map uuidStr, d.children.map uuidStr, d.expands⟩

theorem mapM_ok {α β γ : Type} (f : β → Py γ) (g : α → β) (k : α → γ) : ∀ l : List α, (∀ x ∈ l, f (g x) = .ok (k x)) →
    (l.map g).mapM f = .ok (l.map k) := by
  intro l
  induction l with
  | nil => intro _; rfl
  | cons x l ih =>
    intro h
    rw [List.map_cons, List.mapM_cons, h x (by simp), ih fun y hy => h y (by simp [hy])]
    rfl

theorem expandOf_expandVal {e : Expand ℚ} (h : Whole e) : expandOf (expandVal e) = .ok e := by
  cases e with
  | extract c =>
    have : c.den = 1 := h
    have hc : ((c.num : ℤ) : ℚ) = c := Rat.den_eq_one_iff _ |>.1 this
    simp [expandVal, argVal, this, expandOf, hc]
  | split c =>
    have : c.den = 1 := h
    have hc : ((c.num : ℤ) : ℚ) = c := Rat.den_eq_one_iff _ |>.1 this
    simp [expandVal, argVal, this, expandOf, hc]
  | divide n => simp [expandVal, expandOf]
  | merge n => simp [expandVal, expandOf]

theorem tupleOf_dataVal {d : NodeData ℚ} (h : Writable d) : tupleOf (dataVal d) = .ok (asText d) := by
  have hl : levelOf (levelVal d.level) = .ok d.level := by cases d.level <;> rfl
  have hd : ((d.value.den : ℕ) : ℤ) ≠ 0 := by exact_mod_cast d.value.den_nz
  have hv : (d.value.num : ℚ) / ((d.value.den : ℕ) : ℤ) = d.value := by
    rw [Int.cast_natCast]; exact Rat.num_div_den d.value
  unfold dataVal tupleOf
  simp only
  rw [if_neg hd, hl, mapM_ok textOf (fun i => .str (uuidStr i)) uuidStr _ (fun _ _ => rfl),
    mapM_ok textOf (fun i => .str (uuidStr i)) uuidStr _ (fun _ _ => rfl),
    mapM_ok expandOf expandVal id _ (fun e he => expandOf_expandVal (h.expands e he)), hv]
  simp [bind, Except.bind, pure, Except.pure, asText]

/-! ### The nodes -/

/-- The map of `unwrap`, with texts for ids. -/
def textMap (m : Dict Uid Addr) : Dict Str Addr := m.map fun e => (uuidStr e.1, e.2)

theorem textMap_get {m : Dict Uid Addr} (hm : ∀ e ∈ m, Short e.1) {i : Uid} (hi : Short i) : (textMap m).get? (uuidStr i) = m.get? i := by
  induction m with
  | nil => rfl
  | cons e m ih =>
    show Dict.get? ((uuidStr e.1, e.2) :: textMap m) (uuidStr i) = Dict.get? ((e.1, e.2) :: m) i
    unfold Dict.get?
    have := ih fun x hx => hm x (by simp [hx])
    by_cases q : e.1 = i
    · rw [if_pos q, if_pos (by rw [q])]
    · rw [if_neg q, if_neg (fun h => q (uuidStr_inj (hm e (by simp)) hi h)), this]

theorem textMap_set {m : Dict Uid Addr} (hm : ∀ e ∈ m, Short e.1) {i : Uid} (hi : Short i) (a : Addr) :
    (textMap m).set (uuidStr i) a = textMap (m.set i a) := by
  induction m with
  | nil => rfl
  | cons e m ih =>
    show Dict.set ((uuidStr e.1, e.2) :: textMap m) (uuidStr i) a = textMap (Dict.set ((e.1, e.2) :: m) i a)
    have := ih fun x hx => hm x (by simp [hx])
    unfold Dict.set
    by_cases q : e.1 = i
    · rw [if_pos q, if_pos (by rw [q])]; rfl
    · rw [if_neg q, if_neg (fun h => q (uuidStr_inj (hm e (by simp)) hi h)), this]; rfl

theorem set_short {m : Dict Uid Addr} (hm : ∀ e ∈ m, Short e.1) {i : Uid} (hi : Short i) (a : Addr) : ∀ e ∈ m.set i a, Short e.1 := by
  induction m with
  | nil =>
    intro e he
    simp only [Dict.set, List.mem_singleton] at he
    rw [he]; exact hi
  | cons x m ih =>
    obtain ⟨k, b⟩ := x
    intro e he
    unfold Dict.set at he
    split_ifs at he with q
    · rcases List.mem_cons.1 he with rfl | he
      · exact hm (k, b) (by simp)
      · exact hm e (by simp [he])
    · rcases List.mem_cons.1 he with rfl | he
      · exact hm (k, b) (by simp)
      · exact ih (fun x hx => hm x (by simp [hx])) e he

theorem textNodes_eq : ∀ (data : List (NodeData ℚ)) (h : Heap ℚ) (m : Dict Uid Addr), (∀ d ∈ data, Writable d) → (∀ e ∈ m, Short e.1) →
    textNodes h (textMap m) (data.map asText) = (unwrapNodes h m data).map (fun x => (x.1, textMap x.2)) ∧
      ∀ x, unwrapNodes h m data = .ok x → ∀ e ∈ x.2, Short e.1 := by
  intro data
  induction data with
  | nil =>
    intro h m _ hm
    refine ⟨rfl, ?_⟩
    intro x hx
    simp only [unwrapNodes, Except.ok.injEq] at hx
    subst hx
    exact hm
  | cons d ds ih =>
    intro h m hd hm
    have hi := (hd d (by simp)).id
    rw [List.map_cons, textNodes, unwrapNodes]
    have e : (asText d).id = uuidStr d.id := rfl
    have e1 : (asText d).value = d.value := rfl
    have e2 : (asText d).level = d.level := rfl
    rw [e, e1, e2, readUuid_uuidStr hi]
    simp only [bind, Except.bind]
    cases hq : newNode h d.value [] (some d.id) d.level with
    | error x => exact ⟨rfl, by simp⟩
    | ok x =>
      simp only
      rw [textMap_set hm hi]
      exact ih x.1 _ (fun d' hd' => hd d' (by simp [hd'])) (set_short hm hi _)

theorem findTexts_eq {m : Dict Uid Addr} (hm : ∀ e ∈ m, Short e.1) : ∀ l : List Uid, (∀ i ∈ l, Short i) →
    findTexts (textMap m) (l.map uuidStr) = findNodes m l := by
  intro l
  induction l with
  | nil => intro _; rfl
  | cons i l ih =>
    intro h
    rw [List.map_cons, findTexts, findNodes, textMap_get hm (h i (by simp)), ih fun j hj => h j (by simp [hj])]
    cases m.get? i <;> rfl

theorem textLinks_eq {m : Dict Uid Addr} (hm : ∀ e ∈ m, Short e.1) : ∀ (data : List (NodeData ℚ)) (h : Heap ℚ), (∀ d ∈ data, Writable d) →
    textLinks (textMap m) h (data.map asText) = unwrapLinks m h data := by
  intro data
  induction data with
  | nil => intro h _; rfl
  | cons d ds ih =>
    intro h hd
    have hf := hd d (by simp)
    rw [List.map_cons, textLinks, unwrapLinks]
    have e : (asText d).id = uuidStr d.id := rfl
    have e1 : (asText d).parents = d.parents.map uuidStr := rfl
    have e2 : (asText d).children = d.children.map uuidStr := rfl
    have e3 : (asText d).expands = d.expands := rfl
    rw [e, e1, e2, e3, textMap_get hm hf.id, findTexts_eq hm _ hf.parents, findTexts_eq hm _ hf.children]
    cases m.get? d.id with
    | none => rfl
    | some a =>
      simp only [bind, Except.bind]
      cases findNodes m d.parents with
      | error x => rfl
      | ok ps =>
        simp only
        cases findNodes m d.children with
        | error x => rfl
        | ok cs =>
          simp only
          exact ih _ fun d' hd' => hd d' (by simp [hd'])

/-- Reading the text is reading the tuples. -/
theorem unwrapText_eq (h : Heap ℚ) (data : List (NodeData ℚ)) (hd : ∀ d ∈ data, Writable d) : unwrapText h (dataText data) = unwrap h data := by
  have hp : PlainAll (data.map dataVal) := by
    rw [plainAll_iff]
    intro v hv
    obtain ⟨d, hm, rfl⟩ := List.mem_map.1 hv
    exact dataVal_plain (hd d hm)
  unfold unwrapText unwrap
  rw [literalEval_text data hp]
  simp only [bind, Except.bind]
  rw [mapM_ok tupleOf dataVal asText data fun d hm => tupleOf_dataVal (hd d hm)]
  simp only
  obtain ⟨h1, h2⟩ := textNodes_eq data h [] hd (by simp)
  rw [show ([] : Dict Str Addr) = textMap [] from rfl, h1]
  cases hq : unwrapNodes h [] data with
  | error x => rfl
  | ok x =>
    simp only [Except.map]
    rw [textLinks_eq (h2 x hq) data x.1 hd]
    cases unwrapLinks x.2 x.1 data with
    | error y => rfl
    | ok h' =>
      simp only [pure, Except.pure, textMap, List.map_map]
      rfl

end Satis.Graph
