import Verif.Graph.DataTextLemmas
/-!
# Texts that are cut off or go on

A literal that is followed by something is read the same whatever else follows.
-/

namespace Satis.Graph
open Satis Satis.Utils

theorem dropWhile_append_ne {p : Char → Bool} {s : Str} (h : s.dropWhile p ≠ []) (x : Str) :
    (s ++ x).dropWhile p = s.dropWhile p ++ x ∧ (s ++ x).takeWhile p = s.takeWhile p := by
  induction s with
  | nil => exact absurd rfl h
  | cons c s ih =>
    rw [List.cons_append, List.dropWhile_cons, List.dropWhile_cons, List.takeWhile_cons, List.takeWhile_cons]
    rw [List.dropWhile_cons] at h
    by_cases hc : p c = true
    · rw [if_pos hc] at h
      simp only [hc, if_true]
      exact ⟨(ih h).1, by rw [(ih h).2]⟩
    · simp [hc]

theorem skip_append {s : Str} (h : skip s ≠ []) (x : Str) : skip (s ++ x) = skip s ++ x := (dropWhile_append_ne h x).1

theorem readNat_append {s : Str} {n : Nat} {r : Str} (h : readNat s = some (n, r)) (hr : r ≠ []) (x : Str) : readNat (s ++ x) = some (n, r ++ x) := by
  unfold readNat at h ⊢
  simp only at h ⊢
  split_ifs at h with h1
  simp only [Option.some.injEq, Prod.mk.injEq] at h
  obtain ⟨h2, h3⟩ := h
  have := dropWhile_append_ne (p := isDigit) (s := s) (by rw [h3]; exact hr) x
  rw [this.1, this.2, if_neg h1, h2, h3]

theorem readStr_append : ∀ (s t r x : Str), readStr s = some (t, r) → readStr (s ++ x) = some (t, r ++ x) := by
  intro s
  induction s with
  | nil => intro t r x h; cases h
  | cons c s ih =>
    intro t r x h
    rw [readStr] at h
    rw [List.cons_append, readStr]
    split_ifs at h ⊢ with h1 h2
    · cases h; rfl
    · cases hs : readStr s with
      | none => rw [hs] at h; cases h
      | some y =>
        rw [hs] at h
        cases h
        rw [ih y.1 y.2 x hs]
        rfl

/-- What is read does not depend on what follows `r`. -/
def Firm (s r : Str) : Prop := r ≠ [] ∨ ∃ c ∈ s.head?, c = '[' ∨ c = '('

theorem read_append : ∀ n : Nat,
    (∀ s v r, readVal n s = some (v, r) → Firm s r → ∀ x m, n ≤ m → readVal m (s ++ x) = some (v, r ++ x)) ∧
    (∀ close s l b r, readItems n close s = some (l, b, r) → ∀ x m, n ≤ m → readItems m close (s ++ x) = some (l, b, r ++ x)) := by
  intro n
  induction n with
  | zero => exact ⟨fun s v r h => by simp [readVal] at h, fun c s l b r h => by simp [readItems] at h⟩
  | succ n ih =>
    obtain ⟨ih1, ih2⟩ := ih
    constructor
    · intro s v r h hf x m hm
      obtain ⟨m, rfl⟩ : ∃ k, m = k + 1 := ⟨m - 1, by omega⟩
      have hm' : n ≤ m := by omega
      cases s with
      | nil => simp [readVal] at h
      | cons c s =>
        rw [readVal] at h
        rw [List.cons_append, readVal]
        split_ifs at h ⊢ with h1 h2 h3 h4 h5 h6 h7
        · cases e : readItems n ']' s with
          | none => rw [e] at h; cases h
          | some y =>
            rw [e] at h
            rw [ih2 _ _ y.1 y.2.1 y.2.2 e x m hm']
            cases h
            rfl
        · cases e : readItems n ')' s with
          | none => rw [e] at h; cases h
          | some y =>
            rw [e] at h
            obtain ⟨l, b, r'⟩ := y
            rw [ih2 _ _ l b r' e x m hm']
            rcases l with _ | ⟨u, _ | ⟨u', l⟩⟩ <;> cases b <;> cases h <;> rfl
        · cases e : readStr s with
          | none => rw [e] at h; cases h
          | some y =>
            rw [e] at h
            rw [readStr_append _ y.1 y.2 x e]
            cases h
            rfl
        · have hr : r ≠ [] := by
            rcases hf with hf | ⟨d, hd, hc⟩
            · exact hf
            · cases hd; rcases hc with hc | hc
              · exact absurd hc h1
              · exact absurd hc h2
          cases e : readNat (skip s) with
          | none => rw [e] at h; cases h
          | some y =>
            rw [e] at h
            cases h
            have : skip s ≠ [] := by
              intro e'
              rw [e'] at e
              simp [readNat] at e
            rw [skip_append this, readNat_append e hr x]
            rfl
        · have hq : s.take 3 = ['o', 'n', 'e'] := by assumption
          cases h
          have hl : 3 ≤ s.length := by
            have := congrArg List.length hq
            simp at this
            omega
          rw [List.drop_append_of_le_length hl]
        · have hq : s.take 3 = ['o', 'n', 'e'] := by assumption
          have hn : ¬ (s ++ x).take 3 = ['o', 'n', 'e'] := by assumption
          have hl : 3 ≤ s.length := by
            have := congrArg List.length hq
            simp at this
            omega
          rw [List.take_append_of_le_length hl] at hn
          exact absurd hq hn
        · have hr : r ≠ [] := by
            rcases hf with hf | ⟨d, hd, hc⟩
            · exact hf
            · cases hd; rcases hc with hc | hc
              · exact absurd hc h1
              · exact absurd hc h2
          cases e : readNat (c :: s) with
          | none => rw [e] at h; cases h
          | some y =>
            rw [e] at h
            cases h
            have := readNat_append e hr x
            rw [List.cons_append] at this
            rw [this]
            rfl
    · intro close s l b r h x m hm
      obtain ⟨m, rfl⟩ : ∃ k, m = k + 1 := ⟨m - 1, by omega⟩
      have hm' : n ≤ m := by omega
      rw [readItems] at h
      rw [readItems]
      cases e : skip s with
      | nil => rw [e] at h; cases h
      | cons c s' =>
        rw [e] at h
        rw [skip_append (by rw [e]; simp), e, List.cons_append]
        simp only at h ⊢
        split_ifs at h ⊢ with h1
        · cases h; rfl
        · cases e1 : readVal n (c :: s') with
          | none => rw [e1] at h; cases h
          | some y =>
            obtain ⟨v, r1⟩ := y
            rw [e1] at h
            simp only at h
            cases e2 : skip r1 with
            | nil => rw [e2] at h; cases h
            | cons d r2 =>
              have hne : r1 ≠ [] := by intro q; rw [q] at e2; cases e2
              have e3 := ih1 _ _ _ e1 (.inl hne) x m hm'
              rw [List.cons_append] at e3
              rw [e3]
              simp only
              rw [skip_append (by rw [e2]; simp), e2, List.cons_append]
              rw [e2] at h
              simp only at h ⊢
              split_ifs at h ⊢ with h2 h3
              · cases h; rfl
              · cases e4 : readItems n close r2 with
                | none => rw [e4] at h; cases h
                | some z =>
                  rw [e4] at h
                  rw [ih2 _ _ z.1 z.2.1 z.2.2 e4 x m hm']
                  cases h
                  rfl

theorem readVal_text (data : List (NodeData ℚ)) (h : PlainAll (data.map dataVal)) :
    readVal ((dataText data).length + 1) (dataText data) = some (.list (data.map dataVal), []) := by
  have hlen : (dataText data).length = (dataLines (data.map dataVal)).length + 4 := by simp [dataText]
  rw [hlen]
  have hn := needAll_lines _ h
  obtain ⟨b, hb⟩ := readItems_lines _ h (readsAll _ h) ((dataLines (data.map dataVal)).length + 4) (by omega)
  have e : dataText data = '[' :: '\n' :: (dataLines (data.map dataVal) ++ ['\n', ']']) := by simp [dataText]
  rw [e, readVal]
  simp only [if_true]
  rw [hb]
  rfl

theorem literalEval_cut (data : List (NodeData ℚ)) (h : PlainAll (data.map dataVal)) (p x : Str) (e : dataText data = p ++ x) (hx : x ≠ []) :
    literalEval p = .error .valueError := by
  cases p with
  | nil => rfl
  | cons c p =>
    have hc : c = '[' := by
      have := congrArg List.head? e
      simp [dataText] at this
      exact this.symm
    subst hc
    have hd : ('[' :: p).dropWhile (fun c => c == ' ' || c == '\t') = '[' :: p := by simp
    unfold literalEval
    rw [hd]
    cases hr : readVal (('[' :: p).length + 1) ('[' :: p) with
    | none => rfl
    | some y =>
      obtain ⟨v, r⟩ := y
      exfalso
      have h1 := (read_append _).1 _ _ _ hr (.inr ⟨'[', rfl, .inl rfl⟩) x ((dataText data).length + 1) (by rw [e]; simp)
      rw [← e, readVal_text data h] at h1
      simp only [Option.some.injEq, Prod.mk.injEq] at h1
      exact hx (List.append_eq_nil_iff.1 h1.2.symm).2

theorem literalEval_append (data : List (NodeData ℚ)) (h : PlainAll (data.map dataVal)) (x : Str) :
    literalEval (dataText data ++ x) = if skip x = [] then .ok (.list (data.map dataVal)) else .error .valueError := by
  have e : dataText data = '[' :: '\n' :: (dataLines (data.map dataVal) ++ ['\n', ']']) := by simp [dataText]
  have hd : (dataText data ++ x).dropWhile (fun c => c == ' ' || c == '\t') = dataText data ++ x := by rw [e]; simp
  have h1 := (read_append _).1 _ _ _ (readVal_text data h) (.inr ⟨'[', by rw [e]; rfl, .inl rfl⟩) x ((dataText data ++ x).length + 1) (by simp)
  unfold literalEval
  rw [hd, h1]
  rfl

end Satis.Graph
