import Verif.Side.EmitFacts
import Mathlib.Data.List.Sublists
import Mathlib.Data.List.Dedup
import Mathlib.Data.Finset.Card
import Mathlib.Data.List.Perm.Subperm

/-! The loop of `combinations` in `tests/combinations.c`. -/

namespace Satis.Comb

/-- Some iterations of the loop. -/
inductive Steps (values : List ℤ) (n r : ℕ) : St → St → Prop
  | refl (s) : Steps values n r s s
  | step {f rest o s s'} : visit values n r f rest o = .ok s → Steps values n r s s' →
      Steps values n r ⟨f :: rest, o⟩ s'

theorem Steps.trans {values : List ℤ} {n r : ℕ} {a b c : St} (h : Steps values n r a b) (h' : Steps values n r b c) :
    Steps values n r a c := by
  induction h with
  | refl => exact h'
  | step e _ ih => exact .step e (ih h')

theorem Steps.loop_from {values : List ℤ} {n r : ℕ} {s s' : St} (h : Steps values n r s s') :
    ∃ k, ∀ fuel, loop values n r (fuel + k) s = loop values n r fuel s' := by
  induction h with
  | refl => exact ⟨0, fun _ => rfl⟩
  | @step f rest o s s' e _ ih =>
    obtain ⟨k, hk⟩ := ih
    refine ⟨k + 1, fun fuel => ?_⟩
    rw [← Nat.add_assoc, loop, e]
    exact hk fuel

theorem Steps.loop_eq {values : List ℤ} {n r : ℕ} {s : St} {o : Out} (h : Steps values n r s ⟨[], o⟩) :
    ∃ k, ∀ fuel, k ≤ fuel → loop values n r fuel s = .ok (some o) := by
  obtain ⟨k, hk⟩ := h.loop_from
  refine ⟨k, fun fuel hf => ?_⟩
  obtain ⟨d, rfl⟩ := Nat.exists_eq_add_of_le' hf
  rw [hk]
  cases d <;> rfl

/-- The frame pushed for index `i`. -/
def child (values : List ℤ) (index : ℕ) (cur : List ℤ) (i : ℕ) : Frame :=
  ⟨i + 1, index + 1, cur.set index (values.getD i 0)⟩

theorem pushAll_ok {values : List ℤ} {start index : ℕ} :
    ∀ (is : List ℕ) (cur : List ℤ) (stack : List Frame), (∀ i ∈ is, i < values.length) → index < cur.length →
      stack.length + is.length ≤ maxN →
      pushAll values start index is cur stack = .ok ((is.map (child values index cur)).reverse ++ stack) := by
  intro is
  induction is with
  | nil => intro cur stack _ _ _; rfl
  | cons i is ih =>
    intro cur stack h hidx hlen
    unfold pushAll
    rw [rd_ok (h i (List.mem_cons_self ..))]
    dsimp only [bind, Except.bind]
    rw [wr_ok hidx]
    dsimp only
    rw [List.length_cons] at hlen
    have hp : push stack ⟨i + 1, index + 1, cur.set index (values.getD i 0)⟩
        = .ok (⟨i + 1, index + 1, cur.set index (values.getD i 0)⟩ :: stack) := if_pos (by omega)
    rw [hp]
    dsimp only
    rw [ih _ _ (fun x hx => h x (List.mem_cons_of_mem _ hx)) (by simpa using hidx)
      (by rw [List.length_cons]; omega)]
    rw [List.map_cons, List.reverse_cons, List.append_assoc]
    have : is.map (child values index (cur.set index (values.getD i 0))) = is.map (child values index cur) := by
      apply List.map_congr_left
      intro x _
      simp [child]
    rw [this]
    rfl

/-- The rows found so far are different, sorted, and ways to take `r` of the values. -/
structure Good (values : List ℤ) (r : ℕ) (rows : List (List ℤ)) : Prop where
  nodup : rows.Nodup
  sorted : ∀ row ∈ rows, row.Pairwise (· ≤ ·)
  len : ∀ row ∈ rows, row.length = r
  sub : ∀ row ∈ rows, row.Subperm values

/-- There are at most `n choose r` of them. -/
theorem Good.length_le {values : List ℤ} {r : ℕ} {rows : List (List ℤ)} (h : Good values r rows) :
    rows.length ≤ values.length.choose r := by
  have hsub : rows.toFinset ⊆ ((values.sublistsLen r).map (fun l => l.insertionSort (· ≤ ·))).toFinset := by
    intro row hrow
    rw [List.mem_toFinset] at hrow ⊢
    obtain ⟨l, hl, hlv⟩ := h.sub row hrow
    rw [List.mem_map]
    refine ⟨l, List.mem_sublistsLen.mpr ⟨hlv, by rw [hl.length_eq, h.len row hrow]⟩, ?_⟩
    exact ((List.perm_insertionSort (· ≤ ·) l).trans hl).eq_of_pairwise' (List.pairwise_insertionSort (· ≤ ·) l)
      (h.sorted row hrow)
  have := Finset.card_le_card hsub
  rw [List.toFinset_card_of_nodup h.nodup] at this
  refine this.trans ((List.toFinset_card_le _).trans ?_)
  rw [List.length_map, List.length_sublistsLen]

theorem Good.add {values : List ℤ} {r : ℕ} {rows : List (List ℤ)} (h : Good values r rows) {row : List ℤ}
    (hn : row ∉ rows) (hs : row.Pairwise (· ≤ ·)) (hl : row.length = r) (hv : row.Subperm values) :
    Good values r (rows ++ [row]) := by
  have mem : ∀ {p : List ℤ → Prop}, (∀ x ∈ rows, p x) → p row → ∀ x ∈ rows ++ [row], p x := by
    intro p h1 h2 x hx
    rcases List.mem_append.mp hx with hx | hx
    · exact h1 x hx
    · rw [List.mem_singleton.mp hx]; exact h2
  refine ⟨?_, mem h.sorted hs, mem h.len hl, mem h.sub hv⟩
  rw [List.nodup_append]
  refine ⟨h.nodup, by simp, ?_⟩
  intro a ha b hb
  rw [List.mem_singleton.mp hb]
  exact fun e => hn (e ▸ ha)

/-- The numbers that the caller has to provide for. -/
structure Room (values : List ℤ) (r : ℕ) (all₀ sums₀ : List ℤ) : Prop where
  all : values.length.choose r * r ≤ all₀.length
  sums : values.length.choose r ≤ sums₀.length
  index : ((values.length.choose r * r : ℕ) : ℤ) ≤ intMax
  sum : ∀ l : List ℤ, l.Subperm values → l.length ≤ r → intMin ≤ l.sum ∧ l.sum ≤ intMax

theorem take_set {l : List ℤ} {i : ℕ} (h : i < l.length) (v : ℤ) : (l.set i v).take (i + 1) = l.take i ++ [v] := by
  apply List.ext_getElem?
  intro k
  rw [List.getElem?_take]
  by_cases hk : k < i
  · rw [if_pos (by omega), List.getElem?_append_left (by rw [List.length_take]; omega), List.getElem?_take, if_pos hk,
      List.getElem?_set, if_neg (by omega)]
  · rw [List.getElem?_append_right (by rw [List.length_take]; omega), List.length_take,
      List.getElem?_set]
    by_cases hk' : k = i
    · subst hk'
      rw [if_pos (by omega), if_pos rfl, if_pos h]
      have : k - min k l.length = 0 := by omega
      rw [this]
      rfl
    · rw [if_neg (by omega)]
      symm
      rw [List.getElem?_eq_none]
      simp
      omega

/-- What is left to do for a frame has been done, the frames below are untouched. -/
structure Handled (values : List ℤ) (n r : ℕ) (all₀ sums₀ : List ℤ) (stack rest : List Frame) (o : Out)
    (rows : List (List ℤ)) (want : List ℤ → Prop) (o' : Out) (rows' : List (List ℤ)) : Prop where
  steps : Steps values n r ⟨stack, o⟩ ⟨rest, o'⟩
  holds : Holds all₀ sums₀ r o' rows'
  good : Good values r rows'
  keeps : rows ⊆ rows'
  found : ∀ l, want l → ∃ row ∈ rows', row.Perm l

theorem handle {values : List ℤ} {r : ℕ} {all₀ sums₀ : List ℤ} (room : Room values r all₀ sums₀) (hr : r ≤ maxR) :
    ∀ (k index start : ℕ) (cur : List ℤ) (rest : List Frame) (o : Out) (rows : List (List ℤ)),
      index + k = r → cur.length = maxR → rest.length + (values.length - start) ≤ maxN →
      (∀ t, t.Sublist (values.drop start) → (cur.take index ++ t).Sublist values) →
      Holds all₀ sums₀ r o rows → Good values r rows →
      ∃ o' rows', Handled values values.length r all₀ sums₀ (⟨start, index, cur⟩ :: rest) rest o rows
        (fun l => ∃ t, t.Sublist (values.drop start) ∧ t.length = k ∧ l = cur.take index ++ t) o' rows' := by
  intro k
  induction k with
  | zero =>
    intro index start cur rest o rows hi hc _ hsub ho hg
    have hi : index = r := by omega
    subst hi
    have hcl : index ≤ cur.length := by omega
    have hv : ∀ row : List ℤ, row.Perm (cur.take index) → row.Subperm values := by
      intro row hp
      refine hp.subperm.trans ?_
      have := hsub [] (List.nil_sublist _)
      rw [List.append_nil] at this
      exact this.subperm
    have hl : ∀ row : List ℤ, row.Perm (cur.take index) → row.length = index := by
      intro row hp
      rw [hp.length_eq, List.length_take]
      omega
    obtain ⟨o', cur', row, e, _, _, hp, hs, ho'⟩ := emit_ok ho hcl (by
      intro row hp hs hn
      have hg' := hg.add hn hs (hl row hp) (hv row hp)
      have hle := hg'.length_le
      rw [List.length_append, List.length_singleton] at hle
      have hmul := Nat.mul_le_mul_right index hle
      refine ⟨hmul.trans room.all, hle.trans room.sums, le_trans ?_ room.index, ?_⟩
      · exact_mod_cast hmul
      · intro i hi
        refine room.sum _ ((List.take_sublist i row).subperm.trans (hv row hp)) ?_
        rw [List.length_take]
        omega)
    refine ⟨o', _, ⟨?_, ho', ?_, ?_, ?_⟩⟩
    · refine Steps.step (s := ⟨rest, o'⟩) ?_ (Steps.refl _)
      unfold visit
      rw [if_pos rfl]
      dsimp only
      rw [e]
      rfl
    · split_ifs with hm
      · exact hg
      · exact hg.add hm hs (hl row hp) (hv row hp)
    · split_ifs
      · exact fun x hx => hx
      · exact fun x hx => List.mem_append_left _ hx
    · rintro l ⟨t, _, ht, rfl⟩
      rw [List.length_eq_zero_iff.mp ht, List.append_nil]
      refine ⟨row, ?_, hp⟩
      split_ifs with hm
      · exact hm
      · exact List.mem_append_right _ (List.mem_singleton.mpr rfl)
  | succ k ih =>
    intro index start cur rest o rows hi hc hrest hsub ho hg
    have hidx : index < cur.length := by omega
    -- the frames pushed, from the last to the first
    have kids : ∀ (m : ℕ), start + m ≤ values.length → ∀ (o : Out) (rows : List (List ℤ)),
        Holds all₀ sums₀ r o rows → Good values r rows →
        ∃ o' rows', Handled values values.length r all₀ sums₀
          (((List.range' start m).map (child values index cur)).reverse ++ rest) rest o rows
          (fun l => ∃ i, start ≤ i ∧ i < start + m ∧ ∃ t, t.Sublist (values.drop (i + 1)) ∧ t.length = k ∧
            l = cur.take index ++ values.getD i 0 :: t) o' rows' := by
      intro m
      induction m with
      | zero =>
        intro _ o rows ho hg
        exact ⟨o, rows, ⟨Steps.refl _, ho, hg, fun x hx => hx, fun l ⟨i, h1, h2, _⟩ => by omega⟩⟩
      | succ m ihm =>
        intro hm o rows ho hg
        rw [List.range'_1_concat, List.map_append, List.reverse_append, List.map_singleton, List.reverse_singleton,
          List.singleton_append, List.cons_append]
        have htake : (cur.set index (values.getD (start + m) 0)).take (index + 1)
            = cur.take index ++ [values.getD (start + m) 0] := take_set hidx _
        have hv : values.getD (start + m) 0 = values[start + m]'(by omega) := List.getD_eq_getElem _ _ (by omega)
        obtain ⟨o1, rows1, h1⟩ := ih (index + 1) (start + m + 1) (cur.set index (values.getD (start + m) 0))
          (((List.range' start m).map (child values index cur)).reverse ++ rest) o rows (by omega)
          (by rw [List.length_set]; exact hc)
          (by rw [List.length_append, List.length_reverse, List.length_map, List.length_range']; omega)
          (by
            intro t ht
            rw [htake, List.append_assoc, List.singleton_append]
            apply hsub
            have : values.drop (start + m) = values[start + m]'(by omega) :: values.drop (start + m + 1) :=
              List.drop_eq_getElem_cons (by omega)
            have h2 : (values.getD (start + m) 0 :: t).Sublist (values.drop (start + m)) := by
              rw [this, hv]
              exact List.Sublist.cons_cons _ ht
            refine h2.trans ?_
            rw [Nat.add_comm, ← List.drop_drop]
            rw [List.drop_drop, Nat.add_comm, ← List.drop_drop]
            exact List.drop_sublist _ _)
          ho hg
        obtain ⟨o2, rows2, h2⟩ := ihm (by omega) o1 rows1 h1.holds h1.good
        refine ⟨o2, rows2, ⟨h1.steps.trans h2.steps, h2.holds, h2.good, fun x hx => h2.keeps (h1.keeps hx), ?_⟩⟩
        rintro l ⟨i, hi1, hi2, t, ht, htl, rfl⟩
        by_cases him : i < start + m
        · exact h2.found _ ⟨i, hi1, him, t, ht, htl, rfl⟩
        · have : i = start + m := by omega
          subst this
          obtain ⟨row, hrow, hp⟩ := h1.found (cur.take index ++ values.getD (start + m) 0 :: t)
            ⟨t, ht, htl, by rw [htake, List.append_assoc, List.singleton_append]⟩
          exact ⟨row, h2.keeps hrow, hp⟩
    by_cases hst : start ≤ values.length
    · obtain ⟨o', rows', h'⟩ := kids (values.length - start) (by omega) o rows ho hg
      refine ⟨o', rows', ⟨Steps.step ?_ h'.steps, h'.holds, h'.good, h'.keeps, ?_⟩⟩
      · unfold visit
        dsimp only
        rw [if_neg (by omega), pushAll_ok _ _ _ ?_ hidx (by rw [List.length_range']; exact hrest)]
        · rfl
        · intro i hi
          have := List.mem_range'_1.mp hi
          omega
      · rintro l ⟨t, ht, htl, rfl⟩
        cases t with
        | nil => simp at htl
        | cons a t =>
          obtain ⟨l1, l2, hl, ha, hs⟩ := List.cons_sublist_iff.mp ht
          obtain ⟨j, hj, rfl⟩ := List.mem_iff_getElem.mp ha
          have hdrop : (values.drop start).drop (j + 1) = l1.drop (j + 1) ++ l2 := by
            rw [hl, List.drop_append_of_le_length (by omega)]
          have hlen : l1.length + l2.length = values.length - start := by
            have := congrArg List.length hl
            rw [List.length_drop, List.length_append] at this
            omega
          have hval : values.getD (start + j) 0 = l1[j] := by
            rw [List.getD_eq_getElem _ _ (by omega), ← List.getElem_drop (h := by rw [List.length_drop]; omega)]
            simp only [hl]
            rw [List.getElem_append_left hj]
          refine h'.found _ ⟨start + j, by omega, by omega, t, ?_, by simpa using htl, by rw [hval]⟩
          rw [Nat.add_assoc, ← List.drop_drop, hdrop]
          exact hs.trans (List.sublist_append_right _ _)
    · refine ⟨o, rows, ⟨Steps.step (s := ⟨rest, o⟩) ?_ (Steps.refl _), ho, hg, fun x hx => hx, ?_⟩⟩
      · unfold visit
        dsimp only
        rw [if_neg (by omega), Nat.sub_eq_zero_of_le (by omega)]
        rfl
      · rintro l ⟨t, ht, htl, rfl⟩
        rw [List.drop_eq_nil_of_le (by omega)] at ht
        rw [List.eq_nil_of_sublist_nil ht] at htl
        simp at htl

end Satis.Comb
