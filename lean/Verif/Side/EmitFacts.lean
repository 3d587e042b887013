import Verif.Side.SortFacts

/-! What `tests/combinations.c` stores for a complete combination. -/

namespace Satis.Comb

/-- The buffers hold these rows, one after the other, and their sums; the rest of the buffers is as it was. -/
structure Holds (all₀ sums₀ : List ℤ) (r : ℕ) (o : Out) (rows : List (List ℤ)) : Prop where
  count : o.count = rows.length
  rows_len : ∀ row ∈ rows, row.length = r
  all : o.all = rows.flatten ++ all₀.drop (rows.length * r)
  sums : o.sums = rows.map List.sum ++ sums₀.drop rows.length
  fits : rows.length * r ≤ all₀.length
  fits' : rows.length ≤ sums₀.length

theorem flatten_len {r : ℕ} : ∀ {rows : List (List ℤ)}, (∀ row ∈ rows, row.length = r) →
    rows.flatten.length = rows.length * r := by
  intro rows
  induction rows with
  | nil => intro _; simp
  | cons row rows ih =>
    intro h
    rw [List.flatten_cons, List.length_append, ih (fun x hx => h x (List.mem_cons_of_mem _ hx)),
      h row (List.mem_cons_self ..), List.length_cons, Nat.succ_mul]
    omega

theorem flatten_getD {r : ℕ} {tail : List ℤ} : ∀ {rows : List (List ℤ)} (i j : ℕ) (hi : i < rows.length),
    (∀ row ∈ rows, row.length = r) → j < r →
    (rows.flatten ++ tail).getD (i * r + j) 0 = rows[i].getD j 0 := by
  intro rows
  induction rows with
  | nil => intro i j hi; exact absurd hi (Nat.not_lt_zero i)
  | cons row rows ih =>
    intro i j hi h hj
    have hrow := h row (List.mem_cons_self ..)
    rw [List.flatten_cons, List.append_assoc]
    cases i with
    | zero =>
      rw [Nat.zero_mul, Nat.zero_add, List.getD_append _ _ _ _ (by omega)]
      rfl
    | succ i =>
      rw [List.getD_append_right _ _ _ _ (by rw [hrow, Nat.succ_mul]; omega)]
      have e : (i + 1) * r + j - row.length = i * r + j := by rw [hrow, Nat.succ_mul]; omega
      rw [e, ih i j (by simpa using hi) (fun x hx => h x (List.mem_cons_of_mem _ hx)) hj]
      rfl

theorem sameRow_ok {all cur : List ℤ} {r i : ℕ} (hall : (i + 1) * r ≤ all.length) (hcur : r ≤ cur.length) :
    ∀ js : List ℕ, (∀ j ∈ js, j < r) →
      sameRow all r cur i js = .ok (decide (∀ j ∈ js, all.getD (i * r + j) 0 = cur.getD j 0)) := by
  intro js
  induction js with
  | nil => intro _; simp [sameRow, pure, Except.pure]
  | cons j js ih =>
    intro h
    have hj := h j (List.mem_cons_self ..)
    have e : i * r + j < all.length := by rw [Nat.succ_mul] at hall; omega
    unfold sameRow
    rw [rd_ok e]
    dsimp only [bind, Except.bind]
    rw [rd_ok (by omega)]
    dsimp only
    rw [ih (fun x hx => h x (List.mem_cons_of_mem _ hx))]
    by_cases hne : all.getD (i * r + j) 0 = cur.getD j 0
    · rw [if_neg (not_not.mpr hne)]
      refine congrArg _ (decide_eq_decide.mpr ?_)
      rw [List.forall_mem_cons]
      exact (and_iff_right hne).symm
    · rw [if_pos hne]
      refine congrArg _ (decide_eq_false ?_).symm
      rw [List.forall_mem_cons]
      exact fun h => hne h.1

theorem row_eq {row cur : List ℤ} {r : ℕ} (hrow : row.length = r) (hcur : r ≤ cur.length) :
    (∀ j ∈ List.range r, row.getD j 0 = cur.getD j 0) ↔ cur.take r = row := by
  constructor
  · intro h
    apply List.ext_getElem
    · rw [List.length_take]; omega
    · intro k h1 h2
      have := h k (List.mem_range.mpr (by omega))
      rw [List.getD_eq_getElem _ _ h2, List.getD_eq_getElem _ _ (by omega)] at this
      rw [List.getElem_take, this]
  · intro h j hj
    have hj := List.mem_range.mp hj
    subst h
    rw [List.getD_eq_getElem _ _ (by rw [List.length_take]; omega), List.getD_eq_getElem _ _ (by omega),
      List.getElem_take]

theorem duplicateIn_ok {r : ℕ} {cur tail : List ℤ} {rows : List (List ℤ)} (hrows : ∀ row ∈ rows, row.length = r)
    (hcur : r ≤ cur.length) : ∀ is : List ℕ, (∀ i ∈ is, i < rows.length) →
      duplicateIn (rows.flatten ++ tail) r cur is = .ok (decide (∃ i ∈ is, rows[i]? = some (cur.take r))) := by
  intro is
  induction is with
  | nil => intro _; simp [duplicateIn, pure, Except.pure]
  | cons i is ih =>
    intro h
    have hi := h i (List.mem_cons_self ..)
    have hlen : (i + 1) * r ≤ (rows.flatten ++ tail).length := by
      rw [List.length_append, flatten_len hrows]
      have := Nat.mul_le_mul_right r (show i + 1 ≤ rows.length from hi)
      omega
    unfold duplicateIn
    rw [sameRow_ok hlen hcur _ (fun j hj => List.mem_range.mp hj)]
    dsimp only [bind, Except.bind]
    have key : (∀ j ∈ List.range r, (rows.flatten ++ tail).getD (i * r + j) 0 = cur.getD j 0)
        ↔ rows[i]? = some (cur.take r) := by
      rw [List.getElem?_eq_getElem hi, Option.some_inj, eq_comm,
        ← row_eq (hrows _ (List.getElem_mem hi)) hcur]
      constructor
      · intro h j hj
        rw [← h j hj, flatten_getD i j hi hrows (List.mem_range.mp hj)]
      · intro h j hj
        rw [← h j hj, flatten_getD i j hi hrows (List.mem_range.mp hj)]
    rw [ih (fun x hx => h x (List.mem_cons_of_mem _ hx))]
    by_cases hk : rows[i]? = some (cur.take r)
    · rw [decide_eq_true (key.mpr hk)]
      simp [hk, pure, Except.pure]
    · rw [decide_eq_false (fun h => hk (key.mp h))]
      simp [hk]

theorem isDuplicate_ok {r : ℕ} {cur tail : List ℤ} {rows : List (List ℤ)} (hrows : ∀ row ∈ rows, row.length = r)
    (hcur : r ≤ cur.length) :
    isDuplicate (rows.flatten ++ tail) rows.length r cur = .ok (decide (cur.take r ∈ rows)) := by
  unfold isDuplicate
  rw [duplicateIn_ok hrows hcur _ (fun i hi => List.mem_range.mp hi)]
  congr 2
  rw [eq_iff_iff, List.mem_iff_getElem?]
  constructor
  · rintro ⟨i, _, h⟩
    exact ⟨i, h⟩
  · rintro ⟨i, h⟩
    exact ⟨i, List.mem_range.mpr ((List.getElem?_eq_some_iff.mp h).1), h⟩

theorem set_at (A xs : List ℤ) (x v : ℤ) : (A ++ x :: xs).set A.length v = A ++ v :: xs := by
  induction A with
  | nil => rfl
  | cons a A ih => simp

theorem getD_at (A xs : List ℤ) (x : ℤ) : (A ++ x :: xs).getD A.length 0 = x := by
  induction A with
  | nil => rfl
  | cons a A ih => simp

/-- The loop that copies a combination and adds it up. -/
theorem store_ok {all₀ sums₀ row cur : List ℤ} {rows : List (List ℤ)} {r : ℕ} (hrow : row = cur.take r)
    (hcur : r ≤ cur.length) (hrows : ∀ row ∈ rows, row.length = r)
    (hall : (rows.length + 1) * r ≤ all₀.length) (hint : ((rows.length + 1) * r : ℤ) ≤ intMax)
    (hsum : ∀ i, i ≤ r → intMin ≤ (row.take i).sum ∧ (row.take i).sum ≤ intMax) :
    ∀ (k i : ℕ), i + k = r →
      (List.range' i k).foldlM (fun (p : List ℤ × List ℤ) i => do
        let tmp ← rd cur i
        let k ← checked (rows.length * r + i)
        let all ← wr p.1 k.toNat tmp
        let s ← rd p.2 rows.length
        let s ← checked (s + tmp)
        let sums ← wr p.2 rows.length s
        pure (all, sums))
        (rows.flatten ++ (row.take i ++ all₀.drop (rows.length * r + i)),
          rows.map List.sum ++ ((row.take i).sum :: sums₀.drop (rows.length + 1)))
      = (.ok (rows.flatten ++ (row ++ all₀.drop ((rows.length + 1) * r)),
          rows.map List.sum ++ (row.sum :: sums₀.drop (rows.length + 1))) : CM _) := by
  have hrl : row.length = r := by rw [hrow, List.length_take]; omega
  intro k
  induction k with
  | zero =>
    intro i hi
    have hi : i = r := by omega
    subst hi
    have e1 : row.take i = row := List.take_of_length_le (by omega)
    have e2 : (rows.length + 1) * i = rows.length * i + i := Nat.succ_mul ..
    rw [e1, e2]
    rfl
  | succ k ih =>
    intro i hi
    have hir : i < row.length := by omega
    have hic : i < cur.length := by omega
    have hic' : cur.getD i 0 = row[i] := by
      rw [List.getD_eq_getElem _ _ hic]
      simp only [hrow, List.getElem_take]
    have e2 : (rows.length + 1) * r = rows.length * r + r := Nat.succ_mul ..
    have hd : all₀.drop (rows.length * r + i)
        = all₀[rows.length * r + i]'(by omega) :: all₀.drop (rows.length * r + (i + 1)) := by
      rw [List.drop_eq_getElem_cons (by omega)]
      rfl
    have ht : row.take (i + 1) = row.take i ++ [row[i]] := List.take_succ_eq_append_getElem hir
    have hrng : intMin ≤ ((rows.length * r + i : ℕ) : ℤ) ∧ ((rows.length * r + i : ℕ) : ℤ) ≤ intMax := by
      constructor
      · exact le_trans (by decide) (Int.natCast_nonneg _)
      · refine le_trans ?_ hint
        have : rows.length * r + i ≤ (rows.length + 1) * r := by omega
        exact_mod_cast this
    rw [List.range'_succ, List.foldlM_cons, rd_ok hic, hic']
    dsimp only [bind, Except.bind]
    have cast : ((rows.length : ℤ) * (r : ℤ) + (i : ℤ)) = ((rows.length * r + i : ℕ) : ℤ) := by push_cast; rfl
    rw [cast, checked_ok hrng]
    dsimp only
    rw [Int.toNat_natCast, hd, ← List.append_assoc]
    have lA : (rows.flatten ++ row.take i).length = rows.length * r + i := by
      rw [List.length_append, flatten_len hrows, List.length_take]; omega
    rw [wr_ok (by rw [List.length_append, lA, List.length_cons]; omega)]
    dsimp only
    have lS : (rows.map List.sum).length = rows.length := List.length_map ..
    rw [rd_ok (by rw [List.length_append, lS, List.length_cons]; omega)]
    dsimp only
    have g : (rows.map List.sum ++ ((row.take i).sum :: sums₀.drop (rows.length + 1))).getD rows.length 0
        = (row.take i).sum := by
      have := getD_at (rows.map List.sum) (sums₀.drop (rows.length + 1)) ((row.take i).sum)
      rwa [lS] at this
    rw [g]
    have hs : (row.take i).sum + row[i] = (row.take (i + 1)).sum := by
      rw [ht, List.sum_append, List.sum_singleton]
    rw [hs, checked_ok (hsum (i + 1) (by omega))]
    dsimp only
    rw [wr_ok (by rw [List.length_append, lS, List.length_cons]; omega)]
    dsimp only [pure, Except.pure]
    have s1 := set_at (rows.flatten ++ row.take i) (all₀.drop (rows.length * r + (i + 1)))
      (all₀[rows.length * r + i]'(by omega)) row[i]
    rw [lA] at s1
    have s2 := set_at (rows.map List.sum) (sums₀.drop (rows.length + 1)) ((row.take i).sum) ((row.take (i + 1)).sum)
    rw [lS] at s2
    rw [s1, s2]
    have := ih (i + 1) (by omega)
    rw [ht, List.append_assoc, List.singleton_append] at this
    rw [ht, List.append_assoc]
    exact this

/-- A complete combination is sorted and, unless it is there already, stored behind the others. -/
theorem emit_ok {all₀ sums₀ cur : List ℤ} {o : Out} {rows : List (List ℤ)} {r : ℕ} (h : Holds all₀ sums₀ r o rows)
    (hcur : r ≤ cur.length)
    (room : ∀ row : List ℤ, row.Perm (cur.take r) → row.Pairwise (· ≤ ·) → row ∉ rows →
      (rows.length + 1) * r ≤ all₀.length ∧ rows.length + 1 ≤ sums₀.length ∧
      ((rows.length + 1) * r : ℤ) ≤ intMax ∧
      ∀ i, i ≤ r → intMin ≤ (row.take i).sum ∧ (row.take i).sum ≤ intMax) :
    ∃ o' cur' row, emit r o cur = .ok (o', cur') ∧ cur'.length = cur.length ∧ row = cur'.take r ∧
      row.Perm (cur.take r) ∧ row.Pairwise (· ≤ ·) ∧
      Holds all₀ sums₀ r o' (if row ∈ rows then rows else rows ++ [row]) := by
  obtain ⟨cur', e, hlen, hperm, hsorted⟩ := sortCombination_ok hcur
  have hcur' : r ≤ cur'.length := by omega
  have hrl : (cur'.take r).length = r := by rw [List.length_take]; omega
  unfold emit
  rw [e]
  dsimp only [bind, Except.bind]
  rw [h.all, h.count, isDuplicate_ok h.rows_len hcur']
  dsimp only
  by_cases hmem : cur'.take r ∈ rows
  · rw [decide_eq_true hmem, if_pos rfl]
    refine ⟨o, cur', _, rfl, hlen, rfl, hperm, hsorted, ?_⟩
    rw [if_pos hmem]
    exact h
  · rw [decide_eq_false hmem, if_neg (by decide)]
    obtain ⟨hall, hsums, hint, hsum⟩ := room _ hperm hsorted hmem
    have lS : (rows.map List.sum).length = rows.length := List.length_map ..
    have hd : sums₀.drop rows.length = sums₀[rows.length]'(by omega) :: sums₀.drop (rows.length + 1) :=
      List.drop_eq_getElem_cons (by omega)
    rw [h.sums, hd, wr_ok (by rw [List.length_append, lS, List.length_cons]; omega)]
    dsimp only
    have s0 := set_at (rows.map List.sum) (sums₀.drop (rows.length + 1)) (sums₀[rows.length]'(by omega)) 0
    rw [lS] at s0
    rw [s0, List.range_eq_range']
    have st := store_ok (sums₀ := sums₀) rfl hcur' h.rows_len hall hint hsum r 0 (by omega)
    rw [List.take_zero, List.nil_append, List.sum_nil, Nat.add_zero] at st
    refine ⟨⟨rows.flatten ++ (cur'.take r ++ all₀.drop ((rows.length + 1) * r)),
      rows.map List.sum ++ ((cur'.take r).sum :: sums₀.drop (rows.length + 1)), rows.length + 1⟩, cur', _, ?_, hlen, rfl,
      hperm, hsorted, ?_⟩
    · dsimp only [bind, Except.bind] at st
      rw [st]
      rfl
    · rw [if_neg hmem]
      refine ⟨by simp, ?_, ?_, ?_, ?_, ?_⟩
      · intro row hrow
        rcases List.mem_append.mp hrow with hr | hr
        · exact h.rows_len row hr
        · rw [List.mem_singleton.mp hr]; exact hrl
      · simp
      · simp
      · simpa using hall
      · simpa using hsums

end Satis.Comb
