import Verif.Side.CombFacts
import Mathlib.Data.Nat.Factorial.Basic

/-! `old_combinations` of `tests/combinations.c`: what does hold of it. -/

namespace Satis.Comb

/-- The rows stored by `old_combinations`: different sorted rows of `r` of the values, each as often as one likes. -/
structure Fair (values : List ℤ) (r : ℕ) (rows : List (List ℤ)) : Prop where
  nodup : rows.Nodup
  sorted : ∀ row ∈ rows, row.Pairwise (· ≤ ·)
  drawn : ∀ row ∈ rows, ∀ v ∈ row, v ∈ values

/-- The cells before `index` hold values of the list. -/
def Filled (values cur : List ℤ) (index : ℕ) : Prop := ∀ j, j < index → cur.getD j 0 ∈ values

theorem filled_take {values cur : List ℤ} {r : ℕ} (hr : r ≤ cur.length) :
    Filled values cur r ↔ ∀ v ∈ cur.take r, v ∈ values := by
  constructor
  · intro h v hv
    obtain ⟨j, hj, rfl⟩ := List.mem_iff_getElem.mp hv
    rw [List.length_take] at hj
    have := h j (by omega)
    rw [List.getD_eq_getElem _ _ (by omega)] at this
    rwa [List.getElem_take]
  · intro h j hj
    rw [List.getD_eq_getElem _ _ (by omega)]
    apply h
    rw [List.mem_iff_getElem]
    exact ⟨j, by rw [List.length_take]; omega, by rw [List.getElem_take]⟩

/-- Number of complete combinations that are tried. -/
def tries (n : ℕ) : ℕ → ℕ → ℕ
  | 0, _ => 1
  | k + 1, start => (n - start) * tries n k (start + 1)

theorem tries_eq (n : ℕ) : ∀ k start, tries n k start = (n - start).descFactorial k := by
  intro k
  induction k with
  | zero => intro start; rfl
  | succ k ih =>
    intro start
    rw [tries, ih]
    by_cases h : start < n
    · obtain ⟨m, hm⟩ : ∃ m, n - start = m + 1 := ⟨n - start - 1, by omega⟩
      rw [hm, Nat.succ_descFactorial_succ, show n - (start + 1) = m by omega]
    · rw [Nat.sub_eq_zero_of_le (by omega)]
      simp

/-- The result of a call: the shared array, the buffers. -/
structure Fills (values : List ℤ) (r index : ℕ) (all₀ sums₀ cur : List ℤ) (rows : List (List ℤ)) (t : ℕ)
    (cur' : List ℤ) (o' : Out) (rows' : List (List ℤ)) : Prop where
  len : cur'.length = cur.length
  filled : Filled values cur' index
  holds : Holds all₀ sums₀ r o' rows'
  fair : Fair values r rows'
  few : rows'.length ≤ rows.length + t

theorem generate {values : List ℤ} {r N : ℕ} {all₀ sums₀ : List ℤ} (hall : N * r ≤ all₀.length)
    (hsums : N ≤ sums₀.length) (hint : ((N * r : ℕ) : ℤ) ≤ intMax)
    (hsum : ∀ l : List ℤ, (∀ v ∈ l, v ∈ values) → l.length ≤ r → intMin ≤ l.sum ∧ l.sum ≤ intMax) :
    ∀ (k start index : ℕ) (cur : List ℤ) (o : Out) (rows : List (List ℤ)),
      index + k = r → cur.length = r → Filled values cur index → Holds all₀ sums₀ r o rows → Fair values r rows →
      rows.length + tries values.length k start ≤ N →
      ∃ cur' o' rows', oldGenerate values values.length r k start index cur o = .ok (cur', o') ∧
        Fills values r index all₀ sums₀ cur rows (tries values.length k start) cur' o' rows' := by
  intro k
  induction k with
  | zero =>
    intro start index cur o rows hi hc hf ho hg hN
    have hi : index = r := by omega
    subst hi
    have hN : rows.length + 1 ≤ N := hN
    have hdrawn : ∀ row : List ℤ, row.Perm (cur.take index) → ∀ v ∈ row, v ∈ values := fun row hp v hv =>
      (filled_take (by omega)).mp hf v (hp.mem_iff.mp hv)
    obtain ⟨o', cur', row, e, hl, hrow, hp, hs, ho'⟩ := emit_ok (cur := cur) ho (by omega) (by
      intro row hp hs hn
      have hmul := Nat.mul_le_mul_right index hN
      refine ⟨hmul.trans hall, hN.trans hsums, le_trans ?_ hint, ?_⟩
      · exact_mod_cast hmul
      · intro i hi
        refine hsum _ (fun v hv => hdrawn row hp v (List.mem_of_mem_take hv)) ?_
        rw [List.length_take]
        omega)
    refine ⟨cur', o', _, ?_, ⟨hl, ?_, ho', ?_, ?_⟩⟩
    · rw [oldGenerate, e]
      rfl
    · rw [filled_take (by omega), ← hrow]
      exact hdrawn row hp
    · split_ifs with hm
      · exact hg
      · refine ⟨?_, ?_, ?_⟩
        · rw [List.nodup_append]
          refine ⟨hg.nodup, by simp, ?_⟩
          intro a ha b hb
          rw [List.mem_singleton.mp hb]
          exact fun e => hm (e ▸ ha)
        · intro x hx
          rcases List.mem_append.mp hx with hx | hx
          · exact hg.sorted x hx
          · rw [List.mem_singleton.mp hx]; exact hs
        · intro x hx
          rcases List.mem_append.mp hx with hx | hx
          · exact hg.drawn x hx
          · rw [List.mem_singleton.mp hx]; exact hdrawn row hp
    · split_ifs
      · exact Nat.le_add_right _ _
      · simp [tries]
  | succ k ih =>
    intro start index cur o rows hi hc hf ho hg hN
    have turn : ∀ (is : List ℕ) (cur : List ℤ) (o : Out) (rows : List (List ℤ)), (∀ i ∈ is, i < values.length) →
        cur.length = r → Filled values cur index → Holds all₀ sums₀ r o rows → Fair values r rows →
        rows.length + is.length * tries values.length k (start + 1) ≤ N →
        ∃ cur' o' rows', oldLoop values index (oldGenerate values values.length r k (start + 1) (index + 1)) is cur o = .ok (cur', o') ∧
          Fills values r index all₀ sums₀ cur rows (is.length * tries values.length k (start + 1)) cur' o' rows' := by
      intro is
      induction is with
      | nil =>
        intro cur o rows _ _ hf ho hg _
        refine ⟨cur, o, rows, ?_, rfl, hf, ho, hg, by simp⟩
        rw [oldLoop]
        rfl
      | cons i is iht =>
        intro cur o rows his hc hf ho hg hN
        rw [List.length_cons, Nat.succ_mul] at hN
        have hiv := his i (List.mem_cons_self ..)
        obtain ⟨c1, o1, rows1, e1, h1⟩ := ih (start + 1) (index + 1) (cur.set index (values.getD i 0)) o rows (by omega)
          (by rw [List.length_set]; exact hc)
          (by
            intro j hj
            rw [getD_set _ _ _ _ (by omega)]
            split_ifs with h
            · rw [List.getD_eq_getElem _ _ hiv]
              exact List.getElem_mem hiv
            · exact hf j (by omega))
          ho hg (by omega)
        have hc1 : c1.length = r := by rw [h1.len, List.length_set]; exact hc
        have hfew := h1.few
        obtain ⟨c2, o2, rows2, e2, h2⟩ := iht c1 o1 rows1 (fun x hx => his x (List.mem_cons_of_mem _ hx)) hc1
          (fun j hj => h1.filled j (by omega)) h1.holds h1.fair (by omega)
        have hfew2 := h2.few
        refine ⟨c2, o2, rows2, ?_, by rw [h2.len, hc1, hc], h2.filled, h2.holds, h2.fair, ?_⟩
        · rw [oldLoop, rd_ok hiv]
          dsimp only [bind, Except.bind]
          rw [wr_ok (by omega)]
          dsimp only
          rw [e1]
          exact e2
        · rw [List.length_cons, Nat.succ_mul]
          omega
    have hlen : (List.range' start (values.length - start)).length = values.length - start := List.length_range' ..
    obtain ⟨c', o', rows', e, h⟩ := turn (List.range' start (values.length - start)) cur o rows
      (by
        intro i hi
        have := List.mem_range'_1.mp hi
        omega) hc hf ho hg (by rw [hlen]; exact hN)
    rw [hlen] at h
    refine ⟨c', o', rows', ?_, h⟩
    rw [oldGenerate]
    exact e

end Satis.Comb
