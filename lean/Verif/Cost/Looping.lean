import Verif.Cost.FindNML
import Mathlib.Data.List.Sort
import Mathlib.Algebra.BigOperators.Group.List.Basic
/-!
# `compute_n_looping_branches` and `compute_looping_branches`
-/

namespace Satis.Cost
open Satis Satis.Spec

theorem Lat_antitone_succ (n m i : Nat) (hi : i < n + m) : Lat n m (i + 1) < Lat n m i := by
  have hp := Lat_pos n m (i + 1)
  by_cases h : i < n
  · rw [Lat_succ_n n m i h]; omega
  · rw [Lat_succ_m n m i (by omega) hi]; omega

theorem Lat_dvd_succ (n m i : Nat) (hi : i < n + m) : Lat n m (i + 1) ∣ Lat n m i := by
  by_cases h : i < n
  · rw [Lat_succ_n n m i h]; exact Dvd.intro_left _ rfl
  · rw [Lat_succ_m n m i (by omega) hi]; exact Dvd.intro_left _ rfl

theorem Lat_dvd (n m i j : Nat) (hij : i ≤ j) (hj : j ≤ n + m) : Lat n m j ∣ Lat n m i := by
  induction j with
  | zero => have : i = 0 := by omega
            subst this; exact dvd_refl _
  | succ j ih =>
    rcases Nat.eq_or_lt_of_le hij with rfl | h
    · exact dvd_refl _
    · exact dvd_trans (Lat_dvd_succ n m j (by omega)) (ih (by omega) (by omega))

theorem Lat_lt (n m i j : Nat) (hij : i < j) (hj : j ≤ n + m) : Lat n m j < Lat n m i := by
  induction j with
  | zero => omega
  | succ j ih =>
    have h1 := Lat_antitone_succ n m j (by omega)
    rcases Nat.eq_or_lt_of_le (show i ≤ j by omega) with rfl | h
    · exact h1
    · exact lt_trans h1 (ih h (by omega))

theorem Lat_le (n m i j : Nat) (hij : i ≤ j) (hj : j ≤ n + m) : Lat n m j ≤ Lat n m i := by
  rcases Nat.eq_or_lt_of_le hij with rfl | h
  · exact le_rfl
  · exact le_of_lt (Lat_lt n m i j h hj)

/-- `firstFit` on the table of leaves: the least depth whose subtrees fit in `l`. -/
theorem firstFit_aux (n m : Nat) (l : Int) (len s : Nat) :
    match firstFit l ((List.range' s len).map (Lat n m)) s with
    | none => ∀ j, s ≤ j → j < s + len → (Lat n m j : Int) > l
    | some (i, b) => s ≤ i ∧ i < s + len ∧ b = Lat n m i ∧ (b : Int) ≤ l ∧ ∀ j, s ≤ j → j < i → (Lat n m j : Int) > l := by
  induction len generalizing s with
  | zero => simp [firstFit]; intro j h1 h2; omega
  | succ len ih =>
    simp only [List.range'_succ, List.map_cons, firstFit]
    by_cases h : (Lat n m s : Int) > l
    · rw [if_pos h]
      have := ih (s + 1)
      split at this
      · intro j h1 h2
        rcases Nat.eq_or_lt_of_le h1 with rfl | h3
        · exact h
        · exact this j h3 (by omega)
      · obtain ⟨h1, h2, h3, h4, h5⟩ := this
        refine ⟨by omega, by omega, h3, h4, ?_⟩
        intro j hj1 hj2
        rcases Nat.eq_or_lt_of_le hj1 with rfl | h6
        · exact h
        · exact h5 j h6 hj2
    · rw [if_neg h]
      exact ⟨le_rfl, by omega, rfl, by omega, fun j h1 h2 => absurd h2 (by omega)⟩

theorem firstFit_pos (n m : Nat) (l : Int) (hl : 0 < l) :
    ∃ i, firstFit l (branchesCount n m) 0 = some (i, Lat n m i) ∧ i ≤ n + m ∧ (Lat n m i : Int) ≤ l ∧
      ∀ j, j < i → (Lat n m j : Int) > l := by
  rw [branchesCount_eq, List.range_eq_range']
  have := firstFit_aux n m l (n + m + 1) 0
  split at this
  · have h := this (n + m) (by omega) (by omega)
    rw [Lat_last] at h; simp at h; omega
  · rename_i i b heq
    obtain ⟨h1, h2, h3, h4, h5⟩ := this
    subst h3
    exact ⟨i, heq, by omega, h4, fun j hj => h5 j (by omega) hj⟩

theorem firstFit_neg (n m : Nat) (l : Int) (hl : l < 0) : firstFit l (branchesCount n m) 0 = none := by
  rw [branchesCount_eq, List.range_eq_range']
  have := firstFit_aux n m l (n + m + 1) 0
  split at this
  · assumption
  · omega

/-- Coins of a divisor chain totalling at least `R` contain a prefix totalling exactly `R`. -/
theorem prefix_sum (cs : List Nat) : ∀ R, cs.Pairwise (fun a b => b ∣ a) → (∀ c ∈ cs, c ∣ R ∧ 0 < c) → R ≤ cs.sum →
    ∃ a b, cs = a ++ b ∧ a.sum = R := by
  induction cs with
  | nil => intro R _ _ h; exact ⟨[], [], rfl, by simp at h ⊢; omega⟩
  | cons c cs ih =>
    intro R hpw hdvd hle
    by_cases hR : R = 0
    · exact ⟨[], c :: cs, rfl, by simp [hR]⟩
    · obtain ⟨h1, h2⟩ := List.pairwise_cons.1 hpw
      obtain ⟨hc, hc0⟩ := hdvd c (by simp)
      have hcR : c ≤ R := Nat.le_of_dvd (by omega) hc
      obtain ⟨a, b, hab, hs⟩ := ih (R - c) h2 (by
        intro d hd
        obtain ⟨h3, h4⟩ := hdvd d (by simp [hd])
        exact ⟨Nat.dvd_sub h3 (h1 d hd), h4⟩) (by simp at hle; omega)
      exact ⟨c :: a, b, by simp [hab], by simp [hs]; omega⟩

/-- Total of a table over a selection of depths. -/
def tot (f : Nat → Nat) (sel : List Nat) : Nat := (sel.map f).sum

@[simp] theorem tot_nil (f : Nat → Nat) : tot f [] = 0 := rfl
@[simp] theorem tot_cons (f : Nat → Nat) (i : Nat) (s : List Nat) : tot f (i :: s) = f i + tot f s := rfl

theorem tot_perm (f : Nat → Nat) {a b : List Nat} (h : a.Perm b) : tot f a = tot f b := (h.map f).sum_eq

theorem tot_ge_of_mem (f : Nat → Nat) {i : Nat} {s : List Nat} (h : i ∈ s) : f i ≤ tot f s := by
  induction s with
  | nil => simp at h
  | cons a s ih =>
    rcases List.mem_cons.1 h with rfl | h
    · simp
    · have := ih h; simp; omega

theorem select_exact (n m i l : Nat) (hil : Lat n m i ≤ l) (hfirst : ∀ j, j < i → l < Lat n m j)
    (sel : List Nat) (hsel : ∀ j ∈ sel, j ≤ n + m) (hs : tot (Lat n m) sel = l) :
    ∃ rest, (∀ j ∈ rest, j ≤ n + m) ∧ tot (Lat n m) rest = l - Lat n m i ∧ rest.length + 1 ≤ sel.length := by
  let srt := sel.insertionSort (· ≤ ·)
  have hperm : srt.Perm sel := List.perm_insertionSort _ _
  have hpw : srt.Pairwise (· ≤ ·) := List.pairwise_insertionSort _ _
  have hmem : ∀ j ∈ srt, j ≤ n + m ∧ i ≤ j := by
    intro j hj
    have hj' := hperm.mem_iff.1 hj
    refine ⟨hsel j hj', ?_⟩
    by_contra hc
    have h1 := hfirst j (by omega)
    have h2 := tot_ge_of_mem (Lat n m) hj'
    omega
  have hpw2 : (srt.map (Lat n m)).Pairwise (fun a b => b ∣ a) := by
    rw [List.pairwise_map]
    refine List.Pairwise.imp_of_mem ?_ hpw
    intro a b ha hb hab
    exact Lat_dvd n m a b hab (hmem b hb).1
  obtain ⟨a, b, hab, hsum⟩ := prefix_sum (srt.map (Lat n m)) (Lat n m i) hpw2 (by
    intro c hc
    obtain ⟨j, hj, rfl⟩ := List.mem_map.1 hc
    exact ⟨Lat_dvd n m i j (hmem j hj).2 (hmem j hj).1, Lat_pos _ _ _⟩) (by
    have := tot_perm (Lat n m) hperm
    rw [hs] at this
    unfold tot at this
    omega)
  obtain ⟨s1, s2, h1, h2, h3⟩ := List.map_eq_append_iff.1 hab
  refine ⟨s2, ?_, ?_, ?_⟩
  · intro j hj
    exact (hmem j (by rw [h1]; simp [hj])).1
  · have htot := tot_perm (Lat n m) hperm
    rw [hs, h1] at htot
    unfold tot at htot ⊢
    rw [List.map_append, List.sum_append, h2, hsum] at htot
    omega
  · have hlen := hperm.length_eq
    rw [h1, List.length_append] at hlen
    have : s1 ≠ [] := by
      rintro rfl
      simp at h2
      subst h2
      have := Lat_pos n m i
      simp at hsum; omega
    have : 0 < s1.length := List.length_pos_iff.2 this
    omega

/-- The selection made by the greedy loops. -/
structure Greedy (n m l : Nat) (sel : List Nat) : Prop where
  depth : ∀ i ∈ sel, i ≤ n + m
  total : tot (Lat n m) sel = l
  fewest : ∀ sel', (∀ i ∈ sel', i ≤ n + m) → tot (Lat n m) sel' = l → sel.length ≤ sel'.length
  sorted : sel.Pairwise (· ≤ ·)

/-- The greedy selection itself (fuelled recursion used to relate the two loops). -/
def gsel (n m : Nat) : Nat → Nat → List Nat
  | 0, _ => []
  | fuel + 1, l =>
    if l = 0 then []
    else match firstFit l (branchesCount n m) 0 with
      | none => []
      | some (i, b) => i :: gsel n m fuel (l - b)

theorem gsel_greedy (n m : Nat) : ∀ fuel l, l ≤ fuel → Greedy n m l (gsel n m fuel l) ∧ ∀ i ∈ gsel n m fuel l, Lat n m i ≤ l := by
  intro fuel
  induction fuel with
  | zero =>
    intro l hl
    have : l = 0 := by omega
    subst this
    exact ⟨⟨by simp [gsel], rfl, by simp [gsel], by simp [gsel]⟩, by simp [gsel]⟩
  | succ fuel ih =>
    intro l hl
    by_cases h0 : l = 0
    · subst h0
      exact ⟨⟨by simp [gsel], by simp [gsel], by simp [gsel], by simp [gsel]⟩, by simp [gsel]⟩
    · obtain ⟨i, h1, h2, h3, h4⟩ := firstFit_pos n m (l : Int) (by omega)
      simp only [gsel, if_neg h0, h1]
      have hp := Lat_pos n m i
      obtain ⟨⟨g1, g2, g3, g4⟩, g5⟩ := ih (l - Lat n m i) (by omega)
      have h3' : Lat n m i ≤ l := by exact_mod_cast h3
      have h4' : ∀ j, j < i → l < Lat n m j := fun j hj => by have := h4 j hj; omega
      refine ⟨⟨?_, ?_, ?_, ?_⟩, ?_⟩
      · intro j hj
        rcases List.mem_cons.1 hj with rfl | hj
        · exact h2
        · exact g1 j hj
      · simp [g2]; omega
      · intro sel' hs1 hs2
        obtain ⟨rest, r1, r2, r3⟩ := select_exact n m i l h3' h4' sel' hs1 hs2
        have := g3 rest r1 r2
        simp; omega
      · refine List.pairwise_cons.2 ⟨?_, g4⟩
        intro j hj
        by_contra hc
        have := h4' j (by omega)
        have := g5 j hj
        omega
      · intro j hj
        rcases List.mem_cons.1 hj with rfl | hj
        · exact h3'
        · have := g5 j hj; omega

theorem nLoopingLoop_eq (n m : Nat) : ∀ fuel l acc, l ≤ fuel →
    nLoopingLoop (splittersCount n m) (branchesCount n m) fuel (l : Int) acc
      = .ok (acc.1 + (gsel n m fuel l).length, acc.2 + tot (Sat n m) (gsel n m fuel l)) := by
  intro fuel
  induction fuel with
  | zero =>
    intro l acc hl
    have : l = 0 := by omega
    subst this
    unfold nLoopingLoop
    simp [gsel]
  | succ fuel ih =>
    intro l acc hl
    unfold nLoopingLoop
    by_cases h0 : l = 0
    · subst h0; simp [gsel]
    · obtain ⟨i, h1, h2, h3, h4⟩ := firstFit_pos n m (l : Int) (by omega)
      have hsp : (splittersCount n m)[i]? = some (Sat n m i) := by
        rw [splittersCount_eq, List.getElem?_map, List.getElem?_range (by omega)]; rfl
      rw [if_neg (by omega)]
      simp only [h1, hsp, gsel, if_neg h0]
      have hp := Lat_pos n m i
      have h3' : Lat n m i ≤ l := by exact_mod_cast h3
      rw [show ((l : Int) - (Lat n m i : Nat)) = ((l - Lat n m i : Nat) : Int) by omega]
      rw [ih _ _ (by omega)]
      simp; omega

theorem nLooping_eq (n m l : Nat) :
    nLooping (l : Int) (splittersCount n m) (branchesCount n m)
      = .ok ((gsel n m l l).length, tot (Sat n m) (gsel n m l l)) := by
  unfold nLooping
  rw [Int.natAbs_natCast, nLoopingLoop_eq n m l l _ le_rfl]
  simp

theorem nLooping_neg (n m : Nat) (l : Int) (hl : l < 0) :
    nLooping l (splittersCount n m) (branchesCount n m) = .error .indexError := by
  unfold nLooping
  obtain ⟨k, hk⟩ : ∃ k, l.natAbs = k + 1 := ⟨l.natAbs - 1, by omega⟩
  rw [hk]
  unfold nLoopingLoop
  rw [if_neg (by omega)]
  simp only [firstFit_neg n m l hl]

/-! ### `compute_looping_branches` -/

/-- The dictionary key of depth `i`. -/
def key (n i : Nat) : Nat × Nat := (min i n, i - n)

theorem key_inj (n i j : Nat) : key n i = key n j ↔ i = j := by
  unfold key; simp only [Prod.mk.injEq]; omega

theorem descend_aux (n m : Nat) (l : Int) (len s : Nat) :
    descend n l ((List.range' s len).map (Lat n m)) (min s n) (s - n)
      = (firstFit l ((List.range' s len).map (Lat n m)) s).map (fun (i, b) => (min i n, i - n, b)) := by
  induction len generalizing s with
  | zero => simp [firstFit, descend]
  | succ len ih =>
    simp only [List.range'_succ, List.map_cons, firstFit, descend]
    by_cases h : (Lat n m s : Int) > l
    · rw [if_pos h, if_pos h, ← ih (s + 1)]
      by_cases h2 : s < n
      · rw [if_pos (by omega), show min (s + 1) n = min s n + 1 by omega, show s + 1 - n = s - n by omega]
      · rw [if_neg (by omega), show min (s + 1) n = min s n by omega, show s + 1 - n = s - n + 1 by omega]
    · rw [if_neg h, if_neg h]; rfl

theorem descend_eq (n m : Nat) (l : Int) :
    descend n l (branchesCount n m) 0 0 = (firstFit l (branchesCount n m) 0).map (fun (i, b) => (min i n, i - n, b)) := by
  have := descend_aux n m l (n + m + 1) 0
  rw [branchesCount_eq, List.range_eq_range']
  simpa using this

theorem ignoreN_eq (k cn a : Nat) (p : Plan) :
    ignoreN k cn a p = (fun q => if q.2 = 0 ∧ cn < q.1 ∧ q.1 ≤ cn + k then ((p q).1, (p q).2 + a * 2 ^ (q.1 - cn)) else p q, a * 2 ^ k) := by
  induction k generalizing cn a p with
  | zero =>
    simp only [ignoreN, Prod.mk.injEq]
    refine ⟨?_, by simp⟩
    funext q
    rw [if_neg (by omega)]
  | succ k ih =>
    simp only [ignoreN, ih, Prod.mk.injEq]
    refine ⟨?_, by rw [pow_succ]; ring⟩
    funext ⟨q1, q2⟩
    simp only [Plan.ignore]
    by_cases hq2 : q2 = 0
    · subst hq2
      by_cases h1 : cn + 1 < q1 ∧ q1 ≤ cn + 1 + k
      · rw [if_pos ⟨rfl, h1⟩, if_neg (by simp; omega), if_pos (by omega)]
        have : q1 - cn = (q1 - (cn + 1)) + 1 := by omega
        rw [this, pow_succ]; simp; ring
      · rw [if_neg (by tauto)]
        by_cases h2 : q1 = cn + 1
        · subst h2
          rw [if_pos rfl, if_pos (by omega)]; simp
        · rw [if_neg (by simp [h2]), if_neg (by omega)]
    · rw [if_neg (by tauto), if_neg (by simp [hq2]), if_neg (by tauto)]

theorem ignoreM_eq (n k cm a : Nat) (p : Plan) :
    ignoreM n k cm a p = fun q => if q.1 = n ∧ cm < q.2 ∧ q.2 ≤ cm + k then ((p q).1, (p q).2 + a * 3 ^ (q.2 - cm)) else p q := by
  induction k generalizing cm a p with
  | zero =>
    simp only [ignoreM]
    funext q
    rw [if_neg (by omega)]
  | succ k ih =>
    simp only [ignoreM, ih]
    funext ⟨q1, q2⟩
    simp only [Plan.ignore]
    by_cases hq1 : q1 = n
    · subst hq1
      by_cases h1 : cm + 1 < q2 ∧ q2 ≤ cm + 1 + k
      · rw [if_pos ⟨rfl, h1⟩, if_neg (by simp; omega), if_pos (by omega)]
        have : q2 - cm = (q2 - (cm + 1)) + 1 := by omega
        rw [this, pow_succ]; simp; ring
      · rw [if_neg (by tauto)]
        by_cases h2 : q2 = cm + 1
        · subst h2
          rw [if_pos rfl, if_pos (by omega)]; simp
        · rw [if_neg (by simp [h2]), if_neg (by omega)]
    · rw [if_neg (by tauto), if_neg (by simp [hq1]), if_neg (by tauto)]

/-- Positions of depth `j` below one node of depth `i`. -/
def under (n m i j : Nat) : Nat := if i < j then Lat n m i / Lat n m j else 0

theorem Lat_div_n (n m i j : Nat) (hij : i ≤ j) (hj : j ≤ n) : Lat n m i / Lat n m j = 2 ^ (j - i) := by
  have : Lat n m i = 2 ^ (j - i) * Lat n m j := by
    unfold Lat L
    rw [show i - n = 0 by omega, show j - n = 0 by omega, show n - i = (j - i) + (n - j) by omega, pow_add]; ring
  rw [this, Nat.mul_div_cancel _ (Lat_pos _ _ _)]

theorem Lat_div_m (n m i j : Nat) (hn : n ≤ j) (hij : i ≤ j) (hj : j ≤ n + m) :
    Lat n m i / Lat n m j = 2 ^ (n - i) * 3 ^ (j - n - (i - n)) := by
  have : Lat n m i = 2 ^ (n - i) * 3 ^ (j - n - (i - n)) * Lat n m j := by
    unfold Lat L
    rw [show n - j = 0 by omega, show m - (i - n) = (j - n - (i - n)) + (m - (j - n)) by omega, pow_add]; ring
  rw [this, Nat.mul_div_cancel _ (Lat_pos _ _ _)]

/-- Effect of one round of the loop on the entry of depth `j`. -/
theorem plan_round (n m i j : Nat) (hi : i ≤ n + m) (hj : j ≤ n + m) (p : Plan) :
    (let p1 := p.bump (min i n, i - n)
     let (p2, toAdd) := ignoreN (n - min i n) (min i n) 1 p1
     ignoreM n (m - (i - n)) (i - n) toAdd p2) (key n j)
    = ((p (key n j)).1 + (if i = j then 1 else 0), (p (key n j)).2 + under n m i j) := by
  simp only [ignoreN_eq, ignoreM_eq, Plan.bump, key, under]
  by_cases hjn : j ≤ n
  · have hk : min j n = j := by omega
    have hk2 : j - n = 0 := by omega
    simp only [hk, hk2]
    rw [if_neg (by omega)]
    by_cases h1 : i < j
    · rw [if_pos ⟨trivial, by omega, by omega⟩, if_neg (by simp; omega), if_neg (by omega), if_pos h1, Lat_div_n n m i j (by omega) hjn]
      rw [show min i n = i by omega]; simp
    · rw [if_neg (by omega), if_neg h1]
      by_cases h2 : i = j
      · subst h2
        rw [if_pos (by simp; omega), if_pos rfl]
        rw [show min i n = i by omega, show i - n = 0 by omega]; simp
      · rw [if_neg (by simp; omega), if_neg h2]; simp
  · have hk : min j n = n := by omega
    simp only [hk]
    by_cases h1 : i < j
    · rw [if_pos ⟨trivial, by omega, by omega⟩, if_neg (by omega), if_neg (by simp; omega), if_neg (by omega), if_pos h1,
        Lat_div_m n m i j (by omega) (by omega) hj]
      simp
      omega
    · rw [if_neg (by omega), if_neg (by omega), if_neg h1]
      by_cases h2 : i = j
      · subst h2
        rw [if_pos (by simp; omega), if_pos rfl, show min i n = n by omega]; simp
      · rw [if_neg (by simp; omega), if_neg h2]; simp

theorem planLoop_eq (n m : Nat) : ∀ fuel l p, l ≤ fuel → ∃ p', planLoop n m (branchesCount n m) fuel (l : Int) p = .ok p' ∧
    ∀ j, j ≤ n + m → p' (key n j) = ((p (key n j)).1 + (gsel n m fuel l).count j,
      (p (key n j)).2 + tot (fun i => under n m i j) (gsel n m fuel l)) := by
  intro fuel
  induction fuel with
  | zero =>
    intro l p hl
    have : l = 0 := by omega
    subst this
    unfold planLoop
    exact ⟨p, by simp, by simp [gsel]⟩
  | succ fuel ih =>
    intro l p hl
    unfold planLoop
    by_cases h0 : l = 0
    · subst h0; exact ⟨p, by simp, by simp [gsel]⟩
    · obtain ⟨i, h1, h2, h3, h4⟩ := firstFit_pos n m (l : Int) (by omega)
      rw [if_neg (by omega)]
      simp only [descend_eq, h1, Option.map_some, gsel, if_neg h0]
      have hp := Lat_pos n m i
      have h3' : Lat n m i ≤ l := by exact_mod_cast h3
      rw [show ((l : Int) - (Lat n m i : Nat)) = ((l - Lat n m i : Nat) : Int) by omega]
      obtain ⟨p', hp1, hp2⟩ := ih (l - Lat n m i)
        (ignoreM n (m - (i - n)) (i - n) (ignoreN (n - min i n) (min i n) 1 (p.bump (min i n, i - n))).2
          (ignoreN (n - min i n) (min i n) 1 (p.bump (min i n, i - n))).1) (by omega)
      refine ⟨p', hp1, ?_⟩
      intro j hj
      rw [hp2 j hj]
      have := plan_round n m i j h2 hj p
      simp only at this
      rw [this]
      simp only [List.count_cons, tot_cons, Prod.mk.injEq, beq_iff_eq]
      constructor
      · split <;> omega
      · omega

theorem loopingBranches_eq (n m l : Nat) : ∃ p, loopingBranches n m (l : Int) (branchesCount n m) = .ok p ∧
    ∀ j, j ≤ n + m → p (key n j) = ((gsel n m l l).count j, tot (fun i => under n m i j) (gsel n m l l)) := by
  unfold loopingBranches
  rw [Int.natAbs_natCast]
  obtain ⟨p, h1, h2⟩ := planLoop_eq n m l l (fun _ => (0, 0)) le_rfl
  exact ⟨p, h1, fun j hj => by rw [h2 j hj]; simp⟩

end Satis.Cost
