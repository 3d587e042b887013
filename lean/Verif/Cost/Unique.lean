import Verif.Cost.Costs
/-!
# Uniqueness of the best shape and of the fewest cover; link with the specification vocabulary
-/

namespace Satis.Cost
open Satis Satis.Spec

theorem subtreeAt_leaves (n m i : Nat) : (subtreeAt n m i).leaves = Lat n m i := complete_leaves _ _
theorem subtreeAt_splitters (n m i : Nat) : (subtreeAt n m i).splitters = Sat n m i := complete_splitters _ _

theorem covers_iff (n m l : Nat) (sel : List Nat) : Covers n m l sel ↔ (∀ i ∈ sel, i ≤ n + m) ∧ tot (Lat n m) sel = l := by
  constructor
  · rintro ⟨h1, h2⟩
    refine ⟨h1, ?_⟩
    simpa [tot, subtreeAt_leaves] using h2
  · rintro ⟨h1, h2⟩
    refine ⟨h1, ?_⟩
    simpa [tot, subtreeAt_leaves] using h2

theorem savedSplitters_eq (n m : Nat) (sel : List Nat) : savedSplitters n m sel = tot (Sat n m) sel := by
  simp [savedSplitters, tot, subtreeAt_splitters]

theorem gsel_fewest (n m l : Nat) : FewestCover n m l (gsel n m l l) := by
  obtain ⟨g, -⟩ := gsel_greedy n m l l le_rfl
  refine ⟨(covers_iff _ _ _ _).2 ⟨g.depth, g.total⟩, ?_⟩
  intro sel' h
  obtain ⟨h1, h2⟩ := (covers_iff _ _ _ _).1 h
  exact g.fewest sel' h1 h2

theorem toOne_eq (k : Nat) : mergeCost (k : Int) 1 = toOne k := by
  rw [mergeCost_eq]; unfold toOne; omega

theorem loopCharge_eq (over : Prop) [Decidable over] (k n : Nat) : loopCharge over k n = feedBack over k n := by
  unfold loopCharge feedBack fanOut
  rw [toOne_eq, ← toOne_eq (k + 1)]; push_cast; rfl

theorem Lat_inj (n m i j : Nat) (hi : i ≤ n + m) (hj : j ≤ n + m) (h : Lat n m i = Lat n m j) : i = j := by
  rcases Nat.lt_trichotomy i j with h1 | h1 | h1
  · have := Lat_lt n m i j h1 hj; omega
  · exact h1
  · have := Lat_lt n m j i h1 hi; omega

/-- The fewest cover is unique up to order. -/
theorem fewest_unique (n m : Nat) : ∀ fuel l, l ≤ fuel → ∀ sel, FewestCover n m l sel → sel.Perm (gsel n m fuel l) := by
  intro fuel
  induction fuel with
  | zero =>
    intro l hl sel hs
    have : l = 0 := by omega
    subst this
    have h := hs.fewest [] ((covers_iff _ _ _ _).2 ⟨by simp, rfl⟩)
    have : sel = [] := List.length_eq_zero_iff.1 (by simpa using h)
    subst this
    exact List.Perm.refl _
  | succ fuel ih =>
    intro l hl sel hs
    by_cases h0 : l = 0
    · subst h0
      have h := hs.fewest [] ((covers_iff _ _ _ _).2 ⟨by simp, rfl⟩)
      have : sel = [] := List.length_eq_zero_iff.1 (by simpa using h)
      subst this
      simp [gsel]
    · obtain ⟨i, h1, h2, h3, h4⟩ := firstFit_pos n m (l : Int) (by omega)
      have h3' : Lat n m i ≤ l := by exact_mod_cast h3
      have hp := Lat_pos n m i
      simp only [gsel, if_neg h0, h1]
      obtain ⟨hsel, htot⟩ := (covers_iff _ _ _ _).1 hs.toCovers
      let srt := sel.insertionSort (· ≤ ·)
      have hperm : srt.Perm sel := List.perm_insertionSort _ _
      have hpw : srt.Pairwise (· ≤ ·) := List.pairwise_insertionSort _ _
      have hmem : ∀ j ∈ srt, j ≤ n + m ∧ i ≤ j := by
        intro j hj
        have hj' := hperm.mem_iff.1 hj
        refine ⟨hsel j hj', ?_⟩
        by_contra hc
        have h1 := h4 j (by omega)
        have h2 := tot_ge_of_mem (Lat n m) hj'
        omega
      have hpw2 : (srt.map (Lat n m)).Pairwise (fun a b => b ∣ a) := by
        rw [List.pairwise_map]
        refine List.Pairwise.imp_of_mem ?_ hpw
        intro a b ha hb hab
        exact Lat_dvd n m a b hab (hmem b hb).1
      obtain ⟨a, b, hab, hsum⟩ := prefix_sum (srt.map (Lat n m)) (Lat n m i) hpw2 (by
        intro c hc
        obtain ⟨j, hj, rfl⟩ := List.mem_map.1 hc
        exact ⟨Lat_dvd n m i j (hmem j hj).2 (hmem j hj).1, Lat_pos _ _ _⟩) (by
        have := tot_perm (Lat n m) hperm
        rw [htot] at this
        unfold tot at this
        omega)
      obtain ⟨s1, s2, e1, e2, e3⟩ := List.map_eq_append_iff.1 hab
      have ht1 : tot (Lat n m) s1 = Lat n m i := by unfold tot; rw [e2, hsum]
      have ht2 : tot (Lat n m) s2 = l - Lat n m i := by
        have := tot_perm (Lat n m) hperm
        rw [e1, tot_append, ht1, htot] at this
        omega
      have hlen : sel.length = s1.length + s2.length := by rw [← hperm.length_eq, e1, List.length_append]
      have hs1len : s1.length = 1 := by
        have hne : s1 ≠ [] := by rintro rfl; simp at ht1; omega
        have hpos : 0 < s1.length := List.length_pos_iff.2 hne
        have := hs.fewest (i :: s2) ((covers_iff _ _ _ _).2 ⟨by
          intro j hj
          rcases List.mem_cons.1 hj with rfl | hj
          · exact h2
          · exact (hmem j (by rw [e1]; simp [hj])).1, by simp [ht2]; omega⟩)
        simp at this; omega
      obtain ⟨j, rfl⟩ := List.length_eq_one_iff.1 hs1len
      have hj : j = i := by
        simp at ht1
        exact Lat_inj n m j i (hmem j (by rw [e1]; simp)).1 h2 ht1
      subst hj
      have hrest : FewestCover n m (l - Lat n m j) s2 := by
        refine ⟨(covers_iff _ _ _ _).2 ⟨fun k hk => (hmem k (by rw [e1]; simp [hk])).1, ht2⟩, ?_⟩
        intro sel' h'
        obtain ⟨a1, a2⟩ := (covers_iff _ _ _ _).1 h'
        have := hs.fewest (j :: sel') ((covers_iff _ _ _ _).2 ⟨by
          intro k hk
          rcases List.mem_cons.1 hk with rfl | hk
          · exact h2
          · exact a1 k hk, by simp [a2]; omega⟩)
        simp at this hlen; omega
      have := ih (l - Lat n m j) (by omega) s2 hrest
      refine hperm.symm.trans ?_
      rw [e1]
      exact List.Perm.cons j this

theorem bestShape_iff (d n m : Nat) : BestShape d n m ↔ d ≤ L n m ∧ (∀ n' m', d ≤ L n' m' → S n m ≤ S n' m') ∧
    (∀ n' m', d ≤ L n' m' → S n' m' = S n m → L n m ≤ L n' m') := by
  constructor
  · rintro ⟨h1, h2, h3⟩
    simp only [complete_leaves, complete_splitters] at h1 h2 h3
    exact ⟨h1, h2, h3⟩
  · rintro ⟨h1, h2, h3⟩
    constructor <;> simpa only [complete_leaves, complete_splitters]

theorem bestShape_unique {d n m n' m' : Nat} (h : BestShape d n m) (h' : BestShape d n' m') : n = n' ∧ m = m' := by
  obtain ⟨a1, a2, a3⟩ := (bestShape_iff _ _ _).1 h
  obtain ⟨b1, b2, b3⟩ := (bestShape_iff _ _ _).1 h'
  have hS : S n m = S n' m' := le_antisymm (a2 _ _ b1) (b2 _ _ a1)
  have hL : L n m = L n' m' := le_antisymm (a3 _ _ b1 hS.symm) (b3 _ _ a1 hS)
  have key : ∀ {n m n' m' : Nat}, S n m = S n' m' → L n m = L n' m' → ¬ m < m' := by
    intro n m n' m' hS hL hlt
    obtain ⟨rfl, rfl, rfl⟩ := S_tie hS hlt
    simp only [L, pow_zero, mul_one, pow_succ] at hL
    have : 0 < 2 ^ n' := Nat.pow_pos (by norm_num)
    omega
  have hm : m = m' := by
    have := key hS hL
    have := key hS.symm hL.symm
    omega
  subst hm
  refine ⟨?_, rfl⟩
  unfold L at hL
  have : 2 ^ n = 2 ^ n' := Nat.eq_of_mul_eq_mul_right (Nat.pow_pos (by norm_num)) hL
  exact Nat.pow_right_injective le_rfl this

theorem findNML_best (d : Nat) (hd : d ≠ 0) : ∃ n m, findNML d = .ok (n, m, L n m - d, S n m) ∧ BestShape d n m := by
  obtain ⟨n, m, h1, h2, h3, h4⟩ := findNML_core d hd
  exact ⟨n, m, h1, (bestShape_iff _ _ _).2 ⟨h2, h3, findNML_min_loop d n m h2 h3 h4⟩⟩

end Satis.Cost
