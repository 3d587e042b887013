import Verif.Cost.Tables
import Mathlib.Data.List.Induction
/-!
# `find_n_m_l`: soundness and optimality
-/

namespace Satis.Cost
open Satis

theorem expLoop_spec (b X : Nat) (hb : 2 ≤ b) : ∀ fuel k, X + 1 ≤ fuel + k →
    X < b ^ expLoop b X fuel k ∧ (∀ j, k ≤ j → j < expLoop b X fuel k → b ^ j ≤ X) ∧ k ≤ expLoop b X fuel k := by
  intro fuel
  induction fuel with
  | zero =>
    intro k hk
    have : k < b ^ k := Nat.lt_pow_self (by omega)
    simp only [expLoop]
    exact ⟨by omega, fun j h1 h2 => absurd h2 (by omega), le_rfl⟩
  | succ fuel ih =>
    intro k hk
    simp only [expLoop]
    split
    · rename_i h
      obtain ⟨h1, h2, h3⟩ := ih (k + 1) (by omega)
      refine ⟨h1, fun j hj1 hj2 => ?_, by omega⟩
      rcases Nat.eq_or_lt_of_le hj1 with rfl | hlt
      · exact h
      · exact h2 j hlt hj2
    · rename_i h
      exact ⟨by omega, fun j h1 h2 => absurd h2 (by omega), le_rfl⟩

/-- The pairs `(n, m)` in the order in which `find_n_m_l` visits them. -/
def cands (maxN maxM : Nat) : List (Nat × Nat) :=
  (List.range (maxM + 1)).flatMap fun m => (List.range (maxN + 1)).map fun n => (n, m)

theorem mem_cands {N M : Nat} {p : Nat × Nat} : p ∈ cands N M ↔ p.1 ≤ N ∧ p.2 ≤ M := by
  unfold cands
  simp only [List.mem_flatMap, List.mem_range, List.mem_map]
  constructor
  · rintro ⟨m, hm, n, hn, rfl⟩; exact ⟨by simp; omega, by simp; omega⟩
  · rintro ⟨h1, h2⟩; exact ⟨p.2, by omega, p.1, by omega, rfl⟩

/-- What the loop of `find_n_m_l` knows after visiting `pre`. -/
def FInv (X : Nat) (pre : List (Nat × Nat)) (st : Best) : Prop :=
  (st = ⟨none, 0, 0, 0⟩ ∧ ∀ q ∈ pre, L q.1 q.2 < X) ∨
  ∃ p a b, st = ⟨some (S p.1 p.2), p.1, p.2, L p.1 p.2 - X⟩ ∧ pre = a ++ p :: b ∧ X ≤ L p.1 p.2 ∧
    (∀ q ∈ a, X ≤ L q.1 q.2 → S p.1 p.2 < S q.1 q.2) ∧ (∀ q ∈ b, X ≤ L q.1 q.2 → S p.1 p.2 ≤ S q.1 q.2)

theorem fnml_fold (X : Nat) (pre : List (Nat × Nat)) :
    FInv X pre (pre.foldl (fun st q => fnmlStep X st q.2 q.1) ⟨none, 0, 0, 0⟩) := by
  induction pre using List.reverseRecOn with
  | nil => left; simp
  | append_singleton pre q ih =>
    rw [List.foldl_append]
    simp only [List.foldl_cons, List.foldl_nil]
    generalize hst : pre.foldl (fun st q => fnmlStep X st q.2 q.1) ⟨none, 0, 0, 0⟩ = st at ih ⊢
    unfold fnmlStep
    simp only [countSplits_eq]
    change FInv X (pre ++ [q]) (if L q.1 q.2 < X then st else _)
    rcases ih with ⟨rfl, h⟩ | ⟨p, a, b, rfl, hpre, hp, ha, hb⟩
    · split
      · rename_i hlt
        left
        refine ⟨rfl, fun r hr => ?_⟩
        rcases List.mem_append.1 hr with hr | hr
        · exact h r hr
        · simp at hr; subst hr; exact hlt
      · rename_i hge
        right
        refine ⟨q, pre, [], rfl, by simp, by omega, ?_, by simp⟩
        intro r hr h2
        exact absurd (h r hr) (by omega)
    · split
      · rename_i hlt
        right
        refine ⟨p, a, b ++ [q], rfl, by simp [hpre], hp, ha, ?_⟩
        intro r hr h2
        rcases List.mem_append.1 hr with hr | hr
        · exact hb r hr h2
        · simp at hr; subst hr; omega
      · rename_i hge
        simp only
        split
        · rename_i hle
          right
          refine ⟨p, a, b ++ [q], rfl, by simp [hpre], hp, ha, ?_⟩
          intro r hr h2
          rcases List.mem_append.1 hr with hr | hr
          · exact hb r hr h2
          · simp at hr; subst hr; omega
        · rename_i hlt
          right
          refine ⟨q, pre, [], rfl, by simp, by omega, ?_, by simp⟩
          intro r hr h2
          rw [hpre] at hr
          rcases List.mem_append.1 hr with hr | hr
          · have := ha r hr h2; omega
          · rcases List.mem_cons.1 hr with rfl | hr
            · omega
            · have := hb r hr h2; omega

theorem S_le_S {n m n' m' : Nat} (hn : n ≤ n') (hm : m ≤ m') : S n m ≤ S n' m' := by
  have h1 := two_S n m
  have h2 := two_S n' m'
  have h3 : 2 ^ n ≤ 2 ^ n' := Nat.pow_le_pow_right (by norm_num) hn
  have h4 : 3 ^ m ≤ 3 ^ m' := Nat.pow_le_pow_right (by norm_num) hm
  have : 2 ^ n * (3 ^ m + 1) ≤ 2 ^ n' * (3 ^ m' + 1) := Nat.mul_le_mul h3 (by omega)
  omega

theorem L_le_L {n m n' m' : Nat} (hn : n ≤ n') (hm : m ≤ m') : L n m ≤ L n' m' :=
  Nat.mul_le_mul (Nat.pow_le_pow_right (by norm_num) hn) (Nat.pow_le_pow_right (by norm_num) hm)

/-- Everything about the result of `find_n_m_l` that the later proofs use. -/
theorem findNML_core (X : Nat) (hX : X ≠ 0) : ∃ n m, findNML X = .ok (n, m, L n m - X, S n m) ∧ X ≤ L n m ∧
    (∀ n' m', X ≤ L n' m' → S n m ≤ S n' m') ∧
    (∀ n' m', X ≤ L n' m' → S n' m' = S n m → m' < m → False) := by
  unfold findNML
  rw [if_neg hX]
  obtain ⟨hN, -, -⟩ := expLoop_spec 2 X le_rfl (X + 1) 0 (by omega)
  obtain ⟨hM, -, -⟩ := expLoop_spec 3 X (by norm_num) (X + 1) 0 (by omega)
  generalize expLoop 2 X (X + 1) 0 = N at hN
  generalize expLoop 3 X (X + 1) 0 = M at hM
  have hfold : (List.range (M + 1)).foldl (fun st m => (List.range (N + 1)).foldl (fun st n => fnmlStep X st m n) st)
      ⟨none, 0, 0, 0⟩ = (cands N M).foldl (fun st q => fnmlStep X st q.2 q.1) ⟨none, 0, 0, 0⟩ := by
    unfold cands
    rw [List.foldl_flatMap]
    congr 1
    funext st m
    rw [List.foldl_map]
  simp only [hfold]
  have clamp : ∀ n' m', X ≤ L n' m' → ∃ n'' m'', (n'', m'') ∈ cands N M ∧ X ≤ L n'' m'' ∧ n'' ≤ n' ∧ m'' ≤ m' := by
    intro n' m' h
    by_cases h1 : N < n'
    · refine ⟨N, 0, mem_cands.2 ⟨le_rfl, Nat.zero_le _⟩, ?_, by omega, Nat.zero_le _⟩
      simp [L]; omega
    · by_cases h2 : M < m'
      · refine ⟨0, M, mem_cands.2 ⟨Nat.zero_le _, le_rfl⟩, ?_, Nat.zero_le _, by omega⟩
        simp [L]; omega
      · exact ⟨n', m', mem_cands.2 ⟨by simp; omega, by simp; omega⟩, h, le_rfl, le_rfl⟩
  rcases fnml_fold X (cands N M) with ⟨-, h⟩ | ⟨p, a, b, hst, hc, hp, ha, hb⟩
  · obtain ⟨n'', m'', h1, h2, -⟩ := clamp N M (by
      have : L N 0 ≤ L N M := L_le_L le_rfl (Nat.zero_le _)
      simp only [L, pow_zero, Nat.mul_one] at this ⊢; omega)
    exact absurd (h _ h1) (by simpa using h2)
  · have hall : ∀ q ∈ cands N M, X ≤ L q.1 q.2 → S p.1 p.2 ≤ S q.1 q.2 := by
      intro q hq h2
      rw [hc] at hq
      rcases List.mem_append.1 hq with hq | hq
      · exact le_of_lt (ha q hq h2)
      · rcases List.mem_cons.1 hq with rfl | hq
        · exact le_rfl
        · exact hb q hq h2
    have hopt : ∀ n' m', X ≤ L n' m' → S p.1 p.2 ≤ S n' m' := by
      intro n' m' h
      obtain ⟨n'', m'', h1, h2, h3, h4⟩ := clamp n' m' h
      exact le_trans (hall _ h1 h2) (S_le_S h3 h4)
    refine ⟨p.1, p.2, by rw [hst]; rfl, hp, hopt, ?_⟩
    intro n' m' h1 h2 h3
    obtain ⟨n'', m'', h4, h5, h6, h7⟩ := clamp n' m' h1
    have h8 : S n'' m'' = S p.1 p.2 := le_antisymm (h2 ▸ S_le_S h6 h7) (hopt _ _ h5)
    -- candidates are visited in increasing order of m
    have hsorted : (cands N M).Pairwise (fun q r => q.2 ≤ r.2) := by
      unfold cands
      rw [List.pairwise_flatMap]
      refine ⟨fun m _ => ?_, ?_⟩
      · rw [List.pairwise_map]; exact List.pairwise_of_forall (fun _ _ => le_rfl)
      · refine (List.pairwise_lt_range).imp ?_
        intro m1 m2 hlt x hx y hy
        simp only [List.mem_map] at hx hy
        obtain ⟨_, _, rfl⟩ := hx
        obtain ⟨_, _, rfl⟩ := hy
        exact le_of_lt hlt
    rw [hc] at hsorted h4
    rw [List.pairwise_append] at hsorted
    obtain ⟨-, hpb, -⟩ := hsorted
    rcases List.mem_append.1 h4 with h4 | h4
    · exact absurd (ha _ h4 h5) (by simp [h8])
    · rcases List.mem_cons.1 h4 with h4 | h4
      · rw [← h4] at h3; simp at h3; omega
      · have := (List.pairwise_cons.1 hpb).1 _ h4
        simp at this; omega

/-- Two different shapes with the same number of splitters: one has a single ternary layer, the other none. -/
theorem S_tie {n m n' m' : Nat} (h : S n m = S n' m') (hm : m < m') : m = 0 ∧ m' = 1 ∧ n = n' + 1 := by
  have h1 := two_S n m
  have h2 := two_S n' m'
  rw [h] at h1
  have heq : 2 ^ n * (3 ^ m + 1) = 2 ^ n' * (3 ^ m' + 1) := by rw [← h1, ← h2]
  have hlt : 3 ^ m < 3 ^ m' := Nat.pow_lt_pow_right (by norm_num) hm
  have hn : n' < n := by
    by_contra hc
    have : 2 ^ n ≤ 2 ^ n' := Nat.pow_le_pow_right (by norm_num) (by omega)
    have h0 : 0 < 2 ^ n' := Nat.pow_pos (by norm_num)
    have : 2 ^ n * (3 ^ m + 1) < 2 ^ n' * (3 ^ m' + 1) :=
      lt_of_le_of_lt (Nat.mul_le_mul_right _ this) (Nat.mul_lt_mul_of_pos_left (by omega) h0)
    omega
  obtain ⟨k, rfl⟩ : ∃ k, n = n' + k + 1 := ⟨n - n' - 1, by omega⟩
  have h0 : 0 < 2 ^ n' := Nat.pow_pos (by norm_num)
  have heq2 : 2 ^ (k + 1) * (3 ^ m + 1) = 3 ^ m' + 1 := by
    apply Nat.eq_of_mul_eq_mul_left h0
    rw [← heq, pow_succ, pow_succ, pow_add]; ring
  -- mod 8
  have hmod : ∀ j, 3 ^ j % 8 = 1 ∨ 3 ^ j % 8 = 3 := by
    intro j
    induction j with
    | zero => left; rfl
    | succ j ih => rw [pow_succ]; omega
  obtain ⟨t, ht⟩ : ∃ t, m' = t + 1 := ⟨m' - 1, by omega⟩
  have hm0 : m = 0 := by
    by_contra hc
    obtain ⟨s, hs⟩ : ∃ s, m = s + 1 := ⟨m - 1, by omega⟩
    subst hs ht
    rw [pow_succ 3, pow_succ 3] at heq2
    -- mod 3 : 2^(k+1) ≡ 1, so k+1 is even, so ≥ 2, then 8 ∣ 3^m'+1
    have : 2 ^ (k + 1) % 3 = 1 := by
      have : (2 ^ (k + 1) * (3 ^ s * 3 + 1)) % 3 = 1 := by rw [heq2]; omega
      rw [Nat.mul_mod] at this
      have h3 : (3 ^ s * 3 + 1) % 3 = 1 := by omega
      rw [h3] at this; simpa using this
    have hk : k ≠ 0 := by rintro rfl; simp at this
    obtain ⟨j, rfl⟩ : ∃ j, k = j + 1 := ⟨k - 1, by omega⟩
    have hodd := three_pow_odd (s + 1)
    rw [pow_succ] at hodd
    obtain ⟨u, hu⟩ : ∃ u, 3 ^ s * 3 + 1 = 2 * u := ⟨(3 ^ s * 3 + 1) / 2, by omega⟩
    rw [hu] at heq2
    have : 2 ^ (j + 1 + 1) * (2 * u) = 8 * (2 ^ j * u) := by rw [pow_succ, pow_succ]; ring
    have := hmod (t + 1)
    rw [pow_succ] at this
    omega
  subst hm0
  refine ⟨rfl, ?_⟩
  -- 2^(k+2) = 3^m' + 1
  have h3 : 2 ^ (k + 1) * 2 = 3 ^ m' + 1 := by simpa using heq2
  have hk : k = 0 := by
    by_contra hc
    obtain ⟨j, rfl⟩ : ∃ j, k = j + 1 := ⟨k - 1, by omega⟩
    have := hmod m'
    rw [pow_succ, pow_succ] at h3
    omega
  subst hk
  have h4 : 3 ^ m' = 3 ^ 1 := by simp at h3; simp; omega
  exact ⟨Nat.pow_right_injective (le_refl 2 |>.trans (by norm_num)) h4, rfl⟩

/-- The shape found uses the fewest looped branches among all optimal shapes. -/
theorem findNML_min_loop (X n m : Nat) (hX : X ≤ L n m)
    (hopt : ∀ n' m', X ≤ L n' m' → S n m ≤ S n' m')
    (hfirst : ∀ n' m', X ≤ L n' m' → S n' m' = S n m → m' < m → False) :
    ∀ n' m', X ≤ L n' m' → S n' m' = S n m → L n m ≤ L n' m' := by
  intro n' m' h1 h2
  rcases Nat.lt_trichotomy m' m with h | h | h
  · exact (hfirst n' m' h1 h2 h).elim
  · subst h
    have a := two_S n' m'
    have b := two_S n m'
    rw [h2] at a
    have : 2 ^ n = 2 ^ n' := by
      have h0 : 0 < 3 ^ m' + 1 := Nat.succ_pos _
      apply Nat.eq_of_mul_eq_mul_right h0
      rw [← a, ← b]
    simp [L, this]
  · obtain ⟨rfl, rfl, rfl⟩ := S_tie h2.symm h
    simp [L, pow_succ]

/-- The loop count is smaller than `X`. -/
theorem findNML_loop_lt (X n m : Nat) (hX0 : X ≠ 0) (hX : X ≤ L n m)
    (hopt : ∀ n' m', X ≤ L n' m' → S n m ≤ S n' m') : L n m - X < X := by
  by_contra hc
  have hge : 2 * X ≤ L n m := by omega
  cases n with
  | succ n =>
    rw [L_succ] at hge
    have := hopt n m (by omega)
    rw [S_succ] at this
    omega
  | zero =>
    cases m with
    | zero => simp [L] at hge; omega
    | succ m =>
      rw [L_zero_succ] at hge
      cases m with
      | zero =>
        simp [L] at hge
        have := hopt 0 0 (by simp [L]; omega)
        simp [S] at this
      | succ m =>
        have h1 := hopt 1 (m + 1) (by rw [L_succ]; omega)
        rw [S_succ, S_zero_succ (m + 1), S_zero_succ] at h1
        omega

end Satis.Cost
