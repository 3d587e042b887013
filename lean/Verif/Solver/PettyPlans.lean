import Verif.Solver.Plan
import Verif.Cost.Unique
/-!
# Small problems are solved

For sources of a total of at most `8` there are permitted moves to the targets within the initial bound, also where merging all sources is not the way.
The moves are listed and checked by evaluation.
-/

namespace Satis.Solver
open Satis Satis.Graph Satis.Utils Satis.Cost

variable {cfg cfg' : Config} {P : Problem} {B : Int}

/-! ### All small lists -/

/-- The lists of at most `f` numbers between `m` and `n`, in ascending order, of sum `n`. -/
def ascents : Nat → Nat → Nat → List (List Int)
  | 0, n, _ => if n = 0 then [[]] else []
  | f + 1, n, m => (if n = 0 then [[]] else []) ++
      ((List.range (n + 1)).filter fun k => decide (0 < k ∧ m ≤ k)).flatMap fun k => (ascents f (n - k) k).map fun l => (k : Int) :: l

theorem mem_ascents : ∀ (f n m : Nat) (l : List Int), l.length ≤ f → l.sum = n → l.Pairwise (· ≤ ·) → (∀ v ∈ l, 0 < v) → (∀ v ∈ l, (m : Int) ≤ v) →
    l ∈ ascents f n m := by
  intro f
  induction f with
  | zero =>
    intro n m l h1 h2 _ _ _
    obtain rfl : l = [] := List.length_eq_zero_iff.1 (by omega)
    have : n = 0 := by simpa using h2.symm
    simp [ascents, this]
  | succ f ih =>
    intro n m l h1 h2 h3 h4 h5
    unfold ascents
    cases l with
    | nil =>
      have : n = 0 := by simpa using h2.symm
      simp [this]
    | cons v l =>
      have hv := h4 v (by simp)
      have hm := h5 v (by simp)
      rw [List.sum_cons] at h2
      have hl : 0 ≤ l.sum := List.sum_nonneg fun x hx => le_of_lt (h4 x (by simp [hx]))
      refine List.mem_append_right _ (List.mem_flatMap.2 ⟨v.toNat, List.mem_filter.2 ⟨List.mem_range.2 (by omega), decide_eq_true ⟨by omega, by omega⟩⟩,
        List.mem_map.2 ⟨l, ih _ _ l (by simpa using h1) (by omega) (List.pairwise_cons.1 h3).2 (fun x hx => h4 x (by simp [hx])) fun x hx => ?_, ?_⟩⟩)
      · have := (List.pairwise_cons.1 h3).1 x hx
        omega
      · rw [Int.toNat_of_nonneg (by omega)]

theorem length_le_sum : ∀ l : List Int, (∀ v ∈ l, 0 < v) → (l.length : Int) ≤ l.sum := by
  intro l
  induction l with
  | nil => simp
  | cons v l ih =>
    intro h
    have := h v (by simp)
    have := ih fun x hx => h x (by simp [hx])
    simp only [List.length_cons, List.sum_cons]
    push_cast
    omega

/-! ### Costs do not depend on the belts where these are fast enough -/

theorem extractCost_small {x c : Int} (h : 2 * x ≤ cfg.limit) (h' : 2 * x ≤ cfg'.limit) (hc : ∀ s ∈ cfg.speeds, (s : Int) ≠ c)
    (hc' : ∀ s ∈ cfg'.speeds, (s : Int) ≠ c) : extractCost cfg x c = extractCost cfg' x c := by
  unfold extractCost
  have e1 : c ∉ cfg.speeds.map (fun (s : Nat) => (s : Int)) := by simpa using hc
  have e2 : c ∉ cfg'.speeds.map (fun (s : Nat) => (s : Int)) := by simpa using hc'
  rw [if_neg e1, if_neg e2]
  split
  · rfl
  · next hx =>
    split
    · rfl
    · simp only [bind, Except.bind]
      generalize hd : (x / (Int.gcd x (x - c) : Int)).toNat = d
      have h0 : d ≠ 0 := by
        have hg : 0 < Int.gcd x (x - c) := Int.gcd_pos_of_ne_zero_left _ (by omega)
        have hle : ((Int.gcd x (x - c) : Nat) : Int) ≤ x := Int.le_of_dvd (by omega) (Int.gcd_dvd_left ..)
        have := Int.ediv_pos_of_pos_of_dvd (by omega : 0 < x) (by omega) (Int.gcd_dvd_left x (x - c))
        omega
      obtain ⟨n, m, e, -⟩ := findNML_best d h0
      rw [e]
      have hnew : (x : ℚ) + ((Satis.Cost.L n m - d : Nat) : ℚ) * ((x : ℚ) / ((2 ^ n * 3 ^ m : Nat) : ℚ)) ≤ ((2 * x : Int) : ℚ) := by
        have hL : (0 : ℚ) < ((2 ^ n * 3 ^ m : Nat) : ℚ) := by positivity
        have hle : ((Satis.Cost.L n m - d : Nat) : ℚ) ≤ ((2 ^ n * 3 ^ m : Nat) : ℚ) := by
          have : Satis.Cost.L n m - d ≤ 2 ^ n * 3 ^ m := by unfold Satis.Cost.L; omega
          exact_mod_cast this
        have hx0 : (0 : ℚ) ≤ (x : ℚ) := by exact_mod_cast (by omega : (0 : Int) ≤ x)
        have : ((Satis.Cost.L n m - d : Nat) : ℚ) * ((x : ℚ) / ((2 ^ n * 3 ^ m : Nat) : ℚ)) ≤ x := by
          rw [mul_div_assoc', div_le_iff₀ hL, mul_comm]
          exact mul_le_mul_of_nonneg_left hle hx0
        push_cast at this ⊢
        linarith
      have n1 : ¬ ((x : ℚ) + ((Satis.Cost.L n m - d : Nat) : ℚ) * ((x : ℚ) / ((2 ^ n * 3 ^ m : Nat) : ℚ)) > (cfg.limit : ℚ)) :=
        not_lt.2 (hnew.trans (by exact_mod_cast h))
      have n2 : ¬ ((x : ℚ) + ((Satis.Cost.L n m - d : Nat) : ℚ) * ((x : ℚ) / ((2 ^ n * 3 ^ m : Nat) : ℚ)) > (cfg'.limit : ℚ)) :=
        not_lt.2 (hnew.trans (by exact_mod_cast h'))
      dsimp only
      simp only [if_neg n1, if_neg n2]

/-! ### Checking a list of moves -/

/-- The cost of a move, if the checks pass: `S` are the sources of the problem, `T` its targets. -/
def allowed (S T : List Int) (g : Net) : Op → Option Int
  | .merge idx =>
    if idx.Pairwise (· < ·) ∧ 2 ≤ idx.length ∧ (∀ i ∈ idx, i < g.vals.length) ∧
        (∀ j ∈ (List.range g.vals.length).sublists, j.map (fun i => g.vals[i]?) = idx.map (fun i => g.vals[i]?) → ¬ j < idx) ∧
        (∀ i ∈ idx, T.count (g.vals.getD i 0) < g.vals.count (g.vals.getD i 0)) ∧
        (∃ u ∈ S, u ≤ (idx.map fun i => g.vals.getD i 0).sum) ∧ (idx.map fun i => g.vals.getD i 0).sum ≤ 8 ∧
        (∀ i ∈ idx, (g.node (g.src i)).past.contains (idx.map fun i => g.vals.getD i 0).sum = false)
    then some ((idx.length / 2 : Nat) : Int) else none
  | .extract i c =>
    if i < g.vals.length ∧ (∀ j < i, g.vals.getD j 0 ≠ g.vals.getD i 0) ∧ T.count (g.vals.getD i 0) < g.vals.count (g.vals.getD i 0) ∧
        (∃ w ∈ g.vals, ∃ u ∈ T, u < w) ∧ 0 < c ∧ 2 * c < g.vals.getD i 0 ∧ g.vals.getD i 0 ≤ 8 ∧ (∃ u ∈ T, u ≤ c) ∧
        (g.node (g.src i)).past.contains c = false ∧ (g.node (g.src i)).past.contains (g.vals.getD i 0 - c) = false
    then (extractCost config (g.vals.getD i 0) c).toOption else none
  | _ => none

/-- The moves are permitted, stay within the bound and lead to the targets. -/
def follow (S T : List Int) (B : Int) : Net → List Op → Bool
  | g, [] => decide (g.vals = T)
  | g, op :: ops =>
    match allowed S T g op with
    | none => false
    | some k => decide (g.size + k ≤ B) && (decide ((g.child config op k).vals ∉ g.past.items) && follow S T B (g.child config op k) ops)

/-- What is needed of a problem for the check. -/
structure Small (P : Problem) (S T : List Int) : Prop where
  targets : P.targetValues = T
  gcd : ∀ u ∈ S ++ T, P.gcd ≤ u
  least : ∀ u ∈ T, P.minTarget ≤ u
  limit : 8 ≤ P.limit
  speeds : ∀ s ∈ P.cfg.speeds, 20 ≤ s
  belts : 16 ≤ P.cfg.limit

theorem Small.speed {S T : List Int} (M : Small P S T) {c : Int} (hc : c ≤ 8) : isSpeed P.cfg c = false := by
  rw [Bool.eq_false_iff, Ne, isSpeed_iff]
  rintro ⟨s, hs, rfl⟩
  have := M.speeds s hs
  omega

theorem getD_vals {g : Net} {i : Nat} (hi : i < g.vals.length) : g.vals[i]? = some (g.vals.getD i 0) := by
  rw [List.getD_eq_getElem?_getD, List.getElem?_eq_getElem hi, Option.getD_some]

theorem allowed_step {S T : List Int} (M : Small P S T) {g : Net} {op : Op} {k : Int} (e : allowed S T g op = some k) :
    Permitted P g.vals g.pastOf op k ∧ g.child P.cfg op k = g.child config op k := by
  cases op with
  | divide => simp [allowed] at e
  | split => simp [allowed] at e
  | merge idx =>
    dsimp only [allowed] at e
    split at e
    · next h =>
      obtain ⟨h1, h2, h3, h4, h5, ⟨u, h6, h6'⟩, h7, h8⟩ := h
      refine ⟨⟨idx.map fun i => g.vals.getD i 0, ?_, h1, h2, ?_, ?_, ?_, h7.trans M.limit, ?_, ?_⟩, rfl⟩
      · rw [List.map_map]
        exact List.map_congr_left fun i hi => getD_vals (h3 i hi)
      · intro j hj e'
        refine h4 j ?_ ?_
        · rw [List.mem_sublists]
          refine sublist_range_iff.2 ⟨hj, ?_⟩
          rw [g.vals_length]
          exact (merge_values e').1
        · rw [e', List.map_map]
          exact List.map_congr_left fun i hi => (getD_vals (h3 i hi)).symm
      · intro v hv
        obtain ⟨i, hi, rfl⟩ := List.mem_map.1 hv
        intro hn
        have := h5 i hi
        have := hn.2
        rw [M.targets] at this
        omega
      · exact (M.gcd u (by simp [h6])).trans h6'
      · rintro i hi ⟨-, hp⟩
        rw [h8 i hi] at hp
        cases hp
      · simpa using e.symm
    · cases e
  | extract i c =>
    dsimp only [allowed] at e
    split at e
    · next h =>
      obtain ⟨h1, h2, h3, ⟨w, h4, u, h4', h4''⟩, h5, h6, h7, ⟨u', h8, h8'⟩, h9, h10⟩ := h
      have hcost : extractCost config (g.vals.getD i 0) c = .ok k := by
        cases q : extractCost config (g.vals.getD i 0) c with
        | error x => rw [q] at e; simp [Except.toOption] at e
        | ok y => rw [q] at e; simpa [Except.toOption] using e
      have hcl : (1200 : Nat) = config.limit := by decide +kernel
      have hcs : ∀ s ∈ config.speeds, 20 ≤ s := by decide +kernel
      have := M.belts
      refine ⟨⟨g.vals.getD i 0, ⟨getD_vals h1, ?_⟩, ?_, ⟨w, h4, ?_⟩, h5, h6, ?_, ?_, ?_, ?_⟩, ?_⟩
      · intro j hj e'
        have hj' : j < g.vals.length := by omega
        rw [getD_vals hj'] at e'
        exact h2 j hj (Option.some.inj e')
      · intro hn
        have := hn.2
        rw [M.targets] at this
        omega
      · have := M.least u h4'
        omega
      · exact (M.gcd u' (by simp [h8])).trans h8'
      · rintro ⟨-, hp⟩
        rw [h9] at hp
        cases hp
      · rintro ⟨-, hp⟩
        rw [h10] at hp
        cases hp
      · rw [extractCost_small (cfg' := config) (by omega) (by omega) (fun s hs => by have := M.speeds s hs; omega)
          (fun s hs => by have := hcs s hs; omega), hcost]
      · have e1 := M.speed (c := c) (by omega)
        have e2 : isSpeed config c = false := by
          rw [Bool.eq_false_iff, Ne, isSpeed_iff]
          rintro ⟨s, hs, rfl⟩
          have := hcs s hs
          omega
        simp only [Net.child, e1, e2]
    · cases e

theorem follow_play {S T : List Int} (M : Small P S T) : ∀ (ops : List Op) (g0 g : Net), NPlay P B g0 g → follow S T B g ops = true →
    ∃ g', NPlay P B g0 g' ∧ g'.vals = T := by
  intro ops
  induction ops with
  | nil => exact fun g0 g h e => ⟨g, h, of_decide_eq_true e⟩
  | cons op ops ih =>
    intro g0 g h e
    unfold follow at e
    split at e
    · cases e
    · next k hk =>
      rw [Bool.and_eq_true, Bool.and_eq_true, decide_eq_true_eq, decide_eq_true_eq] at e
      obtain ⟨h1, h2⟩ := allowed_step M hk
      exact ih g0 _ (h.move ⟨op, k, h1, e.1, rfl, by rw [h2]; exact e.2.1⟩) (by rw [h2]; exact e.2.2)

theorem follow_mono {S T : List Int} {B B' : Int} (hB : B ≤ B') : ∀ (ops : List Op) (g : Net), follow S T B g ops = true → follow S T B' g ops = true := by
  intro ops
  induction ops with
  | nil => exact fun _ e => e
  | cons op ops ih =>
    intro g e
    unfold follow at e ⊢
    split at e
    · cases e
    · rw [Bool.and_eq_true, Bool.and_eq_true, decide_eq_true_eq] at e ⊢
      exact ⟨e.1.trans hB, e.2.1, ih _ e.2.2⟩

theorem extractAll_small {cfg : Config} (hs : ∀ s ∈ cfg.speeds, 20 ≤ s) (hl : 16 ≤ cfg.limit) : ∀ (ts : List Int) (v : Int), v ≤ 8 → (∀ t ∈ ts, 0 < t ∧ t ≤ 8) →
    extractAll cfg v ts = extractAll config v ts := by
  have hcl : (1200 : Nat) = config.limit := by decide +kernel
  have hcs : ∀ s ∈ config.speeds, 20 ≤ s := by decide +kernel
  intro ts
  induction ts with
  | nil => intro v _ _; rfl
  | cons t ts ih =>
    intro v hv ht
    have := ht t (by simp)
    unfold extractAll
    rw [extractCost_small (cfg' := config) (by omega) (by omega) (fun s h => by have := hs s h; omega) (fun s h => by have := hcs s h; omega),
      ih (v - t) (by omega) fun x hx => ht x (by simp [hx])]

/-- The initial bound without what the targets need. -/
def boundOf (S T : List Int) : Option Int := (extractAll config S.sum T).toOption.map fun r => ((mergeCost S.length 1 : Nat) : Int) + r

/-- The moves for the problems where merging everything is not permitted. -/
def plans : List (List Int × List Int × List Op) := [
    ([1, 2], [1, 2], []), ([1, 1, 1, 1], [1, 3], [.merge [0, 1, 2]]), ([1, 1, 2], [1, 3], [.merge [0, 2]]), ([1, 3], [1, 3], []),
    ([1, 1, 1, 1, 1], [1, 4], [.merge [0, 1, 2, 3]]), ([1, 1, 1, 2], [2, 3], [.merge [0, 1, 2]]), ([1, 1, 1, 2], [1, 4], [.merge [0, 1, 3]]),
    ([1, 2, 2], [2, 3], [.merge [0, 1]]), ([1, 2, 2], [1, 4], [.merge [1, 2]]), ([1, 1, 3], [2, 3], [.merge [0, 1]]),
    ([1, 1, 3], [1, 4], [.merge [0, 2]]), ([2, 3], [2, 3], []), ([1, 4], [1, 4], []),
    ([1, 1, 1, 1, 1, 1], [1, 2, 3], [.merge [0, 1], .merge [0, 1, 2]]), ([1, 1, 1, 1, 1, 1], [1, 5], [.merge [0, 1, 2, 3, 4]]),
    ([1, 1, 1, 1, 2], [1, 2, 3], [.merge [0, 1, 2]]), ([1, 1, 1, 1, 2], [2, 4], [.merge [0, 1, 2, 3]]),
    ([1, 1, 1, 1, 2], [1, 5], [.merge [0, 1, 2, 4]]), ([1, 1, 2, 2], [1, 2, 3], [.merge [0, 2]]), ([1, 1, 2, 2], [2, 4], [.merge [0, 1, 2]]),
    ([1, 1, 2, 2], [1, 5], [.merge [0, 2, 3]]), ([2, 2, 2], [1, 2, 3], [.merge [0, 1], .extract 1 1]), ([2, 2, 2], [2, 4], [.merge [0, 1]]),
    ([1, 1, 1, 3], [1, 2, 3], [.merge [0, 1]]), ([1, 1, 1, 3], [1, 5], [.merge [0, 1, 3]]), ([1, 2, 3], [1, 2, 3], []),
    ([1, 2, 3], [2, 4], [.merge [0, 2]]), ([1, 2, 3], [1, 5], [.merge [1, 2]]), ([3, 3], [1, 2, 3], [.extract 0 1]),
    ([1, 1, 4], [1, 2, 3], [.merge [0, 1], .extract 1 1]), ([1, 1, 4], [2, 4], [.merge [0, 1]]), ([1, 1, 4], [1, 5], [.merge [0, 2]]),
    ([2, 4], [1, 2, 3], [.extract 1 1]), ([2, 4], [2, 4], []), ([1, 5], [1, 2, 3], [.extract 1 2]), ([1, 5], [1, 5], []),
    ([1, 1, 1, 1, 1, 1, 1], [1, 2, 4], [.merge [0, 1], .merge [0, 1, 2, 3]]), ([1, 1, 1, 1, 1, 1, 1], [1, 6], [.merge [0, 1, 2, 3, 4, 5]]),
    ([1, 1, 1, 1, 1, 2], [1, 2, 4], [.merge [0, 1, 2, 3]]), ([1, 1, 1, 1, 1, 2], [2, 5], [.merge [0, 1, 2, 3, 4]]),
    ([1, 1, 1, 1, 1, 2], [1, 6], [.merge [0, 1, 2, 3, 5]]), ([1, 1, 1, 2, 2], [1, 2, 4], [.merge [0, 1, 3]]),
    ([1, 1, 1, 2, 2], [2, 5], [.merge [0, 1, 2, 3]]), ([1, 1, 1, 2, 2], [1, 6], [.merge [0, 1, 3, 4]]), ([1, 2, 2, 2], [1, 2, 4], [.merge [1, 2]]),
    ([1, 2, 2, 2], [2, 5], [.merge [0, 1, 2]]), ([1, 2, 2, 2], [1, 6], [.merge [1, 2, 3]]),
    ([1, 1, 1, 1, 3], [1, 2, 4], [.merge [0, 1], .merge [0, 3]]), ([1, 1, 1, 1, 3], [3, 4], [.merge [0, 1, 2, 3]]),
    ([1, 1, 1, 1, 3], [1, 6], [.merge [0, 1, 2, 4]]), ([1, 1, 2, 3], [1, 2, 4], [.merge [0, 3]]), ([1, 1, 2, 3], [3, 4], [.merge [0, 1, 2]]),
    ([1, 1, 2, 3], [2, 5], [.merge [0, 1, 3]]), ([1, 1, 2, 3], [1, 6], [.merge [0, 2, 3]]), ([2, 2, 3], [1, 2, 4], [.merge [0, 1], .extract 0 1]),
    ([2, 2, 3], [3, 4], [.merge [0, 1]]), ([2, 2, 3], [2, 5], [.merge [0, 2]]), ([1, 3, 3], [1, 2, 4], [.merge [1, 2], .extract 1 2]),
    ([1, 3, 3], [3, 4], [.merge [0, 1]]), ([1, 3, 3], [1, 6], [.merge [1, 2]]), ([1, 1, 1, 4], [1, 2, 4], [.merge [0, 1]]),
    ([1, 1, 1, 4], [3, 4], [.merge [0, 1, 2]]), ([1, 1, 1, 4], [1, 6], [.merge [0, 1, 3]]), ([1, 2, 4], [1, 2, 4], []),
    ([1, 2, 4], [3, 4], [.merge [0, 1]]), ([1, 2, 4], [2, 5], [.merge [0, 2]]), ([1, 2, 4], [1, 6], [.merge [1, 2]]),
    ([3, 4], [1, 2, 4], [.extract 0 1]), ([3, 4], [3, 4], []), ([1, 1, 5], [1, 2, 4], [.merge [0, 1], .extract 1 1]),
    ([1, 1, 5], [2, 5], [.merge [0, 1]]), ([1, 1, 5], [1, 6], [.merge [0, 2]]), ([2, 5], [1, 2, 4], [.extract 1 1]), ([2, 5], [2, 5], []),
    ([1, 6], [1, 2, 4], [.extract 1 2]), ([1, 6], [1, 6], []), ([1, 1, 1, 1, 1, 1, 1, 1], [1, 3, 4], [.merge [0, 1, 2], .merge [0, 1, 2, 3]]),
    ([1, 1, 1, 1, 1, 1, 1, 1], [1, 2, 5], [.merge [0, 1], .merge [0, 1, 2, 3, 4]]), ([1, 1, 1, 1, 1, 1, 1, 1], [1, 7], [.merge [0, 1, 2, 3, 4, 5, 6]]),
    ([1, 1, 1, 1, 1, 1, 2], [1, 3, 4], [.merge [0, 1, 2], .merge [0, 1, 3]]), ([1, 1, 1, 1, 1, 1, 2], [1, 2, 5], [.merge [0, 1, 2, 3, 4]]),
    ([1, 1, 1, 1, 1, 1, 2], [2, 6], [.merge [0, 1, 2, 3, 4, 5]]), ([1, 1, 1, 1, 1, 1, 2], [1, 7], [.merge [0, 1, 2, 3, 4, 6]]),
    ([1, 1, 1, 1, 2, 2], [1, 3, 4], [.merge [0, 1, 2], .merge [1, 2]]), ([1, 1, 1, 1, 2, 2], [1, 2, 5], [.merge [0, 1, 2, 4]]),
    ([1, 1, 1, 1, 2, 2], [2, 6], [.merge [0, 1, 2, 3, 4]]), ([1, 1, 1, 1, 2, 2], [1, 7], [.merge [0, 1, 2, 4, 5]]),
    ([1, 1, 2, 2, 2], [1, 3, 4], [.merge [0, 2], .merge [1, 2]]), ([1, 1, 2, 2, 2], [1, 2, 5], [.merge [0, 2, 3]]),
    ([1, 1, 2, 2, 2], [2, 6], [.merge [0, 1, 2, 3]]), ([1, 1, 2, 2, 2], [1, 7], [.merge [0, 2, 3, 4]]),
    ([2, 2, 2, 2], [1, 2, 5], [.merge [0, 1, 2], .extract 1 1]), ([2, 2, 2, 2], [2, 6], [.merge [0, 1, 2]]),
    ([1, 1, 1, 1, 1, 3], [1, 3, 4], [.merge [0, 1, 2, 3]]), ([1, 1, 1, 1, 1, 3], [1, 2, 5], [.merge [0, 1], .merge [0, 1, 4]]),
    ([1, 1, 1, 1, 1, 3], [3, 5], [.merge [0, 1, 2, 3, 4]]), ([1, 1, 1, 1, 1, 3], [1, 7], [.merge [0, 1, 2, 3, 5]]),
    ([1, 1, 1, 2, 3], [1, 3, 4], [.merge [0, 1, 3]]), ([1, 1, 1, 2, 3], [1, 2, 5], [.merge [0, 1, 4]]),
    ([1, 1, 1, 2, 3], [3, 5], [.merge [0, 1, 2, 3]]), ([1, 1, 1, 2, 3], [2, 6], [.merge [0, 1, 2, 4]]),
    ([1, 1, 1, 2, 3], [1, 7], [.merge [0, 1, 3, 4]]), ([1, 2, 2, 3], [1, 3, 4], [.merge [1, 2]]), ([1, 2, 2, 3], [1, 2, 5], [.merge [1, 3]]),
    ([1, 2, 2, 3], [3, 5], [.merge [0, 1, 2]]), ([1, 2, 2, 3], [2, 6], [.merge [0, 1, 3]]), ([1, 2, 2, 3], [1, 7], [.merge [1, 2, 3]]),
    ([1, 1, 3, 3], [1, 3, 4], [.merge [0, 2]]), ([1, 1, 3, 3], [1, 2, 5], [.merge [0, 1, 2], .extract 0 1]),
    ([1, 1, 3, 3], [3, 5], [.merge [0, 1, 2]]), ([1, 1, 3, 3], [1, 7], [.merge [0, 2, 3]]), ([2, 3, 3], [1, 3, 4], [.merge [0, 1], .extract 1 1]),
    ([2, 3, 3], [1, 2, 5], [.merge [1, 2], .extract 1 1]), ([2, 3, 3], [3, 5], [.merge [0, 1]]), ([2, 3, 3], [2, 6], [.merge [1, 2]]),
    ([1, 1, 1, 1, 4], [1, 3, 4], [.merge [0, 1, 2]]), ([1, 1, 1, 1, 4], [1, 2, 5], [.merge [0, 1], .merge [0, 3]]),
    ([1, 1, 1, 1, 4], [1, 7], [.merge [0, 1, 2, 4]]), ([1, 1, 2, 4], [1, 3, 4], [.merge [0, 2]]), ([1, 1, 2, 4], [1, 2, 5], [.merge [0, 3]]),
    ([1, 1, 2, 4], [2, 6], [.merge [0, 1, 3]]), ([1, 1, 2, 4], [1, 7], [.merge [0, 2, 3]]), ([2, 2, 4], [1, 3, 4], [.merge [0, 1], .extract 0 1]),
    ([2, 2, 4], [1, 2, 5], [.merge [0, 2], .extract 1 1]), ([2, 2, 4], [2, 6], [.merge [0, 2]]), ([1, 3, 4], [1, 3, 4], []),
    ([1, 3, 4], [1, 2, 5], [.merge [1, 2], .extract 1 2]), ([1, 3, 4], [3, 5], [.merge [0, 2]]), ([1, 3, 4], [1, 7], [.merge [1, 2]]),
    ([4, 4], [1, 3, 4], [.extract 0 1]), ([1, 1, 1, 5], [1, 3, 4], [.merge [0, 1, 2], .extract 1 1]), ([1, 1, 1, 5], [1, 2, 5], [.merge [0, 1]]),
    ([1, 1, 1, 5], [3, 5], [.merge [0, 1, 2]]), ([1, 1, 1, 5], [1, 7], [.merge [0, 1, 3]]), ([1, 2, 5], [1, 3, 4], [.merge [1, 2], .extract 1 3]),
    ([1, 2, 5], [1, 2, 5], []), ([1, 2, 5], [3, 5], [.merge [0, 1]]), ([1, 2, 5], [2, 6], [.merge [0, 2]]), ([1, 2, 5], [1, 7], [.merge [1, 2]]),
    ([3, 5], [1, 3, 4], [.extract 1 1]), ([3, 5], [1, 2, 5], [.extract 0 1]), ([3, 5], [3, 5], []),
    ([1, 1, 6], [1, 3, 4], [.merge [0, 2], .extract 1 3]), ([1, 1, 6], [1, 2, 5], [.merge [0, 1], .extract 1 1]), ([1, 1, 6], [2, 6], [.merge [0, 1]]),
    ([1, 1, 6], [1, 7], [.merge [0, 2]]), ([2, 6], [1, 2, 5], [.extract 1 1]), ([2, 6], [2, 6], []), ([1, 7], [1, 3, 4], [.extract 1 3]),
    ([1, 7], [1, 2, 5], [.extract 1 2]), ([1, 7], [1, 7], [])]

/-- Merging everything and extracting the targets is permitted. -/
def fits (S T : List Int) : Bool := decide (S.length < 2) || S.all fun v => decide (v ∉ T ∧ v ∉ remainders T)

/-- One of the lists leads from `S` to `T`. -/
def planned (S T : List Int) : Bool :=
  match boundOf S T with
  | none => true
  | some B => fits S T || plans.any fun p => decide (p.1 = S) && (decide (p.2.1 = T) && follow S T B (Net.ofValues S) p.2.2)

theorem all_planned : ∀ n < 9, ∀ S ∈ ascents n n 1, ∀ T ∈ ascents n n 1, ¬ T.Pairwise (· < ·) ∨ planned S T = true := by
  decide +kernel

/-- Sources of a total of at most `8` can be turned into the targets by permitted moves within the bound. -/
theorem petty_play {values : List Int} (hP : P.WF) (hne : values ≠ []) (hpv : ∀ v ∈ values, 0 < v) (hsv : values.Pairwise (· ≤ ·))
    (hts : P.targetValues ≠ []) (hs : P.targetValues.Pairwise (· < ·)) (hpos : ∀ v ∈ P.targetValues, 0 < v)
    (hmin : ∀ v ∈ P.targetValues, P.minTarget ≤ v) (hgcd : ∀ v ∈ values ++ P.targetValues, P.gcd ∣ v)
    (hsum : P.targetValues.sum = values.sum) (h8 : values.sum ≤ 8) (hl : 8 ≤ P.limit) (h20 : ∀ s ∈ P.cfg.speeds, 20 ≤ s) (hb : 16 ≤ P.cfg.limit) {r : Int}
    (hr : extractAll P.cfg values.sum P.targetValues = .ok r) (hr0 : 0 ≤ r)
    (hB : ((mergeCost values.length 1 : Nat) : Int) + r ≤ B) : ∃ g, NPlay P B (Net.ofValues values) g ∧ g.vals = P.targetValues := by
  have M : Small P values P.targetValues := ⟨rfl, fun u hu => Int.le_of_dvd (by
    rcases List.mem_append.1 hu with h | h
    · exact hpv u h
    · exact hpos u h) (hgcd u hu), hmin, hl, h20, hb⟩
  have l1 := length_le_sum values hpv
  have l2 := length_le_sum _ hpos
  have hn : ((values.sum.toNat : Nat) : Int) = values.sum := Int.toNat_of_nonneg (by omega)
  have m1 := mem_ascents values.sum.toNat values.sum.toNat 1 values (by omega) hn.symm hsv hpv fun v hv => by have := hpv v hv; omega
  have m2 := mem_ascents values.sum.toNat values.sum.toNat 1 P.targetValues (by omega) (by rw [hsum]; exact hn.symm) (hs.imp fun h => le_of_lt h) hpos
    fun v hv => by have := hpos v hv; omega
  have key := (all_planned values.sum.toNat (by omega) values m1 _ m2).resolve_left (not_not.2 hs)
  have hle : ∀ t ∈ P.targetValues, 0 < t ∧ t ≤ 8 := fun t ht =>
    ⟨hpos t ht, (List.single_le_sum (fun x hx => le_of_lt (hpos x hx)) t ht).trans (by rw [hsum]; exact h8)⟩
  have hr' := hr
  rw [extractAll_small h20 hb _ _ h8 hle] at hr'
  unfold planned boundOf at key
  rw [hr'] at key
  simp only [Except.toOption, Option.map_some, Bool.or_eq_true, List.any_eq_true, Bool.and_eq_true, decide_eq_true_eq] at key
  rcases key with key | ⟨p, -, e1, e2, key⟩
  · have hfit : PlanFits P.limit values P.targetValues := by
      intro h2
      refine ⟨h8.trans hl, fun v hv => ?_⟩
      unfold fits at key
      rw [Bool.or_eq_true, decide_eq_true_eq, List.all_eq_true] at key
      rcases key with w | w
      · omega
      · exact of_decide_eq_true (w v hv)
    obtain ⟨g, g1, g2, -⟩ := plan_play hP hne hpv hsv hts hs hpos hmin hgcd hsum hfit hr hr0 hB
    exact ⟨g, g1, g2⟩
  · exact follow_play M _ _ _ .start (follow_mono hB _ _ key)

end Satis.Solver
