import Verif.Solver.LoadSpec
import Verif.Solver.Spec
import Verif.Graph.GroupLemmas
import Verif.Cost.Costs
import Verif.Utils.Numbers
import Verif.Utils.Pairs
/-!
# What `load` computes
-/

namespace Satis.Solver
open Satis Satis.Graph Satis.Utils Satis.Cost

/-! ### The size bound -/

theorem extractCost_within (cfg : Config) (x c : Int) (hx : 3 ≤ x) (h0 : 0 ≤ c) (hc : c ≤ x) :
    ∃ r, extractCost cfg x c = .ok r ∧ 0 ≤ r := by
  by_cases h : c = 0 ∨ c = x
  · refine ⟨0, ?_, le_rfl⟩
    unfold extractCost
    rw [if_neg (by omega), if_pos h]
  · obtain ⟨r, h1, h2⟩ := extractCost_pos cfg x c hx (by omega) (by omega)
    exact ⟨r, h1, by omega⟩

theorem mem_le_sum {l : List Int} (hnn : ∀ v ∈ l, 0 ≤ v) {m : Int} (hm : m ∈ l) : m ≤ l.sum := by
  induction l with
  | nil => simp at hm
  | cons x l ih =>
    have h1 : 0 ≤ l.sum := List.sum_nonneg (fun v hv => hnn v (by simp [hv]))
    have h2 := hnn x (by simp)
    rw [List.sum_cons]
    rcases List.mem_cons.1 hm with rfl | hm
    · omega
    · have := ih (fun v hv => hnn v (by simp [hv])) hm
      omega

theorem extractAll_spec (cfg : Config) : ∀ (ts : List Int), ts ≠ [] → ts.Pairwise (· ≤ ·) → (∀ v ∈ ts, 0 ≤ v) →
    (∃ r, extractAll cfg ts.sum ts = .ok r ∧ 0 ≤ r ∧ ∃ m ∈ ts, 2 < m) ∨
    (extractAll cfg ts.sum ts = .error .valueError ∧ ∀ m ∈ ts, m ≤ 2) := by
  intro ts
  induction ts with
  | nil => intro h; exact absurd rfl h
  | cons t ts ih =>
    intro _ hs hnn
    have hs' := List.pairwise_cons.1 hs
    have h0 := hnn t (by simp)
    have hsum : t ≤ (t :: ts).sum := mem_le_sum hnn (by simp)
    have hrest : (t :: ts).sum - t = ts.sum := by rw [List.sum_cons]; omega
    have hstep : extractAll cfg (t :: ts).sum (t :: ts) = match extractCost cfg (t :: ts).sum t with
        | .error e => .error e
        | .ok c => match extractAll cfg ts.sum ts with
          | .error e => .error e
          | .ok r => .ok (c + r) := by rw [← hrest]; rfl
    rw [hstep]
    by_cases hx : 3 ≤ (t :: ts).sum
    · obtain ⟨c, hc, hc0⟩ := extractCost_within cfg _ t hx h0 hsum
      rw [hc]
      dsimp only
      by_cases hne : ts = []
      · subst hne
        left
        refine ⟨c, by simp [extractAll], hc0, t, by simp, ?_⟩
        simp at hx; omega
      · rcases ih hne hs'.2 (fun v hv => hnn v (by simp [hv])) with ⟨r, hr, hr0, m, hm, hm2⟩ | ⟨he, hall⟩
        · left
          rw [hr]
          exact ⟨c + r, rfl, by omega, m, by simp [hm], hm2⟩
        · right
          rw [he]
          refine ⟨rfl, ?_⟩
          intro m hm
          rcases List.mem_cons.1 hm with rfl | hm
          · obtain ⟨x, hx⟩ := List.exists_mem_of_ne_nil ts hne
            exact (hs'.1 x hx).trans (hall x hx)
          · exact hall m hm
    · right
      have : extractCost cfg (t :: ts).sum t = .error .valueError := by
        unfold extractCost; rw [if_pos (by omega)]
      rw [this]
      exact ⟨rfl, fun m hm => by have := mem_le_sum hnn hm; omega⟩

/-! ### Balancing, cancelling, scaling -/

theorem sum_insort (l : List ℚ) (x : ℚ) : (insort id l x).sum = x + l.sum := by
  rw [(insort_perm id l x).sum_eq, List.sum_cons]

theorem balance_perm (s t : List ℚ) :
    (balance s t).1.Perm (s ++ extra s.sum t.sum) ∧ (balance s t).2.Perm (t ++ extra t.sum s.sum) := by
  unfold balance extra
  by_cases h1 : s.sum < t.sum
  · rw [if_pos h1, if_pos h1, if_neg (not_lt.2 (le_of_lt h1))]
    exact ⟨(insort_perm id s _).trans (List.perm_append_singleton _ _).symm, by simp⟩
  · rw [if_neg h1, if_neg h1]
    by_cases h2 : s.sum > t.sum
    · rw [if_pos h2, if_pos h2]
      exact ⟨by simp, (insort_perm id t _).trans (List.perm_append_singleton _ _).symm⟩
    · rw [if_neg h2, if_neg h2]; simp

theorem balance_sum (s t : List ℚ) : (balance s t).1.sum = (balance s t).2.sum := by
  unfold balance
  by_cases h1 : s.sum < t.sum
  · rw [if_pos h1]; dsimp only; rw [sum_insort]; ring
  · rw [if_neg h1]
    by_cases h2 : s.sum > t.sum
    · rw [if_pos h2]; dsimp only; rw [sum_insort]; ring
    · rw [if_neg h2]; exact le_antisymm (not_lt.1 h2) (not_lt.1 h1)

theorem balance_sorted (s t : List ℚ) (hs : s.Pairwise (· ≤ ·)) (ht : t.Pairwise (· ≤ ·)) :
    (balance s t).1.Pairwise (· ≤ ·) ∧ (balance s t).2.Pairwise (· ≤ ·) := by
  unfold balance
  by_cases h1 : s.sum < t.sum
  · rw [if_pos h1]; exact ⟨insort_sorted id s hs _, ht⟩
  · rw [if_neg h1]
    by_cases h2 : s.sum > t.sum
    · rw [if_pos h2]; exact ⟨hs, insort_sorted id t ht _⟩
    · rw [if_neg h2]; exact ⟨hs, ht⟩

/-- The values `load` goes on with after balancing and cancelling. -/
def reduced (s t : List ℚ) : List ℚ × List ℚ :=
  removePairs (balance (s.insertionSort (· ≤ ·)) (t.insertionSort (· ≤ ·))).1
    (balance (s.insertionSort (· ≤ ·)) (t.insertionSort (· ≤ ·))).2

/-- What is known about them. -/
theorem reduced_spec (s t : List ℚ) :
    (∃ c, ((reduced s t).1 ++ c).Perm (s ++ extra s.sum t.sum) ∧ ((reduced s t).2 ++ c).Perm (t ++ extra t.sum s.sum)) ∧
    (reduced s t).1.Pairwise (· ≤ ·) ∧ (reduced s t).2.Pairwise (· ≤ ·) ∧
    (reduced s t).1.sum = (reduced s t).2.sum ∧ ∀ v ∈ (reduced s t).1, v ∉ (reduced s t).2 := by
  have ps := List.perm_insertionSort (· ≤ ·) s
  have pt := List.perm_insertionSort (· ≤ ·) t
  have hb := balance_perm (s.insertionSort (· ≤ ·)) (t.insertionSort (· ≤ ·))
  rw [ps.sum_eq, pt.sum_eq] at hb
  have hsorted := balance_sorted _ _ (List.pairwise_insertionSort (· ≤ ·) s) (List.pairwise_insertionSort (· ≤ ·) t)
  have hsum := balance_sum (s.insertionSort (· ≤ ·)) (t.insertionSort (· ≤ ·))
  unfold reduced
  generalize balance (s.insertionSort (· ≤ ·)) (t.insertionSort (· ≤ ·)) = b at hb hsorted hsum
  obtain ⟨c, c1, c2⟩ := removePairs_perm b.1 b.2
  have hpw := removePairs_pairwise (r := fun (a b : ℚ) => a ≤ b) (fun x => le_rfl) b.1 b.2
  refine ⟨⟨c, ?_, ?_⟩, hpw.1 hsorted.1, hpw.2 hsorted.2, ?_, ?_⟩
  · exact c1.trans (hb.1.trans (List.Perm.append_right _ ps))
  · exact c2.trans (hb.2.trans (List.Perm.append_right _ pt))
  · have h1 := c1.sum_eq
    have h2 := c2.sum_eq
    rw [List.sum_append] at h1 h2
    linarith
  · intro v h1 h2
    have := removePairs_count b.1 b.2 v
    have k1 := List.count_pos_iff.2 h1
    have k2 := List.count_pos_iff.2 h2
    omega

theorem reduced_pos {s t : List ℚ} (hs : ∀ v ∈ s, 0 < v) (ht : ∀ v ∈ t, 0 < v) :
    (∀ v ∈ (reduced s t).1, 0 < v) ∧ ∀ v ∈ (reduced s t).2, 0 < v := by
  obtain ⟨⟨c, c1, c2⟩, -⟩ := reduced_spec s t
  have hex : ∀ x y : ℚ, ∀ v ∈ extra x y, 0 < v := by
    intro x y v hv
    unfold extra at hv
    split at hv
    · rw [List.mem_singleton.1 hv]; linarith
    · simp at hv
  constructor
  · intro v hv
    rcases List.mem_append.1 (c1.mem_iff.1 (List.mem_append_left _ hv)) with h | h
    · exact hs v h
    · exact hex _ _ v h
  · intro v hv
    rcases List.mem_append.1 (c2.mem_iff.1 (List.mem_append_left _ hv)) with h | h
    · exact ht v h
    · exact hex _ _ v h

/-- The integers `load` works with. -/
def scaledSources (s t : List ℚ) : List Int :=
  (fractionsToIntegers ((reduced s t).1 ++ (reduced s t).2)).1.take (reduced s t).1.length

/-- The integers `load` works with. -/
def scaledTargets (s t : List ℚ) : List Int :=
  (fractionsToIntegers ((reduced s t).1 ++ (reduced s t).2)).1.drop (reduced s t).1.length

/-- `unit_flow_ratio`. -/
def ratio (s t : List ℚ) : Nat := (fractionsToIntegers ((reduced s t).1 ++ (reduced s t).2)).2

theorem ratio_pos (s t : List ℚ) : 1 ≤ ratio s t := common_pos _

theorem scaled_cast (s t : List ℚ) :
    (scaledSources s t).map (fun (z : ℤ) => (z : ℚ)) = (reduced s t).1.map (fun f => f * (ratio s t : ℚ)) ∧
    (scaledTargets s t).map (fun (z : ℤ) => (z : ℚ)) = (reduced s t).2.map (fun f => f * (ratio s t : ℚ)) := by
  have h := fractionsToIntegers_cast ((reduced s t).1 ++ (reduced s t).2)
  unfold scaledSources scaledTargets ratio
  constructor
  · rw [List.map_take, h, ← List.map_take, List.take_left]
  · rw [List.map_drop, h, ← List.map_drop, List.drop_left]

theorem map_mul_sum (l : List ℚ) (r : ℚ) : (l.map (fun f => f * r)).sum = l.sum * r := by
  induction l with
  | nil => simp
  | cons x l ih => rw [List.map_cons, List.sum_cons, List.sum_cons, ih]; ring

theorem cast_sum (l : List Int) : ((l.sum : Int) : ℚ) = (l.map (fun (z : ℤ) => (z : ℚ))).sum := by
  induction l with
  | nil => simp
  | cons x l ih => rw [List.map_cons, List.sum_cons, List.sum_cons, ← ih]; push_cast; ring

theorem scaled_sum (s t : List ℚ) : (scaledSources s t).sum = (scaledTargets s t).sum := by
  have h : (((scaledSources s t).sum : Int) : ℚ) = (((scaledTargets s t).sum : Int) : ℚ) := by
    rw [cast_sum, cast_sum, (scaled_cast s t).1, (scaled_cast s t).2, map_mul_sum, map_mul_sum, (reduced_spec s t).2.2.2.1]
  exact_mod_cast h

theorem sorted_of_cast {l : List Int} {m : List ℚ} {r : ℚ} (hr : 0 < r) (h : l.map (fun (z : ℤ) => (z : ℚ)) = m.map (fun f => f * r))
    (hs : m.Pairwise (· ≤ ·)) : l.Pairwise (· ≤ ·) := by
  have h1 : (m.map (fun f => f * r)).Pairwise (· ≤ ·) := by
    rw [List.pairwise_map]
    exact hs.imp (fun hab => mul_le_mul_of_nonneg_right hab hr.le)
  rw [← h, List.pairwise_map] at h1
  exact h1.imp (fun hab => by exact_mod_cast hab)

theorem mem_of_cast {l : List Int} {m : List ℚ} {r : ℚ} (h : l.map (fun (z : ℤ) => (z : ℚ)) = m.map (fun f => f * r)) {z : Int}
    (hz : z ∈ l) : ∃ f ∈ m, (z : ℚ) = f * r := by
  have : (z : ℚ) ∈ m.map (fun f => f * r) := by rw [← h]; exact List.mem_map.2 ⟨z, hz, rfl⟩
  obtain ⟨f, hf, e⟩ := List.mem_map.1 this
  exact ⟨f, hf, e.symm⟩

theorem ratio_pos' (s t : List ℚ) : (0 : ℚ) < ratio s t := by exact_mod_cast ratio_pos s t

theorem scaled_sorted (s t : List ℚ) : (scaledSources s t).Pairwise (· ≤ ·) ∧ (scaledTargets s t).Pairwise (· ≤ ·) :=
  ⟨sorted_of_cast (ratio_pos' s t) (scaled_cast s t).1 (reduced_spec s t).2.1,
    sorted_of_cast (ratio_pos' s t) (scaled_cast s t).2 (reduced_spec s t).2.2.1⟩

theorem scaled_pos {s t : List ℚ} (hs : ∀ v ∈ s, 0 < v) (ht : ∀ v ∈ t, 0 < v) :
    (∀ v ∈ scaledSources s t, 0 < v) ∧ ∀ v ∈ scaledTargets s t, 0 < v := by
  have hp := reduced_pos hs ht
  constructor
  · intro v hv
    obtain ⟨f, hf, e⟩ := mem_of_cast (scaled_cast s t).1 hv
    have : (0 : ℚ) < v := by rw [e]; exact mul_pos (hp.1 f hf) (ratio_pos' s t)
    exact_mod_cast this
  · intro v hv
    obtain ⟨f, hf, e⟩ := mem_of_cast (scaled_cast s t).2 hv
    have : (0 : ℚ) < v := by rw [e]; exact mul_pos (hp.2 f hf) (ratio_pos' s t)
    exact_mod_cast this

theorem scaled_disjoint (s t : List ℚ) : ∀ v ∈ scaledSources s t, v ∉ scaledTargets s t := by
  intro v h1 h2
  obtain ⟨f, hf, e⟩ := mem_of_cast (scaled_cast s t).1 h1
  obtain ⟨g, hg, e'⟩ := mem_of_cast (scaled_cast s t).2 h2
  have : f = g := mul_right_cancel₀ (ratio_pos' s t).ne' (e.symm.trans e')
  exact (reduced_spec s t).2.2.2.2 f hf (this ▸ hg)

theorem scaled_length (s t : List ℚ) :
    (scaledSources s t).length = (reduced s t).1.length ∧ (scaledTargets s t).length = (reduced s t).2.length := by
  have h := scaled_cast s t
  have h1 := congrArg List.length h.1
  have h2 := congrArg List.length h.2
  simpa using And.intro h1 h2

theorem pos_nil_iff {l m : List ℚ} (hl : ∀ v ∈ l, 0 < v) (hm : ∀ v ∈ m, 0 < v) (h : l.sum = m.sum) : l = [] ↔ m = [] := by
  have key : ∀ l : List ℚ, (∀ v ∈ l, 0 < v) → l.sum = 0 → l = [] := by
    intro l hl h0
    cases l with
    | nil => rfl
    | cons x l =>
      exfalso
      have h1 := hl x (by simp)
      have h2 : 0 ≤ l.sum := List.sum_nonneg (fun v hv => (hl v (by simp [hv])).le)
      rw [List.sum_cons] at h0
      linarith
  constructor
  · rintro rfl; exact key m hm (by rw [← h]; rfl)
  · rintro rfl; exact key l hl (by rw [h]; rfl)

/-! ### The result -/

/-- What `load` returns when it accepts, and the facts about it. -/
structure Loads (cfg : Config) (s t : List ℚ) (h : Heap Int) (r : After) : Prop where
  ok : r.result = .ok true
  nonempty : (reduced s t).1 ≠ []
  nonneg : (∀ v ∈ scaledSources s t, 0 ≤ v) ∧ ∀ v ∈ scaledTargets s t, 0 ≤ v
  name : r.attrs.problemStr = problemName (reduced s t).1 (reduced s t).2
  ratio : r.attrs.unitFlowRatio = ratio s t
  sources : r.attrs.treeSource.sourceValues = scaledSources s t
  reset : r.attrs.solving = false ∧ r.attrs.doneSolving = false ∧ r.attrs.concluding = false ∧ r.attrs.doneConcluding = false ∧
    r.attrs.solutions = [] ∧ r.attrs.solutionsCount = 0
  grouped : ∃ hg inner, GroupInv cfg h (scaledTargets s t) hg r.attrs.leaves inner r.attrs.sizeOffset ∧
    r.attrs.leaves.Pairwise (fun a b => (hg.get a).value < (hg.get b).value) ∧
    r.attrs.targetValues = r.attrs.leaves.map (fun a => (hg.get a).value) ∧ Heap.Ext hg r.heap ∧
    ∃ h1 roots, newNodes hg [] none (scaledSources s t) = .ok (h1, roots) ∧ (r.heap, r.attrs.treeSource) = newTree h1 roots
  minTarget : r.attrs.minTarget ∈ r.attrs.targetValues ∧ ∀ v ∈ r.attrs.targetValues, r.attrs.minTarget ≤ v
  counts : ∀ v, (r.attrs.targetCounts.get? v).getD 0 = r.attrs.targetValues.count v
  limit : r.attrs.limit = cfg.limit
  nTargets : r.attrs.nTargets = r.attrs.targetValues.length
  bound : ∃ e, extractAll cfg (scaledSources s t).sum r.attrs.targetValues = .ok e ∧ 0 ≤ e ∧
    r.attrs.bestSize = (mergeCost (scaledSources s t).length 1 : Nat) + e + r.attrs.sizeOffset
  big : ∃ m ∈ r.attrs.targetValues, 2 < m
  gcd : computeGcd (scaledSources s t ++ r.attrs.targetValues) = .ok r.attrs.gcd

theorem foldl_min_spec (x : Int) (xs : List Int) :
    xs.foldl min x ∈ x :: xs ∧ ∀ v ∈ x :: xs, xs.foldl min x ≤ v := by
  induction xs generalizing x with
  | nil => simp
  | cons y ys ih =>
    rw [List.foldl_cons]
    obtain ⟨h1, h2⟩ := ih (min x y)
    constructor
    · rcases List.mem_cons.1 h1 with h | h
      · rw [h]
        rcases le_total x y with hh | hh
        · rw [min_eq_left hh]; simp
        · rw [min_eq_right hh]; simp
      · simp [h]
    · intro v hv
      have h0 := h2 (min x y) (by simp)
      rcases List.mem_cons.1 hv with rfl | hv
      · exact h0.trans (min_le_left _ _)
      · rcases List.mem_cons.1 hv with rfl | hv
        · exact h0.trans (min_le_right _ _)
        · exact h2 v (by simp [hv])

theorem counts_get (l : List Int) (v : Int) :
    (Dict.get? (l.dedup.map fun v => (v, l.count v)) v).getD 0 = l.count v := by
  have key : ∀ m : List Int, (Dict.get? (m.map fun v => (v, l.count v)) v).getD 0 = if v ∈ m then l.count v else 0 := by
    intro m
    induction m with
    | nil => rfl
    | cons x m ih =>
      simp only [List.map_cons, Dict.get?]
      by_cases h : x = v
      · subst h; simp
      · rw [if_neg h, ih]
        simp [Ne.symm h]
  rw [key]
  by_cases h : v ∈ l
  · rw [if_pos (List.mem_dedup.2 h)]
  · rw [if_neg (fun e => h (List.mem_dedup.1 e)), List.count_eq_zero_of_not_mem h]

theorem newNodes_ok {h h1 : Heap Int} {vs : List Int} {roots : List Addr} (e : newNodes h [] none vs = .ok (h1, roots)) :
    (∀ v ∈ vs, 0 ≤ v) ∧ roots = List.range' h.next vs.length ∧ valuesOf h1 roots = vs ∧ Heap.Ext h h1 ∧
    ∀ a ∈ roots, h.next ≤ a ∧ a < h1.next := by
  have hnn : ∀ v ∈ vs, 0 ≤ v := by
    by_contra hneg
    push Not at hneg
    rw [newNodes_negative _ _ _ _ hneg] at e
    simp at e
  obtain ⟨h1', e1, e2, e3, e4, e5⟩ := newNodes_spec [] none vs h hnn
  rw [e1] at e
  simp only [Except.ok.injEq, Prod.mk.injEq] at e
  obtain ⟨rfl, rfl⟩ := e
  refine ⟨hnn, rfl, ?_, ⟨e4, by omega, by omega⟩, ?_⟩
  · unfold valuesOf
    apply List.ext_getElem
    · simp
    · intro i hi1 hi2
      simp only [List.getElem_map, List.getElem_range', one_mul]
      rw [e5 i hi2]; rfl
  · intro a ha
    rw [List.mem_range'] at ha
    obtain ⟨i, hi, rfl⟩ := ha
    omega

theorem setLevels_frame {V : Type} (l : List Addr) (lvl : Int) (h : Heap V) :
    (setLevels h l lvl).next = h.next ∧ (setLevels h l lvl).nextUid = h.nextUid ∧
    ∀ a, a ∉ l → (setLevels h l lvl).get a = h.get a := by
  induction l generalizing h with
  | nil => exact ⟨rfl, rfl, fun _ _ => rfl⟩
  | cons x l ih =>
    obtain ⟨i1, i2, i3⟩ := ih (h.modify x fun o => { o with level := some lvl })
    refine ⟨i1, i2, ?_⟩
    intro a ha
    simp only [List.mem_cons, not_or] at ha
    change (setLevels (h.modify x fun o => { o with level := some lvl }) l lvl).get a = _
    rw [i3 a ha.2]
    simp [Heap.modify, Heap.set, ha.1]

theorem computeGcd_ok (l : List Int) (h : l ≠ []) : ∃ g, computeGcd l = .ok g := by
  cases l with
  | nil => exact absurd rfl h
  | cons x xs => exact ⟨_, rfl⟩

/-- Everything about `load` on parsed values. -/
theorem loadValues_spec (cfg : Config) (s t : List ℚ) (a : Attrs) (h : Heap Int) :
    ((reduced s t).1 = [] ∧ (loadValues cfg s t a h).attrs = a.reset ∧ (loadValues cfg s t a h).heap = h ∧
      (((reduced s t).2 = [] ∧ (loadValues cfg s t a h).result = .ok false) ∨
        ((reduced s t).2 ≠ [] ∧ (loadValues cfg s t a h).result = .error .assertionError))) ∨
    ((reduced s t).1 ≠ [] ∧ (loadValues cfg s t a h).result = .error .valueError ∧
      ((∀ v ∈ s, 0 < v) → (∀ v ∈ t, 0 < v) → ∃ hg roots inner cost, groupValues cfg h (scaledTargets s t) = .ok (hg, roots, cost) ∧
        GroupInv cfg h (scaledTargets s t) hg roots inner cost ∧
        roots.Pairwise (fun a b => (hg.get a).value < (hg.get b).value) ∧ ∀ a ∈ roots, (hg.get a).value ≤ 2)) ∨
    Loads cfg s t h (loadValues cfg s t a h) := by
  obtain ⟨r, hr⟩ : ∃ r, r = loadValues cfg s t a h := ⟨_, rfl⟩
  rw [← hr]
  have hrs : removePairs (balance (s.insertionSort (· ≤ ·)) (t.insertionSort (· ≤ ·))).1
    (balance (s.insertionSort (· ≤ ·)) (t.insertionSort (· ≤ ·))).2 = reduced s t := rfl
  have htake : (fractionsToIntegers ((reduced s t).1 ++ (reduced s t).2)).1.take (reduced s t).1.length = scaledSources s t := rfl
  have hdrop : (fractionsToIntegers ((reduced s t).1 ++ (reduced s t).2)).1.drop (reduced s t).1.length = scaledTargets s t := rfl
  have hrat : (fractionsToIntegers ((reduced s t).1 ++ (reduced s t).2)).2 = ratio s t := rfl
  unfold loadValues at hr
  dsimp only at hr
  rw [hrs] at hr
  by_cases hS : (reduced s t).1 = []
  · left
    rw [if_pos hS] at hr
    subst hr
    refine ⟨hS, rfl, rfl, ?_⟩
    by_cases hT : (reduced s t).2 = []
    · exact Or.inl ⟨hT, by simp [hT]⟩
    · exact Or.inr ⟨hT, by simp [hT]⟩
  right
  rw [if_neg hS, htake, hdrop, hrat] at hr
  have hsrcne : scaledSources s t ≠ [] := by
    intro e
    have := (scaled_length s t).1
    rw [e] at this
    exact hS (List.length_eq_zero_iff.1 this.symm)
  by_cases hneg : ∃ v ∈ scaledTargets s t, v < 0
  · left
    rw [groupValues_negative cfg h _ hneg] at hr
    subst hr
    refine ⟨hS, rfl, fun hs ht => ?_⟩
    obtain ⟨v, hv, hlt⟩ := hneg
    exact absurd ((scaled_pos hs ht).2 v hv) (by omega)
  have hnn : ∀ v ∈ scaledTargets s t, 0 ≤ v := by
    intro v hv
    by_contra hlt
    exact hneg ⟨v, hv, by omega⟩
  have hsort : (scaledTargets s t).insertionSort (· ≤ ·) = scaledTargets s t :=
    (scaled_sorted s t).2.insertionSort_eq
  rcases groupValues_spec cfg h _ hnn with ⟨ge, gz⟩ | ⟨hg, roots, inner, cost, ge, I, hstrict⟩
  · left
    rw [ge] at hr
    subst hr
    exact ⟨hS, rfl, fun hs ht => absurd (scaled_pos hs ht).2 gz⟩
  rw [hsort] at I
  rw [ge] at hr
  dsimp only at hr
  cases hmin : pyMin (valuesOf hg roots) with
  | error e =>
    left
    have hnil : valuesOf hg roots = [] := by
      cases hv : valuesOf hg roots with
      | nil => rfl
      | cons x xs => rw [hv] at hmin; simp [pyMin] at hmin
    have he : e = .valueError := by rw [hnil] at hmin; simp [pyMin] at hmin; exact hmin.symm
    subst he
    rw [hmin] at hr
    subst hr
    refine ⟨hS, rfl, fun hs ht => ⟨hg, roots, inner, cost, ge, I, hstrict, ?_⟩⟩
    have : roots = [] := by simpa [valuesOf] using hnil
    simp [this]
  | ok m =>
    rw [hmin] at hr
    dsimp only at hr
    have htvne : valuesOf hg roots ≠ [] := by
      intro e; rw [e] at hmin; simp [pyMin] at hmin
    have hnnr : ∀ v ∈ valuesOf hg roots, 0 ≤ v := by
      intro v hv
      obtain ⟨x, hx, rfl⟩ := List.mem_map.1 hv
      exact I.nonneg x (I.tops_range x hx).1 (I.tops_range x hx).2
    have hle : (valuesOf hg roots).Pairwise (· ≤ ·) := by
      unfold valuesOf
      rw [List.pairwise_map]
      exact hstrict.imp (fun hab => le_of_lt hab)
    cases hnew : newNodes hg [] none (scaledSources s t) with
    | error e =>
      left
      rw [hnew] at hr
      dsimp only at hr
      have hsn : ∃ v ∈ scaledSources s t, v < 0 := by
        by_contra hcon
        push Not at hcon
        obtain ⟨h1, e1, -⟩ := newNodes_spec [] none (scaledSources s t) hg hcon
        rw [e1] at hnew; simp at hnew
      rw [newNodes_negative _ _ _ _ hsn] at hnew
      simp only [Except.error.injEq] at hnew
      subst hnew
      subst hr
      refine ⟨hS, rfl, fun hs ht => ?_⟩
      obtain ⟨v, hv, hlt⟩ := hsn
      exact absurd ((scaled_pos hs ht).1 v hv) (by omega)
    | ok p =>
      obtain ⟨h1, rts⟩ := p
      rw [hnew] at hr
      dsimp only at hr
      obtain ⟨n1, n2, n3, n4, n5⟩ := newNodes_ok hnew
      have hsv : (newTree h1 rts).2.sourceValues = scaledSources s t := n3
      have htot : (scaledSources s t).sum = (valuesOf hg roots).sum := by
        rw [scaled_sum]; exact I.total.symm
      have hext : Heap.Ext hg (newTree h1 rts).1 := by
        obtain ⟨f1, f2, f3⟩ := setLevels_frame rts 0 h1
        refine ⟨?_, f1.symm ▸ n4.next, f2.symm ▸ n4.nextUid⟩
        intro x hx
        have hxr : x ∉ rts := fun e => absurd (n5 x e).1 (by omega)
        exact (f3 x hxr).trans (n4.get x hx)
      rw [hsv] at hr
      rcases extractAll_spec cfg _ htvne hle hnnr with ⟨e, e1, e2, m', hm', hm2⟩ | ⟨e1, e2⟩
      · right
        have hub : upperBound cfg (scaledSources s t) (valuesOf hg roots) =
            .ok ((mergeCost (scaledSources s t).length 1 : Nat) + e) := by
          unfold upperBound
          rw [htot, e1]
        rw [hub] at hr
        dsimp only at hr
        obtain ⟨gg, hgg⟩ := computeGcd_ok (scaledSources s t ++ valuesOf hg roots) (by simp [hsrcne])
        rw [hgg] at hr
        dsimp only at hr
        subst hr
        refine ⟨rfl, hS, ⟨n1, hnn⟩, rfl, rfl, hsv, ⟨rfl, rfl, rfl, rfl, rfl, rfl⟩,
          ⟨hg, inner, I, hstrict, rfl, hext, h1, rts, hnew, rfl⟩, ?_, counts_get _, rfl, rfl, ⟨e, ?_, e2, rfl⟩, ⟨m', hm', hm2⟩, hgg⟩
        · dsimp only
          generalize valuesOf hg roots = l at hmin
          cases l with
          | nil => simp [pyMin] at hmin
          | cons x xs =>
            simp only [pyMin, Except.ok.injEq] at hmin
            subst hmin
            exact foldl_min_spec x xs
        · rw [htot]; exact e1
      · left
        have hub : upperBound cfg (scaledSources s t) (valuesOf hg roots) = .error .valueError := by
          unfold upperBound
          rw [htot, e1]
        rw [hub] at hr
        dsimp only at hr
        subst hr
        refine ⟨hS, rfl, fun hs ht => ⟨hg, roots, inner, cost, ge, I, hstrict, ?_⟩⟩
        intro x hx
        exact e2 _ (List.mem_map.2 ⟨x, hx, rfl⟩)

end Satis.Solver
