import Verif.Props.Load
import Verif.Props.Utils
import Verif.Solver.GroupPure
/-!
# Requests that are loaded alike
-/

namespace Satis
open Satis.Utils Satis.Utils.Spec Satis.Graph Satis.Solver

/-! ## C108 — only what remains of a request matters, and its unit does not -/

theorem Solver.loadValues_congr {s t s' t' : List ℚ} (e : reduced s t = reduced s' t') (cfg : Config) (a : Attrs) (h : Heap Int) :
    loadValues cfg s t a h = loadValues cfg s' t' a h := by
  have e' : removePairs (balance (s.insertionSort (· ≤ ·)) (t.insertionSort (· ≤ ·))).1 (balance (s.insertionSort (· ≤ ·)) (t.insertionSort (· ≤ ·))).2 =
    removePairs (balance (s'.insertionSort (· ≤ ·)) (t'.insertionSort (· ≤ ·))).1 (balance (s'.insertionSort (· ≤ ·)) (t'.insertionSort (· ≤ ·))).2 := e
  unfold loadValues
  dsimp only
  rw [e']

/-- C108. If the same remains of two requests then `load` does exactly the same: what it returns or raises, all attributes and all objects. -/
theorem C108_remains (cfg : Config) {input input' : Str} (a : Attrs) (h : Heap Int) {s t s' t' S T S' T' : List ℚ} (hp : Parsed input s t)
    (hp' : Parsed input' s' t') (hr : Remains s t S T) (hr' : Remains s' t' S' T') (hS : S.Perm S') (hT : T.Perm T') :
    load cfg input a h = load cfg input' a h := by
  rw [load_parsed hp.1 hp.2.1 hp.2.2, load_parsed hp'.1 hp'.2.1 hp'.2.2]
  refine loadValues_congr ?_ cfg a h
  obtain ⟨p1, p2⟩ := (reduced_remains s t).perm hr
  obtain ⟨q1, q2⟩ := (reduced_remains s' t').perm hr'
  exact Prod.ext (eq_of_perm_sorted (p1.trans (hS.trans q1.symm)) (reduced_spec s t).2.1 (reduced_spec s' t').2.1)
    (eq_of_perm_sorted (p2.trans (hT.trans q2.symm)) (reduced_spec s t).2.2.1 (reduced_spec s' t').2.2.1)

/-- C108, order: the order in which the throughputs are written makes no difference. -/
theorem C108_order (cfg : Config) {input input' : Str} (a : Attrs) (h : Heap Int) {s t s' t' : List ℚ} (hp : Parsed input s t)
    (hp' : Parsed input' s' t') (hs : s.Perm s') (ht : t.Perm t') : load cfg input a h = load cfg input' a h := by
  obtain ⟨⟨c, h1, h2⟩, h3⟩ := reduced_remains s t
  refine C108_remains cfg a h hp hp' ⟨⟨c, h1, h2⟩, h3⟩ ⟨⟨c, ?_, ?_⟩, h3⟩ (.refl _) (.refl _)
  · rw [← hs.sum_eq, ← ht.sum_eq]
    exact h1.trans (hs.append_right _)
  · rw [← hs.sum_eq, ← ht.sum_eq]
    exact h2.trans (ht.append_right _)

/-- C108, both sides: throughputs that are added to the sources and to the targets make no difference. -/
theorem C108_both (cfg : Config) {input input' : Str} (a : Attrs) (h : Heap Int) {s t c : List ℚ} (hp : Parsed input s t)
    (hp' : Parsed input' (s ++ c) (t ++ c)) : load cfg input a h = load cfg input' a h := by
  obtain ⟨⟨d, h1, h2⟩, h3⟩ := reduced_remains s t
  have e : ∀ x y : ℚ, extra (x + c.sum) (y + c.sum) = extra x y := by
    intro x y
    unfold extra
    by_cases h : x < y
    · rw [if_pos h, if_pos (by linarith)]
      congr 1
      ring
    · rw [if_neg h, if_neg (by linarith)]
  have key : ∀ {S l m : List ℚ}, (S ++ d).Perm (l ++ m) → (S ++ (d ++ c)).Perm (l ++ c ++ m) := by
    intro S l m hp
    rw [← List.append_assoc]
    refine (hp.append_right c).trans ?_
    rw [List.append_assoc, List.append_assoc]
    exact (List.perm_append_comm (l₁ := m)).append_left l
  refine C108_remains cfg a h hp hp' ⟨⟨d, h1, h2⟩, h3⟩ ⟨⟨d ++ c, ?_, ?_⟩, h3⟩ (.refl _) (.refl _)
  · rw [List.sum_append, List.sum_append, e]
    exact key h1
  · rw [List.sum_append, List.sum_append, e]
    exact key h2

/-- C108, totals: writing down the belt that `load` adds when the totals differ makes no difference. -/
theorem C108_lacking (cfg : Config) {input input' : Str} (a : Attrs) (h : Heap Int) {s t : List ℚ} (hp : Parsed input s t)
    (hp' : Parsed input' (s ++ extra s.sum t.sum) (t ++ extra t.sum s.sum)) : load cfg input a h = load cfg input' a h := by
  obtain ⟨⟨d, h1, h2⟩, h3⟩ := reduced_remains s t
  have e : (s ++ extra s.sum t.sum).sum = (t ++ extra t.sum s.sum).sum := by
    rw [List.sum_append, List.sum_append]
    unfold extra
    rcases lt_trichotomy s.sum t.sum with h | h | h
    · rw [if_pos h, if_neg h.le.not_gt]; simp
    · rw [h]
    · rw [if_neg h.le.not_gt, if_pos h]; simp
  have hx : ∀ x : ℚ, extra x x = [] := fun x => if_neg (lt_irrefl x)
  refine C108_remains cfg a h hp hp' ⟨⟨d, h1, h2⟩, h3⟩ ⟨⟨d, ?_, ?_⟩, h3⟩ (.refl _) (.refl _)
  · rw [e, hx, List.append_nil]
    exact h1
  · rw [e, hx, List.append_nil]
    exact h2

/-- Another name and another unit. -/
def renamed (name : Str) (u : Nat) (r : After) : After := { r with attrs := { r.attrs with problemStr := name, unitFlowRatio := u } }

theorem Solver.loadValues_scaled {s t s' t' : List ℚ} (cfg : Config) (a : Attrs) (h : Heap Int) (hne : (reduced s t).1 ≠ [])
    (hl : (reduced s t).1.length = (reduced s' t').1.length)
    (e : (fractionsToIntegers ((reduced s t).1 ++ (reduced s t).2)).1 = (fractionsToIntegers ((reduced s' t').1 ++ (reduced s' t').2)).1) :
    loadValues cfg s' t' a h = renamed (problemName (reduced s' t').1 (reduced s' t').2) (ratio s' t') (loadValues cfg s t a h) := by
  have hne' : (reduced s' t').1 ≠ [] := by
    intro h0
    rw [h0] at hl
    exact hne (List.length_eq_zero_iff.1 hl)
  have u : ∀ s t : List ℚ, removePairs (balance (s.insertionSort (· ≤ ·)) (t.insertionSort (· ≤ ·))).1
    (balance (s.insertionSort (· ≤ ·)) (t.insertionSort (· ≤ ·))).2 = reduced s t := fun _ _ => rfl
  unfold loadValues
  dsimp only
  rw [u s t, u s' t', if_neg hne, if_neg hne', ← e, ← hl]
  unfold ratio
  generalize (fractionsToIntegers ((reduced s t).1 ++ (reduced s t).2)).1 = zs
  generalize (reduced s t).1.length = n
  cases groupValues cfg h (zs.drop n) with
  | error x => rfl
  | ok x =>
    obtain ⟨h1, leaves, cost⟩ := x
    dsimp only
    cases pyMin (valuesOf h1 leaves) with
    | error x => rfl
    | ok m =>
      dsimp only
      cases newNodes h1 [] none (zs.take n) with
      | error x => rfl
      | ok x =>
        obtain ⟨h2, roots⟩ := x
        dsimp only
        cases upperBound cfg (newTree h2 roots).2.sourceValues (valuesOf h1 leaves) with
        | error x => rfl
        | ok b =>
          dsimp only
          cases computeGcd (zs.take n ++ valuesOf h1 leaves) with
          | error x => rfl
          | ok g => rfl

theorem Solver.reduced_div (s t : List ℚ) (k : Nat) (hk : 0 < k) : reduced (s.map (· / (k : ℚ))) (t.map (· / (k : ℚ))) =
    ((reduced s t).1.map (· / (k : ℚ)), (reduced s t).2.map (· / (k : ℚ))) := by
  have hk' : (0 : ℚ) < k := by exact_mod_cast hk
  obtain ⟨⟨c, h1, h2⟩, h3⟩ := reduced_remains s t
  have hsum : ∀ l : List ℚ, (l.map (· / (k : ℚ))).sum = l.sum / k := by
    intro l
    induction l with
    | nil => simp
    | cons x l ih => rw [List.map_cons, List.sum_cons, ih, List.sum_cons, add_div]
  have hextra : ∀ x y : ℚ, extra (x / k) (y / k) = (extra x y).map (· / (k : ℚ)) := by
    intro x y
    unfold extra
    by_cases h : x < y
    · rw [if_pos h, if_pos ((div_lt_div_iff_of_pos_right hk').2 h), ← sub_div]; rfl
    · rw [if_neg h, if_neg (fun h' => h ((div_lt_div_iff_of_pos_right hk').1 h'))]; rfl
  have hsorted : ∀ {l : List ℚ}, l.Pairwise (· ≤ ·) → (l.map (· / (k : ℚ))).Pairwise (· ≤ ·) := fun h =>
    List.pairwise_map.2 (h.imp fun h => (div_le_div_iff_of_pos_right hk').2 h)
  have R : Remains (s.map (· / (k : ℚ))) (t.map (· / (k : ℚ))) ((reduced s t).1.map (· / (k : ℚ))) ((reduced s t).2.map (· / (k : ℚ))) := by
    refine ⟨⟨c.map (· / (k : ℚ)), ?_, ?_⟩, ?_⟩
    · rw [hsum, hsum, hextra, ← List.map_append, ← List.map_append]
      exact h1.map _
    · rw [hsum, hsum, hextra, ← List.map_append, ← List.map_append]
      exact h2.map _
    · intro v hv hv'
      obtain ⟨x, hx, rfl⟩ := List.mem_map.1 hv
      obtain ⟨y, hy, e⟩ := List.mem_map.1 hv'
      exact h3 x hx ((div_left_inj' hk'.ne').1 e ▸ hy)
  obtain ⟨e1, e2⟩ := R.eq (hsorted (reduced_spec s t).2.1) (hsorted (reduced_spec s t).2.2.1)
  exact Prod.ext e1 e2

theorem Utils.integers_div (fs : List ℚ) (k : Nat) (hk : 0 < k)
    (hco : ∀ e : Nat, 0 < e → (∀ f ∈ fs, Integral (f * (fractionsToIntegers fs).2 / e)) → e = 1) :
    (fractionsToIntegers (fs.map (· / (k : ℚ)))).1 = (fractionsToIntegers fs).1 ∧ (fractionsToIntegers (fs.map (· / (k : ℚ)))).2 = k * (fractionsToIntegers fs).2 := by
  have hk' : (k : ℚ) ≠ 0 := by positivity
  have h1 := fractionsToIntegers_cast fs
  have h2 := fractionsToIntegers_cast (fs.map (· / (k : ℚ)))
  obtain ⟨a1, a2, a3, -⟩ := C12_scaling_exact fs
  obtain ⟨-, b2, b3, b4⟩ := C12_scaling_exact (fs.map (· / (k : ℚ)))
  generalize fractionsToIntegers fs = x at h1 a1 a2 a3 hco ⊢
  generalize fractionsToIntegers (fs.map (· / (k : ℚ))) = y at h2 b2 b3 b4 ⊢
  have hd : y.2 = k * x.2 := by
    obtain ⟨e, he⟩ := b4 (k * x.2) (by
      intro f hf
      obtain ⟨g, hg, rfl⟩ := List.mem_map.1 hf
      obtain ⟨i, hi⟩ := List.mem_iff_getElem?.1 hg
      obtain ⟨z, -, hz⟩ := a2 i g hi
      refine ⟨z, ?_⟩
      push_cast
      rw [hz]
      field_simp)
    have hy : (y.2 : ℚ) ≠ 0 := by have : y.2 ≠ 0 := by omega
                                  exact_mod_cast this
    have he0 : 0 < e := by
      rcases Nat.eq_zero_or_pos e with h | h
      · rw [h, Nat.mul_zero] at he
        have := Nat.mul_pos hk a3
        omega
      · exact h
    have : e = 1 := by
      refine hco e he0 fun f hf => ?_
      obtain ⟨i, hi⟩ := List.mem_iff_getElem?.1 hf
      obtain ⟨z, -, hz⟩ := b2 i (f / k) (by rw [List.getElem?_map, hi]; rfl)
      refine ⟨z, ?_⟩
      rw [hz]
      have hq : (k : ℚ) * x.2 = y.2 * e := by exact_mod_cast he
      have : (e : ℚ) ≠ 0 := by positivity
      field_simp
      linarith [congrArg (f * ·) hq]
    rw [this, Nat.mul_one] at he
    exact he.symm
  refine ⟨?_, hd⟩
  have hinj : Function.Injective fun (z : ℤ) => (z : ℚ) := Int.cast_injective
  refine hinj.list_map ?_
  rw [h1, h2, List.map_map]
  refine List.map_congr_left fun f _ => ?_
  show f / k * (y.2 : ℚ) = f * x.2
  rw [hd]
  push_cast
  field_simp

/-- C108, the unit: suppose no whole number above 1 divides all throughputs of the loaded problem. Then dividing all throughputs of the request by a whole
number changes the name and the unit of the loaded problem and nothing else: the search works with the same numbers and the same limit. -/
theorem C108_unit (cfg : Config) {input input' : Str} (a : Attrs) (h : Heap Int) {s t S T : List ℚ} {k : Nat} (hk : 0 < k) (hp : Parsed input s t)
    (hp' : Parsed input' (s.map (· / (k : ℚ))) (t.map (· / (k : ℚ)))) (hr : Remains s t S T) (hS : S ≠ [])
    (hco : ∀ e : Nat, 0 < e → (∀ f ∈ S ++ T, Integral (f * (load cfg input a h).attrs.unitFlowRatio / e)) → e = 1) :
    ∃ name, load cfg input' a h = { load cfg input a h with
      attrs := { (load cfg input a h).attrs with problemStr := name, unitFlowRatio := k * (load cfg input a h).attrs.unitFlowRatio } } := by
  obtain ⟨p1, p2⟩ := (reduced_remains s t).perm hr
  have hne : (reduced s t).1 ≠ [] := by
    intro h0
    rw [h0] at p1
    exact hS (List.nil_perm.1 p1)
  rw [load_parsed hp.1 hp.2.1 hp.2.2] at hco ⊢
  have hu : (loadValues cfg s t a h).attrs.unitFlowRatio = ratio s t := by
    have := loadValues_scaled (s := s) (t := t) (s' := s) (t' := t) cfg a h hne rfl rfl
    exact congrArg (fun r => r.attrs.unitFlowRatio) this
  rw [hu] at hco ⊢
  obtain ⟨e1, e2⟩ := integers_div ((reduced s t).1 ++ (reduced s t).2) k hk fun e he hf => hco e he fun f hm =>
    hf f ((p1.append p2).mem_iff.2 hm)
  have hred := reduced_div s t k hk
  refine ⟨problemName (reduced (s.map (· / (k : ℚ))) (t.map (· / (k : ℚ)))).1 (reduced (s.map (· / (k : ℚ))) (t.map (· / (k : ℚ)))).2, ?_⟩
  rw [load_parsed hp'.1 hp'.2.1 hp'.2.2]
  have := loadValues_scaled (s := s) (t := t) (s' := s.map (· / (k : ℚ))) (t' := t.map (· / (k : ℚ))) cfg a h hne (by rw [hred, List.length_map])
    (by rw [hred]; dsimp only; rw [← List.map_append, e1])
  rw [this]
  have hrat : ratio (s.map (· / (k : ℚ))) (t.map (· / (k : ℚ))) = k * ratio s t := by
    unfold ratio
    rw [hred]
    dsimp only
    rw [← List.map_append, e2]
  rw [hrat]
  rfl

/-- C108, the search: with the hypotheses of `C108_unit` the two searches pass the same states. -/
theorem C108_search (cfg : Config) {input input' : Str} (a : Attrs) (h : Heap Int) {s t S T : List ℚ} {k : Nat} (hk : 0 < k) (hp : Parsed input s t)
    (hp' : Parsed input' (s.map (· / (k : ℚ))) (t.map (· / (k : ℚ)))) (hr : Remains s t S T) (hS : S ≠ [])
    (hco : ∀ e : Nat, 0 < e → (∀ f ∈ S ++ T, Integral (f * (load cfg input a h).attrs.unitFlowRatio / e)) → e = 1) (O : Oracle) (x : Search) :
    Reached ((load cfg input a h).attrs.problem cfg) O (load cfg input a h).heap (load cfg input a h).attrs.treeSource (load cfg input a h).attrs.bestSize x ↔
    Reached ((load cfg input' a h).attrs.problem cfg) O (load cfg input' a h).heap (load cfg input' a h).attrs.treeSource
      (load cfg input' a h).attrs.bestSize x := by
  obtain ⟨name, e⟩ := C108_unit cfg a h hk hp hp' hr hS hco
  rw [e]
  exact Iff.rfl

/-- C108, earlier requests: what `load` returns or raises and the objects it makes do not depend on the attributes left by an earlier request, and when it accepts,
neither does any attribute. -/
theorem C108_fresh (cfg : Config) (input : Str) (a a' : Attrs) (h : Heap Int) :
    (load cfg input a h).result = (load cfg input a' h).result ∧ (load cfg input a h).heap = (load cfg input a' h).heap ∧
    ((load cfg input a h).result = .ok true → (load cfg input a h).attrs = (load cfg input a' h).attrs) := by
  unfold load
  rcases parseUserInput input with x | (_ | ⟨s, t⟩)
  · exact ⟨rfl, rfl, fun h => by cases h⟩
  · exact ⟨rfl, rfl, fun h => by cases h⟩
  dsimp only
  by_cases hst : s = [] ∨ t = []
  · rw [if_pos hst, if_pos hst]
    exact ⟨rfl, rfl, fun h => by cases h⟩
  rw [if_neg hst, if_neg hst]
  unfold loadValues
  dsimp only
  generalize removePairs (balance (s.insertionSort (· ≤ ·)) (t.insertionSort (· ≤ ·))).1 (balance (s.insertionSort (· ≤ ·)) (t.insertionSort (· ≤ ·))).2 = p
  by_cases hp : p.1 = []
  · rw [if_pos hp, if_pos hp]
    refine ⟨rfl, rfl, fun h => ?_⟩
    dsimp only at h
    split_ifs at h
    simp at h
  rw [if_neg hp, if_neg hp]
  generalize fractionsToIntegers (p.1 ++ p.2) = r
  cases groupValues cfg h (r.1.drop p.1.length) with
  | error x => exact ⟨rfl, rfl, fun h => by cases h⟩
  | ok x =>
    obtain ⟨h1, leaves, cost⟩ := x
    dsimp only
    cases pyMin (valuesOf h1 leaves) with
    | error x => exact ⟨rfl, rfl, fun h => by cases h⟩
    | ok m =>
      dsimp only
      cases newNodes h1 [] none (r.1.take p.1.length) with
      | error x => exact ⟨rfl, rfl, fun h => by cases h⟩
      | ok x =>
        obtain ⟨h2, roots⟩ := x
        dsimp only
        cases upperBound cfg (newTree h2 roots).2.sourceValues (valuesOf h1 leaves) with
        | error x => exact ⟨rfl, rfl, fun h => by cases h⟩
        | ok b =>
          dsimp only
          cases computeGcd (r.1.take p.1.length ++ valuesOf h1 leaves) with
          | error x => exact ⟨rfl, rfl, fun h => by cases h⟩
          | ok g => exact ⟨rfl, rfl, fun _ => rfl⟩

/-- C108, earlier objects: whatever nodes earlier requests have left, `load` returns or raises the same, and when it accepts, the problem handed to the search
(the whole `Problem`, sources, sizes, name and unit) is the same: only the references to the new nodes differ. -/
theorem C108_objects (cfg : Config) (input : Str) (a a' : Attrs) (h h' : Heap Int) :
    (load cfg input a h).result = (load cfg input a' h').result ∧
    ((load cfg input a h).result = .ok true →
      (load cfg input a h).attrs.problem cfg = (load cfg input a' h').attrs.problem cfg ∧
      (load cfg input a h).attrs.treeSource.sourceValues = (load cfg input a' h').attrs.treeSource.sourceValues ∧
      (load cfg input a h).attrs.bestSize = (load cfg input a' h').attrs.bestSize ∧
      (load cfg input a h).attrs.sizeOffset = (load cfg input a' h').attrs.sizeOffset ∧
      (load cfg input a h).attrs.nTargets = (load cfg input a' h').attrs.nTargets ∧
      (load cfg input a h).attrs.problemStr = (load cfg input a' h').attrs.problemStr ∧
      (load cfg input a h).attrs.unitFlowRatio = (load cfg input a' h').attrs.unitFlowRatio) := by
  unfold load
  rcases parseUserInput input with x | (_ | ⟨s, t⟩)
  · exact ⟨rfl, fun h => by cases h⟩
  · exact ⟨rfl, fun h => by cases h⟩
  dsimp only
  by_cases hst : s = [] ∨ t = []
  · rw [if_pos hst, if_pos hst]
    exact ⟨rfl, fun h => by cases h⟩
  rw [if_neg hst, if_neg hst]
  unfold loadValues
  dsimp only
  generalize removePairs (balance (s.insertionSort (· ≤ ·)) (t.insertionSort (· ≤ ·))).1 (balance (s.insertionSort (· ≤ ·)) (t.insertionSort (· ≤ ·))).2 = p
  by_cases hp : p.1 = []
  · rw [if_pos hp, if_pos hp]
    refine ⟨rfl, fun h => ?_⟩
    dsimp only at h
    split_ifs at h
    simp at h
  rw [if_neg hp, if_neg hp]
  generalize fractionsToIntegers (p.1 ++ p.2) = r
  have hg := groupValues_heap cfg h h' (r.1.drop p.1.length)
  cases e1 : groupValues cfg h (r.1.drop p.1.length) with
  | error x =>
    cases e2 : groupValues cfg h' (r.1.drop p.1.length) with
    | error y =>
      rw [e1, e2] at hg
      cases hg
      exact ⟨rfl, fun h => by cases h⟩
    | ok y =>
      rw [e1, e2] at hg
      cases hg
  | ok x =>
    cases e2 : groupValues cfg h' (r.1.drop p.1.length) with
    | error y =>
      rw [e1, e2] at hg
      cases hg
    | ok y =>
      rw [e1, e2] at hg
      obtain ⟨h1, leaves, cost⟩ := x
      obtain ⟨h1', leaves', cost'⟩ := y
      have hg' := Except.ok.inj hg
      rw [Prod.mk.injEq] at hg'
      obtain ⟨hv, hc⟩ := hg'
      dsimp only at hv hc ⊢
      rw [hv, hc]
      cases pyMin (valuesOf h1' leaves') with
      | error x => exact ⟨rfl, fun h => by cases h⟩
      | ok m =>
        dsimp only
        by_cases hneg : ∃ v ∈ r.1.take p.1.length, v < 0
        · rw [newNodes_negative _ _ _ _ hneg, newNodes_negative _ _ _ _ hneg]
          exact ⟨rfl, fun h => by cases h⟩
        push Not at hneg
        obtain ⟨h2, f1, -⟩ := newNodes_spec [] none (r.1.take p.1.length) h1 hneg
        obtain ⟨h2', f1', -⟩ := newNodes_spec [] none (r.1.take p.1.length) h1' hneg
        obtain ⟨-, -, g, -, -⟩ := newNodes_ok f1
        obtain ⟨-, -, g', -, -⟩ := newNodes_ok f1'
        rw [f1, f1']
        dsimp only [newTree]
        rw [g, g']
        cases upperBound cfg (r.1.take p.1.length) (valuesOf h1' leaves') with
        | error x => exact ⟨rfl, fun h => by cases h⟩
        | ok b =>
          dsimp only
          cases computeGcd (r.1.take p.1.length ++ valuesOf h1' leaves') with
          | error x => exact ⟨rfl, fun h => by cases h⟩
          | ok g => exact ⟨rfl, fun _ => ⟨rfl, rfl, rfl, rfl, rfl, rfl, rfl⟩⟩

/-- A request after another one: there are objects, and every attribute is new. -/
example : (load config "8 to 3 3 1 1".toList (Example.loaded "13 to 1 12").attrs (Example.loaded "13 to 1 12").heap).result = .ok true ∧
    (Example.loaded "13 to 1 12").attrs.targetValues ≠
      (load config "8 to 3 3 1 1".toList (Example.loaded "13 to 1 12").attrs (Example.loaded "13 to 1 12").heap).attrs.targetValues := by
  decide +kernel

/-- The hypotheses of `C108_order`, `C108_both` and `C108_lacking`: 3 is written on both sides, and 4 is lacking. -/
example : Parsed "8 to 3 3 1 1".toList [8] [3, 3, 1, 1] ∧ Parsed "8 to 1 3 1 3".toList [8] [1, 3, 1, 3] ∧
    Parsed "8 3 to 3 3 1 1 3".toList ([8] ++ [3]) ([3, 3, 1, 1] ++ [3]) ∧ Parsed "8 to 3 1".toList [8] [3, 1] ∧
    Parsed "8 to 3 1 4".toList ([8] ++ extra [8].sum [3, 1].sum) ([3, 1] ++ extra [3, 1].sum [8].sum) ∧
    (Example.loaded "8 to 3 3 1 1").result = .ok true ∧ (Example.loaded "8 to 3 1").result = .ok true := by
  refine ⟨⟨?_, ?_, ?_⟩, ⟨?_, ?_, ?_⟩, ⟨?_, ?_, ?_⟩, ⟨?_, ?_, ?_⟩, ⟨?_, ?_, ?_⟩, ?_, ?_⟩ <;> decide +kernel

/-- The hypotheses of `C108_unit`: `"8 to 3 3 1 1"` and half of it. -/
example : Parsed "8 to 3 3 1 1".toList [8] [3, 3, 1, 1] ∧
    Parsed "4 to 3/2 3/2 1/2 1/2".toList (([8] : List ℚ).map (· / ((2 : Nat) : ℚ))) (([3, 3, 1, 1] : List ℚ).map (· / ((2 : Nat) : ℚ))) ∧
    Remains [8] [3, 3, 1, 1] [8] [3, 3, 1, 1] ∧ (Example.loaded "8 to 3 3 1 1").result = .ok true ∧
    (∀ e : Nat, 0 < e → (∀ f ∈ ([8] ++ [3, 3, 1, 1] : List ℚ), Integral (f * (Example.loaded "8 to 3 3 1 1").attrs.unitFlowRatio / e)) → e = 1) ∧
    (Example.loaded "4 to 3/2 3/2 1/2 1/2").attrs.unitFlowRatio = 2 := by
  have hu : (Example.loaded "8 to 3 3 1 1").attrs.unitFlowRatio = 1 := by decide +kernel
  have e1 : (([8] : List ℚ).map (· / ((2 : Nat) : ℚ))) = [4] := by norm_num
  have e2 : (([3, 3, 1, 1] : List ℚ).map (· / ((2 : Nat) : ℚ))) = [3 / 2, 3 / 2, 1 / 2, 1 / 2] := by norm_num
  rw [e1, e2]
  refine ⟨⟨by decide +kernel, by decide, by decide⟩, ⟨by decide +kernel, by decide, by decide⟩, ⟨⟨[], ?_, ?_⟩, ?_⟩, by decide +kernel, ?_, by decide +kernel⟩
  · have : extra ([8] : List ℚ).sum [3, 3, 1, 1].sum = [] := by decide +kernel
    rw [this]
  · have : extra ([3, 3, 1, 1] : List ℚ).sum [8].sum = [] := by decide +kernel
    rw [this]
  · decide +kernel
  · intro e he hf
    obtain ⟨z, hz⟩ := hf 1 (by simp)
    rw [hu] at hz
    clear hu hf
    have he' : (e : ℚ) ≠ 0 := by positivity
    rw [div_eq_iff he'] at hz
    have hz' : (1 : ℤ) = z * e := by exact_mod_cast (by simpa using hz : (1 : ℚ) = z * e)
    have := Int.eq_one_or_neg_one_of_mul_eq_one' hz'.symm
    omega

end Satis
