import Mathlib.Algebra.Order.BigOperators.Group.Finset
import Mathlib.Algebra.BigOperators.Group.Finset.Sigma
import Verif.Props.Belts
import Verif.Props.Built
import Verif.Props.FirstPicture
/-!
# How many machines any network needs
-/

namespace Satis
open Satis.Utils Satis.Graph Satis.Solver Satis.Solver.Example

/-! ## C109 — a bound that no network can beat -/

/-- C109. Every network of splitters and mergers, loops included, whoever built it: the numbers of belts at its two ends differ by at most twice the number of
its machines. -/
theorem C109_machines {speeds : List Nat} {h : Heap ℚ} {roots leaves : List Addr} {supply T : Addr → ℚ} {f : Addr → Addr → ℚ}
    (C : Carries speeds h roots supply T f) (hin : ∀ a, Reach h roots a → a < h.next) (hr : roots.Nodup) (hl : leaves.Nodup)
    (hleaf : ∀ a, a ∈ leaves ↔ Reach h roots a ∧ (h.get a).children = []) :
    leaves.length ≤ roots.length + 2 * machineCount h roots ∧ roots.length ≤ leaves.length + 2 * machineCount h roots := by
  classical
  have hU : ∀ a, a ∈ (Finset.range h.next).filter (Reach h roots) ↔ Reach h roots a := fun a => by
    rw [Finset.mem_filter, Finset.mem_range]
    exact ⟨fun h => h.2, fun h => ⟨hin a h, h⟩⟩
  have hm : machineCount h roots = ∑ a ∈ (Finset.range h.next).filter (Reach h roots), ((if 2 ≤ (h.get a).children.length then 1 else 0) +
      (if 2 ≤ (h.get a).parents.length + (if a ∈ roots then 1 else 0) then 1 else 0)) := by
    unfold machineCount
    congr!
  generalize (Finset.range h.next).filter (Reach h roots) = U at hU hm
  have hcount : ∀ l : List Addr, (∀ x ∈ l, x ∈ U) → ∑ x ∈ U, l.count x = l.length := fun l hl => by
    have := Multiset.sum_count_eq_card (s := U) (m := (l : Multiset Addr)) hl
    simpa using this
  have hmem : ∀ l : List Addr, l.Nodup → (∀ x ∈ l, x ∈ U) → ∑ x ∈ U, (if x ∈ l then 1 else 0) = l.length := fun l hn hl => by
    rw [← hcount l hl]
    exact Finset.sum_congr rfl fun x _ => (hn.count).symm
  have e1 : ∑ a ∈ U, (h.get a).children.length = ∑ b ∈ U, (h.get b).parents.length := by
    calc ∑ a ∈ U, (h.get a).children.length = ∑ a ∈ U, ∑ b ∈ U, (h.get a).children.count b :=
          Finset.sum_congr rfl fun a ha => (hcount _ fun c hc => (hU c).2 (.child ((hU a).1 ha) hc)).symm
      _ = ∑ b ∈ U, ∑ a ∈ U, (h.get a).children.count b := Finset.sum_comm
      _ = ∑ b ∈ U, ∑ a ∈ U, (h.get b).parents.count a :=
          Finset.sum_congr rfl fun b hb => Finset.sum_congr rfl fun a ha => C.links a b ((hU a).1 ha) ((hU b).1 hb)
      _ = ∑ b ∈ U, (h.get b).parents.length :=
          Finset.sum_congr rfl fun b hb => hcount _ fun p hp => (hU p).2 (C.closed b ((hU b).1 hb) p hp)
  have e2 := hmem roots hr fun x hx => (hU x).2 (.root hx)
  have e3 := hmem leaves hl fun x hx => (hU x).2 ((hleaf x).1 hx).1
  rw [← e2, ← e3, hm, Finset.mul_sum]
  have hout : ∀ a ∈ U, 1 ≤ (h.get a).children.length + (if a ∈ leaves then 1 else 0) ∧
      (h.get a).children.length + (if a ∈ leaves then 1 else 0) ≤ 1 + 2 * (if 2 ≤ (h.get a).children.length then 1 else 0) := by
    intro a ha
    by_cases hc : (h.get a).children = []
    · rw [if_pos ((hleaf a).2 ⟨(hU a).1 ha, hc⟩), hc]
      simp
    · rw [if_neg fun h => hc ((hleaf a).1 h).2]
      have h3 : (h.get a).children.length ≤ 3 := by
        rcases C.share a ((hU a).1 ha) hc with h | ⟨x, y, h, -⟩
        · exact h.1
        · rw [h]; simp
      have := List.length_pos_iff.2 hc
      split_ifs <;> omega
  have hins : ∀ a ∈ U, 1 ≤ (h.get a).parents.length + (if a ∈ roots then 1 else 0) ∧
      (h.get a).parents.length + (if a ∈ roots then 1 else 0) ≤ 1 + 2 * (if 2 ≤ (h.get a).parents.length + (if a ∈ roots then 1 else 0) then 1 else 0) := by
    intro a ha
    have h3 := C.inputs a ((hU a).1 ha)
    have h1 : 1 ≤ (h.get a).parents.length + (if a ∈ roots then 1 else 0) := by
      cases (hU a).1 ha with
      | root hm => rw [if_pos hm]; omega
      | @child p _ hp hc =>
        have h4 := C.links p a hp ((hU a).1 ha)
        have h5 := List.count_pos_iff.2 hc
        have h6 := List.count_le_length (a := p) (l := (h.get a).parents)
        omega
    refine ⟨h1, ?_⟩
    generalize (h.get a).parents.length + (if a ∈ roots then 1 else 0) = k at h1 h3
    split_ifs <;> omega
  have s1 := Finset.sum_le_sum fun a ha => (hout a ha).1
  have s2 := Finset.sum_le_sum fun a ha => (hout a ha).2
  have s3 := Finset.sum_le_sum fun a ha => (hins a ha).1
  have s4 := Finset.sum_le_sum fun a ha => (hins a ha).2
  simp only [Finset.sum_add_distrib, mul_add] at s1 s2 s3 s4 ⊢
  omega

variable {cfg : Config} {input : Str} {a : Attrs} {h : Heap Int} {sv tv : List ℚ} {O : Oracle} {s : Search} {t : TreeObj Int}

/-- C109, optimality: if the announced size of a solution is half the difference between the numbers of requested sources and targets, rounded up, then no
network that delivers the request, whoever built it and on belts of whatever speeds, has fewer machines than announced. -/
theorem C109_optimal {speeds : List Nat} {h' : Heap ℚ} {roots leaves : List Addr} {supply T : Addr → ℚ} {f : Addr → Addr → ℚ}
    (C : Carries speeds h' roots supply T f) (hin : ∀ a, Reach h' roots a → a < h'.next) (hr : roots.Nodup) (hl : leaves.Nodup)
    (hleaf : ∀ a, a ∈ leaves ↔ Reach h' roots a ∧ (h'.get a).children = []) (hrem : Remains sv tv (roots.map supply) (leaves.map T)) (size : Int)
    (hsize : 2 * size ≤ |((sv ++ extra sv.sum tv.sum).length : Int) - ((tv ++ extra tv.sum sv.sum).length : Int)| + 1) :
    size ≤ machineCount h' roots := by
  obtain ⟨h1, h2⟩ := C109_machines C hin hr hl hleaf
  obtain ⟨⟨c, p1, p2⟩, -⟩ := hrem
  have e1 := p1.length_eq
  have e2 := p2.length_eq
  rw [List.length_append, List.length_map] at e1 e2
  rw [← e1, ← e2] at hsize
  rcases abs_cases (((roots.length + c.length : Nat) : Int) - ((leaves.length + c.length : Nat) : Int)) with ⟨h3, -⟩ | ⟨h3, -⟩ <;> rw [h3] at hsize <;>
    push_cast at hsize <;> omega

/-- C109, the solutions: with the hypotheses of C95, where the announced size is half the difference between the numbers of requested sources and targets,
rounded up, exactly as many machines are built as announced (so, by `C109_optimal`, as few as possible). -/
theorem C109_built (hcfg : cfg.speeds.Pairwise (· ≤ ·)) (hp : Parsed input sv tv) (hs : ∀ v ∈ sv, 0 < v) (ht : ∀ v ∈ tv, 0 < v)
    (e : (load cfg input a h).result = .ok true)
    (hr : Reached ((load cfg input a h).attrs.problem cfg) O (load cfg input a h).heap (load cfg input a h).attrs.treeSource
      (load cfg input a h).attrs.bestSize s) (hsol : t ∈ s.solutions) :
    ∃ n h₁ t₁, (∀ n', n ≤ n' → t.toRat.attachLeaves n' s.heap.toRat (load cfg input a h).attrs.leaves = .ok (h₁, t₁)) ∧
      (((∀ v ∈ sv ++ tv, Spec.Integral v) ∨ Even h₁ t₁.roots) → Modest h₁ t₁.roots → WithinLimit cfg h₁ (Reach h₁ t₁.roots) →
        ∃ h₂, Settles (fun fuel => expandRoots cfg fuel h₁ t₁.roots) (.ok h₂) ∧
          (2 * (s.bestSize + (load cfg input a h).attrs.sizeOffset) ≤
              |((sv ++ extra sv.sum tv.sum).length : Int) - ((tv ++ extra tv.sum sv.sum).length : Int)| + 1 →
            (machineCount h₂ t₁.roots : Int) = s.bestSize + (load cfg input a h).attrs.sizeOffset)) := by
  obtain ⟨n, h₁, t₁, q1, q2⟩ := C95_built_partial hcfg hp hs ht e hr hsol
  refine ⟨n, h₁, t₁, q1, fun k1 k2 k3 => ?_⟩
  obtain ⟨h₂, supply, T, f, R, w1, w2, w3, w4, w5, w6, w7, w8, w9, w10, w11⟩ := q2 k1 k2 k3
  refine ⟨h₂, w1, fun hsize => ?_⟩
  obtain ⟨n', h₁', t₁', r1, r2, -⟩ := C67_solutions_sound hcfg hp hs ht e hr hsol
  have e1 := (q1 (max n n') (le_max_left _ _)).symm.trans (r1 _ (le_max_right _ _))
  simp only [Except.ok.injEq, Prod.mk.injEq] at e1
  obtain ⟨rfl, rfl⟩ := e1
  obtain ⟨U, u1, u2, -⟩ := r2.expanded_region k3 w1
  have hrn : t₁.roots.Nodup := by
    have : t₁.roots = t.roots := by
      obtain ⟨hP, hsrc, hB, -⟩ := C22_search_assumptions hcfg hp hs ht e
      obtain ⟨inner, leaves, Se, -⟩ := separate hcfg hp hs ht e hr hsol
      obtain ⟨n', h', t', p1, -, -, -, p5, -⟩ := attachLeaves_spec Se (C27_states_well_formed hP hsrc hB hr (Or.inr hsol))
        (C29_states_layered hP hsrc hB hr (Or.inr hsol)) (C33_solutions_correct hP hsrc hB hr hsol).1 hsrc.nonempty
      have e1 : t.toRat.attachLeaves (max n n') s.heap.toRat (load cfg input a h).attrs.leaves = .ok (h'.toRat, t'.toRat) := by
        rw [attachLeaves_toRat, p1 _ (le_max_right _ _)]; rfl
      rw [q1 _ (le_max_left _ _)] at e1
      simp only [Except.ok.injEq, Prod.mk.injEq] at e1
      obtain ⟨-, rfl⟩ := e1
      exact p5
    rw [this]
    exact Solver.roots_nodup hcfg hp hs ht e hr hsol
  have hrem : Remains sv tv (t₁.roots.map supply) (t₁.sources.map T) := by
    obtain ⟨⟨c, p1, p2⟩, p3⟩ := w9
    exact ⟨⟨c, p1, (w10.append_right c).trans p2⟩, fun v hv hv' => p3 v hv (w10.mem_iff.1 hv')⟩
  have := C109_optimal w5 (fun x hx => u1.inside x (u2 x hx)) hrn w2 w3 hrem _ hsize
  omega

/-- The hypotheses hold for `"3 6 to 1 1 1 2 2 2"`, where six belts are made of two: two machines are announced and built, and no network needs fewer. -/
example : Parsed "3 6 to 1 1 1 2 2 2".toList [3, 6] [1, 1, 1, 2, 2, 2] ∧ (Example.loaded "3 6 to 1 1 1 2 2 2").result = .ok true ∧
    (∃ h t, attached "3 6 to 1 1 1 2 2 2" = .ok (h, t) ∧ Modest h t.roots ∧ WithinLimit config h (Reach h t.roots)) ∧
    (∃ s t h₁ t₁ h₂, Reached ((Example.loaded "3 6 to 1 1 1 2 2 2").attrs.problem config)
        (Example.oracle (Example.loaded "3 6 to 1 1 1 2 2 2").attrs.targetValues none) (Example.loaded "3 6 to 1 1 1 2 2 2").heap
        (Example.loaded "3 6 to 1 1 1 2 2 2").attrs.treeSource (Example.loaded "3 6 to 1 1 1 2 2 2").attrs.bestSize s ∧ t ∈ s.solutions ∧
      t.toRat.attachLeaves 100 s.heap.toRat (Example.loaded "3 6 to 1 1 1 2 2 2").attrs.leaves = .ok (h₁, t₁) ∧
      Settles (fun fuel => expandRoots config fuel h₁ t₁.roots) (.ok h₂) ∧ (∀ x, Reach h₂ t₁.roots x → (h₂.get x).expands = []) ∧
      s.bestSize + (Example.loaded "3 6 to 1 1 1 2 2 2").attrs.sizeOffset = 2 ∧ machineCount h₂ t₁.roots = 2) ∧
    2 * (2 : Int) ≤ |((([3, 6] : List ℚ) ++ extra [3, 6].sum [1, 1, 1, 2, 2, 2].sum).length : Int) -
      ((([1, 1, 1, 2, 2, 2] : List ℚ) ++ extra [1, 1, 1, 2, 2, 2].sum [3, 6].sum).length : Int)| + 1 := by
  refine ⟨⟨by decide +kernel, by decide, by decide⟩, by decide +kernel, ⟨(attachedOf "3 6 to 1 1 1 2 2 2").1, (attachedOf "3 6 to 1 1 1 2 2 2").2,
    attachedOf_eq (by decide +kernel), ?_⟩, census_built (by decide +kernel), by decide +kernel⟩
  have C : Checked config.speeds (attachedOf "3 6 to 1 1 1 2 2 2").1 (attachedOf "3 6 to 1 1 1 2 2 2").2.roots
      (closure (attachedOf "3 6 to 1 1 1 2 2 2").1 3 (attachedOf "3 6 to 1 1 1 2 2 2").2.roots) := by
    decide +kernel
  exact ⟨C.modest (by decide +kernel) (by decide +kernel), C.limit (by decide +kernel)⟩

end Satis
