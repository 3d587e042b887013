import Verif.Props.Delivered
import Verif.Solver.FeesOwn
/-!
# C94 — the size that is announced

The program says `Found k solutions of size <= n` (`src/solver.py:288`, `295`): `n` is the size of the solutions and the price of the grouped
targets. What is built later, from the solutions with the targets attached, is counted machine by machine (`Verif/Graph/CountSpec.lean`).
-/

namespace Satis
open Satis.Utils Satis.Graph Satis.Solver Satis.Solver.Example Satis.Cost Satis.Utils.Spec

variable {cfg : Config} {input : Str} {a : Attrs} {h : Heap Int} {sv tv : List ℚ} {O : Oracle} {s : Search} {t : TreeObj Int}

/-- C94 for solutions that expansion loses no belts of, on belts within the limit: with the targets attached, `expand_roots` makes of the solution a
network of as many machines as announced, less those that are saved where a belt that leads back finds a free input. Missing: solutions with splits
(where nothing is expanded), with belts over the limit (`C94_announced_size_false`), and those where belts get lost. -/
theorem C94_announced_size_partial (hcfg : cfg.speeds.Pairwise (· ≤ ·)) (hp : Parsed input sv tv) (hs : ∀ v ∈ sv, 0 < v) (ht : ∀ v ∈ tv, 0 < v)
    (e : (load cfg input a h).result = .ok true)
    (hr : Reached ((load cfg input a h).attrs.problem cfg) O (load cfg input a h).heap (load cfg input a h).attrs.treeSource
      (load cfg input a h).attrs.bestSize s) (hsol : t ∈ s.solutions) :
    ∃ n h₁ t₁, (∀ n', n ≤ n' → t.toRat.attachLeaves n' s.heap.toRat (load cfg input a h).attrs.leaves = .ok (h₁, t₁)) ∧
      (Roomy h₁ t₁.roots → WithinLimit cfg h₁ (Reach h₁ t₁.roots) →
        ∃ h₂, Settles (fun fuel => expandRoots cfg fuel h₁ t₁.roots) (.ok h₂) ∧
          (Light h₁ t₁.roots → ∀ x, Reach h₂ t₁.roots x → (h₂.get x).expands = []) ∧
          ((∀ x, Reach h₂ t₁.roots x → (h₂.get x).expands = []) →
            (machineCount h₂ t₁.roots : Int) + joinCount h₁ t₁.roots = s.bestSize + (load cfg input a h).attrs.sizeOffset ∧
            (machineCount h₂ t₁.roots : Int) ≤ s.bestSize + (load cfg input a h).attrs.sizeOffset)) := by
  obtain ⟨hP, hsrc, hB, -⟩ := C22_search_assumptions hcfg hp hs ht e
  have hsize := ((hr.inv hP hsrc hB).sols t hsol).1
  obtain ⟨n, h', t', q1, q2, q3, -, -, q4, q5, -⟩ := Solver.attached_solution hcfg hp hs ht e hr hsol
  refine ⟨n, h'.toRat, t'.toRat, q1, fun hR hW => ?_⟩
  obtain ⟨h₂, w1, -, w2, w3⟩ := q2.expanded hR hW
  refine ⟨h₂, w1, w2, fun done => ?_⟩
  have w := (w3 done).1
  have hd := dues_own q2 hR.unsplit hW q4 q3
  rw [q5, hsize] at hd
  have : (machineCount h₂ t'.toRat.roots : Int) + joinCount h'.toRat t'.toRat.roots = s.bestSize + (load cfg input a h).attrs.sizeOffset := by
    rw [← hd, ← Nat.cast_add]
    exact congrArg _ w
  exact ⟨this, by omega⟩

/-! ### Requests, and what is built for them -/

/-- What is announced for a request, and the first solution with the targets attached. -/
def announced (input : String) : Py (Int × Heap ℚ × TreeObj ℚ) :=
  let r := Example.loaded input
  match solve (r.attrs.problem config) (Example.oracle r.attrs.targetValues none) 100 r.heap r.attrs.treeSource r.attrs.bestSize with
  | .error e => .error e
  | .ok s => match s.solutions with
    | [] => .error .indexError
    | t :: _ => match t.toRat.attachLeaves 100 s.heap.toRat r.attrs.leaves with
      | .error e => .error e
      | .ok x => .ok (s.bestSize + r.attrs.sizeOffset, x)

theorem announced_reached {input : String} {k : Int} {h₁ : Heap ℚ} {t₁ : TreeObj ℚ} (e : announced input = .ok (k, h₁, t₁)) :
    ∃ s t, Reached ((Example.loaded input).attrs.problem config) (Example.oracle (Example.loaded input).attrs.targetValues none)
        (Example.loaded input).heap (Example.loaded input).attrs.treeSource (Example.loaded input).attrs.bestSize s ∧ t ∈ s.solutions ∧
      t.toRat.attachLeaves 100 s.heap.toRat (Example.loaded input).attrs.leaves = .ok (h₁, t₁) ∧ k = s.bestSize + (Example.loaded input).attrs.sizeOffset := by
  unfold announced at e
  simp only at e
  cases hs : solve ((Example.loaded input).attrs.problem config) (Example.oracle (Example.loaded input).attrs.targetValues none) 100
      (Example.loaded input).heap (Example.loaded input).attrs.treeSource (Example.loaded input).attrs.bestSize with
  | error x => rw [hs] at e; simp at e
  | ok s =>
    rw [hs] at e
    cases hl : s.solutions with
    | nil => simp [hl] at e
    | cons t ts =>
      cases ha : t.toRat.attachLeaves 100 s.heap.toRat (Example.loaded input).attrs.leaves with
      | error x => simp [hl, ha] at e
      | ok x =>
        simp only [hl, ha, Except.ok.injEq, Prod.mk.injEq] at e
        exact ⟨s, t, solveLoop_visited _ .start hs, by rw [hl]; simp, by rw [ha, e.2], e.1.symm⟩

/-- A machine for the belts that leave a node, and one for those that arrive. -/
def counted (h : Heap ℚ) (roots : List Addr) (a : Addr) : Nat :=
  (if 2 ≤ (h.get a).children.length then 1 else 0) + (if 2 ≤ (h.get a).parents.length + (if a ∈ roots then 1 else 0) then 1 else 0)

theorem machineCount_list {h : Heap ℚ} {roots U : List Addr} (hU : U.Nodup) (hm : ∀ a, Reach h roots a ↔ a ∈ U) (hlt : ∀ a ∈ U, a < h.next) :
    machineCount h roots = (U.map (counted h roots)).sum := by
  classical
  unfold machineCount
  rw [← List.sum_toFinset _ hU]
  refine Finset.sum_congr ?_ fun _ _ => rfl
  ext a
  rw [Finset.mem_filter, Finset.mem_range, List.mem_toFinset, hm]
  exact ⟨fun w => w.2, fun w => ⟨hlt a w, w⟩⟩

/-- What is announced, and the machines of what is built, provided that nothing is pending there. -/
def census (input : String) : Py (Int × Nat) :=
  match announced input with
  | .error e => .error e
  | .ok (k, h₁, t₁) => match expandRoots config 200 h₁ t₁.roots with
    | .error e => .error e
    | .ok h₂ =>
      let U := closure h₂ 8 t₁.roots
      if U.Nodup ∧ (∀ a ∈ U, a < h₂.next ∧ (h₂.get a).expands = [] ∧ ∀ c ∈ (h₂.get a).children, c ∈ U) then .ok (k, (U.map (counted h₂ t₁.roots)).sum)
      else .error .assertionError

theorem census_built {input : String} {k : Int} {n : Nat} (e : census input = .ok (k, n)) :
    ∃ s t h₁ t₁ h₂, Reached ((Example.loaded input).attrs.problem config) (Example.oracle (Example.loaded input).attrs.targetValues none)
        (Example.loaded input).heap (Example.loaded input).attrs.treeSource (Example.loaded input).attrs.bestSize s ∧ t ∈ s.solutions ∧
      t.toRat.attachLeaves 100 s.heap.toRat (Example.loaded input).attrs.leaves = .ok (h₁, t₁) ∧
      Settles (fun fuel => expandRoots config fuel h₁ t₁.roots) (.ok h₂) ∧ (∀ x, Reach h₂ t₁.roots x → (h₂.get x).expands = []) ∧
      s.bestSize + (Example.loaded input).attrs.sizeOffset = k ∧ machineCount h₂ t₁.roots = n := by
  unfold census at e
  cases ha : announced input with
  | error x => rw [ha] at e; simp at e
  | ok x =>
    obtain ⟨k', h₁, t₁⟩ := x
    rw [ha] at e
    simp only at e
    cases hx : expandRoots config 200 h₁ t₁.roots with
    | error x => rw [hx] at e; simp at e
    | ok h₂ =>
      rw [hx] at e
      simp only at e
      split at e
      · rename_i w
        simp only [Except.ok.injEq, Prod.mk.injEq] at e
        obtain ⟨s, t, q1, q2, q3, q4⟩ := announced_reached ha
        have hm := closure_iff 8 fun a ha => (w.2 a ha).2.2
        refine ⟨s, t, h₁, t₁, h₂, q1, q2, q3, (expandRoots_stable config _ _).settles (by simp) hx, fun x hx => (w.2 x ((hm x).1 hx)).2.1, ?_, ?_⟩
        · rw [← q4, e.1]
        · rw [machineCount_list w.1 hm fun a ha => (w.2 a ha).1, e.2]
      · simp at e

/-- C94 is false for belts over the limit: for `"1100 to 220 220 220 220 220"` the program announces a size of at most four. It builds six machines: dividing
by five leads a sixth of `1320` back, more than any conveyor brings, and what is built for that costs two machines more than the price. -/
theorem C94_announced_size_false : Parsed "1100 to 220 220 220 220 220".toList [1100] [220, 220, 220, 220, 220] ∧
    (Example.loaded "1100 to 220 220 220 220 220").result = .ok true ∧
    ∃ s t h₁ t₁ h₂, Reached ((Example.loaded "1100 to 220 220 220 220 220").attrs.problem config)
        (Example.oracle (Example.loaded "1100 to 220 220 220 220 220").attrs.targetValues none) (Example.loaded "1100 to 220 220 220 220 220").heap
        (Example.loaded "1100 to 220 220 220 220 220").attrs.treeSource (Example.loaded "1100 to 220 220 220 220 220").attrs.bestSize s ∧ t ∈ s.solutions ∧
      t.toRat.attachLeaves 100 s.heap.toRat (Example.loaded "1100 to 220 220 220 220 220").attrs.leaves = .ok (h₁, t₁) ∧
      Settles (fun fuel => expandRoots config fuel h₁ t₁.roots) (.ok h₂) ∧ (∀ x, Reach h₂ t₁.roots x → (h₂.get x).expands = []) ∧
      s.bestSize + (Example.loaded "1100 to 220 220 220 220 220").attrs.sizeOffset = 4 ∧ machineCount h₂ t₁.roots = 6 := by
  refine ⟨⟨by decide +kernel, by decide, by decide⟩, by decide +kernel, census_built ?_⟩
  decide +kernel

/-- `"5 to 1 4"`, `"13 to 1 12"` and `"10 to 2 2 2 2 2"` take as many machines as announced. For `"3 2 to 1 1 1 1 1"` there is one less: the merger of the two sources takes
the belt that leads back as well. -/
example : (census "5 to 1 4").toOption = some (4, 4) ∧ (census "13 to 1 12").toOption = some (6, 6) ∧
    (census "10 to 2 2 2 2 2").toOption = some (4, 4) ∧ (census "3 2 to 1 1 1 1 1").toOption = some (5, 4) := by
  refine ⟨?_, ?_, ?_, ?_⟩ <;> decide +kernel

/-- The hypotheses hold for the last one; for the first two, see C67. -/
example : Parsed "3 2 to 1 1 1 1 1".toList [3, 2] [1, 1, 1, 1, 1] ∧ (Example.loaded "3 2 to 1 1 1 1 1").result = .ok true ∧
    ∃ h t, attached "3 2 to 1 1 1 1 1" = .ok (h, t) ∧ Roomy h t.roots ∧ WithinLimit config h (Reach h t.roots) ∧ Light h t.roots := by
  refine ⟨⟨by decide +kernel, by decide, by decide⟩, by decide +kernel, (attachedOf "3 2 to 1 1 1 1 1").1, (attachedOf "3 2 to 1 1 1 1 1").2,
    attachedOf_eq (by decide +kernel), ?_⟩
  have C : Checked config.speeds (attachedOf "3 2 to 1 1 1 1 1").1 (attachedOf "3 2 to 1 1 1 1 1").2.roots
      (closure (attachedOf "3 2 to 1 1 1 1 1").1 3 (attachedOf "3 2 to 1 1 1 1 1").2.roots) := by
    decide +kernel
  exact ⟨C.roomy (by decide +kernel) (by decide +kernel), C.limit (by decide +kernel), C.light (by decide +kernel)⟩

end Satis
