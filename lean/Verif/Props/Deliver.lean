import Verif.Graph.CheckSound
import Verif.Graph.Expanded
import Verif.Props.Traverse
/-!
# Expanded networks deliver what was asked for
-/

namespace Satis
open Satis.Graph Satis.Cost Satis.Spec Satis.Graph.Example

/-! ## C66 — the expanded network as a whole -/

/-- C66 for the networks of `PlainSpec` where no belt gets lost: `expand_roots` ends with a network that has the leaves of the network it was
given. If nothing is left pending in it, and nothing is if the belts to what is extracted need not be merged, then it can be built:
no machine has more than three inputs or outputs, and there are flows on its belts with which every machine
passes on what it receives, splits evenly or over a belt of a given speed, and every leaf receives its value. The machines leave no choice
about them: they are the only flows once it is known which belts carry a given speed. No flow exceeds the limit of the belts, unless a value
did before. Missing: networks in which merging separates belts from the same machine, where the claim is false. -/
theorem C66_expanded_delivers_partial (cfg : Config) (h : Heap ℚ) (roots : List Addr) (P : Sound cfg.speeds h roots) (R : Roomy h roots)
    (W : WithinLimit cfg h (Reach h roots)) :
    ∃ h', Settles (fun fuel => expandRoots cfg fuel h roots) (.ok h') ∧
      (∀ a, Reach h' roots a ∧ (h'.get a).children = [] ↔ Reach h roots a ∧ (h.get a).children = []) ∧
      (Light h roots → ∀ a, Reach h' roots a → (h'.get a).expands = []) ∧
      ((∀ a, Reach h' roots a → (h'.get a).expands = []) →
        ∃ T f, Carries cfg.speeds h' roots (fun a => if a ∈ roots then (h.get a).value else 0) T f ∧
          Forced cfg.speeds h' roots (fun a => if a ∈ roots then (h.get a).value else 0) T f ∧
          (∀ b : ℚ, cfg.limit ≤ b → (∀ a, Reach h roots a → (h.get a).value ≤ b) → ∀ a, Reach h' roots a → T a ≤ b) ∧
          ∀ a, Reach h roots a → (h.get a).children = [] → T a = (h.get a).value) := by
  obtain ⟨h', w1, w2, w3, w4⟩ := P.expanded R W
  refine ⟨h', w1, w2, w3, fun done => ?_⟩
  obtain ⟨-, T, f, q1, q2, q3, q4, -⟩ := w4 done
  exact ⟨T, f, q1, q2, q3, q4⟩

/-- `10` is divided by five, four parts are merged, and `5` is extracted from the sum. -/
def partsOfTen : Heap ℚ := ((do
  let (h, cs) ← divide (root 10) 0 5
  let (h, m) ← merge (fun (v : Int) k => v / k) h (cs.take 4)
  let (h, _) ← extract config h m 5
  return h : Py (Heap Int)).toOption.getD Solver.Example.emptyHeap).toRat

theorem partsOfTen_shape : (List.range partsOfTen.next).map (fun a => ((partsOfTen.get a).value, (partsOfTen.get a).parents,
    (partsOfTen.get a).children, (partsOfTen.get a).expands)) =
    [(10, [], [1, 2, 3, 4, 5], [.divide 5]), (2, [0], [6], []), (2, [0], [6], []), (2, [0], [6], []), (2, [0], [6], []), (2, [0], [], []),
      (8, [1, 2, 3, 4], [7, 8], [.merge 3, .extract 5]), (3, [6], [], []), (5, [6], [], [])] := by decide +kernel

/-- `WithinLimit`, by computation. -/
def limitOk (cfg : Config) (v : ℚ) : Expand ℚ → Bool
  | .divide d => match findNML d with
    | .ok (n, m, _, _) => decide (0 < d ∧ v * (2 ^ n * 3 ^ m) / d ≤ cfg.limit)
    | .error _ => false
  | .extract c => match findNML (v.num.toNat / Nat.gcd v.num.toNat c.num.toNat) with
    | .ok (n, m, _, _) => decide (v = (v.num.toNat : ℚ) ∧ c = (c.num.toNat : ℚ) ∧ 0 < c.num.toNat ∧ c.num.toNat < v.num.toNat ∧
      Nat.gcd v.num.toNat c.num.toNat * (2 ^ n * 3 ^ m) ≤ cfg.limit)
    | .error _ => false
  | _ => true

theorem Graph.Checked.limit {cfg : Config} {h : Heap ℚ} {roots : List Addr} {k : Nat} (C : Checked cfg.speeds h roots (closure h k roots))
    (H : ∀ a ∈ closure h k roots, ∀ e ∈ (h.get a).expands, limitOk cfg (h.get a).value e = true) : WithinLimit cfg h (Reach h roots) := by
  refine ⟨fun a ha d hd => ?_, fun a ha x hx => ?_⟩
  · have w := H a ((C.reach a).1 ha) _ hd
    unfold limitOk at w
    simp only at w
    split at w
    · next n m _ _ e =>
      obtain ⟨w1, w2⟩ := of_decide_eq_true w
      refine ⟨w1, fun n' m' hb => ?_⟩
      obtain ⟨n'', m'', e', hb'⟩ := findNML_best d (by omega)
      rw [e] at e'
      simp only [Except.ok.injEq, Prod.mk.injEq] at e'
      obtain ⟨rfl, rfl⟩ := bestShape_unique hb hb'
      rw [← e'.1, ← e'.2.1]
      exact w2
    · simp at w
  · have w := H a ((C.reach a).1 ha) _ hx
    unfold limitOk at w
    simp only at w
    split at w
    · next n m _ _ e =>
      obtain ⟨w0, w1, w2, w3, w4⟩ := of_decide_eq_true w
      refine ⟨_, _, w0, w1, w2, w3, fun n' m' hb => ?_⟩
      obtain ⟨n'', m'', e', hb'⟩ := findNML_best _ (gcd_quot w2 w3)
      rw [e] at e'
      simp only [Except.ok.injEq, Prod.mk.injEq] at e'
      obtain ⟨rfl, rfl⟩ := bestShape_unique hb hb'
      rw [← e'.1, ← e'.2.1]
      exact w4
    · simp at w

theorem partsOfTen_checked : Checked config.speeds partsOfTen [0] (closure partsOfTen 4 [0]) := by decide +kernel

/-- The hypotheses hold for it; what is built has two loops and a merger, and its leaves are `2`, `3` and `5`. -/
example : Sound config.speeds partsOfTen [0] ∧ Roomy partsOfTen [0] ∧ Light partsOfTen [0] ∧ WithinLimit config partsOfTen (Reach partsOfTen [0]) ∧
    (expandRoots config 200 partsOfTen [0]).toOption.map shape =
      some [(10, [9], [9, 10]), (2, [9], [6]), (2, [9], [11]), (2, [10], [11]), (2, [10], [11]), (2, [10], []), (8, [1, 11, 12], [12, 8, 7]),
        (3, [6], []), (5, [6, 12, 12], []), (6, [0], [1, 2, 0]), (6, [0], [3, 4, 5]), (6, [4, 3, 2], [6]), (3, [6], [6, 8, 8])] :=
  ⟨partsOfTen_checked.sound, partsOfTen_checked.roomy (by decide +kernel) (by decide +kernel), partsOfTen_checked.light (by decide +kernel),
    partsOfTen_checked.limit (by decide +kernel), by decide +kernel⟩

/-- They hold where belts have to be merged: `1` of `13`. Of the three belts that lead back, two come from the same splitter. -/
example : Sound config.speeds (extracted 13 1) [0] ∧ Roomy (extracted 13 1) [0] ∧ Light (extracted 13 1) [0] ∧
    WithinLimit config (extracted 13 1) (Reach (extracted 13 1) [0]) ∧
    (expandRoots config 200 (extracted 13 1) [0]).toOption.map shape =
      some [(13, [5], [3, 2]), (1, [4], []), (12, [0, 3], []), (9, [0], [4, 2, 5]), (3, [3], [1, 5, 5]), (5, [4, 4, 3], [0])] := by
  have C : Checked config.speeds (extracted 13 1) [0] (closure (extracted 13 1) 2 [0]) := by decide +kernel
  exact ⟨C.sound, C.roomy (by decide +kernel) (by decide +kernel), C.light (by decide +kernel), C.limit (by decide +kernel), by decide +kernel⟩

/-- `1` of `12`: four belts lead to the node that takes the rest, and nothing is left pending. -/
example : Sound config.speeds (extracted 12 1) [0] ∧ Roomy (extracted 12 1) [0] ∧ Light (extracted 12 1) [0] ∧
    WithinLimit config (extracted 12 1) (Reach (extracted 12 1) [0]) ∧
    (expandRoots config 200 (extracted 12 1) [0]).toOption.map (fun h => (shape h, (List.range h.next).map fun a => (h.get a).expands)) =
      some ([(12, [], [3, 2]), (1, [4], []), (11, [0, 5], []), (6, [0], [4, 5]), (3, [3], [1, 5, 5]), (5, [4, 4, 3], [2])], [[], [], [], [], [], []]) := by
  have C : Checked config.speeds (extracted 12 1) [0] (closure (extracted 12 1) 2 [0]) := by decide +kernel
  exact ⟨C.sound, C.roomy (by decide +kernel) (by decide +kernel), C.light (by decide +kernel), C.limit (by decide +kernel), by decide +kernel⟩

/-- `33` of `36`, and `1` of the `3` that are left. -/
def oneOfThree : Heap ℚ := ((do
  let (h, cs) ← extract config (root 36) 0 33
  let (h, _) ← extract config h (cs.getD 0 0) 1
  return h : Py (Heap Int)).toOption.getD Solver.Example.emptyHeap).toRat

/-- That nothing is left pending is not to be had without `Light`: no belt gets lost here, but `1` is never taken from `3`, as the loop over the
outputs of a splitter skips the node when the belts to the node before it are merged. -/
theorem C66_pending_false : Sound config.speeds oneOfThree [0] ∧ Roomy oneOfThree [0] ∧ WithinLimit config oneOfThree (Reach oneOfThree [0]) ∧
    ∃ h', Settles (fun fuel => expandRoots config fuel oneOfThree [0]) (.ok h') ∧ Reach h' [0] 1 ∧ (oneOfThree.get 1).expands = [.extract 1] ∧
      (h'.get 1).expands = [.extract 1] := by
  have C : Checked config.speeds oneOfThree [0] (closure oneOfThree 3 [0]) := by decide +kernel
  refine ⟨C.sound, C.roomy (by decide +kernel) (by decide +kernel), C.limit (by decide +kernel), ?_⟩
  have hs : (expandRoots config 200 oneOfThree [0]).toOption.map (fun h => ((h.get 1).expands, decide (1 ∈ closure h 5 [0]))) =
      some ([.extract 1], true) := by decide +kernel
  cases e : expandRoots config 200 oneOfThree [0] with
  | error x => rw [e] at hs; simp [Except.toOption] at hs
  | ok h' =>
    rw [e] at hs
    simp only [Except.toOption, Option.map_some, Option.some.injEq, Prod.mk.injEq, decide_eq_true_eq] at hs
    exact ⟨h', (expandRoots_stable config _ _).settles (by simp) e, closure_reach 5 [0] (fun a ha => .root ha) 1 hs.2, by decide +kernel, hs.1⟩

/-- C66 is false in general: `8` and `1` are asked of `9`. The network that is built carries `15/2` and `3/2` to the two leaves. -/
theorem C66_expanded_delivers_false : ∃ h', Settles (fun fuel => expandRoots config fuel (extracted 9 8) [0]) (.ok h') ∧
    (∀ a, Reach h' [0] a → (h'.get a).expands = []) ∧ ((extracted 9 8).get 1).value = 1 ∧ ((extracted 9 8).get 2).value = 8 ∧
    (h'.get 1).children = [] ∧ (h'.get 2).children = [] ∧
    (∃ T, EvenFlow h' (fun a => if a = 0 then 9 else 0) T) ∧ ∀ T, EvenFlow h' (fun a => if a = 0 then 9 else 0) T → T 1 = 3 / 2 ∧ T 2 = 15 / 2 := by
  have hs : (expandRoots config 200 (extracted 9 8) [0]).toOption.map (fun h => (List.range h.next).map fun a => ((h.get a).children, (h.get a).expands)) =
      some [([3, 4], []), ([], []), ([], []), ([1, 4, 4], []), ([2], [])] := by decide +kernel
  cases e : expandRoots config 200 (extracted 9 8) [0] with
  | error x => rw [e] at hs; simp [Except.toOption] at hs
  | ok h' =>
    rw [e] at hs
    simp only [Except.toOption, Option.map_some, Option.some.injEq] at hs
    have hn : h'.next = 5 := by
      have := congrArg List.length hs
      simpa using this
    rw [hn] at hs
    simp only [List.range, List.range.loop, List.map_cons, List.map_nil, List.cons.injEq, Prod.mk.injEq, and_true] at hs
    obtain ⟨⟨c0, x0⟩, ⟨c1, x1⟩, ⟨c2, x2⟩, ⟨c3, x3⟩, c4, x4⟩ := hs
    have hlt : ∀ a, Reach h' [0] a → a < 5 := fun a ha => by
      induction ha with
      | root w => simp at w; omega
      | @child b c _ hc ih =>
        interval_cases b <;> simp_all <;> omega
    have hev : ∀ T, EvenFlow h' (fun a => if a = 0 then 9 else 0) T ↔ T 0 = 9 ∧ T 1 = T 3 / 3 ∧ T 2 = T 4 ∧ T 3 = T 0 / 2 ∧ T 4 = T 0 / 2 + 2 * (T 3 / 3) := by
      intro T
      unfold EvenFlow
      rw [hn]
      constructor
      · intro H
        have H0 := H 0 (by decide)
        have H1 := H 1 (by decide)
        have H2 := H 2 (by decide)
        have H3 := H 3 (by decide)
        have H4 := H 4 (by decide)
        simp [List.range, List.range.loop, c0, c1, c2, c3, c4, List.count_cons] at H0 H1 H2 H3 H4
        exact ⟨H0, H1, H2, H3, H4⟩
      · rintro ⟨H0, H1, H2, H3, H4⟩ b hb
        interval_cases b <;> simp [List.range, List.range.loop, c0, c1, c2, c3, c4, List.count_cons] <;> assumption
    refine ⟨h', (expandRoots_stable config _ _).settles (by simp) e, fun a ha => ?_, by decide +kernel, by decide +kernel, c1, c2, ?_, ?_⟩
    · have := hlt a ha
      interval_cases a <;> assumption
    · refine ⟨fun a => if a = 0 then 9 else if a = 1 then 3 / 2 else if a = 3 then 9 / 2 else 15 / 2, ?_⟩
      rw [hev]
      norm_num
    · intro T hT
      obtain ⟨H0, H1, H2, H3, H4⟩ := (hev T).1 hT
      constructor <;> linarith

end Satis
