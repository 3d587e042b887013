import Verif.Graph.ExtractSpec
import Verif.Graph.MergeSpec
import Verif.Graph.MergeBelts
import Verif.Graph.ExpandExample
import Verif.Props.Cost
/-!
# Expanding moves into splitters and mergers
-/

namespace Satis
open Satis.Graph Satis.Cost Satis.Spec Satis.Graph.Example

/-! ## C42 — divisions -/

/-- C42. Expanding the division of a node into `d` equal parts, as long as the belt entering the tree stays within the limit: the call
succeeds (no index is out of range), the parts hang in a network of splitters with two or three outputs each, in the best shape for
`d` with `l` surplus branches looping back; the node takes its value and `l` shares coming back, every new splitter takes what it is
handed, every part receives its share by exactly one belt, and a merge is requested for the node exactly when too many belts enter
it. These flows are the only ones in balance. -/
theorem C42_expand_divide (cfg : Config) (h : Heap ℚ) (node : Addr) (d : Nat) (lvl : Int) (H : DivideInput h node d)
    (hlevel : (h.get node).level = some lvl) :
    ∃ n m l, BestShape d n m ∧ 2 ^ n * 3 ^ m = d + l ∧
      ((h.get node).value + l * (h.get node).value / d ≤ cfg.limit →
        ∃ h', expandDivide cfg h node d = .ok (h', (lvl + 1, n + m)) ∧
          SplitterNetwork h h' node ((h.get node).value + l * (h.get node).value / d) (h.get node).children ∧
          (∀ c ∈ (h.get node).children, (h'.get c).parents.length = 1) ∧
          Pending h h' node (if (h.get node).parents = [] then 2 else 3) ∧
          (0 < (h.get node).value → ∀ T, Steady h h' node T → T node = (h.get node).value + l * (h.get node).value / d ∧
            ∀ a, h.next ≤ a → a < h'.next → T a = (h'.get a).value)) := by
  have hd := H.two
  obtain ⟨n, m, hf, hb⟩ := findNML_best d (by omega)
  have hL := ((bestShape_iff d n m).1 hb).1
  refine ⟨n, m, L n m - d, hb, by rw [show 2 ^ n * 3 ^ m = L n m from rfl]; omega, fun hu => ?_⟩
  obtain ⟨h', e, N, u, -, q1, q2, -⟩ := expandDivide_under H hf (by omega) hlevel hu
  exact ⟨h', e, N, q1, q2 _ rfl, u⟩

/-- `5` in five parts: one of six branches loops. -/
example : DivideInput (divided 5 5) 0 5 where
  inside := by decide +kernel
  nonneg := by decide +kernel
  two := by decide
  count := by decide +kernel
  nodup := by decide +kernel
  lt := by decide +kernel
  ne := by decide +kernel
  share := by decide +kernel

example : shape (after (divided 5 5) (expandDivide config (divided 5 5) 0 5)) =
    [(5, [6], [6, 7]), (1, [6], []), (1, [6], []), (1, [7], []), (1, [7], []), (1, [7], []), (3, [0], [1, 2, 0]), (3, [0], [3, 4, 5])] := by
  decide +kernel

/-! ## C43 — extractions -/

/-- C43. Expanding the extraction of `c` out of `v`: the call succeeds and the two children hang in a network of splitters with two or
three outputs each, in the best shape for `v / gcd(v, c)`, that hands `c` to the one and `v - c` to the other. Within the limit the
node takes its value and what comes back; otherwise a new node takes what comes back and hands it to the splitters below the node.
These flows are the only ones in balance. -/
theorem C43_expand_extract (cfg : Config) (h : Heap ℚ) (node x y : Addr) (v c : Nat) (lvl : Int) (H : ExtractInput h node x y v c)
    (hlevel : (h.get node).level = some lvl) :
    ∃ n m l, BestShape (v / Nat.gcd v c) n m ∧ 2 ^ n * 3 ^ m = v / Nat.gcd v c + l ∧
      (((v : ℚ) + l * Nat.gcd v c ≤ cfg.limit →
        ∃ h', expandExtract cfg h node c = .ok (h', (lvl + 1, n + m)) ∧ SplitterNetwork h h' node ((v : ℚ) + l * Nat.gcd v c) [x, y] ∧
          Pending h h' node (if (h.get node).parents = [] then 2 else 3) ∧ Pending h h' x 3 ∧ Pending h h' y 3 ∧
          ∀ T, Steady h h' node T → T node = (v : ℚ) + l * Nat.gcd v c ∧ ∀ a, h.next ≤ a → a < h'.next → T a = (h'.get a).value) ∧
      ((v : ℚ) ≤ cfg.limit → (cfg.limit : ℚ) < (v : ℚ) + l * Nat.gcd v c →
        ∃ h', expandExtract cfg h node c = .ok (h', (lvl + 1, n + m)) ∧ SplitterNetwork h h' node v [x, y] ∧
          (h.next < h'.next ∧ (h'.get h.next).value = (l : ℚ) * Nat.gcd v c) ∧ Pending h h' x 3 ∧ Pending h h' y 3 ∧
          ∀ T, Steady h h' node T → T node = (v : ℚ) ∧ ∀ a, h.next ≤ a → a < h'.next → T a = (h'.get a).value)) := by
  obtain ⟨d, e, g, n, m, l, s, K⟩ := ExtractNumbers.of H.pos H.lt
  have hg := K.hg
  subst hg
  rw [Nat.div_eq_of_eq_mul_left K.gpos K.hv]
  have hb : BestShape d n m := by
    obtain ⟨n', m', hf, hb⟩ := findNML_best d (by have := K.elt; omega)
    rw [K.find] at hf
    simp only [Except.ok.injEq, Prod.mk.injEq] at hf
    rw [hf.1, hf.2.1]
    exact hb
  refine ⟨n, m, l, hb, K.total.symm, fun hu => ?_, fun hv ho => ?_⟩
  · obtain ⟨h', q1, q2, u, -, q3, q4, q5, -⟩ := expandExtract_under K H hlevel hu
    exact ⟨h', q1, q2, q3, q4, q5, u⟩
  · obtain ⟨h', q1, q2, u, -, ⟨q3, q4, -⟩, -, q5, q6⟩ := expandExtract_over K H hlevel hv ho
    exact ⟨h', q1, q2, ⟨q3, q4⟩, q5, q6, u⟩

/-- `5` out of `8`: one of nine branches loops. -/
example : ExtractInput (extracted 8 5) 0 1 2 8 5 where
  inside := by decide +kernel
  value := by decide +kernel
  pos := by decide
  lt := by decide
  children := by decide +kernel
  left := by decide +kernel
  right := by decide +kernel
  ne := by decide
  share := .inr (by decide +kernel)

example : shape (after (extracted 8 5) (expandExtract config (extracted 8 5) 0 5)) =
    [(8, [3], [3, 2, 1]), (3, [0], []), (5, [0, 3, 3], []), (3, [0], [0, 2, 2])] := by decide +kernel

/-- Over the limit: `239` out of `1195`, one of six branches loops. -/
example : shape (after (extracted 1195 239) (expandExtract config (extracted 1195 239) 0 239)) =
    [(1195, [], [4, 2]), (239, [4], []), (956, [0, 4, 3], []), (239, [4], [4, 2]), (717, [0, 3], [3, 1, 2])] := by decide +kernel

/-! ## C44 — merges -/

/-- C44. For all inputs, also repeated ones: the call succeeds, at most `t` belts remain, and each of the new mergers, as few as
possible, has three inputs. -/
theorem C44_merge_inputs (h : Heap ℚ) (node : Addr) (t : Nat) (ht : 2 ≤ t) (hn : node < h.next) (hl : (h.get node).level ≠ none)
    (hp : ∀ p ∈ (h.get node).parents, p < h.next ∧ (h.get p).level ≠ none ∧ 0 ≤ (h.get p).value) :
    ∃ h', expandMerge h node t = .ok (h', (0, 0)) ∧ (h'.get node).parents.length ≤ t ∧
      (∀ a, h.next ≤ a → a < h'.next → (h'.get a).parents.length = 3) ∧
      h'.next - h.next = ((h.get node).parents.length - t + 1) / 2 := expandMerge_always ht hn hl hp

/-- C44 for different inputs. Missing: repeated inputs, for which the claim is false. -/
theorem C44_expand_merge_partial (h : Heap ℚ) (node : Addr) (t : Nat) (ht : 2 ≤ t) (H : MergeInput h node) :
    ∃ h', expandMerge h node t = .ok (h', (0, 0)) ∧ MergerNetwork h h' node t := expandMerge_network ht H

/-- Four sources merged: `Node.merge` requests `expand_merge(node, 3)`. -/
def fourMerged : Heap ℚ :=
  ((merge (fun (v : ℚ) k => v / k) ((newNodes Solver.Example.emptyHeap [] (some 0) [1, 2, 3, 4]).toOption.map Prod.fst |>.getD
    Solver.Example.emptyHeap).toRat [0, 1, 2, 3]).toOption.map Prod.fst).getD Solver.Example.emptyHeap.toRat

example : MergeInput fourMerged 4 where
  inside := by decide +kernel
  level := by decide +kernel
  nodup := by decide +kernel
  lt := by decide +kernel
  levels := by decide +kernel
  nonneg := by decide +kernel
  once := by decide +kernel
  closed := by decide +kernel

example : shape (after fourMerged (expandMerge fourMerged 4 3)) =
    [(1, [], [4]), (2, [], [5]), (3, [], [5]), (4, [], [5]), (10, [0, 5], []), (9, [3, 2, 1], [4])] := by decide +kernel

/-- Expanding the extraction of `8` out of `9` makes a node with the inputs `[0, 0, 3, 3]`, for which a merge is requested. -/
def nine : Heap ℚ := after (extracted 9 8) (expandExtract config (extracted 9 8) 0 8)

/-- C44 is false for repeated inputs: a node that receives `8` by four belts, two from each of two splitters, receives `5` by one belt
after its inputs have been merged, because both belts from the splitter `0` were cut and only one was led to the merger. -/
theorem C44_expand_merge_false : ∃ h node h', (h.get node).expands = [.merge 3] ∧ (h.get node).level ≠ none ∧
    (∀ p ∈ (h.get node).parents, p < h.next ∧ (h.get p).level ≠ none ∧ 0 ≤ (h.get p).value) ∧
    (∀ p, p < h.next → ∀ c, c < h.next → (h.get p).children.count c = (h.get c).parents.count p) ∧
    expandMerge h node 3 = .ok (h', (0, 0)) ∧
    handed h (List.range h.next) (fun a => (h.get a).value) node = 8 ∧
    handed h' (List.range h'.next) (fun a => (h'.get a).value) node = 5 ∧ ¬ MergerNetwork h h' node 3 := by
  have e : ∃ h', expandMerge nine 2 3 = .ok (h', (0, 0)) ∧ after nine (expandMerge nine 2 3) = h' := by
    obtain ⟨h', e, -⟩ := C44_merge_inputs nine 2 3 (by decide) (by decide +kernel) (by decide +kernel) (by decide +kernel)
    exact ⟨h', e, by rw [e]; rfl⟩
  obtain ⟨h', e, rfl⟩ := e
  refine ⟨nine, 2, _, by decide +kernel, by decide +kernel, by decide +kernel, by decide +kernel, e, by decide +kernel, by decide +kernel, ?_⟩
  intro N
  have := N.links 2 (.inl rfl) 0 (.inl (by decide +kernel))
  revert this
  decide +kernel

/-- C44 for all inputs, also repeated ones: exactly which of them are merged correctly. The call always succeeds, and the belts are led
through mergers without losing any of them if and only if no machine has both a belt that is merged and a belt that is not touched. -/
theorem C44_repeated_inputs (h : Heap ℚ) (node : Addr) (t : Nat) (ht : 2 ≤ t) (H : BeltInput h node) :
    ∃ h', expandMerge h node t = .ok (h', (0, 0)) ∧ (BeltNetwork h h' node t ↔ Parted t (h.get node).parents) := expandMerge_belts ht H

/-- Expanding the extraction of `1` out of `12` makes a node with the inputs `[0, 3, 4, 4]`. -/
def twelve : Heap ℚ := after (extracted 12 1) (expandExtract config (extracted 12 1) 0 1)

theorem twelve_input : BeltInput twelve 2 where
  inside := by decide +kernel
  level := by decide +kernel
  lt := by decide +kernel
  levels := by decide +kernel
  nonneg := by decide +kernel
  count := by decide +kernel
  closed := by decide +kernel

theorem nine_input : BeltInput nine 2 where
  inside := by decide +kernel
  level := by decide +kernel
  lt := by decide +kernel
  levels := by decide +kernel
  nonneg := by decide +kernel
  count := by decide +kernel
  closed := by decide +kernel

example : (twelve.get 2).parents = [0, 3, 4, 4] ∧ Parted 3 (twelve.get 2).parents ∧
    (nine.get 2).parents = [0, 0, 3, 3] ∧ ¬ Parted 3 (nine.get 2).parents := by decide +kernel

example : shape (after twelve (expandMerge twelve 2 3)) =
    [(12, [], [3, 2]), (1, [4], []), (11, [0, 5], []), (6, [0], [4, 5]), (3, [3], [1, 5, 5]), (5, [4, 4, 3], [2])] := by decide +kernel

/-! ## C45 — the limit -/

/-- C45 for extractions. -/
theorem C45_extract_limit (cfg : Config) (h : Heap ℚ) (node x y : Addr) (v c : Nat) (lvl : Int) (H : ExtractInput h node x y v c)
    (hlevel : (h.get node).level = some lvl) (hlimit : (v : ℚ) ≤ cfg.limit) :
    ∃ h' u, expandExtract cfg h node c = .ok (h', u) ∧ (∃ T, Steady h h' node T) ∧
      ∀ T, Steady h h' node T → ∀ a ∈ made h h' node, T a ≤ cfg.limit := by
  obtain ⟨d, e, g, n, m, l, s, K⟩ := ExtractNumbers.of H.pos H.lt
  have hd0 : d ≠ 0 := by have := K.elt; omega
  have hl : l < d := by
    obtain ⟨n', m', hf, hb⟩ := findNML_best d hd0
    rw [K.find] at hf
    simp only [Except.ok.injEq, Prod.mk.injEq] at hf
    have := (bestShape_iff d n' m').1 hb
    rw [hf.2.2.1]
    exact findNML_loop_lt d n' m' hd0 this.1 this.2.1
  have hlg : (l : ℚ) * g ≤ v := by
    rw [K.hv]
    exact_mod_cast Nat.mul_le_mul_right g hl.le
  by_cases hu : (v : ℚ) + l * g ≤ cfg.limit
  · obtain ⟨h', q1, N, u, q2, -⟩ := expandExtract_under K H hlevel hu
    refine ⟨h', _, q1, ⟨_, N.isSteady H.inside⟩, fun T hT a ha => ?_⟩
    · obtain ⟨u1, u2⟩ := u T hT
      rcases (mem_made N.next).1 ha with q | q
      · rw [q, u1]; exact hu
      · rw [u2 a q.1 q.2]
        have := q2 a q.1 q.2
        linarith
  · rw [not_le] at hu
    obtain ⟨h', q1, N, u, q2, ⟨-, q3, -⟩, -⟩ := expandExtract_over K H hlevel hlimit hu
    refine ⟨h', _, q1, ⟨_, N.isSteady H.inside⟩, fun T hT a ha => ?_⟩
    · obtain ⟨u1, u2⟩ := u T hT
      rcases (mem_made N.next).1 ha with q | q
      · rw [q, u1]; exact hlimit
      · rw [u2 a q.1 q.2]
        by_cases hq : a = h.next
        · rw [hq, q3]; linarith
        · have := q2 a (by omega) q.2
          linarith

/-- C45 for divisions, exactly: no node carries more than the limit if and only if the node can take the part of the `l` surplus shares
that loops on ternary depths, `l mod 3 ^ m`, in addition to its value. Missing for the claim: the other cases, for which it is false. -/
theorem C45_divide_limit_partial (cfg : Config) (h : Heap ℚ) (node : Addr) (d : Nat) (lvl : Int) (H : DivideInput h node d)
    (hlevel : (h.get node).level = some lvl) (hpos : 0 < (h.get node).value) (hlimit : (h.get node).value ≤ cfg.limit) :
    ∃ n m l h' u, BestShape d n m ∧ 2 ^ n * 3 ^ m = d + l ∧ expandDivide cfg h node d = .ok (h', u) ∧ (∃ T, Steady h h' node T) ∧
      ∀ T, Steady h h' node T → ((∀ a ∈ made h h' node, T a ≤ cfg.limit) ↔
        (h.get node).value + (l % 3 ^ m : ℕ) * ((h.get node).value / d) ≤ cfg.limit) := by
  have hd := H.two
  obtain ⟨n, m, hf, hb⟩ := findNML_best d (by omega)
  have hL := (bestShape_iff d n m).1 hb
  have hlt := findNML_loop_lt d n m (by omega) hL.1 hL.2.1
  obtain ⟨l, hl⟩ : ∃ l, l = L n m - d := ⟨_, rfl⟩
  rw [← hl] at hlt hf
  have hd0 : (0 : ℚ) < d := by exact_mod_cast (by omega : 0 < d)
  have hs : 0 < (h.get node).value / d := by positivity
  have hmod : ((l % 3 ^ m : ℕ) : ℚ) ≤ l := by exact_mod_cast Nat.mod_le _ _
  have hmod' : ((l % 3 ^ m : ℕ) : ℚ) * ((h.get node).value / d) ≤ l * ((h.get node).value / d) := mul_le_mul_of_nonneg_right hmod hs.le
  have hll : (l : ℚ) * ((h.get node).value / d) ≤ (h.get node).value := by
    have : (l : ℚ) ≤ d := by exact_mod_cast hlt.le
    calc (l : ℚ) * ((h.get node).value / d) ≤ d * ((h.get node).value / d) := mul_le_mul_of_nonneg_right this hs.le
      _ = (h.get node).value := by field_simp
  have hV : (h.get node).value + l * (h.get node).value / d = (h.get node).value + l * ((h.get node).value / d) := by ring
  by_cases hu : (h.get node).value + l * (h.get node).value / d ≤ cfg.limit
  · obtain ⟨h', e, N, u, q2, -⟩ := expandDivide_under H hf (by omega) hlevel hu
    refine ⟨n, m, l, h', _, hb, by rw [show 2 ^ n * 3 ^ m = L n m from rfl]; omega, e, ⟨_, N.isSteady H.inside⟩, fun T hT => ⟨fun _ => ?_, fun _ a ha => ?_⟩⟩
    · rw [hV] at hu
      linarith
    · obtain ⟨u1, u2⟩ := u hpos T hT
      rcases (mem_made N.next).1 ha with q | q
      · rw [q, u1]; exact hu
      · rw [u2 a q.1 q.2]
        have := q2 a q.1 q.2
        linarith
  · rw [not_le] at hu
    obtain ⟨h', e, -, u, q2, q3, -⟩ := expandDivide_over H hf (by omega) hlevel hlimit hu
    have hin := H.inside
    refine ⟨n, m, l, h', _, hb, by rw [show 2 ^ n * 3 ^ m = L n m from rfl]; omega, e,
      ⟨fun a => if a = node then _ else if a = h.next then (l - l % 3 ^ m : ℕ) * ((h.get node).value / d) else (h'.get a).value, (u _).2 ⟨if_pos rfl, ?_, fun a h1 h2 => ?_⟩⟩,
      fun T hT => ⟨fun q => ?_, fun q a ha => ?_⟩⟩
    · rw [if_neg (by omega), if_pos rfl]
    · rw [if_neg (by omega), if_neg (by omega)]
    · rw [← ((u T).1 hT).1]
      exact q node ((mem_made (by omega)).2 (.inl rfl))
    · obtain ⟨u1, u2, u3⟩ := (u T).1 hT
      rcases (mem_made (by omega)).1 ha with w | w
      · rw [w, u1]; exact q
      · by_cases hq : a = h.next
        · rw [hq, u2]
          have : ((l - l % 3 ^ m : ℕ) : ℚ) ≤ l := by exact_mod_cast Nat.sub_le _ _
          have := mul_le_mul_of_nonneg_right this hs.le
          linarith
        · rw [u3 a (by omega) w.2]
          have := q2 a (by omega) w.2
          rw [hV] at this
          linarith

/-- C45 is false: `1005` in five parts, of which one more than five loops back to the node, which then takes `1206`. -/
theorem C45_divide_limit_false : ¬ ∀ (h : Heap ℚ) (node : Addr) (d : Nat), DivideInput h node d → (h.get node).level ≠ none →
    0 < (h.get node).value → (h.get node).value ≤ config.limit →
    ∃ h' u T, expandDivide config h node d = .ok (h', u) ∧ Steady h h' node T ∧ ∀ a ∈ made h h' node, T a ≤ config.limit := by
  intro hall
  have H : DivideInput (divided 1005 5) 0 5 := ⟨by decide +kernel, by decide +kernel, by decide, by decide +kernel, by decide +kernel,
    by decide +kernel, by decide +kernel, by decide +kernel⟩
  have hv : ((divided 1005 5).get 0).value = 1005 := by decide +kernel
  have hl : ((divided 1005 5).get 0).level = some 0 := by decide +kernel
  have hc : (config.limit : ℚ) = 1200 := by decide +kernel
  obtain ⟨h', u, T, e, hT, ha⟩ := hall _ 0 5 H (by rw [hl]; simp) (by rw [hv]; norm_num) (by rw [hv, hc]; norm_num)
  obtain ⟨n, m, l, h2, u2, hb, hL, e2, -, hi⟩ := C45_divide_limit_partial config _ 0 5 0 H hl (by rw [hv]; norm_num)
    (by rw [hv, hc]; norm_num)
  rw [e] at e2
  cases e2
  obtain ⟨rfl, rfl⟩ := bestShape_unique hb bestShape_5
  obtain rfl : l = 1 := by omega
  have := (hi T hT).1 ha
  rw [hv, hc] at this
  norm_num at this

/-- The extra node is not fed at all, and the loop leads to the node. -/
example : shape (after (divided 1005 5) (expandDivide config (divided 1005 5) 0 5)) =
    [(1005, [7], [7, 8]), (201, [7], []), (201, [7], []), (201, [8], []), (201, [8], []), (201, [8], []), (201, [], [7, 8]),
      (603, [0, 6], [1, 2, 0]), (603, [0, 6], [3, 4, 5])] := by decide +kernel

/-- C45 for merges: no merger takes more than the node. -/
theorem C45_merge_limit (h : Heap ℚ) (node : Addr) (t : Nat) (ht : 2 ≤ t) (H : MergeInput h node) :
    ∃ h', expandMerge h node t = .ok (h', (0, 0)) ∧ ∀ a, h.next ≤ a → a < h'.next →
      0 ≤ (h'.get a).value ∧ (h'.get a).value ≤ ((h.get node).parents.map (carried h)).sum := by
  obtain ⟨h', e, N⟩ := C44_expand_merge_partial h node t ht H
  refine ⟨h', e, ?_⟩
  have c0 : ∀ p ∈ (h.get node).parents, 0 ≤ carried h' p := fun p hp => by
    rw [N.same p hp]
    exact div_nonneg (H.nonneg p hp) (by positivity)
  have key : ∀ a, h.next ≤ a → a < h'.next → 0 ≤ (h'.get a).value ∧ carried h' a = (h'.get a).value := by
    intro a
    induction a using Nat.strong_induction_on with
    | _ a ih =>
      intro h1 h2
      refine ⟨?_, ?_⟩
      · rw [N.sums a h1 h2]
        apply List.sum_nonneg
        intro x hx
        obtain ⟨p, hp, rfl⟩ := List.mem_map.1 hx
        rcases N.sources a h1 h2 p hp with q | q
        · exact c0 p q
        · obtain ⟨w1, w2⟩ := ih p q.2 q.1 (by omega)
          rw [w2]; exact w1
      · obtain ⟨-, b, hb, -⟩ := N.three a h1 h2
        unfold carried
        rw [hb]
        simp
  have up : ∀ k a, h.next ≤ a → a < h'.next → h'.next - a ≤ k → (h'.get a).value ≤ ((h.get node).parents.map (carried h)).sum := by
    intro k
    induction k with
    | zero => intro a h1 h2 h3; omega
    | succ k ih =>
      intro a h1 h2 h3
      obtain ⟨-, b, hb, hbb⟩ := N.three a h1 h2
      have hin : b = node ∨ h.next ≤ b ∧ b < h'.next := by
        rcases hbb with q | q
        · exact .inl q
        · exact .inr ⟨by omega, q.2⟩
      have hap : a ∈ (h'.get b).parents := by
        have := N.links b hin a (.inr ⟨h1, h2⟩)
        rw [hb] at this
        simp at this
        exact List.count_pos_iff.1 (by omega)
      have hle : carried h' a ≤ ((h'.get b).parents.map (carried h')).sum := by
        apply List.single_le_sum _ _ (List.mem_map.2 ⟨a, hap, rfl⟩)
        intro x hx
        obtain ⟨p, hp, rfl⟩ := List.mem_map.1 hx
        rcases hin with q | q
        · rw [q] at hp
          rcases N.inputs p hp with w | w
          · exact c0 p w
          · rw [(key p w.1 w.2).2]; exact (key p w.1 w.2).1
        · rcases N.sources b q.1 q.2 p hp with w | w
          · exact c0 p w
          · rw [(key p w.1 (by omega)).2]; exact (key p w.1 (by omega)).1
      rw [(key a h1 h2).2] at hle
      rcases hin with q | q
      · rw [q, N.total] at hle; exact hle
      · rw [← N.sums b q.1 q.2] at hle
        exact hle.trans (ih b q.1 q.2 (by have := H.inside; rcases hbb with w | w <;> omega))
  exact fun a h1 h2 => ⟨(key a h1 h2).1, up _ a h1 h2 le_rfl⟩

/-! ## C47 — splits -/

theorem expandSplit_run {h : Heap ℚ} {node x₁ x₂ y : Addr} {c : ℚ} {lvl : Int} (H : SplitInput h node x₁ x₂ y c)
    (hlevel : (h.get node).level = some lvl) :
    ∃ h', expandSplit h node c = .ok (h', (lvl + 1, 1)) ∧ h'.next = h.next + 1 ∧
      (h'.get h.next).value = 2 * (c / 3) ∧ (h'.get h.next).level = some (lvl + 1) ∧
      (h'.get h.next).children = [h.next, x₁, x₂] ∧ (h'.get h.next).parents = [node] ∧
      (h'.get node).children = [h.next, y] ∧ (h'.get node).parents = (h.get node).parents ∧
      (h'.get x₁).parents = [h.next] ∧ (h'.get x₂).parents = [h.next] ∧ (∀ a, a < h.next → (h'.get a).value = (h.get a).value) ∧
      ∀ a, a < h.next → a ≠ node → a ≠ x₁ → a ≠ x₂ → h'.get a = h.get a := by
  obtain ⟨n1, n2, n3, n4, n5, n6⟩ := H.ne
  obtain ⟨l1, l2, l3⟩ := H.lt
  have hin := H.inside
  have hc := H.nonneg
  have m1 : x₁ ≠ h.next := by omega
  have m2 : x₂ ≠ h.next := by omega
  have m3 : y ≠ h.next := by omega
  have m4 : node ≠ h.next := by omega
  have hlv : levelSucc (h.get node) = .ok (lvl + 1) := by unfold levelSucc; rw [hlevel]
  have hv : ¬ c / 3 * 2 < 0 := by
    rw [not_lt]
    positivity
  have hv1 := H.third.1
  have hv2 := H.third.2
  have hv3 := H.other
  unfold expandSplit
  rw [hlv]
  simp only [bind, Except.bind, pure, Except.pure, newNode, if_neg hv, Heap.alloc, Except.ok.injEq, Prod.mk.injEq]
  refine ⟨_, ⟨rfl, trivial⟩, ?_⟩
  rcases H.children with e | e <;>
  · simp only [m4, if_false, e, List.foldl_cons, List.foldl_nil, Heap.get_modify, m1, m2, m3, n1, n2, n3, n4, n5, n6, n4.symm, n5.symm, n6.symm,
      n1.symm, n2.symm, n3.symm, m1.symm, m2.symm, m3.symm, m4.symm, hv1, hv2, hv3, if_true]
    refine ⟨rfl, by ring, trivial, rfl, trivial, rfl, trivial, trivial, trivial, ?_, ?_⟩
    · intro a ha
      have m5 : a ≠ h.next := by omega
      by_cases k1 : a = node
      · simp [k1, m4, n1.symm, n2.symm]
      · by_cases k2 : a = x₁
        · simp [k2, n1, m1, n4, hv1]
        · by_cases k3 : a = x₂
          · simp [k3, n2, m2, n4.symm, hv2]
          · simp [k1, k2, k3, m5]
    · intro a ha k1 k2 k3
      have m5 : a ≠ h.next := by omega
      simp [k1, k2, k3, m5]

/-- C47, the flows. The new node takes what the node passes on to it, two thirds of `c`, and what it hands to itself: that is `c`, and
both other outputs carry a third of `c`; what the node passes on is what it takes. Missing: consistency of the links, which is
false. -/
theorem C47_split_flows_partial (h : Heap ℚ) (node x₁ x₂ y : Addr) (c : ℚ) (lvl : Int) (H : SplitInput h node x₁ x₂ y c)
    (hlevel : (h.get node).level = some lvl) :
    ∃ h' new, expandSplit h node c = .ok (h', (lvl + 1, 1)) ∧ h.next ≤ new ∧ (h'.get node).children = [new, y] ∧
      (h'.get new).value + (h'.get y).value = (h'.get node).value ∧ (h'.get node).value = (h.get node).value ∧
      (h'.get new).children.length = 3 ∧ (h'.get new).level = some (lvl + 1) ∧
      ∀ T : Addr → ℚ, T new = (h'.get new).value + handed h' [new] T new ↔
        T new = c ∧ handed h' [new] T x₁ = c / 3 ∧ handed h' [new] T x₂ = c / 3 ∧ handed h' [new] T new = c / 3 := by
  obtain ⟨h', e, q1, q2, q3, q4, -, q5, -, -, -, q6, -⟩ := expandSplit_run H hlevel
  obtain ⟨n1, n2, n3, n4, n5, n6⟩ := H.ne
  obtain ⟨l1, l2, l3⟩ := H.lt
  have hin := H.inside
  have hc : ∀ T : Addr → ℚ, ∀ x, x = h.next ∨ x = x₁ ∨ x = x₂ → handed h' [h.next] T x = T h.next / 3 := fun T x hx => by
    unfold handed
    simp only [List.map_cons, List.map_nil, List.sum_cons, List.sum_nil, q4, List.length_cons, List.length_nil]
    have : [h.next, x₁, x₂].count x = 1 := by
      refine List.count_eq_one_of_mem ?_ ?_
      · simp
        omega
      · simpa using hx
    rw [this]
    norm_num
  refine ⟨h', h.next, e, le_rfl, q5, ?_, q6 node hin, by rw [q4]; rfl, q3, fun T => ?_⟩
  · rw [q2, q6 y l3, q6 node hin, H.rest]
    ring
  · rw [hc T _ (.inl rfl), hc T _ (.inr (.inl rfl)), hc T _ (.inr (.inr rfl)), q2]
    constructor
    · intro t
      have : T h.next = c := by linarith
      rw [this]
      simp
    · rintro ⟨t, -⟩
      rw [t]
      ring

/-- C47 is false for the links, always: the new node is among its own children but not among its own parents. -/
theorem C47_split_links_false (h : Heap ℚ) (node x₁ x₂ y : Addr) (c : ℚ) (lvl : Int) (H : SplitInput h node x₁ x₂ y c)
    (hlevel : (h.get node).level = some lvl) :
    ∃ h' new, expandSplit h node c = .ok (h', (lvl + 1, 1)) ∧ h.next ≤ new ∧ new < h'.next ∧
      new ∈ (h'.get new).children ∧ new ∉ (h'.get new).parents := by
  obtain ⟨h', e, q1, -, -, q4, q5, -⟩ := expandSplit_run H hlevel
  have hin := H.inside
  refine ⟨h', h.next, e, le_rfl, by omega, by rw [q4]; simp, ?_⟩
  rw [q5]
  simp
  omega

/-- `40` split off `100` with a belt of speed `60`. -/
example : SplitInput (splitted 100 60) 0 1 2 3 60 where
  inside := by decide +kernel
  nonneg := by decide +kernel
  children := .inl (by decide +kernel)
  lt := by decide +kernel
  ne := by decide +kernel
  third := by decide +kernel
  rest := by decide +kernel
  other := by decide +kernel

example : shape (after (splitted 100 60) (expandSplit (splitted 100 60) 0 60)) =
    [(100, [], [4, 3]), (20, [4], []), (20, [4], []), (60, [0], []), (40, [0], [4, 1, 2])] := by decide +kernel


end Satis
