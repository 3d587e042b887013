import Verif.Graph.LaneLevels
import Verif.Graph.Relevel
import Verif.Props.Traverse
import Verif.Props.Delivered
/-!
# Expansions over the limit
-/

namespace Satis
open Satis.Graph Satis.Cost Satis.Spec Satis.Graph.Example Satis.Solver Satis.Solver.Example

/-! ## C46 — levels, over the limit -/

/-- The pending expansion puts more than the limit on a node with the value `v`, and sends part of it back. Dividing by `d` with the best shape `2^n 3^m`
puts `v 2^n 3^m / d` on the node, and one of the subtrees with `3^m` outputs, at least, is sent back. Taking `c` out of `w` puts `g 2^n 3^m` on the
node, where `g` is the greatest common divisor and `2^n 3^m` the best shape for `w / g` parts. -/
def OverLimit (cfg : Config) (v : ℚ) : Expand ℚ → Prop
  | .divide d => 0 < d ∧ ∃ n m, BestShape d n m ∧ (cfg.limit : ℚ) < v * (2 ^ n * 3 ^ m) / d ∧ d + 3 ^ m ≤ 2 ^ n * 3 ^ m
  | .extract x => ∃ w c n m : Nat, v = w ∧ x = c ∧ 0 < c ∧ c < w ∧ BestShape (w / Nat.gcd w c) n m ∧
      cfg.limit < Nat.gcd w c * (2 ^ n * 3 ^ m) ∧ w < Nat.gcd w c * (2 ^ n * 3 ^ m)
  | .merge _ => False
  | .split _ => False

theorem OverLimit.overruns {cfg : Config} {v : ℚ} {e : Expand ℚ} (h : OverLimit cfg v e) : Overruns cfg v e := by
  cases e with
  | merge t => exact h.elim
  | split c => exact h.elim
  | divide d =>
    obtain ⟨hd, n, m, hb, h1, h2⟩ := h
    obtain ⟨n', m', hf, hb'⟩ := findNML_best d (by omega)
    obtain ⟨rfl, rfl⟩ := bestShape_unique hb hb'
    have e1 : L n m = 2 ^ n * 3 ^ m := rfl
    have hL : d ≤ L n m := by have : 0 < 3 ^ m := by positivity
                              omega
    refine ⟨n, m, _, _, hf, ?_, by omega⟩
    have h3 : ((L n m - d : Nat) : ℚ) = 2 ^ n * 3 ^ m - d := by
      rw [Nat.cast_sub hL]
      simp [L]
    have h4 : (d : ℚ) ≠ 0 := by
      have : 0 < (d : ℚ) := by exact_mod_cast hd
      exact this.ne'
    refine h1.trans_le (le_of_eq ?_)
    rw [h3]
    field_simp
    ring
  | extract x =>
    obtain ⟨w, c, n, m, rfl, rfl, hc0, hcv, hb, h1, h2⟩ := h
    obtain ⟨d, e, g, n', m', l, s, K⟩ := ExtractNumbers.of hc0 hcv
    have hb' : BestShape (w / Nat.gcd w c) n' m' := by
      rw [← K.hg, Nat.div_eq_of_eq_mul_left K.gpos K.hv]
      obtain ⟨n', m', hf, hb⟩ := findNML_best d (by have := K.elt; omega)
      rw [K.find] at hf
      simp only [Except.ok.injEq, Prod.mk.injEq] at hf
      rw [hf.1, hf.2.1]
      exact hb
    obtain ⟨rfl, rfl⟩ := bestShape_unique hb hb'
    rw [← K.hg] at h1 h2
    have hnum : (((w : ℚ).num / (g : Int))).toNat = d := by
      have : (w : ℚ).num = w := Rat.num_natCast w
      rw [this, ← Int.natCast_div, Int.toNat_natCast, K.hv, Nat.mul_div_cancel _ K.gpos]
    have hg0 : g ≠ 0 := K.gpos.ne'
    have ht : w + l * g = g * (2 ^ n * 3 ^ m) := by
      have ht : (L n m : Nat) = 2 ^ n * 3 ^ m := rfl
      rw [K.hv, ← Nat.add_mul, K.total, ht, Nat.mul_comm]
    refine ⟨(w : ℚ) + l * g, ?_, ?_, ?_⟩
    · unfold extractTotal
      rw [pyGcd_nat hcv.le K.hg]
      simp only [bind, Except.bind, pure, Except.pure, if_neg hg0, hnum, K.find]
    · have : cfg.limit < w + l * g := by omega
      exact_mod_cast this
    · have : w + l * g ≠ w := by omega
      exact_mod_cast this

/-- C46, the other side, for all networks and all that may be pending: if a division or an extraction puts more than the limit on its node and sends part
of it back, and nothing else but merges is pending there, then either `expand_roots` raises an exception, or it never got to this node. -/
theorem C46_over_limit (cfg : Config) (h : Heap ℚ) (U : Addr → Prop) (H : Region h U) (roots : List Addr) (hr : ∀ r ∈ roots, U r) (a : Addr) (ha : U a)
    (e : Expand ℚ) (he : ∀ x ∈ (h.get a).expands, x = e ∨ ∃ t, x = .merge t) (hc : (h.get a).expands.count e = 1)
    (ho : OverLimit cfg (h.get a).value e) :
    (∃ err, err ≠ .diverge ∧ Settles (fun fuel => expandRoots cfg fuel h roots) (.error err)) ∨
      ∃ h', Settles (fun fuel => expandRoots cfg fuel h roots) (.ok h') ∧ e ∈ (h'.get a).expands ∧ a ∉ roots := by
  have hm : ∀ t, e ≠ .merge t := by
    rintro t rfl
    exact ho
  have hh : heavy (h.get a) = [e] := by
    have : ∀ l : List (Expand ℚ), (∀ x ∈ l, x = e ∨ ∃ t, x = .merge t) →
        (l.filter fun x => match x with | .merge _ => false | _ => true) = List.replicate (l.count e) e := by
      intro l
      induction l with
      | nil => exact fun _ => rfl
      | cons x l ih =>
        intro hl
        have := ih fun y hy => hl y (List.mem_cons_of_mem _ hy)
        rcases hl x (by simp) with rfl | ⟨t, rfl⟩
        · rw [List.count_cons_self, List.replicate_succ, ← this, List.filter_cons]
          cases x with
          | merge t => exact absurd rfl (hm t)
          | _ => rfl
        · rw [List.count_cons_of_ne (fun w => hm t w.symm), ← this, List.filter_cons]
          rfl
    have := this _ he
    rw [hc] at this
    exact this
  obtain ⟨r, h1, h2⟩ := expandRoots_settles cfg H roots hr
  cases r with
  | error err => exact .inl ⟨err, fun w => h1 (by rw [w]), h2⟩
  | ok h' =>
    obtain ⟨q1, q2⟩ := expandRoots_overruns cfg H roots hr h2 a ha e hh ho.overruns
    refine .inr ⟨h', h2, ?_, q2⟩
    have : e ∈ heavy (h'.get a) := by rw [q1]; simp
    exact List.mem_of_mem_filter this

/-- C46 at a root: it is not expanded over the limit without an exception. -/
theorem C46_over_limit_root (cfg : Config) (h : Heap ℚ) (U : Addr → Prop) (H : Region h U) (roots : List Addr) (hr : ∀ r ∈ roots, U r) (a : Addr)
    (ha : a ∈ roots) (e : Expand ℚ) (he : ∀ x ∈ (h.get a).expands, x = e ∨ ∃ t, x = .merge t) (hc : (h.get a).expands.count e = 1)
    (ho : OverLimit cfg (h.get a).value e) :
    ∃ err, err ≠ .diverge ∧ Settles (fun fuel => expandRoots cfg fuel h roots) (.error err) := by
  rcases C46_over_limit cfg h U H roots hr a (hr a ha) e he hc ho with w | ⟨_, _, _, w⟩
  · exact w
  · exact absurd ha w

/-- Saving raises an exception if a root is over the limit. -/
theorem saveTree_over_limit (cfg : Config) {h : Heap ℚ} {U : Addr → Prop} (H : Region h U) {roots : List Addr} (hr : ∀ r ∈ roots, U r) {a : Addr}
    (ha : a ∈ roots) {e : Expand ℚ} (he : ∀ x ∈ (h.get a).expands, x = e ∨ ∃ t, x = .merge t) (hc : (h.get a).expands.count e = 1)
    (ho : OverLimit cfg (h.get a).value e) : ∃ err, err ≠ .diverge ∧ Settles (fun fuel => saveTree cfg fuel h roots) (.error err) := by
  obtain ⟨r, rs, rfl⟩ := List.exists_cons_of_ne_nil (List.ne_nil_of_mem ha)
  obtain ⟨_, _, -, -, -, -, F, hF⟩ := saveNodes_settles H r rs hr
  have S := setLevels_relevelled h (r :: rs) 0
  rw [← S.expands] at he hc
  rw [← S.value] at ho
  obtain ⟨err, h1, G, hG⟩ := C46_over_limit_root cfg _ U (S.toSameGraph.region H) (r :: rs) hr a ha e he hc ho
  refine ⟨err, h1, max F G, fun fuel hf => ?_⟩
  have e1 := hF fuel (le_trans (le_max_left _ _) hf)
  have e2 := hG fuel (le_trans (le_max_right _ _) hf)
  simp only at e1 e2
  simp only [saveTree, e1, bind, Except.bind, e2]

section
variable {input : Utils.Str} {sv tv : List ℚ} {at₀ : Attrs} {h : Heap Int} {cfg : Config} {O : Oracle} {s : Search} {t : TreeObj Int}

/-- C46 for what the program does: the solutions of a request are saved one after the other. If the first is such that, with the targets attached, a root
is over the limit, then an exception is raised; none of the solutions found is written in full. -/
theorem C46_solutions_lost (hcfg : cfg.speeds.Pairwise (· ≤ ·)) (hp : Parsed input sv tv) (hs : ∀ v ∈ sv, 0 < v) (ht : ∀ v ∈ tv, 0 < v)
    (e : (Solver.load cfg input at₀ h).result = .ok true)
    (hr : Reached ((Solver.load cfg input at₀ h).attrs.problem cfg) O (Solver.load cfg input at₀ h).heap (Solver.load cfg input at₀ h).attrs.treeSource
      (Solver.load cfg input at₀ h).attrs.bestSize s) (ts : List (TreeObj Int)) (hsol : s.solutions = t :: ts) (n : Nat) (h₁ : Heap ℚ) (t₁ : TreeObj ℚ)
    (hat : t.toRat.attachLeaves n s.heap.toRat (Solver.load cfg input at₀ h).attrs.leaves = .ok (h₁, t₁)) (r : Addr) (hr₁ : r ∈ t₁.roots)
    (x : Expand ℚ) (he : ∀ y ∈ (h₁.get r).expands, y = x ∨ ∃ k, y = .merge k) (hc : (h₁.get r).expands.count x = 1)
    (ho : OverLimit cfg (h₁.get r).value x) :
    ∃ err, err ≠ .diverge ∧ Settles (fun fuel => concludeAll cfg fuel (Solver.load cfg input at₀ h).attrs.leaves s.heap.toRat (s.solutions.map TreeObj.toRat))
      (.error err) := by
  obtain ⟨n', h', t', q1, q2, -⟩ := C67_solutions_sound hcfg hp hs ht e hr (t := t) (by rw [hsol]; simp)
  have e1 := attachLeaves_stable s.heap.toRat t.toRat (Solver.load cfg input at₀ h).attrs.leaves n (max n n') (le_max_left _ _) (by simp only [hat]; simp)
  have e2 := q1 _ (le_max_right n n')
  simp only at e1
  rw [hat, e2] at e1
  simp only [Except.ok.injEq, Prod.mk.injEq] at e1
  obtain ⟨rfl, rfl⟩ := e1
  obtain ⟨err, h1, F, hF⟩ := saveTree_over_limit cfg q2.region (fun r hr => .root hr) hr₁ he hc ho
  refine ⟨err, h1, max n' F, fun fuel hf => ?_⟩
  have e3 := q1 fuel (le_trans (le_max_left _ _) hf)
  have e4 := hF fuel (le_trans (le_max_right _ _) hf)
  simp only at e4
  rw [hsol]
  simp only [List.map_cons, concludeAll, e3, bind, Except.bind, e4]

end

theorem bestShape_55 : BestShape 55 3 2 := by
  obtain ⟨n, m, h1, h2⟩ := findNML_best 55 (by decide)
  have : findNML 55 = .ok (3, 2, 17, 39) := by decide +kernel
  rw [this] at h1
  simp only [Except.ok.injEq, Prod.mk.injEq] at h1
  obtain ⟨rfl, rfl, -⟩ := h1
  exact h2

/-- `239` out of `1195`: `6 * 239` is on the root. -/
example : Region (extracted 1195 239) (· < (extracted 1195 239).next) ∧ ((extracted 1195 239).get 0).expands = [.extract 239] ∧
    OverLimit config ((extracted 1195 239).get 0).value (.extract 239) := by
  refine ⟨region_all (by decide +kernel), by decide +kernel, 1195, 239, 1, 1, by decide +kernel, by norm_num, by decide, by decide, bestShape_5, by decide +kernel,
    by decide +kernel⟩

/-- `1045` in `55` parts: `72 * 19` is on the root, and `17` of the `72` parts go back. -/
example : Region (divided 1045 55) (· < (divided 1045 55).next) ∧ ((divided 1045 55).get 0).expands = [.divide 55] ∧
    OverLimit config ((divided 1045 55).get 0).value (.divide 55) := by
  refine ⟨region_all (by decide +kernel), by decide +kernel, by decide, 3, 2, bestShape_55, ?_, by decide⟩
  have : ((divided 1045 55).get 0).value = 1045 := by decide +kernel
  have hl : config.limit = 1200 := by decide +kernel
  rw [this, hl]
  norm_num

/-- With a limit of 5, the solutions of `"5 to 1 4"`. -/
def limited : Py (Heap ℚ × List Addr × List (TreeObj ℚ)) :=
  let r := Solver.load ⟨[5]⟩ "5 to 1 4".toList attrs0 emptyHeap
  match solve (r.attrs.problem ⟨[5]⟩) (Example.oracle r.attrs.targetValues none) 100 r.heap r.attrs.treeSource r.attrs.bestSize with
  | .error e => .error e
  | .ok s => .ok (s.heap.toRat, r.attrs.leaves, s.solutions.map TreeObj.toRat)

/-- With a limit of 5, the first of four solutions of `"5 to 1 4"` extracts `1`: six times `1` would be on the source. The other solutions can be saved
alone. -/
theorem limited_run : (match limited with
    | .ok (h, leaves, t :: ts) => ((match t.attachLeaves 100 h leaves with
      | .ok (h₁, t) => t.roots.map fun r => ((h₁.get r).value, decide ((h₁.get r).expands = [.extract 1]))
      | .error _ => []), (t :: ts).map fun t => (concludeAll ⟨[5]⟩ 100 leaves h [t]).toOption.isSome)
    | _ => ([], [])) = ([(5, true)], [false, true, true, true]) := by decide +kernel

example : Parsed "5 to 1 4".toList [5] [1, 4] ∧ (Solver.load ⟨[5]⟩ "5 to 1 4".toList attrs0 emptyHeap).result = .ok true ∧
    OverLimit ⟨[5]⟩ 5 (.extract 1) :=
  ⟨⟨by decide +kernel, by decide, by decide⟩, by decide +kernel, 5, 1, 1, 1, by norm_num, by norm_num, by decide, by decide, bestShape_5, by decide +kernel, by decide +kernel⟩

end Satis
