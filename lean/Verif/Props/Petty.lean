import Verif.Graph.Petty
import Verif.Props.Built
import Verif.Props.Plan
import Verif.Solver.PettyPlans
/-!
# Small requests
-/

namespace Satis
open Satis.Utils Satis.Graph Satis.Solver Satis.Solver.Example Satis.Cost Satis.Utils.Spec

variable {cfg : Config} {input : Str} {a : Attrs} {h : Heap Int} {sv tv : List ℚ} {O : Oracle} {s : Search} {t : TreeObj Int}

namespace Graph

theorem petty_shape : ∀ d < 11, 0 < d → (match findNML d with | .ok (n, m, _, _) => decide (2 ^ n * 3 ^ m ≤ 2 * d) | .error _ => false) = true := by
  decide +kernel

theorem petty_tree {d n m : Nat} (hd : d < 11) (h0 : 0 < d) (hb : Satis.Spec.BestShape d n m) : 2 ^ n * 3 ^ m ≤ 2 * d := by
  obtain ⟨n', m', f, hb'⟩ := findNML_best d (by omega)
  obtain ⟨rfl, rfl⟩ := bestShape_unique hb hb'
  have := petty_shape d hd h0
  rw [f] at this
  exact of_decide_eq_true this

variable {speeds : List Nat} {h : Heap ℚ} {roots : List Addr}

/-- Belts that carry twice the greatest value are enough. -/
theorem Petty.limit (M : Petty h roots) (S : Sound speeds h roots) (hl : 20 ≤ cfg.limit) : WithinLimit cfg h (Reach h roots) := by
  refine ⟨fun a ha d hd => ?_, fun a ha x hx => ?_⟩
  · obtain ⟨es, J, h1, -⟩ := S.jobs' M.unsplit ha
    have hin : .divide d ∈ es := by
      rw [h1] at hd
      rcases List.mem_append.1 hd with w | w
      · split at w <;> simp at w
      · exact w
    cases J with
    | divide d' q =>
      simp only [List.mem_singleton, Expand.divide.injEq] at hin
      subst hin
      have h2 := q.two
      obtain ⟨c, hc⟩ := List.exists_mem_of_length_pos (by rw [q.count]; omega : 0 < (h.get a).children.length)
      obtain ⟨w, -, hw⟩ := M.small c (.child ha hc)
      obtain ⟨v, hv, e⟩ := M.small a ha
      have hd0 : (0 : ℚ) < d := by exact_mod_cast (by omega : 0 < d)
      have hw' : (0 : ℚ) < w := by
        rw [← hw]
        exact S.positive c (.child ha hc)
      have hw' : 0 < w := by exact_mod_cast hw'
      have ev := q.share c hc
      rw [hw, eq_div_iff hd0.ne', e] at ev
      have ev : w * d = v := by exact_mod_cast ev
      have hdv : d ≤ v := by nlinarith
      refine ⟨by omega, fun n m hb => ?_⟩
      have hL := petty_tree (d := d) (by omega) (by omega) hb
      rw [div_le_iff₀ hd0, e, ← ev]
      have : w * d * (2 ^ n * 3 ^ m) ≤ cfg.limit * d := by
        have : w * (2 ^ n * 3 ^ m) ≤ cfg.limit := by nlinarith
        nlinarith
      exact_mod_cast this
    | _ => simp at hin
  · obtain ⟨es, J, h1, -⟩ := S.jobs' M.unsplit ha
    have hin : .extract x ∈ es := by
      rw [h1] at hx
      rcases List.mem_append.1 hx with w | w
      · split at w <;> simp at w
      · exact w
    cases J with
    | extract v c y z q =>
      simp only [List.mem_singleton, Expand.extract.injEq] at hin
      subst hin
      refine ⟨v, c, q.value, rfl, q.pos, q.lt, fun n m hb => ?_⟩
      obtain ⟨w, hw, e⟩ := M.small a ha
      rw [q.value] at e
      have e : v = w := by exact_mod_cast e
      subst e
      have h0 := gcd_quot q.pos q.lt
      have hdvd : Nat.gcd v c * (v / Nat.gcd v c) = v := Nat.mul_div_cancel' (Nat.gcd_dvd_left v c)
      have hle : v / Nat.gcd v c ≤ v := Nat.div_le_self _ _
      have hge : 0 < v / Nat.gcd v c := Nat.div_gcd_pos_of_pos_left c (by have := q.lt; omega)
      have hL := petty_tree (d := v / Nat.gcd v c) (by omega) (by omega) hb
      nlinarith
    | _ => simp at hin

theorem Petty.even (M : Petty h roots) (S : Sound speeds h roots) (hs : ∀ s ∈ speeds, 11 ≤ s) : Even h roots := by
  intro a ha he x y hxy
  obtain ⟨es, J, h1, -⟩ := S.jobs' M.unsplit ha
  have hx : x ∈ (h.get a).children := by rw [hxy]; simp
  have hy : y ∈ (h.get a).children := by rw [hxy]; simp
  cases J with
  | leaf w => rw [hxy] at w; simp at w
  | pass c w => rw [hxy] at w; simp at w
  | few _ w => rw [w x hx, w y hy]
  | belt x' y' w _ w' =>
    obtain ⟨s, hs', w'⟩ := w'
    have := hs s hs'
    rw [hxy] at w
    obtain ⟨rfl, rfl⟩ : x = x' ∧ y = y' := by simpa using w
    exfalso
    rcases w' with w' | w'
    · obtain ⟨v, hv, e⟩ := M.small x (.child ha hx)
      rw [w'] at e
      have e : s = v := by exact_mod_cast e
      omega
    · obtain ⟨v, hv, e⟩ := M.small y (.child ha hy)
      rw [w'] at e
      have e : s = v := by exact_mod_cast e
      omega
  | divide d q => rw [q.share x hx, q.share y hy]
  | extract v c x' y' q => exact absurd (by rw [h1]; simp) (he c)

end Graph

namespace Solver

/-- What remains of a request is determined by it. -/
theorem Remains.unique {s t S T S' T' : List ℚ} (h : Remains s t S T) (h' : Remains s t S' T') : S.Perm S' ∧ T.Perm T' := by
  obtain ⟨⟨c, a1, a2⟩, a3⟩ := h
  obtain ⟨⟨c', b1, b2⟩, b3⟩ := h'
  have key : ∀ v, S.count v = S'.count v ∧ T.count v = T'.count v := by
    intro v
    have h1 := a1.count_eq v
    have h2 := a2.count_eq v
    have h3 := b1.count_eq v
    have h4 := b2.count_eq v
    rw [List.count_append] at h1 h2 h3 h4
    have h5 : S.count v = 0 ∨ T.count v = 0 := by
      by_cases w : v ∈ S
      · exact .inr (List.count_eq_zero.2 (a3 v w))
      · exact .inl (List.count_eq_zero.2 w)
    have h6 : S'.count v = 0 ∨ T'.count v = 0 := by
      by_cases w : v ∈ S'
      · exact .inr (List.count_eq_zero.2 (b3 v w))
      · exact .inl (List.count_eq_zero.2 w)
    omega
  exact ⟨List.perm_iff_count.2 fun v => (key v).1, List.perm_iff_count.2 fun v => (key v).2⟩

/-- The unit of the search is the coarsest in which all that remains is whole. -/
theorem ratio_le (hp : Parsed input sv tv) (e : (load cfg input a h).result = .ok true) {S T : List ℚ} (hR : Remains sv tv S T) {k : Nat} (hk : 0 < k)
    (hi : ∀ v ∈ S ++ T, Integral (v * k)) : (load cfg input a h).attrs.unitFlowRatio ≤ k := by
  obtain ⟨s', t', hp', -, -, -, L⟩ := load_accepted e
  obtain ⟨rfl, rfl⟩ : s' = sv ∧ t' = tv := by
    have := hp'.symm.trans hp.1
    simpa using this
  rw [L.ratio]
  obtain ⟨c1, -, -, -, c2⟩ := reduced_spec s' t'
  obtain ⟨u1, u2⟩ := hR.unique ⟨c1, c2⟩
  refine Nat.le_of_dvd hk (common_min _ k fun f hf => hi f ?_)
  rcases List.mem_append.1 hf with w | w
  · exact List.mem_append_left _ (u1.mem_iff.2 w)
  · exact List.mem_append_right _ (u2.mem_iff.2 w)

/-- A solution whose sources together have at most `10` is small, unless `1` is extracted from `9`. -/
theorem TypedH.petty {h : Heap Int} {t : TreeObj Int} (hT : TypedH cfg h (Reach h t.roots))
    (h0 : ∀ x, Reach h t.roots x → 0 < (h.get x).value) (h10 : ∀ x, Reach h t.roots x → (h.get x).value ≤ 10) (hs : ∀ s ∈ cfg.speeds, 20 ≤ s)
    (h9 : ∀ x, Reach h.toRat t.roots x → (h.toRat.get x).value = 9 → .extract 1 ∉ (h.toRat.get x).expands) : Petty h.toRat t.roots := by
  have hv : ∀ x, (h.toRat.get x).value = (((h.get x).value : Int) : ℚ) := fun _ => rfl
  have hx : ∀ x, (h.toRat.get x).expands = (h.get x).expands.map ratExpand := fun x => toRat_expands (h.get x)
  refine ⟨fun x hxr c hc => ?_, fun x hxr => ?_, fun x hxr c hc => ?_, h9⟩
  · have hxr := reach_toRat.1 hxr
    obtain ⟨-, es, J, e⟩ := hT x hxr
    rw [hx, e] at hc
    obtain ⟨y, hy, w⟩ := List.mem_map.1 hc
    obtain ⟨c', rfl⟩ : ∃ c', y = .split c' := by cases y <;> simp [ratExpand] at w ⊢
    have hy : .split c' ∈ es := by
      rcases List.mem_append.1 hy with q | q
      · unfold mergeTag at q
        split at q <;> simp at q
      · exact q
    generalize hvs : ((h.get x).children.map fun c => (h.get c).value) = vs at J
    cases J with
    | leaf => simp at hy
    | pass => simp at hy
    | share d q => split at hy <;> simp at hy
    | cut c => split at hy <;> simp at hy
    | split c'' _ q hsp =>
      obtain ⟨s, hs', e'⟩ := (isSpeed_iff cfg c'').1 hsp
      have := hs s hs'
      have hm : (h.get x).value - c'' / 3 * 2 ∈ vs := q.mem_iff.2 (by simp)
      rw [← hvs] at hm
      obtain ⟨y, hy, e''⟩ := List.mem_map.1 hm
      have := h0 y (hxr.child hy)
      have := h10 x hxr
      omega
  · have hxr := reach_toRat.1 hxr
    have := h0 x hxr
    have := h10 x hxr
    refine ⟨(h.get x).value.toNat, by omega, ?_⟩
    rw [hv]
    have : (((h.get x).value.toNat : Nat) : Int) = (h.get x).value := Int.toNat_of_nonneg (by omega)
    exact_mod_cast this.symm
  · have hxr := reach_toRat.1 hxr
    obtain ⟨-, es, J, e⟩ := hT x hxr
    rw [hx, e] at hc
    obtain ⟨y, hy, w⟩ := List.mem_map.1 hc
    obtain ⟨c', rfl⟩ : ∃ c', y = .extract c' := by cases y <;> simp [ratExpand] at w ⊢
    have w : ((c' : Int) : ℚ) = (c : ℚ) := by simpa [ratExpand] using w
    have hy : .extract c' ∈ es := by
      rcases List.mem_append.1 hy with q | q
      · unfold mergeTag at q
        split at q <;> simp at q
      · exact q
    rw [hv]
    generalize hvs : ((h.get x).children.map fun c => (h.get c).value) = vs at J
    cases J with
    | leaf => simp at hy
    | pass => simp at hy
    | share d q => split at hy <;> simp at hy
    | cut c'' _ _ _ q =>
      split at hy
      · simp at hy
      · simp only [List.mem_singleton, Expand.extract.injEq] at hy
        subst hy
        rw [← w]
        exact_mod_cast q
    | split => simp at hy

/-- No node of a solution carries more than the sources together. -/
theorem total_le (hp : Parsed input sv tv) (e : (load cfg input a h).result = .ok true) {S T R : List ℚ} (hR : Remains sv tv S T) {k : Nat} (hk : 0 < k)
    (hi : ∀ v ∈ S ++ T, Integral (v * k)) {h' : Heap Int} {t' : TreeObj Int} (q3 : ∀ x, Reach h' t'.roots x → 0 < (h'.get x).value)
    (q6 : Remains sv tv (t'.roots.map fun x => ((h'.get x).value : ℚ) / ((load cfg input a h).attrs.unitFlowRatio : ℚ)) R)
    (qS : ∀ x, Reach h' t'.roots x → (h'.get x).value ≤ (t'.roots.map fun r => (h'.get r).value).sum) :
    ∀ x, Reach h' t'.roots x → ((h'.get x).value : ℚ) ≤ S.sum * k := by
  have hratio := ratio_le hp e hR hk hi
  have hpos : (0 : ℚ) < ((load cfg input a h).attrs.unitFlowRatio : ℚ) := by
    obtain ⟨s', t', -, -, -, -, L⟩ := load_accepted e
    rw [L.ratio]
    exact_mod_cast ratio_pos s' t'
  obtain ⟨u1, -⟩ := q6.unique hR
  have hS0 : ∀ v ∈ S, 0 ≤ v := by
    intro v hv
    obtain ⟨x, hx, rfl⟩ := List.mem_map.1 (u1.mem_iff.2 hv)
    have := q3 x (.root hx)
    positivity
  intro x hx
  have h1 : (((t'.roots.map fun r => (h'.get r).value).sum : Int) : ℚ) = S.sum * ((load cfg input a h).attrs.unitFlowRatio : ℚ) := by
    rw [← u1.sum_eq, ← sum_map_div, div_mul_cancel₀ _ hpos.ne']
    generalize t'.roots = l
    induction l with
    | nil => simp
    | cons x l ih =>
      simp only [List.map_cons, List.sum_cons]
      rw [Int.cast_add, ih]
  have h2 : S.sum * ((load cfg input a h).attrs.unitFlowRatio : ℚ) ≤ S.sum * k :=
    mul_le_mul_of_nonneg_left (by exact_mod_cast hratio) (List.sum_nonneg hS0)
  rw [← h1] at h2
  exact (by exact_mod_cast qS x hx : ((h'.get x).value : ℚ) ≤ (((t'.roots.map fun r => (h'.get r).value).sum : Int) : ℚ)).trans h2

theorem attached_values (hcfg : cfg.speeds.Pairwise (· ≤ ·)) (hp : Parsed input sv tv) (hs : ∀ v ∈ sv, 0 < v) (ht : ∀ v ∈ tv, 0 < v)
    {S T : List ℚ} (hR : Remains sv tv S T) {k : Nat} (hk : 0 < k) (hi : ∀ v ∈ S ++ T, Integral (v * k)) (e : (load cfg input a h).result = .ok true)
    (hr : Reached ((load cfg input a h).attrs.problem cfg) O (load cfg input a h).heap (load cfg input a h).attrs.treeSource
      (load cfg input a h).attrs.bestSize s) (hsol : t ∈ s.solutions) :
    ∃ n h₁ t₁, (∀ n', n ≤ n' → t.toRat.attachLeaves n' s.heap.toRat (load cfg input a h).attrs.leaves = .ok (h₁, t₁)) ∧
      ∀ x, Reach h₁ t₁.roots x → (h₁.get x).value ≤ S.sum * k := by
  obtain ⟨n, h', t', q1, q2, q3, -, -, qT, -, -, qS, R, q6, -⟩ := attached_solution hcfg hp hs ht e hr hsol
  exact ⟨n, h'.toRat, t'.toRat, q1, fun x hx => total_le hp e hR hk hi q3 q6 qS x (reach_toRat.1 hx)⟩

end Solver

/-! ## C96 -/

/-- For C96 up to `10`: a request of a total of at most `10`, counted in the coarsest unit in which all that remains after cancelling is whole, where the solution
does not take `1` from `9`. No condition is put on the solution besides. The network that `expand_roots` makes is complete, its leaves are the targets, it carries
the requested flows and no others, within the limit if the sources are, with as many machines as announced, less those that loops save. -/
theorem C96_up_to_ten (hcfg : cfg.speeds.Pairwise (· ≤ ·)) (h20 : ∀ s ∈ cfg.speeds, 20 ≤ s) (hne : cfg.speeds ≠ [])
    (hp : Parsed input sv tv) (hs : ∀ v ∈ sv, 0 < v) (ht : ∀ v ∈ tv, 0 < v)
    {S T : List ℚ} (hR : Remains sv tv S T) {k : Nat} (hk : 0 < k) (hi : ∀ v ∈ S ++ T, Integral (v * k)) (hsmall : S.sum * k ≤ 10)
    (e : (load cfg input a h).result = .ok true)
    (hr : Reached ((load cfg input a h).attrs.problem cfg) O (load cfg input a h).heap (load cfg input a h).attrs.treeSource
      (load cfg input a h).attrs.bestSize s) (hsol : t ∈ s.solutions) :
    ∃ n h₁ t₁, (∀ n', n ≤ n' → t.toRat.attachLeaves n' s.heap.toRat (load cfg input a h).attrs.leaves = .ok (h₁, t₁)) ∧
      ((∀ x, Reach h₁ t₁.roots x → (h₁.get x).value = 9 → .extract 1 ∉ (h₁.get x).expands) →
        ∃ h₂ supply F f, Settles (fun fuel => expandRoots cfg fuel h₁ t₁.roots) (.ok h₂) ∧
          t₁.sources.Nodup ∧ (∀ x, x ∈ t₁.sources ↔ Reach h₂ t₁.roots x ∧ (h₂.get x).children = []) ∧
          (∀ x, Reach h₂ t₁.roots x → (h₂.get x).expands = []) ∧
          Carries cfg.speeds h₂ t₁.roots supply F f ∧ Forced cfg.speeds h₂ t₁.roots supply F f ∧ (∀ x, x ∉ t₁.roots → supply x = 0) ∧
          ((∀ r ∈ t₁.roots, supply r ≤ cfg.limit) → ∀ x, Reach h₂ t₁.roots x → F x ≤ cfg.limit) ∧
          (t₁.roots.map supply).Perm S ∧ (t₁.sources.map F).Perm T ∧
          (machineCount h₂ t₁.roots : Int) + joinCount h₁ t₁.roots = s.bestSize + (load cfg input a h).attrs.sizeOffset) := by
  obtain ⟨n, h', t', q1, q2, q3, -, -, qT, -, -, qS, R, q6, -⟩ := Solver.attached_solution hcfg hp hs ht e hr hsol
  have hle := Solver.total_le hp e hR hk hi q3 q6 qS
  obtain ⟨n', h₁', t₁', q1', q4⟩ := C67_request_delivered_partial hcfg hp hs ht e hr hsol
  obtain ⟨n'', h₁'', t₁'', q1'', q5⟩ := C94_announced_size_partial hcfg hp hs ht e hr hsol
  have e1 := (q1 (max n (max n' n'')) (le_max_left _ _)).symm.trans (q1' _ ((le_max_left _ _).trans (le_max_right _ _)))
  have e2 := (q1 (max n (max n' n'')) (le_max_left _ _)).symm.trans (q1'' _ ((le_max_right _ _).trans (le_max_right _ _)))
  simp only [Except.ok.injEq, Prod.mk.injEq] at e1 e2
  obtain ⟨rfl, rfl⟩ := e1
  obtain ⟨rfl, rfl⟩ := e2
  refine ⟨n, h'.toRat, t'.toRat, q1, fun h9 => ?_⟩
  have hlim : 20 ≤ cfg.limit := by
    unfold Config.limit
    rw [List.getLast?_eq_some_getLast hne]
    exact h20 _ (List.getLast_mem hne)
  have M : Petty h'.toRat t'.toRat.roots := Solver.TypedH.petty (t := t') qT q3 (fun x hx => by exact_mod_cast (hle x hx).trans hsmall) h20 h9
  have hRo := M.roomy q2
  have hW : WithinLimit cfg h'.toRat (Reach h'.toRat t'.toRat.roots) := M.limit q2 hlim
  obtain ⟨h₂, w1, w2, w3, w4, w5⟩ := q4 (.inr (M.even q2 fun s hs => by have := h20 s hs; omega)) hRo hW
  obtain ⟨h₂', w1', -, w6⟩ := q5 hRo hW
  have := w1.unique w1'
  simp only [Except.ok.injEq] at this
  subst this
  have hd := w4 (M.light q2)
  obtain ⟨supply, F, f, v1, v2, v3, v4, R', v5, v6⟩ := w5 hd
  obtain ⟨z1, z2⟩ := v5.unique hR
  exact ⟨h₂, supply, F, f, w1, w2, w3, hd, v1, v2, v3, v4 _ le_rfl, z1, v6.trans z2, (w6 hd).1⟩

/-- C96: where the belts carry at least `20`, every accepted request of positive values of a total of at most `8`, counted in a unit in which all that remains
after cancelling is whole, is built from every solution that the search keeps: with the targets attached, `expand_roots` finishes and leaves nothing to
expand; the leaves are the targets; the network carries the requested flows, and no others are possible; no belt carries more than the limit if no source
does; and there are as many machines as announced, less those that loops save. -/
theorem C96_small_requests (hcfg : cfg.speeds.Pairwise (· ≤ ·)) (h20 : ∀ s ∈ cfg.speeds, 20 ≤ s) (hne : cfg.speeds ≠ [])
    (hp : Parsed input sv tv) (hs : ∀ v ∈ sv, 0 < v) (ht : ∀ v ∈ tv, 0 < v)
    {S T : List ℚ} (hR : Remains sv tv S T) {k : Nat} (hk : 0 < k) (hi : ∀ v ∈ S ++ T, Integral (v * k)) (hsmall : S.sum * k ≤ 8)
    (e : (load cfg input a h).result = .ok true)
    (hr : Reached ((load cfg input a h).attrs.problem cfg) O (load cfg input a h).heap (load cfg input a h).attrs.treeSource
      (load cfg input a h).attrs.bestSize s) (hsol : t ∈ s.solutions) :
    ∃ n h₁ t₁ h₂ supply F f, (∀ n', n ≤ n' → t.toRat.attachLeaves n' s.heap.toRat (load cfg input a h).attrs.leaves = .ok (h₁, t₁)) ∧
      Settles (fun fuel => expandRoots cfg fuel h₁ t₁.roots) (.ok h₂) ∧
      t₁.sources.Nodup ∧ (∀ x, x ∈ t₁.sources ↔ Reach h₂ t₁.roots x ∧ (h₂.get x).children = []) ∧
      (∀ x, Reach h₂ t₁.roots x → (h₂.get x).expands = []) ∧
      Carries cfg.speeds h₂ t₁.roots supply F f ∧ Forced cfg.speeds h₂ t₁.roots supply F f ∧ (∀ x, x ∉ t₁.roots → supply x = 0) ∧
      ((∀ r ∈ t₁.roots, supply r ≤ cfg.limit) → ∀ x, Reach h₂ t₁.roots x → F x ≤ cfg.limit) ∧
      (t₁.roots.map supply).Perm S ∧ (t₁.sources.map F).Perm T ∧
      (machineCount h₂ t₁.roots : Int) + joinCount h₁ t₁.roots = s.bestSize + (load cfg input a h).attrs.sizeOffset := by
  obtain ⟨n, h₁, t₁, q1, q2⟩ := C96_up_to_ten hcfg h20 hne hp hs ht hR hk hi (hsmall.trans (by norm_num)) e hr hsol
  obtain ⟨n', h', t', q1', q3⟩ := Solver.attached_values hcfg hp hs ht hR hk hi e hr hsol
  have e1 := (q1 (max n n') (le_max_left _ _)).symm.trans (q1' _ (le_max_right _ _))
  simp only [Except.ok.injEq, Prod.mk.injEq] at e1
  obtain ⟨rfl, rfl⟩ := e1
  obtain ⟨h₂, supply, F, f, w⟩ := q2 fun x hx e9 => by
    have := q3 x hx
    rw [e9] at this
    exact absurd (this.trans hsmall) (by norm_num)
  exact ⟨n, h₁, t₁, h₂, supply, F, f, q1, w⟩

/-- The hypotheses hold for `"3 2 to 1 1 1 1 1"`, for `"7 to 1 2 4"` and for `"1.5 1 to 0.5 2"`, of the total `5` in the unit 1/2. -/
example : config.speeds.Pairwise (· ≤ ·) ∧ (∀ s ∈ config.speeds, 20 ≤ s) ∧ config.speeds ≠ [] := by decide +kernel

theorem C96_example {input : String} (hx : (attached input).toOption.isSome = true) :
    ∃ s t, Reached ((Example.loaded input).attrs.problem config) (Example.oracle (Example.loaded input).attrs.targetValues none)
      (Example.loaded input).heap (Example.loaded input).attrs.treeSource (Example.loaded input).attrs.bestSize s ∧ t ∈ s.solutions := by
  obtain ⟨s, t, h1, h2, -⟩ := attached_reached (attachedOf_eq hx)
  exact ⟨s, t, h1, h2⟩

example : Parsed "3 2 to 1 1 1 1 1".toList [3, 2] [1, 1, 1, 1, 1] ∧ (Example.loaded "3 2 to 1 1 1 1 1").result = .ok true ∧
    Remains [3, 2] [1, 1, 1, 1, 1] [3, 2] [1, 1, 1, 1, 1] ∧ ([3, 2] : List ℚ).sum * (1 : Nat) ≤ 8 ∧ (attached "3 2 to 1 1 1 1 1").toOption.isSome = true := by
  refine ⟨⟨by decide +kernel, by decide, by decide⟩, by decide +kernel, ⟨⟨[], by decide +kernel, by decide +kernel⟩, by decide +kernel⟩, by norm_num, by decide +kernel⟩

example : Parsed "7 to 1 2 4".toList [7] [1, 2, 4] ∧ (Example.loaded "7 to 1 2 4").result = .ok true ∧
    Remains [7] [1, 2, 4] [7] [1, 2, 4] ∧ ([7] : List ℚ).sum * (1 : Nat) ≤ 8 ∧ (attached "7 to 1 2 4").toOption.isSome = true := by
  refine ⟨⟨by decide +kernel, by decide, by decide⟩, by decide +kernel, ⟨⟨[], by decide +kernel, by decide +kernel⟩, by decide +kernel⟩, by norm_num, by decide +kernel⟩

example : Parsed "1.5 1 to 0.5 2".toList [3 / 2, 1] [1 / 2, 2] ∧ (Example.loaded "1.5 1 to 0.5 2").result = .ok true ∧
    Remains [3 / 2, 1] [1 / 2, 2] [3 / 2, 1] [1 / 2, 2] ∧ ([3 / 2, 1] : List ℚ).sum * (2 : Nat) ≤ 8 ∧
    (∀ v ∈ ([3 / 2, 1] ++ [1 / 2, 2] : List ℚ), Integral (v * (2 : Nat))) ∧ (attached "1.5 1 to 0.5 2").toOption.isSome = true := by
  refine ⟨⟨by decide +kernel, by decide, by decide⟩, by decide +kernel, ⟨⟨[], by decide +kernel, by decide +kernel⟩, by decide +kernel⟩, by norm_num, ?_, by decide +kernel⟩
  intro v hv
  simp only [List.cons_append, List.nil_append, List.mem_cons, List.not_mem_nil, or_false] at hv
  rcases hv with rfl | rfl | rfl | rfl
  · exact ⟨3, by norm_num⟩
  · exact ⟨2, by norm_num⟩
  · exact ⟨1, by norm_num⟩
  · exact ⟨4, by norm_num⟩

/-- What is built for a request with two targets, where it has the nodes 3, 4, 5, `x` and `y`: parents, children, and for which of them something is pending. -/
def figure (input : String) (x y : Addr) : Py (List (List Addr)) := do
  let (h, t) ← attached input
  let h ← expandRoots config 200 h t.roots
  return [t.roots, t.sources, (h.get 3).parents, (h.get 3).children, (h.get 4).parents, (h.get 4).children, (h.get 5).parents, (h.get 5).children,
    (h.get x).parents, (h.get x).children, (h.get y).parents, (h.get y).children, [3, 4, 5, x, y].filter fun a => (h.get a).expands ≠ []]

/-- `8` cannot be replaced by `9` in C96: `"9 to 1 8"` is accepted and solved, nothing is left to expand in the network, and it does not carry `1` and
`8`. -/
theorem C96_bound_sharp : Parsed "9 to 1 8".toList [9] [1, 8] ∧ (Example.loaded "9 to 1 8").result = .ok true ∧
    ∃ h₁ t₁ h₂, attached "9 to 1 8" = .ok (h₁, t₁) ∧ Settles (fun fuel => expandRoots config fuel h₁ t₁.roots) (.ok h₂) ∧
      (∀ x, Reach h₂ t₁.roots x → (h₂.get x).expands = []) ∧
      ∀ supply T f, Carries config.speeds h₂ t₁.roots supply T f → (∀ x, x ∉ t₁.roots → supply x = 0) →
        t₁.roots.map supply = [9] → ¬ (t₁.sources.map T).Perm [1, 8] := by
  refine ⟨⟨by decide +kernel, by decide, by decide⟩, by decide +kernel, ?_⟩
  have hs : (figure "9 to 1 8" 375 376).toOption =
      some [[3], [4, 5], [], [375, 376], [375], [], [3, 376], [], [3], [4, 376, 376], [375, 375, 3], [5], []] := by decide +kernel
  unfold figure at hs
  cases e : attached "9 to 1 8" with
  | error x => rw [e] at hs; simp [Except.toOption, bind, Except.bind] at hs
  | ok x =>
    obtain ⟨h₁, t₁⟩ := x
    cases e2 : expandRoots config 200 h₁ t₁.roots with
    | error x => rw [e] at hs; simp [Except.toOption, bind, Except.bind, e2] at hs
    | ok h₂ =>
      rw [e] at hs
      simp only [Except.toOption, bind, Except.bind, e2, pure, Except.pure, Option.some.injEq, List.cons.injEq, and_true,
        List.filter_eq_nil_iff, List.mem_cons, List.not_mem_nil, or_false, decide_eq_true_eq, not_not, forall_eq_or_imp, forall_eq] at hs
      obtain ⟨hr, hl, p3, c3, p4, c4, p5, c5, p6, c6, -, c7, x3, x4, x5, x6, x7⟩ := hs
      have hre : ∀ x, Reach h₂ [3] x → x = 3 ∨ x = 4 ∨ x = 5 ∨ x = 375 ∨ x = 376 := by
        intro x hx
        induction hx with
        | root w => simp at w; exact .inl w
        | @child b c _ hc ih =>
          rcases ih with rfl | rfl | rfl | rfl | rfl
          · rw [c3] at hc; simp at hc; omega
          · rw [c4] at hc; simp at hc
          · rw [c5] at hc; simp at hc
          · rw [c6] at hc; simp at hc; omega
          · rw [c7] at hc; simp at hc; omega
      refine ⟨h₁, t₁, h₂, rfl, (expandRoots_stable config _ _).settles (by simp) e2, fun x hx => ?_, fun supply T f C hz hsup hperm => ?_⟩
      · rw [hr] at hx
        rcases hre x hx with rfl | rfl | rfl | rfl | rfl <;> assumption
      · rw [hr] at C hsup hz
        rw [hl] at hperm
        have r3 : Reach h₂ [3] 3 := .root (by simp)
        have r6 : Reach h₂ [3] 375 := .child r3 (by rw [c3]; simp)
        have r7 : Reach h₂ [3] 376 := .child r3 (by rw [c3]; simp)
        have r4 : Reach h₂ [3] 4 := .child r6 (by rw [c6]; simp)
        have i3 := C.intake 3 r3
        have i4 := C.intake 4 r4
        have i6 := C.intake 375 r6
        rw [p3] at i3
        rw [p4] at i4
        rw [p6] at i6
        have s3 : supply 3 = 9 := by simpa using hsup
        have s4 : supply 4 = 0 := hz 4 (by decide)
        have s6 : supply 375 = 0 := hz 375 (by decide)
        simp only [List.map_nil, List.map_cons, List.sum_nil, List.sum_cons, add_zero, s3, s4, s6, zero_add] at i3 i4 i6
        have hT : T 4 = 1 ∨ T 4 = 8 := by simpa using hperm.subset (by simp : T 4 ∈ [4, 5].map T)
        have h64 : f 375 4 = T 375 / 3 := by
          rcases C.share 375 r6 (by rw [c6]; simp) with ⟨-, w⟩ | ⟨x, y, hxy, -⟩
          · have := w 4 (by rw [c6]; simp)
            rw [c6] at this
            simpa using this
          · rw [c6] at hxy
            simp at hxy
        have hsp : ∀ c ∈ config.speeds, (60 : ℚ) ≤ (c : ℚ) := by decide +kernel
        rcases C.share 3 r3 (by rw [c3]; simp) with ⟨-, w⟩ | ⟨x, y, hxy, -, w', c, hc, w⟩
        · have w6 := w 375 (by rw [c3]; simp)
          rw [c3, i3] at w6
          simp only [List.length_cons, List.length_nil] at w6
          norm_num at w6
          rw [i4, h64, i6, w6] at hT
          norm_num at hT
        · rw [c3] at hxy
          obtain ⟨rfl, rfl⟩ : 375 = x ∧ 376 = y := by simpa using hxy
          have := hsp c hc
          rw [i4, h64, i6] at hT
          rw [i3] at w'
          rcases w with w | w <;> rcases hT with h | h <;> linarith

/-! ## C97 -/

/-- The search of a small problem that is not stopped finds a solution. -/
theorem Solver.small_solved (hcfg : cfg.speeds.Pairwise (· ≤ ·)) (h20 : ∀ s ∈ cfg.speeds, 20 ≤ s) (hne : cfg.speeds ≠ [])
    (hp : Parsed input sv tv) (hs : ∀ v ∈ sv, 0 < v) (ht : ∀ v ∈ tv, 0 < v)
    {S T : List ℚ} (hR : Remains sv tv S T) {k : Nat} (hk : 0 < k) (hi : ∀ v ∈ S ++ T, Integral (v * k)) (hsmall : S.sum * k ≤ 8)
    (e : (load cfg input a h).result = .ok true) {fuel : Nat} {f : Search} (hO : O.stopAt = none)
    (hsolve : solve ((load cfg input a h).attrs.problem cfg) O fuel (load cfg input a h).heap (load cfg input a h).attrs.treeSource
      (load cfg input a h).attrs.bestSize = .ok f) : f.solutions ≠ [] := by
  have hratio := ratio_le hp e hR hk hi
  obtain ⟨hP, hsrc, hB0, hmin, _, hlim, hdvd, ⟨T', -, hR'⟩, -⟩ := C22_search_assumptions hcfg hp hs ht e
  obtain ⟨s', t', hp', -, -, -, L⟩ := load_accepted e
  obtain ⟨rfl, rfl⟩ : s' = sv ∧ t' = tv := by
    have := hp'.symm.trans hp.1
    simpa using this
  obtain ⟨u1, -⟩ := hR'.unique hR
  generalize load cfg input a h = r at *
  have hpos : (0 : ℚ) < (r.attrs.unitFlowRatio : ℚ) := by
    rw [L.ratio]
    exact_mod_cast ratio_pos s' t'
  have hl20 : 20 ≤ cfg.limit := by
    unfold Config.limit
    rw [List.getLast?_eq_some_getLast hne]
    exact h20 _ (List.getLast_mem hne)
  have h8 : r.attrs.treeSource.sourceValues.sum ≤ 8 := by
    have h1 : ((r.attrs.treeSource.sourceValues.sum : Int) : ℚ) = S.sum * (r.attrs.unitFlowRatio : ℚ) := by
      rw [← u1.sum_eq]
      generalize r.attrs.treeSource.sourceValues = l
      induction l with
      | nil => simp
      | cons x l ih =>
        simp only [List.map_cons, List.sum_cons]
        rw [Int.cast_add, ih, add_mul, div_mul_cancel₀ _ hpos.ne']
    have hS0 : ∀ v ∈ S, 0 ≤ v := by
      intro v hv
      obtain ⟨x, hx, rfl⟩ := List.mem_map.1 (u1.mem_iff.2 hv)
      have := (hdvd x (by simp [hx])).1
      positivity
    have h2 : S.sum * (r.attrs.unitFlowRatio : ℚ) ≤ S.sum * k := mul_le_mul_of_nonneg_left (by exact_mod_cast hratio) (List.sum_nonneg hS0)
    have h3 : ((r.attrs.treeSource.sourceValues.sum : Int) : ℚ) ≤ ((8 : Int) : ℚ) := by
      rw [h1]
      push_cast
      exact h2.trans hsmall
    exact_mod_cast h3
  have hne' : r.attrs.targetValues ≠ [] := by
    intro hnil
    have := L.minTarget.1
    rw [hnil] at this
    simp at this
  obtain ⟨c, h1, h2, h3⟩ := L.bound
  have hoff := L.cost_nonneg hs ht
  rw [← L.sources] at h1 h3
  obtain ⟨g, g1, g2⟩ := petty_play (P := r.attrs.problem cfg) (B := r.attrs.bestSize) (values := r.attrs.treeSource.sourceValues)
    hP hsrc.nonempty hsrc.pos hsrc.sorted hne' L.targets_sorted (L.targets_pos hs ht) L.minTarget.2 (fun v hv => (hdvd v hv).2)
    (by rw [L.sources]; exact L.targets_sum) h8 (by change (8 : Int) ≤ r.attrs.limit; omega) h20 (by change 16 ≤ cfg.limit; omega) h1 h2 (by omega)
  obtain ⟨h', t1, loc, hist, costs, p1, p2⟩ := g1.play hP hsrc
  have hreach : t1.sourceValues = r.attrs.targetValues := by rw [p2.vals]; exact g2
  exact (C38_optimal_partial hP hsrc hB0 hO hsolve p1 hreach).1

/-- C97. Where the belts carry at least `20`: a request of positive values of which something remains after cancelling, of a total of at most `8` in a unit in which
all is whole, is answered, unless what remains is `u u to 2u`, `2u to u u` or `3u to u 2u` for `u` equal to 1, 1/2, 1/3, …, where `load` raises. It is loaded;
a search that is not stopped ends, whatever the scores and the random choices, with at least one solution; and every solution is built completely, carries the
requested flows and no others, and has as many machines as announced, less those that loops save. -/
theorem C97_small_requests_answered (hcfg : cfg.speeds.Pairwise (· ≤ ·)) (h20 : ∀ s ∈ cfg.speeds, 20 ≤ s) (hne : cfg.speeds ≠ [])
    (a : Attrs) (h : Heap Int) (hp : Parsed input sv tv) (hs : ∀ v ∈ sv, 0 < v) (ht : ∀ v ∈ tv, 0 < v)
    {S T : List ℚ} (hR : Remains sv tv S T) (hS : S ≠ []) (htiny : ∀ (n : Nat) (S' T' : List ℚ), 1 ≤ n → S'.Perm S → T'.Perm T → ¬ Tiny S' T' (1 / n : ℚ))
    {k : Nat} (hk : 0 < k) (hi : ∀ v ∈ S ++ T, Integral (v * k)) (hsmall : S.sum * k ≤ 8) (hO : O.stopAt = none) :
    (load cfg input a h).result = .ok true ∧
    ∃ fuel f, (∀ fuel', fuel ≤ fuel' → solve ((load cfg input a h).attrs.problem cfg) O fuel' (load cfg input a h).heap
        (load cfg input a h).attrs.treeSource (load cfg input a h).attrs.bestSize = .ok f) ∧ f.solutions ≠ [] ∧
      ∀ t ∈ f.solutions, ∃ n h₁ t₁ h₂ supply F g,
        (∀ n', n ≤ n' → t.toRat.attachLeaves n' f.heap.toRat (load cfg input a h).attrs.leaves = .ok (h₁, t₁)) ∧
        Settles (fun fuel => expandRoots cfg fuel h₁ t₁.roots) (.ok h₂) ∧
        t₁.sources.Nodup ∧ (∀ x, x ∈ t₁.sources ↔ Reach h₂ t₁.roots x ∧ (h₂.get x).children = []) ∧
        (∀ x, Reach h₂ t₁.roots x → (h₂.get x).expands = []) ∧
        Carries cfg.speeds h₂ t₁.roots supply F g ∧ Forced cfg.speeds h₂ t₁.roots supply F g ∧ (∀ x, x ∉ t₁.roots → supply x = 0) ∧
        ((∀ r ∈ t₁.roots, supply r ≤ cfg.limit) → ∀ x, Reach h₂ t₁.roots x → F x ≤ cfg.limit) ∧
        (t₁.roots.map supply).Perm S ∧ (t₁.sources.map F).Perm T ∧
        (machineCount h₂ t₁.roots : Int) + joinCount h₁ t₁.roots = f.bestSize + (load cfg input a h).attrs.sizeOffset := by
  have e : (load cfg input a h).result = .ok true := by
    have hc : ¬ (sv ++ extra sv.sum tv.sum).Perm (tv ++ extra tv.sum sv.sum) := by
      intro hc
      have : Remains sv tv [] [] := ⟨⟨_, List.Perm.refl (sv ++ extra sv.sum tv.sum), hc⟩, by simp⟩
      exact hS (hR.unique this).1.eq_nil
    obtain ⟨q1, q2⟩ := C24_loads_partial cfg a h hp hs ht hc
    refine q1.resolve_right fun w => ?_
    obtain ⟨n, S', T', hn, hR', hT'⟩ := q2.1 w
    obtain ⟨u1, u2⟩ := hR'.unique hR
    exact htiny n S' T' hn u1 u2 hT'
  obtain ⟨hP, hsrc, hB, -⟩ := C22_search_assumptions hcfg hp hs ht e
  obtain ⟨fuel, f, hf⟩ := C35_terminates (O := O) hP hsrc hB hO
  refine ⟨e, fuel, f, hf, Solver.small_solved hcfg h20 hne hp hs ht hR hk hi hsmall e hO (hf fuel le_rfl), fun t hsol => ?_⟩
  exact C96_small_requests hcfg h20 hne hp hs ht hR hk hi hsmall e (solveLoop_visited O .start (hf fuel le_rfl)) hsol

/-- The hypotheses hold for `"4 4 to 3 2 2 1"`, where the sources must not be merged first: merging them all would bring back `4`. -/
example : Parsed "4 4 to 3 2 2 1".toList [4, 4] [3, 2, 2, 1] ∧ Remains [4, 4] [3, 2, 2, 1] [4, 4] [3, 2, 2, 1] ∧
    (∀ (n : Nat) (S' T' : List ℚ), 1 ≤ n → S'.Perm [4, 4] → T'.Perm [3, 2, 2, 1] → ¬ Tiny S' T' (1 / n : ℚ)) ∧
    ([4, 4] : List ℚ).sum * (1 : Nat) ≤ 8 ∧
    ¬ PlanFits config.limit (Example.loaded "4 4 to 3 2 2 1").attrs.treeSource.sourceValues (Example.loaded "4 4 to 3 2 2 1").attrs.targetValues := by
  have h1 : (Example.loaded "4 4 to 3 2 2 1").attrs.treeSource.sourceValues = [4, 4] := by decide +kernel
  have h2 : (Example.loaded "4 4 to 3 2 2 1").attrs.targetValues = [1, 3, 4] := by decide +kernel
  refine ⟨⟨by decide +kernel, by decide, by decide⟩, ⟨⟨[], by decide +kernel, by decide +kernel⟩, by decide +kernel⟩, ?_, by norm_num, ?_⟩
  · intro n S' T' _ _ h hT
    have := h.length_eq
    rcases hT with ⟨-, w⟩ | ⟨-, w⟩ | ⟨-, w⟩ <;> rw [w] at this <;> simp at this
  · rw [h1, h2]
    intro h
    exact absurd ((h (by decide)).2 4 (by decide)).1 (by decide)

end Satis
