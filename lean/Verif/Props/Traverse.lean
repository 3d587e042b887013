import Verif.Graph.LevelWalk
import Verif.Graph.ExpandExample
import Verif.Graph.ExtractSpec
import Verif.Props.Cost
/-!
# Traversals, and the levels of expanded networks
-/

namespace Satis
open Satis.Graph Satis.Cost Satis.Spec Satis.Graph.Example Satis.Solver.Example

/-! ## C57 — traversals -/

/-- C57 for `min_level_after_zero`: it ends, on graphs with cycles too, with the smallest level below the roots (or `2^32` if that is
smaller). -/
theorem C57_min_level (h : Heap ℚ) (U : Addr → Prop) (H : Region h U) (roots : List Addr) (hr : ∀ r ∈ roots, U r)
    (hl : ∀ a, Reach h roots a → (h.get a).level ≠ none) :
    ∃ low : Int, Settles (fun fuel => minLevelAfterZero fuel h roots) (.ok low) ∧
      IsLeast {l : Int | l = 2 ^ 32 ∨ ∃ r ∈ roots, ∃ a, Reach h (h.get r).children a ∧ (h.get a).level = some l} low := by
  have hre : ∀ a, Reach h (roots.flatMap fun r => (h.get r).children) a ↔ ∃ r ∈ roots, Reach h (h.get r).children a := by
    intro a
    constructor
    · intro ha
      induction ha with
      | root hm =>
        obtain ⟨r, h1, h2⟩ := List.mem_flatMap.1 hm
        exact ⟨r, h1, .root h2⟩
      | child _ hb ih =>
        obtain ⟨r, h1, h2⟩ := ih
        exact ⟨r, h1, h2.child hb⟩
    · rintro ⟨r, h1, h2⟩
      exact Reach.mono (fun c hc => .root (List.mem_flatMap.2 ⟨r, h1, hc⟩)) h2
  obtain ⟨low, e, k1, k2, k3⟩ := minLevel_spec H roots hr hl _ le_rfl
  refine ⟨low, (minLevelAfterZero_stable h roots).settles (by simp) e, ?_, ?_⟩
  · rcases k2 with k2 | ⟨a, ha, e⟩
    · exact .inl k2
    · obtain ⟨r, h1, h2⟩ := (hre a).1 ha
      exact .inr ⟨r, h1, a, h2, e⟩
  · rintro l (rfl | ⟨r, h1, a, h2, e⟩)
    · exact k3
    · exact k1 a l ((hre a).2 ⟨r, h1, h2⟩) e

/-- C57 for `tag_levels_update` and `apply_levels_update`, the way `expand_roots` calls them: they end, and each node that can be reached
is raised once by each amount whose threshold its level had reached (and by what was to be added to it before); nothing else is
changed. -/
theorem C57_level_updates (h : Heap ℚ) (U : Addr → Prop) (H : Region h U) (roots : List Addr) (hr : ∀ r ∈ roots, U r)
    (hl : ∀ a, Reach h roots a → (h.get a).level ≠ none) (us : List (Int × Int)) :
    ∃ h', Settles (fun fuel => us.foldlM (tagLevels fuel roots) h >>= applyLevels fuel roots) (.ok h') ∧
      h'.next = h.next ∧ h'.nextUid = h.nextUid ∧
      (∀ a l, Reach h roots a → (h.get a).level = some l → h'.get a = { h.get a with
        level := some (l + (h.get a).levelsToAdd + ((us.filter fun u => u.1 ≤ l).map fun u => u.2).sum)
        levelsToAdd := 0 }) ∧
      ∀ a, ¬ Reach h roots a → h'.get a = h.get a := by
  obtain ⟨h', e, S, hg⟩ := levels_spec roots hr _ us h H hl le_rfl
  refine ⟨h', (levels_stable us h roots).settles (by simp) e, S.next, S.nextUid, fun a l ha hal => ?_, fun a => (hg a).2⟩
  rw [(hg a).1 ha]
  unfold raised
  rw [hal]
  simp only [add_assoc]

/-- C57 for `populate`: it ends, and the drawing shows each node that can be reached once. -/
theorem C57_populate (h : Heap ℚ) (U : Addr → Prop) (H : Region h U) (roots : List Addr) (hr : ∀ r ∈ roots, U r) :
    ∃ g, Settles (fun fuel => populate fuel h roots) (.ok g) ∧ (g.nodes.map fun x => x.1).Nodup ∧
      (∀ i v l, (i, v, l) ∈ g.nodes ↔ ∃ a, Reach h roots a ∧ (h.get a).id = i ∧ (h.get a).value = v ∧ (h.get a).level = l) ∧
      ∀ a b, Reach h roots a → U b → g.edges.count ((h.get a).id, (h.get b).id) = (h.get a).children.count b := by
  obtain ⟨order, e, hnd, hmem⟩ := populateOrder_settles H roots hr
  have hU : ∀ a, Reach h roots a → U a := by
    intro a ha
    induction ha with
    | root hm => exact hr _ hm
    | child _ hb ih => exact H.children _ ih _ hb
  refine ⟨⟨order.map fun a => ((h.get a).id, (h.get a).value, (h.get a).level),
    order.flatMap fun a => (h.get a).children.map fun c => ((h.get a).id, (h.get c).id)⟩, ?_, ?_, ?_, ?_⟩
  · exact e.bind (g := fun _ order => .ok (⟨order.map fun a => ((h.get a).id, (h.get a).value, (h.get a).level),
      order.flatMap fun a => (h.get a).children.map fun c => ((h.get a).id, (h.get c).id)⟩ : Drawing ℚ))
      (k := fun order => .ok _) fun x _ => ⟨0, fun _ _ => rfl⟩
  · simp only [List.map_map]
    exact hnd.map_on fun a ha b hb e => H.ids a b (hU a ((hmem a).1 ha)) (hU b ((hmem b).1 hb)) e
  · intro i v l
    simp only [List.mem_map, Prod.mk.injEq]
    exact ⟨fun ⟨a, h1, h2⟩ => ⟨a, (hmem a).1 h1, h2⟩, fun ⟨a, h1, h2⟩ => ⟨a, (hmem a).2 h1, h2⟩⟩
  · intro a b ha hb
    have one : ∀ x ∈ order, ((h.get x).children.map fun c => ((h.get x).id, (h.get c).id)).count ((h.get a).id, (h.get b).id) =
        if x = a then (h.get a).children.count b else 0 := by
      intro x hx
      have hUx := hU x ((hmem x).1 hx)
      rw [List.count, List.countP_map]
      split
      · next e =>
        subst e
        rw [List.count]
        refine List.countP_congr fun c hc => ?_
        simp only [Function.comp_apply, beq_iff_eq, Prod.mk.injEq, true_and]
        exact ⟨fun e => H.ids c b (H.children x hUx c hc) hb e, fun e => by rw [e]⟩
      · next hne =>
        rw [List.countP_eq_zero]
        intro c _ e
        simp only [Function.comp_apply, beq_iff_eq, Prod.mk.injEq] at e
        exact hne (H.ids x a hUx (hU a ha) e.1)
    have sum : ∀ l : List Addr, l.Nodup → (∀ x ∈ l, x ∈ order) → (l.flatMap fun x => (h.get x).children.map fun c =>
        ((h.get x).id, (h.get c).id)).count ((h.get a).id, (h.get b).id) = if a ∈ l then (h.get a).children.count b else 0 := by
      intro l
      induction l with
      | nil => intro _ _; simp
      | cons x l ih =>
        intro hl hs
        obtain ⟨n1, n2⟩ := List.nodup_cons.1 hl
        rw [List.flatMap_cons, List.count_append, one x (hs x (by simp)), ih n2 fun y hy => hs y (List.mem_cons_of_mem _ hy)]
        by_cases e : x = a
        · subst e
          simp [n1]
        · have e' : ¬ a = x := fun q => e q.symm
          simp [e, e']
    show (order.flatMap _).count _ = _
    rw [sum order hnd fun _ h => h, if_pos ((hmem a).2 ha)]

/-- C57 for `expand`: on every graph, whatever is pending, `expand_roots` ends, with its result or with an exception; `expand` visits
all roots and no node twice (each visit adds the node's id to `seen`). Missing: that each node is visited, which is false, see below. -/
theorem C57_expand_ends_partial (cfg : Config) (h : Heap ℚ) (U : Addr → Prop) (H : Region h U) (roots : List Addr) (hr : ∀ r ∈ roots, U r) :
    (∃ r, r ≠ .error .diverge ∧ Settles (fun fuel => expandRoots cfg fuel h roots) r) ∧
    ∀ us, ∃ r, r ≠ .error .diverge ∧ Settles (fun fuel => walkAll (expandVisit cfg fuel) (fun s a => s.1.kids a) (fun s a => s.1.seen a) fuel
      ((h, []), us) roots) r ∧ ∀ s, r = .ok s → s.1.2.Nodup ∧ ∀ a ∈ roots, (h.get a).id ∈ s.1.2 := by
  refine ⟨expandRoots_settles cfg H roots hr, fun us => ?_⟩
  obtain ⟨B, r, h1, h2⟩ := expandRootsWalk_ends (strict := False) cfg roots h U [] us H False.elim hr
  refine ⟨r, (Ends.iff.1 h1).1, ⟨max B (pendingWeight h), fun fuel hf => ?_⟩, fun s hs => ?_⟩
  · exact h2 fuel (le_trans (le_max_right _ _) hf) fuel (le_trans (le_max_left _ _) hf)
  · obtain ⟨E, hroots⟩ := (Ends.iff.1 h1).2 s hs
    exact ⟨E.once List.nodup_nil, hroots⟩

/-- `36` with `32` extracted, and the remaining `4` divided into four. -/
def skipped : Heap ℚ :=
  ((((extract config (root 36) 0 32).toOption.bind fun x => (divide x.1 1 4).toOption).map Prod.fst).getD emptyHeap).toRat

/-- `expand_roots` applied to it. -/
def skippedAfter : Heap ℚ := ((expandRoots config 200 skipped [0]).toOption).getD skipped

/-- Everything of this heap belongs to one graph. -/
theorem skipped_region : Region skipped (· < skipped.next) := region_all (by decide +kernel)

/-- C57 is false for `expand`: a node that can be reached, before and after, keeps its pending expansion. The children of the root are
two splitters; the loop over the children of the first visits the node of value `32`, whose merge removes that splitter's belts to
it from the list the loop runs over, and so the next one, the node of value `4`, is left out. -/
theorem C57_expand_visits_all_false : ∃ h U roots h' a, Region h U ∧ (∀ r ∈ roots, U r) ∧ (∀ a, U a → (h.get a).level ≠ none) ∧
    Settles (fun fuel => expandRoots config fuel h roots) (.ok h') ∧ Reach h roots a ∧ Reach h' roots a ∧ (h.get a).expands = [.divide 4] ∧
    (h'.get a).expands = [.divide 4] := by
  have e : expandRoots config 200 skipped [0] = .ok skippedAfter := by
    unfold skippedAfter
    cases h : expandRoots config 200 skipped [0] with
    | ok x => rfl
    | error e =>
      have : ((expandRoots config 200 skipped [0]).toOption).isSome = true := by decide +kernel
      rw [h] at this
      cases this
  have r0 : ∀ h : Heap ℚ, Reach h [0] 0 := fun h => .root (by simp)
  refine ⟨skipped, _, [0], skippedAfter, 1, skipped_region, by decide +kernel, by decide +kernel,
    (expandRoots_stable config skipped [0]).settles (by simp) e, (r0 _).child (by decide +kernel), ?_, by decide +kernel, by decide +kernel⟩
  exact ((r0 _).child (b := 7) (by decide +kernel)).child (by decide +kernel)

/-! ## C46 — levels -/

/-- The pending divisions and extractions put no more than the limit on their nodes: dividing `v` by `d` with the best shape
`2^n 3^m ≥ d` sends `v 2^n 3^m / d` through the node. -/
structure WithinLimit (cfg : Config) (h : Heap ℚ) (U : Addr → Prop) : Prop where
  divide : ∀ a, U a → ∀ d, .divide d ∈ (h.get a).expands → 0 < d ∧ ∀ n m, BestShape d n m → (h.get a).value * (2 ^ n * 3 ^ m) / d ≤ cfg.limit
  extract : ∀ a, U a → ∀ x : ℚ, .extract x ∈ (h.get a).expands → ∃ v c : Nat, (h.get a).value = v ∧ x = c ∧ 0 < c ∧ c < v ∧
    ∀ n m, BestShape (v / Nat.gcd v c) n m → Nat.gcd v c * (2 ^ n * 3 ^ m) ≤ cfg.limit

theorem WithinLimit.tame {cfg : Config} {h : Heap ℚ} {U : Addr → Prop} (W : WithinLimit cfg h U) (hl : ∀ a, U a → (h.get a).level ≠ none) :
    Tame cfg h U := by
  refine ⟨hl, fun a ha d hd x hx => ?_, fun a ha c hc x hx => ?_⟩
  · obtain ⟨hpos, W⟩ := W.divide a ha d hd
    obtain ⟨n, m, hf, hb⟩ := findNML_best d (by omega)
    have hL := ((bestShape_iff d n m).1 hb).1
    unfold divideTotal at hx
    rw [hf] at hx
    simp only [bind, Except.bind, pure, Except.pure, Except.ok.injEq] at hx
    refine le_trans (le_of_eq ?_) (W n m hb)
    have h1 : ((L n m - d : Nat) : ℚ) = 2 ^ n * 3 ^ m - d := by
      rw [Nat.cast_sub hL]
      simp [L]
    have h2 : (d : ℚ) ≠ 0 := by
      have : 0 < (d : ℚ) := by exact_mod_cast hpos
      exact this.ne'
    rw [← hx]
    push_cast
    rw [h1]
    field_simp
    ring
  · obtain ⟨v, c', hv, rfl, hc0, hcv, W⟩ := W.extract a ha c hc
    obtain ⟨d, e, g, n, m, l, s, K⟩ := ExtractNumbers.of hc0 hcv
    have hb : BestShape (v / Nat.gcd v c') n m := by
      rw [← K.hg, Nat.div_eq_of_eq_mul_left K.gpos K.hv]
      obtain ⟨n', m', hf, hb⟩ := findNML_best d (by have := K.elt; omega)
      rw [K.find] at hf
      simp only [Except.ok.injEq, Prod.mk.injEq] at hf
      rw [hf.1, hf.2.1]
      exact hb
    have hW := W n m hb
    rw [← K.hg] at hW
    have hnum : (((v : ℚ).num / (g : Int))).toNat = d := by
      have : (v : ℚ).num = v := Rat.num_natCast v
      rw [this, ← Int.natCast_div, Int.toNat_natCast, K.hv, Nat.mul_div_cancel _ K.gpos]
    have hg0 : g ≠ 0 := K.gpos.ne'
    unfold extractTotal at hx
    rw [hv, pyGcd_nat hcv.le K.hg] at hx
    simp only [bind, Except.bind, pure, Except.pure, if_neg hg0, hnum, K.find, Except.ok.injEq] at hx
    rw [← hx]
    have ht : (L n m : Nat) = 2 ^ n * 3 ^ m := rfl
    have : v + l * g ≤ cfg.limit := by
      rw [K.hv, ← Nat.add_mul, K.total, ht, Nat.mul_comm]
      exact hW
    exact_mod_cast this

/-- C46 as long as no pending division or extraction overloads its node, for all networks whose nodes have levels and all that may be
pending: what `expand` makes has levels, so that the passes that follow raise nothing; every node that can be reached afterwards has a
level, namely the one it was made with raised by the amounts whose threshold it had reached. Missing: overloaded nodes, for which the
claim is false. -/
theorem C46_expand_levels_partial (cfg : Config) (h : Heap ℚ) (U : Addr → Prop) (H : Region h U) (roots : List Addr) (hr : ∀ r ∈ roots, U r)
    (hl : ∀ a, U a → (h.get a).level ≠ none) (W : WithinLimit cfg h U) :
    ∃ low r, Settles (fun fuel => minLevelAfterZero fuel h roots) (.ok low) ∧
      Settles (fun fuel => expandAll cfg fuel h roots [(1, 1 - low)]) r ∧ r ≠ .error .diverge ∧
      (∀ e, r = .error e → Settles (fun fuel => expandRoots cfg fuel h roots) (.error e)) ∧
      ∀ h₁ us, r = .ok (h₁, us) → ∃ h', Settles (fun fuel => expandRoots cfg fuel h roots) (.ok h') ∧
        ∀ a, Reach h' roots a → ∃ l, (h₁.get a).level = some l ∧
          (h'.get a).level = some (l + (h₁.get a).levelsToAdd + ((us.filter fun u => u.1 ≤ l).map fun u => u.2).sum) := by
  obtain ⟨low, e, -⟩ := C57_min_level h U H roots hr fun a ha => hl a (by
    induction ha with
    | root hm => exact hr _ hm
    | child _ hb ih => exact H.children _ ih _ hb)
  have T := W.tame hl
  obtain ⟨B, r, h1, h2⟩ := expandAll_ends (strict := True) cfg h U roots [(1, 1 - low)] H (fun _ => T) hr
  refine ⟨low, r, e, ⟨B, h2⟩, (Ends.iff.1 h1).1, fun err herr => ?_, fun h₁ us hok => ?_⟩
  · subst herr
    exact e.bind (k := fun _ => .error err) fun x hx => by
      cases hx
      exact Settles.bind (r := .error err) (k := fun _ => .error err) ⟨B, h2⟩ fun x hx => by cases hx
  · subst hok
    have E : Evolved True 0 h U h₁ := (Ends.iff.1 h1).2 _ rfl
    have T₁ := T.evolved trivial E
    have hU : ∀ a, Reach h₁ roots a → Within h U h₁ a := by
      intro a ha
      induction ha with
      | root hm => exact .inl (hr _ hm)
      | child _ hb ih => exact E.region.children _ ih _ hb
    obtain ⟨h', q1, q2, S⟩ := levels_spec roots (fun r hr' => .inl (hr r hr')) _ us h₁ E.region (fun a ha => T₁.levels a (hU a ha)) le_rfl
    refine ⟨h', ?_, fun a ha => ?_⟩
    · refine e.bind (k := fun _ => .ok h') fun x hx => ?_
      cases hx
      refine Settles.bind (r := .ok (h₁, us)) (k := fun _ => .ok h') ⟨B, h2⟩ fun x hx => ?_
      cases hx
      exact (levels_stable us h₁ roots).settles (by simp) q1
    · have ha := q2.reach.1 ha
      cases hlev : (h₁.get a).level with
      | none => exact absurd hlev (T₁.levels a (hU a ha))
      | some l =>
        refine ⟨l, rfl, ?_⟩
        rw [(S a).1 ha]
        unfold raised
        rw [hlev]
        simp only [add_assoc]

theorem bestShape_8 : BestShape 8 0 2 := by
  obtain ⟨n, m, h1, h2⟩ := findNML_best 8 (by decide)
  have : findNML 8 = .ok (0, 2, 1, 4) := by decide +kernel
  rw [this] at h1
  simp only [Except.ok.injEq, Prod.mk.injEq] at h1
  obtain ⟨rfl, rfl, -⟩ := h1
  exact h2

/-- Within the limit: `5` out of `8`. -/
example : Region (extracted 8 5) (· < (extracted 8 5).next) ∧ (∀ a, a < (extracted 8 5).next → ((extracted 8 5).get a).level ≠ none) ∧
    WithinLimit config (extracted 8 5) (· < (extracted 8 5).next) := by
  have e : ∀ a, a < (extracted 8 5).next → ((extracted 8 5).get a).expands = if a = 0 then [.extract 5] else [] := by decide +kernel
  refine ⟨region_all (by decide +kernel), by decide +kernel, ⟨fun a ha d hd => ?_, fun a ha x hx => ?_⟩⟩
  · rw [e a ha] at hd
    split at hd <;> simp at hd
  · rw [e a ha] at hx
    split at hx
    · next h0 =>
      subst h0
      simp only [List.mem_singleton, Expand.extract.injEq] at hx
      refine ⟨8, 5, by decide +kernel, by rw [hx]; norm_num, by decide, by decide, fun n m hb => ?_⟩
      obtain ⟨rfl, rfl⟩ := bestShape_unique hb bestShape_8
      decide +kernel
    · simp at hx

/-- Its network, with the level of each node. -/
example : (expandRoots config 200 (extracted 8 5) [0]).toOption.map (fun h => (List.range h.next).map fun a => (h.get a).level) =
    some [some 0, some 3, some 3, some 2] := by decide +kernel

/-- C46 is false over the limit: extracting `239` from `1195` loops `239` back into a new node, which is made without a level; the pass
over the levels compares `None` with a number. -/
theorem C46_expand_levels_false : ∃ h U roots, Region h U ∧ (∀ r ∈ roots, U r) ∧ (∀ a, U a → (h.get a).level ≠ none) ∧
    Settles (fun fuel => expandRoots config fuel h roots) (.error .typeError) := by
  refine ⟨extracted 1195 239, _, [0], region_all (by decide +kernel), by decide +kernel, by decide +kernel,
    (expandRoots_stable config _ [0]).settles (n := 200) (by simp) ?_⟩
  have : (match expandRoots config 200 (extracted 1195 239) [0] with | .error .typeError => true | _ => false) = true := by decide +kernel
  revert this
  split
  · next h => exact fun _ => h
  · intro h; cases h

end Satis
