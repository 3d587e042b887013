import Verif.Graph.Calm
import Verif.Graph.LevelWalk
/-!
# What the passes over the levels leave of a node
-/

namespace Satis.Graph
open Satis Satis.Cost

/-- A pass over a list of nodes that stops at a node without a level. -/
theorem pass_levels (visit : Marked ℚ → Addr → Py (Marked ℚ)) (f : NodeObj ℚ → NodeObj ℚ)
    (hv : ∀ s a, (s.1.get a).level ≠ none → visit s a = .ok (s.1.modify a f, s.2 ++ [(s.1.get a).id]))
    (hn : ∀ s a s', visit s a = .ok s' → (s.1.get a).level ≠ none)
    (hl : ∀ o, ((f o).level = none ↔ o.level = none)) : ∀ (l : List Addr) (s s' : Marked ℚ), l.foldlM visit s = .ok s' →
    ∀ a ∈ l, (s.1.get a).level ≠ none := by
  intro l
  induction l with
  | nil => simp
  | cons x l ih =>
    intro s s' e a ha
    rw [List.foldlM_cons] at e
    cases hx : visit s x with
    | error er => rw [hx] at e; cases e
    | ok s₁ =>
      rw [hx] at e
      have h1 := hn s x s₁ hx
      rcases List.mem_cons.1 ha with rfl | ha
      · exact h1
      · have h2 := ih s₁ s' e a ha
        rw [hv s x h1] at hx
        cases hx
        have h2 : ((s.1.modify x f).get a).level ≠ none := h2
        rw [Heap.get_modify] at h2
        split at h2
        · next e' => rw [e']; exact h1
        · exact h2

theorem tagLevels_levels {h : Heap ℚ} {U : Addr → Prop} (H : Region h U) (roots : List Addr) (hr : ∀ r ∈ roots, U r) (fuel : Nat)
    (hf : childFuel h U ≤ fuel) (u : Int × Int) {h' : Heap ℚ} (e : tagLevels fuel roots h u = .ok h') : ∀ a, Reach h roots a → (h.get a).level ≠ none := by
  obtain ⟨order, h1, h2, h3⟩ := region_walk H roots hr fuel hf
  have hn : ∀ (s : Marked ℚ) a s', tagVisit u.1 u.2 s a = .ok s' → (s.1.get a).level ≠ none := fun s a s' hs h0 => by
    unfold tagVisit at hs
    rw [h0] at hs
    cases hs
  have hw := h3 (Marked ℚ) (tagVisit u.1 u.2) id (h, []) (fun s a s' hs => by
    rw [tagVisit_eq _ _ _ _ (hn s a s' hs)] at hs
    cases hs
    exact ⟨sameGraph_modify _ _ _ (fun o => (tagged_facts _ _ o).1) (fun o => (tagged_facts _ _ o).2.1)
      (fun o => (tagged_facts _ _ o).2.2.1), rfl⟩) rfl
  unfold tagLevels at e
  have hw : walkAll (tagVisit u.1 u.2) Marked.kids Marked.seen fuel (h, []) roots = _ := hw
  rw [hw] at e
  cases hx : order.foldlM (tagVisit u.1 u.2) (h, []) with
  | error er => rw [hx] at e; cases e
  | ok s =>
    intro a ha
    exact pass_levels _ (tagged u.1 u.2) (fun s a => tagVisit_eq u.1 u.2 s a) hn (fun o => by rw [(tagged_facts _ _ o).2.2.2]) order (h, []) s hx a ((h2 a).2 ha)

theorem applyLevels_levels {h : Heap ℚ} {U : Addr → Prop} (H : Region h U) (roots : List Addr) (hr : ∀ r ∈ roots, U r) (fuel : Nat)
    (hf : childFuel h U ≤ fuel) {h' : Heap ℚ} (e : applyLevels fuel roots h = .ok h') : ∀ a, Reach h roots a → (h.get a).level ≠ none := by
  obtain ⟨order, h1, h2, h3⟩ := region_walk H roots hr fuel hf
  have hn : ∀ (s : Marked ℚ) a s', applyVisit s a = .ok s' → (s.1.get a).level ≠ none := fun s a s' hs h0 => by
    unfold applyVisit at hs
    rw [h0] at hs
    cases hs
  have hw := h3 (Marked ℚ) applyVisit id (h, []) (fun s a s' hs => by
    rw [applyVisit_eq _ _ (hn s a s' hs)] at hs
    cases hs
    exact ⟨sameGraph_modify _ _ _ (fun o => (applied_facts o).1) (fun o => (applied_facts o).2.1)
      (fun o => (applied_facts o).2.2.1), rfl⟩) rfl
  unfold applyLevels at e
  have hw : walkAll applyVisit Marked.kids Marked.seen fuel (h, []) roots = _ := hw
  rw [hw] at e
  cases hx : order.foldlM applyVisit (h, []) with
  | error er => rw [hx] at e; cases e
  | ok s =>
    intro a ha
    exact pass_levels _ applied (fun s a => applyVisit_eq s a) hn (fun o => (applied_facts o).2.2.2) order (h, []) s hx a ((h2 a).2 ha)

/-- The passes succeed only if every node has a level. -/
theorem passes_levels {h : Heap ℚ} {U : Addr → Prop} (H : Region h U) (roots : List Addr) (hr : ∀ r ∈ roots, U r) (fuel : Nat)
    (hf : childFuel h U ≤ fuel) (us : List (Int × Int)) {h' : Heap ℚ} (e : (us.foldlM (tagLevels fuel roots) h >>= applyLevels fuel roots) = .ok h') :
    ∀ a, Reach h roots a → (h.get a).level ≠ none := by
  cases us with
  | nil => exact applyLevels_levels H roots hr fuel hf e
  | cons u us =>
    rw [List.foldlM_cons] at e
    cases hx : tagLevels fuel roots h u with
    | error er => rw [hx] at e; cases e
    | ok s => exact tagLevels_levels H roots hr fuel hf u hx

variable {Q R E : Addr → Prop} {h₀ : Heap ℚ} {U V : Addr → Prop} {h : Heap ℚ}

/-- **Expanding a network** leaves the quiet nodes alone, apart from their levels and from what leads to the topmost of them. -/
theorem calm_expandRoots (S : Still Q E h₀ U) (cfg : Config) (C : Calm Q R E h₀ U h) (H : Region h V) (roots : List Addr) (hr : ∀ r ∈ roots, Within h₀ U h r)
    (hV : ∀ r ∈ roots, V r) {h' : Heap ℚ} (w : Settles (fun fuel => expandRoots cfg fuel h roots) (.ok h')) (hz : ∀ a, Q a → (h₀.get a).levelsToAdd = 0) :
    (∀ a, Q a → h'.get a = { h₀.get a with level := (h'.get a).level, parents := (h'.get a).parents }) ∧
      ∀ a, Q a → ¬ R a → (h'.get a).parents = (h₀.get a).parents := by
  obtain ⟨rl, -, F1, hF1⟩ := minLevel_settles H roots hV
  obtain ⟨F, hF⟩ := w
  cases rl with
  | error er =>
    exfalso
    have e := hF (max F F1) (le_max_left _ _)
    have e1 := hF1 (max F F1) (le_max_right _ _)
    simp only at e e1
    unfold expandRoots at e
    rw [e1] at e
    cases e
  | ok low =>
    obtain ⟨B, r, q1, q2⟩ := expandAll_ends (strict := False) cfg h V roots [(1, 1 - low)] H False.elim hV
    cases r with
    | error er =>
      exfalso
      have e := hF (max F (max F1 B)) (le_max_left _ _)
      have e1 := hF1 (max F (max F1 B)) (by omega)
      have e2 := q2 (max F (max F1 B)) (by omega)
      simp only at e e1
      unfold expandRoots at e
      rw [e1] at e
      simp only [bind, Except.bind] at e
      rw [e2] at e
      cases e
    | ok x =>
      have Ev := (Ends.iff.1 q1).2 x rfl
      have HR := Ev.region
      obtain ⟨N, hN⟩ : ∃ N, N = max F (max F1 (max B (childFuel x.1 (Within h V x.1)))) := ⟨_, rfl⟩
      have e := hF N (by omega)
      have e1 := hF1 N (by omega)
      have e2 := q2 N (by omega)
      simp only at e e1
      unfold expandRoots at e
      rw [e1] at e
      simp only [bind, Except.bind] at e
      rw [e2] at e
      have e : (x.2.foldlM (tagLevels N roots) x.1 >>= applyLevels N roots) = .ok h' := e
      have hl := passes_levels HR roots (fun r hr => .inl (hV r hr)) N (by omega) x.2 e
      obtain ⟨h'', k1, -, k2⟩ := levels_spec roots (fun r hr => .inl (hV r hr)) N x.2 x.1 HR hl (by omega)
      rw [e] at k1
      cases k1
      have C1 := calm_expandAll S cfg N C roots hr [(1, 1 - low)] x e2
      refine ⟨fun a ha => ?_, fun a ha hra => ?_⟩
      · by_cases hra : Reach x.1 roots a
        · have w1 := (k2 a).1 hra
          have w2 := C1.keep a ha
          have w3 := hz a ha
          have w4 := hl a hra
          rw [w1]
          unfold raised
          split
          · next w5 => exact absurd w5 w4
          · generalize x.1.get a = o at w2 ⊢
            rw [w2]
            generalize h₀.get a = o' at w3 ⊢
            cases o'
            simp only at w3
            subst w3
            rfl
        · rw [(k2 a).2 hra]
          have w2 := C1.keep a ha
          generalize x.1.get a = o at w2 ⊢
          rw [w2]
      · rw [← C1.fixed a ha hra]
        by_cases hre : Reach x.1 roots a
        · rw [(k2 a).1 hre]
          unfold raised
          split <;> rfl
        · rw [(k2 a).2 hre]

end Satis.Graph
