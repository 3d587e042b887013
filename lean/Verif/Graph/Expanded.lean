import Verif.Graph.CountFacts
import Verif.Graph.LevelWalk
import Verif.Props.Traverse
/-!
# What expansion leaves, and how many machines
-/

namespace Satis.Graph
open Satis Satis.Cost Satis.Spec

variable {speeds : List Nat} {roots : List Addr} {h h' : Heap ℚ}

open Classical in
/-- Once nothing is pending and no machine has more inputs than it can have, the machines there will be are there. -/
theorem tally_done (he : ∀ a, Reach h roots a → (h.get a).expands = []) (hp : ∀ a, Reach h roots a → ∀ p ∈ (h.get a).parents, Reach h roots p)
    (hk : ∀ a, Reach h roots a → (h.get a).parents.length + (if a ∈ roots then 1 else 0) ≤ 3) : tally roots h (Reach h roots) = machineCount h roots := by
  unfold tally machineCount
  refine Finset.sum_congr rfl fun a ha => ?_
  have ha := (Finset.mem_filter.1 ha).2
  have h1 : outlay h a = if 2 ≤ (h.get a).children.length then 1 else 0 := by
    unfold outlay
    rw [he a ha]
    rfl
  have h2 : comes h a = (h.get a).parents.length := comes_eq fun p w => by
    rw [he p (hp a ha p w)]
    rfl
  have h3 : loops h a = [] := by
    unfold loops
    rw [he a ha]
    rfl
  have := hk a ha
  unfold inlay
  rw [h1, h2, h3, Nat.add_comm (if a ∈ roots then 1 else 0)]
  generalize (h.get a).parents.length + (if a ∈ roots then 1 else 0) = k at this ⊢
  congr 1
  rw [toOne]
  split <;> omega

open Classical in
theorem SameGraph.machineCount (S : SameGraph h h') : machineCount h' roots = machineCount h roots := by
  unfold Graph.machineCount
  rw [S.next, funext fun a => propext (S.reach (rs := roots) (a := a))]
  refine Finset.sum_congr rfl fun a _ => ?_
  rw [S.children, S.parents]

open Classical in
/-- What `expand_roots` leaves. -/
theorem Sound.expanded {cfg : Config} {speeds : List Nat} (P : Sound speeds h roots) (R : Roomy h roots)
    (W : WithinLimit cfg h (Reach h roots)) :
    ∃ h', Settles (fun fuel => expandRoots cfg fuel h roots) (.ok h') ∧
      (∀ a, Reach h' roots a ∧ (h'.get a).children = [] ↔ Reach h roots a ∧ (h.get a).children = []) ∧
      (Light h roots → ∀ a, Reach h' roots a → (h'.get a).expands = []) ∧
      ((∀ a, Reach h' roots a → (h'.get a).expands = []) →
        Graph.machineCount h' roots + joinCount h roots =
          ∑ a ∈ Finset.range h.next with Reach h roots a, (own h a + toOne (h.get a).parents.length) ∧
        ∃ T f, Carries speeds h' roots (fun a => if a ∈ roots then (h.get a).value else 0) T f ∧
          Forced speeds h' roots (fun a => if a ∈ roots then (h.get a).value else 0) T f ∧
          (∀ b : ℚ, cfg.limit ≤ b → (∀ a, Reach h roots a → (h.get a).value ≤ b) → ∀ a, Reach h' roots a → T a ≤ b) ∧
          (∀ a, Reach h roots a → (h.get a).children = [] → T a = (h.get a).value) ∧
          (Tidy h roots → Labels h h' roots 1 T)) := by
  have Tm := W.tame P.levels
  have hr : ∀ r ∈ roots, Reach h roots r := fun r hr => .root hr
  obtain ⟨low, e, -⟩ := C57_min_level h _ P.region roots hr P.levels
  obtain ⟨B, r, h1, h2⟩ := expandAll_ends (strict := True) cfg h _ roots [(1, 1 - low)] P.region (fun _ => Tm) hr
  have run := fun Z hZ => (P.mixed R Z hZ cfg.limit).expandAll_if Tm (fun _ h => h) (fun _ hb => hb.1) B [(1, 1 - low)]
  rcases run (fun _ => True) (fun _ _ _ _ _ _ => .inl trivial) with w | ⟨h₁, us, w, E, hR, hL, hN, -, hF⟩
  · rw [h2 B le_rfl] at w
    exact absurd w (Ends.iff.1 h1).1
  · have hq : Light h roots → ∀ a, Reach h₁ roots a → (h₁.get a).expands = [] := fun Li => by
      rcases run (Remainder h roots) (fun a ha c hc z hz => (Classical.em ((h.get z).value = c)).symm.imp (fun w => ⟨a, ha, c, hc, hz, w⟩) fun w => ⟨w, Li⟩) with w' | ⟨h₁', us', w', -, -, -, -, hq, -⟩
      · rw [w] at w'
        simp at w'
      · rw [w] at w'
        simp only [Except.ok.injEq, Prod.mk.injEq] at w'
        rw [w'.1]
        exact hq (P.trailing R.unsplit)
    rw [h2 B le_rfl] at w
    subst w
    have T₁ := Tm.evolved trivial E
    obtain ⟨h', q1, q2, S⟩ := levels_spec roots (fun r hr' => .inl (hr r hr')) _ us h₁ E.region (fun a ha => T₁.levels a ((hR a).1 ha)) le_rfl
    have keep : ∀ a, (h'.get a).expands = (h₁.get a).expands ∧ (h'.get a).value = (h₁.get a).value := fun a => by
      by_cases ha : Reach h₁ roots a
      · rw [(S a).1 ha]
        unfold raised
        split <;> exact ⟨rfl, rfl⟩
      · rw [(S a).2 ha]
        exact ⟨rfl, rfl⟩
    have hre : ∀ a, Reach h' roots a ↔ Reach h₁ roots a := fun a => q2.reach
    refine ⟨h', ?_, fun a => ?_, fun Li a ha => ?_, fun done => ?_⟩
    · refine e.bind (k := fun _ => .ok h') fun x hx => ?_
      cases hx
      refine Settles.bind (r := .ok (h₁, us)) (k := fun _ => .ok h') ⟨B, h2⟩ fun x hx => ?_
      cases hx
      exact (levels_stable us h₁ roots).settles (by simp) q1
    · rw [hre, q2.children]
      constructor
      · exact fun ⟨w1, w2⟩ => (hL a w1).1 w2
      · intro w
        have : Reach h₁ roots a := (hR a).2 (.inl w.1)
        exact ⟨this, (hL a this).2 w⟩
    · rw [(keep a).1]
      exact hq Li a ((hre a).1 ha)
    obtain ⟨T, f, C, hFo, hub, hT, hY⟩ := hF fun a ha => by
      rw [← (keep a).1]
      exact done a ((hre a).2 ha)
    refine ⟨?_, T, f, ⟨?_, ?_, ?_, ?_, ?_⟩, hFo.relink hre q2.children q2.parents, fun b hb hb' a ha => hub b ⟨hb, hb'⟩ a ((hre a).1 ha), ?_, fun Td => ⟨fun a ha hm => ?_, fun a ha => ?_, fun a ha es V he hV => ?_⟩⟩
    · rw [q2.machineCount, ← tally_done (fun a ha => by
        rw [← (keep a).1]
        exact done a ((hre a).2 ha)) C.closed C.inputs, hN]
      exact P.tally_own R.unsplit
    · intro a ha p hp
      rw [hre] at ha ⊢
      rw [q2.parents] at hp
      exact C.closed a ha p hp
    · intro a b ha hb
      rw [q2.parents, q2.children]
      exact C.links a b ((hre a).1 ha) ((hre b).1 hb)
    · intro a ha
      rw [q2.parents]
      exact C.inputs a ((hre a).1 ha)
    · intro a ha
      rw [q2.parents]
      exact C.intake a ((hre a).1 ha)
    · intro a ha
      rw [q2.children]
      exact C.share a ((hre a).1 ha)
    · intro a ha hc
      have : Reach h₁ roots a := (hR a).2 (.inl ha)
      rw [hT a this ((hL a this).2 ⟨ha, hc⟩), E.value a ha]
    · have : dues h roots a = none := by
        by_contra w
        obtain ⟨w1, e, he, w2⟩ := P.dues_none w
        obtain ⟨t, rfl⟩ := hm w1 e he
        exact w2 t rfl
      rw [(keep a).2, hY _ (if_pos Td) a ((hre a).1 ha), this]
      simp
    · rw [(keep a).2, E.value a ha]
    · rw [hY _ (if_pos Td) a ((hR a).2 (.inl ha)), P.dues_spec R.unsplit ha he hV]
      simp

end Satis.Graph
