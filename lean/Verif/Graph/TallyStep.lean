import Verif.Graph.DeliverStep
/-!
# Carrying out what is pending for a node leaves the number of machines there will be as it is
-/

namespace Satis.Graph
open Satis Satis.Cost Satis.Spec

variable {Z : Addr → Prop} {Q : Terms} {cfg : Config} {speeds : List Nat} {roots : List Addr} {supply : Addr → ℚ} {h h' : Heap ℚ} {U : Addr → Prop}
  {T : Addr → ℚ} {f : Addr → Addr → ℚ}

/-- Belts come the same way. -/
theorem comes_congr {a : Addr} (hp : (h'.get a).parents = (h.get a).parents) (hv : (h'.get a).value = (h.get a).value)
    (hq : ∀ p ∈ (h.get a).parents, (h'.get p).value = (h.get p).value ∧ (h'.get p).expands.findSome? cut = (h.get p).expands.findSome? cut) :
    comes h' a = comes h a := by
  unfold comes
  rw [hp, hv]
  split
  · rename_i p e
    obtain ⟨q1, q2⟩ := hq p (by rw [e]; simp)
    rw [q1, q2]
  · rfl

theorem Funnelled.tally {node : Addr} {t : Nat} {es : List (Expand ℚ)} (M : Mixed Z Q speeds roots supply h U T f) (hU : U node)
    (he : (h.get node).expands = .merge t :: es) (N : Funnelled h h' node t es) (hA : ¬ Above h U node) :
    tally roots h' (Within h U h') = tally roots h U := by
  have hin := M.region.inside
  have psU : ∀ p ∈ (h.get node).parents, U p := fun p hp => M.region.parents node hU p hp
  have psNe : ∀ p ∈ (h.get node).parents, p ≠ node := fun p hp e => M.apart node hU (e ▸ hp)
  have psCh : ∀ p ∈ (h.get node).parents, node ∈ (h.get p).children := fun p hp => by
    rw [← List.count_pos_iff, M.count p node (psU p hp) hU, List.count_pos_iff]
    exact hp
  have psQuiet : ∀ p ∈ (h.get node).parents, ∀ e ∈ (h.get p).expands, ∃ t, e = .merge t := fun p hp e he => by
    by_contra q
    exact hA ⟨p, psU p hp, psCh p hp, e, he, fun t w => q ⟨t, w⟩⟩
  have kFrame : ∀ a, U a → a ≠ node → a ∉ (h.get node).parents → h'.get a = h.get a := fun a ha hne q => N.frame a (hin a ha) hne q
  have kPs := N.keptParents
  have eNode : (h'.get node).expands = es := by rw [N.keptNode]
  have kVal : ∀ a, U a → (h'.get a).value = (h.get a).value := fun a ha => by
    by_cases hne : a = node
    · subst hne; rw [N.keptNode]
    · by_cases q : a ∈ (h.get node).parents
      · rw [kPs a q]
      · rw [kFrame a ha hne q]
  have kExp : ∀ a, U a → a ≠ node → (h'.get a).expands = (h.get a).expands := fun a ha hne => by
    by_cases q : a ∈ (h.get node).parents
    · rw [kPs a q]
    · rw [kFrame a ha hne q]
  have kPar : ∀ a, U a → a ≠ node → (h'.get a).parents = (h.get a).parents := fun a ha hne => by
    by_cases q : a ∈ (h.get node).parents
    · rw [kPs a q]
    · rw [kFrame a ha hne q]
  have kLen : ∀ a, U a → (h'.get a).children.length = (h.get a).children.length := fun a ha => by
    by_cases hne : a = node
    · subst hne; rw [N.keptNode]
    · by_cases q : a ∈ (h.get node).parents
      · exact N.lens a q
      · rw [kFrame a ha hne q]
  have kOut : ∀ a, U a → (h'.get a).expands.filter outward = (h.get a).expands.filter outward := fun a ha => by
    by_cases hne : a = node
    · subst hne
      rw [he, eNode]
      rfl
    · rw [kExp a ha hne]
  have kCut : ∀ a, U a → (h'.get a).expands.findSome? cut = (h.get a).expands.findSome? cut := fun a ha => by
    by_cases hne : a = node
    · subst hne
      rw [he, eNode]
      rfl
    · rw [kExp a ha hne]
  have kLoops : ∀ a, U a → loops h' a = loops h a := fun a ha => by
    by_cases hne : a = node
    · subst hne
      unfold loops
      rw [he, eNode, kVal a ha]
      rfl
    · exact loops_congr (tag := []) (kVal a ha) (by rw [kExp a ha hne, List.append_nil]) (by simp)
  have kOutlay : ∀ a, U a → outlay h' a = outlay h a := fun a ha => outlay_congr (kVal a ha) (kOut a ha) (kLen a ha)
  have rootsLt : ∀ r ∈ roots, r < h.next := fun r hr => hin r (M.top r hr)
  have newQuiet : ∀ p, p ∈ (h.get node).parents ∨ h.next ≤ p ∧ p < h'.next → (h'.get p).expands.findSome? cut = none := by
    rintro p (w | w)
    · rw [kExp p (psU p w) (psNe p w)]
      exact cut_merges (psQuiet p w)
    · rw [N.quiet p w.1 w.2]
      rfl
  refine tally_step hin N.next hU (fun a ha hne => ?_) (fun a h1 h2 => ?_) ?_
  · rw [kOutlay a ha]
    unfold inlay
    rw [kLoops a ha, comes_congr (kPar a ha hne) (kVal a ha) fun p hp =>
      have hpU := M.region.parents a ha p hp
      ⟨kVal p hpU, kCut p hpU⟩]
  · obtain ⟨h3, b, hb, -⟩ := N.three a h1 h2
    have hq := N.quiet a h1 h2
    have k1 : outlay h' a = 0 := by
      unfold outlay
      rw [hq, hb]
      rfl
    have k2 : comes h' a = 3 := by
      rw [comes_eq fun p hp => newQuiet p ((N.sources a h1 h2 p hp).imp id fun w => ⟨w.1, by omega⟩), h3]
    unfold inlay
    rw [k1, k2, loops_nil hq, if_neg fun w => by have := rootsLt a w; omega]
    rfl
  · rw [kOutlay node hU]
    have k1 := comes_eq fun p hp => cut_merges (psQuiet p hp)
    have k2 := comes_eq fun p hp => newQuiet p (N.inputs p hp)
    have := N.spared
    unfold inlay
    rw [kLoops node hU, k1, k2]
    unfold toOne
    omega

theorem Unfolded.tally {node : Addr} {V : ℚ} (M : Mixed Z Q speeds roots supply h U T f) (hU : U node) (S : Unfolded Z roots h h' node V)
    (hA : ¬ Above h U node) :
    tally roots h' (Within h U h') = tally roots h U := by
  have hin := M.region.inside
  have P := S.spread
  have hM : ∀ a, a ∈ made h h' node ↔ a = node ∨ h.next ≤ a ∧ a < h'.next := fun a => mem_made P.next
  have kFrame : ∀ a, U a → a ≠ node → a ∉ (h.get node).children → h'.get a = h.get a := fun a ha hn q => P.frame a (hin a ha) hn q
  have kVal : ∀ a, U a → (h'.get a).value = (h.get a).value := fun a ha => by
    by_cases hn : a = node
    · subst hn; exact P.keptNode
    · by_cases q : a ∈ (h.get node).children
      · exact (P.keptOuts a q).2
      · rw [kFrame a ha hn q]
  have kExp : ∀ a, U a → a ≠ node → ∃ tag, (h'.get a).expands = (h.get a).expands ++ tag ∧ ∀ e ∈ tag, ∃ t, e = .merge t := fun a ha hn => by
    by_cases q : a ∈ (h.get node).children
    · obtain ⟨tag, t1, t2, -⟩ := P.tagged a q
      exact ⟨tag, t1, fun e he => ⟨_, t2 e he⟩⟩
    · exact ⟨[], by rw [kFrame a ha hn q, List.append_nil], by simp⟩
  have kLen : ∀ a, U a → a ≠ node → (h'.get a).children.length = (h.get a).children.length := fun a ha hn => by
    by_cases q : a ∈ (h.get node).children
    · rw [(P.keptOuts a q).1]
    · rw [kFrame a ha hn q]
  have kOut : ∀ a, U a → a ≠ node → (h'.get a).expands.filter outward = (h.get a).expands.filter outward := fun a ha hn => by
    obtain ⟨tag, t1, t2⟩ := kExp a ha hn
    rw [t1, List.filter_append, outward_merges t2, List.append_nil]
  have kCut : ∀ a, U a → a ≠ node → (h'.get a).expands.findSome? cut = (h.get a).expands.findSome? cut := fun a ha hn => by
    obtain ⟨tag, t1, t2⟩ := kExp a ha hn
    rw [t1, List.findSome?_append, cut_merges t2]
    simp
  have kLoops : ∀ a, U a → a ≠ node → loops h' a = loops h a := fun a ha hn => by
    obtain ⟨tag, t1, t2⟩ := kExp a ha hn
    exact loops_congr (kVal a ha) t1 t2
  have rootsLt : ∀ r ∈ roots, r < h.next := fun r hr => hin r (M.top r hr)
  have nodeMerges : ∀ e ∈ (h'.get node).expands, ∃ t, e = .merge t := fun e he => ⟨_, S.merges e he⟩
  have madeQuiet : ∀ p ∈ made h h' node, (h'.get p).expands.findSome? cut = none := fun p hp => by
    rcases (hM p).1 hp with rfl | w
    · exact cut_merges nodeMerges
    · rw [(P.quiet p w.1 w.2).2]
      rfl
  have many : ∀ a ∈ made h h' node, 2 ≤ (h'.get a).children.length := fun a ha => by
    have := P.arity a ha
    omega
  refine tally_step hin P.next hU (fun a ha hn => ?_) (fun a h1 h2 => ?_) ?_
  · rw [outlay_congr (kVal a ha) (kOut a ha hn) (kLen a ha hn)]
    unfold inlay
    rw [kLoops a ha hn]
    have : comes h' a = comes h a := by
      by_cases q : a ∈ (h.get node).children
      · rw [← S.arrived a q, comes_eq fun p hp => madeQuiet p ((P.links a (.inl q)).1 p hp)]
      · have hk := kFrame a ha hn q
        refine comes_congr (by rw [hk]) (by rw [hk]) fun p hp => ?_
        have hpU := M.region.parents a ha p hp
        refine ⟨kVal p hpU, kCut p hpU ?_⟩
        rintro rfl
        refine q ?_
        rw [← List.count_pos_iff, M.count p a hpU ha, List.count_pos_iff]
        exact hp
    rw [this]
  · obtain ⟨h3, hq⟩ := P.quiet a h1 h2
    have hm := (hM a).2 (.inr ⟨h1, h2⟩)
    have k1 : outlay h' a = 1 := by
      unfold outlay
      rw [hq, if_pos List.filter_nil, if_pos (many a hm)]
    have k2 : comes h' a = 1 := by
      rw [comes_eq fun p hp => madeQuiet p ((P.links a (.inr ⟨h1, h2⟩)).1 p hp), h3]
    unfold inlay
    rw [k1, k2, loops_nil hq, if_neg fun w => by have := rootsLt a w; omega]
    rfl
  · obtain ⟨qs, g1, g2, g3⟩ := S.grown
    have hb := S.built
    have k0 : outlay h' node = 1 := by
      unfold outlay
      rw [if_pos (outward_merges nodeMerges), if_pos (many node ((hM node).2 (.inl rfl)))]
    have old : ∀ p ∈ (h.get node).parents, p ≠ node ∧ U p ∧ ∀ e ∈ (h.get p).expands, ∃ t, e = .merge t := fun p hp => by
      have hpU := M.region.parents node hU p hp
      refine ⟨fun w => M.apart node hU (w ▸ hp), hpU, fun e he => ?_⟩
      by_contra q
      refine hA ⟨p, hpU, ?_, e, he, fun t w => q ⟨t, w⟩⟩
      rw [← List.count_pos_iff, M.count p node hpU hU, List.count_pos_iff]
      exact hp
    have k1 : comes h node = (h.get node).parents.length := comes_eq fun p hp => cut_merges (old p hp).2.2
    have k2 : comes h' node = (h'.get node).parents.length := comes_eq fun p hp => by
      rw [g1] at hp
      rcases List.mem_append.1 hp with w | w
      · rw [kCut p (old p w).2.1 (old p w).1]
        exact cut_merges (old p w).2.2
      · exact madeQuiet p ((hM p).2 (.inr (g3 p w)))
    rw [made_length] at hb
    unfold inlay
    rw [k0, k1, k2, loops_merges nodeMerges, g1, List.length_append, g2, ← hb, List.length_nil]
    generalize toOne = F
    generalize (if node ∈ roots then 1 else 0) = ρ
    rw [Nat.add_zero, ← Nat.add_assoc ρ]
    omega

end Satis.Graph
