import Verif.Graph.DeliverUnique
import Verif.Graph.DeliverVisit
import Verif.Graph.ExpandWalk
/-!
# The walk that expands a network
-/

namespace Satis.Graph
open Satis Satis.Cost

variable {Z : Addr → Prop} {Q : Terms} {cfg : Config} {speeds : List Nat} {roots : List Addr} {supply : Addr → ℚ} {h₀ : Heap ℚ} {U₀ : Addr → Prop}

/-- Nodes that take what is left of an extraction. -/
def Trailing (Z : Addr → Prop) (h : Heap ℚ) (U : Addr → Prop) : Prop :=
  ∀ z, Z z → U z ∧ ∀ p, U p → z ∈ (h.get p).children → ∃ c, .extract c ∈ (h.get p).expands ∧ (h.get z).value ≠ c

/-- During the walk: the network is expanded in part, and all of it is where nodes were visited. `m` are mergers that were put in front of
nodes after the loops over the nodes above them had passed. -/
structure Going (Z : Addr → Prop) (Q : Terms) (cfg : Config) (speeds : List Nat) (roots : List Addr) (supply : Addr → ℚ)
    (h₀ : Heap ℚ) (U₀ : Addr → Prop) (h : Heap ℚ) (seen : List Uid) (stack : List (Addr × Nat)) (m : Addr → Prop) : Prop where
  mixed : ∃ T f, Mixed Z Q speeds roots supply h (Within h₀ U₀ h) T f
  tame : Tame cfg h (Within h₀ U₀ h)
  evolved : Evolved True 0 h₀ U₀ h
  bounds : ∀ b, Q.bound b → cfg.limit ≤ b
  start : ∀ a, U₀ a → a < h₀.next
  known : ∀ i ∈ seen, ∃ a, Within h₀ U₀ h a ∧ (h.get a).id = i
  done : ∀ a, Within h₀ U₀ h a → (h.get a).id ∈ seen → (h.get a).expands = []
  calm : ∀ a, Within h₀ U₀ h a → (h.get a).id ∈ seen → ¬ Above h (Within h₀ U₀ h) a
  via : Trailing Z h₀ U₀ → ∀ a, m a → (Within h₀ U₀ h a ∧ h₀.next ≤ a) ∧ (h.get a).expands = [] ∧ ∀ c ∈ (h.get a).children, m c ∨ (h.get c).id ∈ seen
  frames : ∀ a i, (a, i) ∈ stack → Within h₀ U₀ h a ∧ (h.get a).id ∈ seen
  /-- belts to what is left of an extraction come last, besides belts to what the walk need not visit any more -/
  last : Trailing Z h₀ U₀ → ∀ p, Within h₀ U₀ h p → ∀ z ∈ (h.get p).children, Z z → (h.get z).id ∉ seen →
    (∃ c, .extract c ∈ (h.get p).expands ∧ (h.get z).value ≠ c) ∨
      ¬ Pends h p ∧ Trails (fun x => m x ∨ (h.get x).id ∈ seen) z (h.get p).children
  cover : Trailing Z h₀ U₀ → ∀ a, Within h₀ U₀ h a → (h.get a).id ∈ seen → ∀ (j : ℕ) c, (h.get a).children[j]? = some c →
    (h.get c).id ∈ seen ∨ m c ∨ ∃ i, i ≤ j ∧ (a, i) ∈ stack
  reach : ∀ a, Within h₀ U₀ h a → Reach h roots a
  leaves : ∀ a, Within h₀ U₀ h a → ((h.get a).children = [] ↔ U₀ a ∧ (h₀.get a).children = [])
  kept : tally roots h (Within h₀ U₀ h) = tally roots h₀ U₀

variable {h : Heap ℚ} {seen : List Uid} {stack : List (Addr × Nat)} {m : Addr → Prop}

/-- A node below one that was visited, or a root, has no pending division or extraction above it. -/
theorem Going.clear (G : Going Z Q cfg speeds roots supply h₀ U₀ h seen stack m) {c : Addr} (hc : Within h₀ U₀ h c)
    (w : c ∈ roots ∨ ∃ a, Within h₀ U₀ h a ∧ (h.get a).id ∈ seen ∧ c ∈ (h.get a).children) : ¬ Above h (Within h₀ U₀ h) c := by
  rintro ⟨b, hb, hcb, e, he, hm⟩
  obtain ⟨T, f, M⟩ := G.mixed
  have key : (h.get c).parents = [b] ∧ c ∉ roots := by
    obtain ⟨mg, es, post, q1, q2, q3⟩ := M.jobs b hb
    rw [q1] at he
    have hes : e ∈ es := by
      rcases List.mem_append.1 he with he | he
      · rcases List.mem_append.1 he with he | he
        · rcases q3 with ⟨rfl, -⟩ | ⟨rfl, -⟩
          · rw [List.mem_singleton] at he
            exact absurd he (hm 3)
          · simp at he
        · exact he
      · rcases q3 with ⟨-, -, rfl⟩ | ⟨-, q3, -⟩
        · simp at he
        · exact absurd (q3 e he) (hm _)
    exact ((q2.below (List.ne_nil_of_mem hes)).2.2 c hcb).2
  rcases w with w | ⟨a, ha, hs, hca⟩
  · exact key.2 w
  · have : a ∈ (h.get c).parents := by
      rw [← List.count_pos_iff, ← M.count a c ha hc]
      exact List.count_pos_iff.2 hca
    rw [key.1, List.mem_singleton] at this
    subst this
    rw [G.done a ha hs] at he
    simp at he

/-- A visit. -/
theorem Going.visit (G : Going Z Q cfg speeds roots supply h₀ U₀ h seen stack m) {c : Addr} (hc : Within h₀ U₀ h c)
    (hA : ¬ Above h (Within h₀ U₀ h) c) (hns : (h.get c).id ∉ seen) (F : Nat) (stack' : List (Addr × Nat))
    (h1 : ∀ a i, (a, i) ∈ stack' → ∃ i', (a, i') ∈ stack)
    (h2 : ∀ a i, (a, i) ∈ stack → ∀ j x, i ≤ j → (h.get a).children[j]? = some x → x ≠ c → ∃ i' ≤ j, (a, i') ∈ stack') :
    runExpands cfg F h c = .error .diverge ∨ ∃ h' us m', runExpands cfg F h c = .ok (h', us) ∧
      Going Z Q cfg speeds roots supply h₀ U₀ h' (seen ++ [(h.get c).id]) ((c, 0) :: stack') m' := by
  obtain ⟨T, f, M⟩ := G.mixed
  rcases M.visit G.tame hc hA G.bounds F with w | ⟨h', us, X, w, V⟩
  · exact .inl w
  have A := V.advance
  have E := V.evolved
  have hW : Within h (Within h₀ U₀ h) h' = Within h₀ U₀ h' := within_within G.evolved.next E.next
  have R' := E.region
  rw [hW] at R'
  have old : ∀ a, Within h₀ U₀ h' a → Within h₀ U₀ h a ∨ h.next ≤ a ∧ a < h'.next := fun a ha => by
    rw [← hW] at ha
    exact ha
  have up : ∀ a, Within h₀ U₀ h a → Within h₀ U₀ h' a := fun a ha => Within.mono E.next ha
  have new : ∀ a, h.next ≤ a → a < h'.next → Within h₀ U₀ h' a := fun a q1 q2 => by
    rw [← hW]
    exact .inr ⟨q1, q2⟩
  have hid : ∀ a, Within h₀ U₀ h a → (h'.get a).id = (h.get a).id := fun a ha => E.id a ha
  have hin := M.region.inside
  -- which nodes are seen now
  have seen' : ∀ a, Within h₀ U₀ h' a → (h'.get a).id ∈ seen ++ [(h.get c).id] → Within h₀ U₀ h a ∧ (a = c ∨ (h.get a).id ∈ seen) := by
    intro a ha hs
    have hs' : ∃ b, Within h₀ U₀ h b ∧ (h'.get a).id = (h.get b).id ∧ (b = c ∨ (h.get b).id ∈ seen) := by
      rcases List.mem_append.1 hs with q | q
      · obtain ⟨b, hb, e⟩ := G.known _ q
        exact ⟨b, hb, e.symm, .inr (by rw [e]; exact q)⟩
      · exact ⟨c, hc, List.mem_singleton.1 q, .inl rfl⟩
    obtain ⟨b, hb, e, q⟩ := hs'
    have : a = b := R'.ids a b ha (up b hb) (by rw [e, hid b hb])
    subst this
    exact ⟨hb, q⟩
  have seenC : ∀ a, Within h₀ U₀ h a → (a = c ∨ (h.get a).id ∈ seen) → (h'.get a).id ∈ seen ++ [(h.get c).id] := by
    intro a ha q
    rw [hid a ha, List.mem_append, List.mem_singleton]
    rcases q with rfl | q
    · exact .inr rfl
    · exact .inl q
  refine .inr ⟨h', us, fun a => m a ∧ a ≠ c ∨ X a, w, ⟨by rw [← hW]; exact V.mixed, by rw [← hW]; exact G.tame.evolved trivial E,
    G.evolved.trans G.start E, G.bounds, G.start, ?_, ?_, ?_, ?_, ?_, ?_, ?_, ?_, ?_, by rw [← hW, V.kept, G.kept]⟩⟩
  · intro i hi
    rcases List.mem_append.1 hi with q | q
    · obtain ⟨a, ha, e⟩ := G.known i q
      exact ⟨a, up a ha, by rw [hid a ha, e]⟩
    · exact ⟨c, up c hc, by rw [hid c hc, List.mem_singleton.1 q]⟩
  · intro a ha hs
    obtain ⟨ha', q⟩ := seen' a ha hs
    by_cases e : a = c
    · subst e
      exact V.done
    · have q := q.resolve_left e
      rcases A.same a ha' e with v | ⟨-, v, -⟩
      · rw [v]
        exact G.done a ha' q
      · exact absurd ⟨c, hc, v⟩ (G.calm a ha' q)
  · intro a ha hs v
    obtain ⟨ha', q⟩ := seen' a ha hs
    rw [← hW] at v
    have v := A.down a ha' v
    rcases q with rfl | q
    · exact hA v
    · exact G.calm a ha' q v
  · rintro strict a (⟨ha, hne⟩ | q)
    · obtain ⟨⟨v1, v0⟩, v2, v3⟩ := G.via strict a ha
      refine ⟨⟨up a v1, v0⟩, ?_, fun x hx => ?_⟩
      · rcases A.same a v1 hne with v | ⟨v, -⟩
        · rw [v, v2]
        · have := G.start a (strict a v).1
          omega
      · rcases A.kids a v1 hne x hx with q | q
        · have hxW := M.region.children a v1 x q
          by_cases e : x = c
          · exact .inr (seenC x hxW (.inl e))
          · rcases v3 x q with w | w
            · exact .inl (.inl ⟨w, e⟩)
            · exact .inr (seenC x hxW (.inr w))
        · exact .inl (.inr q)
    · obtain ⟨q1, q2⟩ := A.mergers a q
      refine ⟨⟨new a q1 q2, G.evolved.next.trans q1⟩, (A.new a q1 q2).1, fun x hx => ?_⟩
      rcases A.via a q x hx with rfl | w
      · exact .inr (seenC x hc (.inl rfl))
      · exact .inl (.inr w)
  · intro a i hi
    rcases List.mem_cons.1 hi with q | q
    · cases q
      exact ⟨up c hc, seenC c hc (.inl rfl)⟩
    · obtain ⟨i', hi'⟩ := h1 a i q
      obtain ⟨v1, v2⟩ := G.frames a i' hi'
      exact ⟨up a v1, seenC a v1 (.inr v2)⟩
  · intro strict p hp z hz hZz hzs
    have hz0 := G.start z (strict z hZz).1
    have hzn : z < h.next := by
      have := G.evolved.next
      omega
    have hzW : Within h₀ U₀ h z := .inl (strict z hZz).1
    have hzc : z ≠ c := fun e => hzs (seenC z hzW (.inl e))
    have hzs' : (h.get z).id ∉ seen := fun e => hzs (seenC z hzW (.inr e))
    have keep : ∀ p, Within h₀ U₀ h p → Trails (fun x => m x ∨ (h.get x).id ∈ seen) z (h.get p).children →
        Trails (fun x => (m x ∧ x ≠ c ∨ X x) ∨ (h'.get x).id ∈ seen ++ [(h.get c).id]) z (h.get p).children := fun p hp T => by
      refine T.mono fun x hx v => .inr ?_
      have hxW := M.region.children p hp x hx
      by_cases e : x = c
      · exact .inr (seenC x hxW (.inl e))
      · rcases v with v | v
        · exact .inl (.inl ⟨v, e⟩)
        · exact .inr (seenC x hxW (.inr v))
    by_cases hpc : Within h₀ U₀ h p ∧ p ≠ c
    · obtain ⟨hpW, hpc⟩ := hpc
      have hz' : z ∈ (h.get p).children := by
        rcases A.kids p hpW hpc z hz with w | w
        · exact w
        · have := A.mergers z w
          omega
      rcases G.last strict p hpW z hz' hZz hzs' with ⟨k, k1, k2⟩ | ⟨k1, k2⟩
      · refine .inl ⟨k, ?_, by rw [A.worth z hzW]; exact k2⟩
        rcases A.same p hpW hpc with v | ⟨-, -, tag, v, -⟩
        · rw [v]
          exact k1
        · rw [v]
          exact List.mem_append_left _ k1
      · refine .inr ⟨?_, ?_⟩
        · rintro ⟨e, he, hm⟩
          rcases A.same p hpW hpc with v | ⟨-, -, tag, v, v'⟩
          · exact k1 ⟨e, by rw [← v]; exact he, hm⟩
          · rw [v] at he
            rcases List.mem_append.1 he with he | he
            · exact k1 ⟨e, he, hm⟩
            · obtain ⟨t, ht⟩ := v' e he
              exact hm t ht
        · obtain ⟨l₁, l₂, t1, t2, t3⟩ := A.trim p hpW hpc
          rw [t1]
          exact ((keep p hpW k2).trim t2 t3).mono fun x _ v => .inr (v.elim id fun v => .inl (.inr v))
    · have hp' : p = c ∨ h.next ≤ p ∧ p < h'.next := by
        rcases old p hp with w | w
        · exact .inl (by by_contra e; exact hpc ⟨w, e⟩)
        · exact .inr w
      have hz' : z ∈ (h.get c).children := by
        rcases A.spring p hp' z hz with w | w | w
        · exact w
        · exact absurd w hzc
        · omega
      have quiet : ¬ Pends h' p := by
        rintro ⟨e, he, -⟩
        have : (h'.get p).expands = [] := by
          rcases hp' with rfl | w
          · exact V.done
          · exact (A.new p w.1 w.2).1
        rw [this] at he
        simp at he
      refine .inr ⟨quiet, ?_⟩
      rcases G.last strict c hc z hz' hZz hzs' with ⟨k, k1, k2⟩ | ⟨k1, k2⟩
      · rcases A.spill k k1 z hz' hzc k2 with ⟨-, v, -⟩ | ⟨-, v⟩
        · rw [V.done] at v
          simp at v
        · exact (v p hp').mono fun x _ v => .inr (.inl (.inr v))
      · obtain ⟨v1, -, v3⟩ := A.idle k1
        rcases hp' with rfl | hp'
        · rw [v1]
          exact keep p hc k2
        · rcases v3 p hp'.1 hp'.2 z hz with w | w
          · exact absurd w hzc
          · omega
  · intro strict a ha hs j x hx
    obtain ⟨ha', q⟩ := seen' a ha hs
    by_cases e : a = c
    · subst e
      exact .inr (.inr ⟨0, by omega, by simp⟩)
    · have q := q.resolve_left e
      have still : (h.get a).children[j]? = some x → (h'.get x).id ∈ seen ++ [(h.get c).id] ∨ (m x ∧ x ≠ c ∨ X x) ∨
          ∃ i, i ≤ j ∧ (a, i) ∈ (c, 0) :: stack' := fun hx => by
        have hxW := M.region.children a ha' x (List.mem_of_getElem? hx)
        by_cases ex : x = c
        · exact .inl (seenC x hxW (.inl ex))
        · rcases G.cover strict a ha' q j x hx with v | v | ⟨i, v1, v2⟩
          · exact .inl (seenC x hxW (.inr v))
          · exact .inr (.inl (.inl ⟨v, ex⟩))
          · obtain ⟨i', w1, w2⟩ := h2 a i v2 j x v1 hx ex
            exact .inr (.inr ⟨i', w1, List.mem_cons_of_mem _ w2⟩)
      by_cases hZc : Z c
      · have tr : Trails (fun x => m x ∨ (h.get x).id ∈ seen) c (h.get a).children := by
          by_cases hca : c ∈ (h.get a).children
          · rcases G.last strict a ha' c hca hZc hns with ⟨k, k1, -⟩ | ⟨-, k⟩
            · rw [G.done a ha' q] at k1
              simp at k1
            · exact k
          · exact .none hca
        obtain ⟨P, B, e1, e2, e3⟩ := tr
        obtain ⟨l₁, l₂, t1, t2, t3⟩ := A.trim a ha' e
        obtain ⟨B', e4, e5⟩ : ∃ B', l₁ = P ++ B' ∧ ∀ x ∈ B', x ∈ B := by
          rcases t2 with rfl | rfl
          · exact ⟨B, e1, fun _ w => w⟩
          · refine ⟨B.filter fun y => decide (y ≠ c), ?_, fun x w => (List.mem_filter.1 w).1⟩
            rw [e1, List.filter_append]
            congr 1
            refine List.filter_eq_self.2 fun y hy => ?_
            simp only [decide_eq_true_eq]
            exact fun w => e2 (w ▸ hy)
        rw [t1, e4, List.append_assoc] at hx
        by_cases hj : j < P.length
        · rw [List.getElem?_append_left hj] at hx
          exact still (by rw [e1, List.getElem?_append_left hj]; exact hx)
        · rw [List.getElem?_append_right (by omega)] at hx
          rcases List.mem_append.1 (List.mem_of_getElem? hx) with w | w
          · have w := e5 x w
            have hxW := M.region.children a ha' x (by rw [e1]; exact List.mem_append_right _ w)
            by_cases ex : x = c
            · exact .inl (seenC x hxW (.inl ex))
            · rcases (e3 x w).resolve_left ex with v | v
              · exact .inr (.inl (.inl ⟨v, ex⟩))
              · exact .inl (seenC x hxW (.inr v))
          · exact .inr (.inl (.inr (t3 x w)))
      · rcases A.tidy a ⟨hZc, ha'⟩ e with w | w
        · rw [w] at hx
          exact still hx
        · exact .inr (.inl (.inr (w x (List.mem_of_getElem? hx))))
  · have lift : ∀ a, Within h₀ U₀ h a → Reach h' roots a := fun a ha =>
      reach_lift A (fun a ha c hc => M.region.children a ha c hc) M.top (G.reach a ha)
    intro a ha
    rcases old a ha with q | q
    · exact lift a q
    · obtain ⟨b, hb, v⟩ := A.fresh a q.1 q.2
      exact reach_trans (lift b hb) v
  · intro a ha
    rcases old a ha with q | q
    · rw [A.leaf a q]
      exact G.leaves a q
    · have q' := (A.new a q.1 q.2).2
      refine ⟨fun e => absurd e q', fun e => ?_⟩
      have := hin a (.inl e.1)
      omega

/-- The loops on the stack go on. -/
theorem Going.onward (G : Going Z Q cfg speeds roots supply h₀ U₀ h seen stack m) (stack' : List (Addr × Nat))
    (h1 : ∀ a i, (a, i) ∈ stack' → ∃ i', (a, i') ∈ stack)
    (h2 : ∀ a i, (a, i) ∈ stack → ∀ j x, i ≤ j → (h.get a).children[j]? = some x → (h.get x).id ∉ seen → ∃ i' ≤ j, (a, i') ∈ stack') :
    Going Z Q cfg speeds roots supply h₀ U₀ h seen stack' m := by
  refine { G with frames := fun a i hi => ?_, cover := fun strict a ha hs j x hx => ?_ }
  · obtain ⟨i', hi'⟩ := h1 a i hi
    exact G.frames a i' hi'
  · by_cases q : (h.get x).id ∈ seen
    · exact .inl q
    · rcases G.cover strict a ha hs j x hx with w | w | ⟨i, w1, w2⟩
      · exact .inl w
      · exact .inr (.inl w)
      · exact .inr (.inr (h2 a i w2 j x w1 hx q))

/-- The walk ends with nothing to go on with, unless it runs out of fuel. -/
theorem Going.walk (F : Nat) : ∀ (fuel : Nat) (s : Marked ℚ × List (Int × Int)) (stack : List (Addr × Nat)) (m : Addr → Prop),
    Going Z Q cfg speeds roots supply h₀ U₀ s.1.1 s.1.2 stack m →
    expandWalk cfg F fuel s stack = .error .diverge ∨ ∃ s' m', expandWalk cfg F fuel s stack = .ok s' ∧
      Going Z Q cfg speeds roots supply h₀ U₀ s'.1.1 s'.1.2 [] m' ∧ ∀ i ∈ s.1.2, i ∈ s'.1.2 := by
  intro fuel
  induction fuel with
  | zero =>
    intro s stack m G
    cases stack with
    | nil => exact .inr ⟨s, m, by simp [expandWalk, Graph.walk], G, fun _ h => h⟩
    | cons fr stack => exact .inl (by simp [expandWalk, Graph.walk])
  | succ fuel ih =>
    intro s stack m G
    match stack, G with
    | [], G => exact .inr ⟨s, m, by simp [expandWalk, Graph.walk], G, fun _ h => h⟩
    | (a, i) :: stack, G =>
      obtain ⟨hWa, hsa⟩ := G.frames a i (by simp)
      have hk : s.1.kids a = (s.1.1.get a).children := rfl
      cases hx : (s.1.1.get a).children[i]? with
      | none =>
        have e : expandWalk cfg F (fuel + 1) s ((a, i) :: stack) = expandWalk cfg F fuel s stack := by
          simp only [expandWalk, Graph.walk, hk, hx]
        rw [e]
        refine ih s stack m (G.onward stack (fun b j hj => ⟨j, List.mem_cons_of_mem _ hj⟩) fun b j hj j' x hle hx' _ => ?_)
        rcases List.mem_cons.1 hj with q | q
        · cases q
          rw [List.getElem?_eq_none_iff] at hx
          have := (List.getElem?_eq_some_iff.1 hx').1
          omega
        · exact ⟨j, hle, q⟩
      | some c =>
        have hcm : c ∈ (s.1.1.get a).children := List.mem_of_getElem? hx
        have advance : ∀ b j, (b, j) ∈ (a, i) :: stack → ∀ j' x, j ≤ j' → (s.1.1.get b).children[j']? = some x → x ≠ c →
            ∃ i' ≤ j', (b, i') ∈ (a, i + 1) :: stack := by
          intro b j hj j' x hle hx' hne
          rcases List.mem_cons.1 hj with q | q
          · cases q
            refine ⟨i + 1, ?_, by simp⟩
            by_contra q
            have : j' = i := by omega
            subst this
            rw [hx] at hx'
            exact hne (Option.some.inj hx').symm
          · exact ⟨j, hle, List.mem_cons_of_mem _ q⟩
        have back : ∀ b j, (b, j) ∈ (a, i + 1) :: stack → ∃ i', (b, i') ∈ (a, i) :: stack := by
          intro b j hj
          rcases List.mem_cons.1 hj with q | q
          · cases q
            exact ⟨i, by simp⟩
          · exact ⟨j, List.mem_cons_of_mem _ q⟩
        by_cases hs : (s.1.1.get c).id ∈ s.1.2
        · have hseen : s.1.seen c = true := decide_eq_true hs
          have e : expandWalk cfg F (fuel + 1) s ((a, i) :: stack) = expandWalk cfg F fuel s ((a, i + 1) :: stack) := by
            simp only [expandWalk, Graph.walk, hk, hx, hseen, if_true]
          rw [e]
          refine ih s _ m (G.onward _ back fun b j hj j' x hle hx' hns => advance b j hj j' x hle hx' fun e => ?_)
          subst e
          exact hns hs
        · have hseen : s.1.seen c = false := decide_eq_false hs
          have hWc : Within h₀ U₀ s.1.1 c := by
            obtain ⟨T, f, M⟩ := G.mixed
            exact M.region.children a hWa c hcm
          have e : expandWalk cfg F (fuel + 1) s ((a, i) :: stack) = expandVisit cfg F s c >>= fun s' =>
              expandWalk cfg F fuel s' ((c, 0) :: (a, i + 1) :: stack) := by
            simp only [expandWalk, Graph.walk, hk, hx, hseen, Bool.false_eq_true, if_false, bind, Except.bind]
            cases expandVisit cfg F s c <;> rfl
          rw [e]
          unfold expandVisit
          rcases G.visit hWc (G.clear hWc (.inr ⟨a, hWa, hsa, hcm⟩)) hs F ((a, i + 1) :: stack) back advance with w | ⟨h', us, m', w, G'⟩
          · exact .inl (by rw [w]; rfl)
          · rw [w]
            rcases ih ((h', s.1.2 ++ [(s.1.1.get c).id]), s.2 ++ us) _ m' G' with v | ⟨s', m'', v1, v2, v3⟩
            · exact .inl v
            · exact .inr ⟨s', m'', v1, v2, fun i hi => v3 i (List.mem_append_left _ hi)⟩

/-- All roots. -/
theorem Going.fromRoots (F : Nat) : ∀ (rs : List Addr) (fuel : Nat) (s : Marked ℚ × List (Int × Int)) (m : Addr → Prop),
    Going Z Q cfg speeds roots supply h₀ U₀ s.1.1 s.1.2 [] m → (∀ r ∈ rs, r ∈ roots) → (∀ r ∈ roots, U₀ r) →
    walkAll (expandVisit cfg F) (fun s a => s.1.kids a) (fun s a => s.1.seen a) fuel s rs = .error .diverge ∨
    ∃ s' m', walkAll (expandVisit cfg F) (fun s a => s.1.kids a) (fun s a => s.1.seen a) fuel s rs = .ok s' ∧
      Going Z Q cfg speeds roots supply h₀ U₀ s'.1.1 s'.1.2 [] m' ∧ (∀ i ∈ s.1.2, i ∈ s'.1.2) ∧ ∀ r ∈ rs, (h₀.get r).id ∈ s'.1.2 := by
  intro rs
  induction rs with
  | nil =>
    intro fuel s m G _ _
    exact .inr ⟨s, m, rfl, G, fun _ h => h, by simp⟩
  | cons r rs ih =>
    intro fuel s m G hrs hU
    have hr := hrs r (by simp)
    have hUr := hU r hr
    have hWr : Within h₀ U₀ s.1.1 r := .inl hUr
    have e : walkAll (expandVisit cfg F) (fun s a => s.1.kids a) (fun s a => s.1.seen a) fuel s (r :: rs) =
        walkFrom (expandVisit cfg F) (fun s a => s.1.kids a) (fun s a => s.1.seen a) fuel s r >>= fun s' =>
          walkAll (expandVisit cfg F) (fun s a => s.1.kids a) (fun s a => s.1.seen a) fuel s' rs := by
      unfold walkAll
      rw [List.foldlM_cons]
    rw [e]
    have one : walkFrom (expandVisit cfg F) (fun s a => s.1.kids a) (fun s a => s.1.seen a) fuel s r = .error .diverge ∨ ∃ s₁ m₁,
        walkFrom (expandVisit cfg F) (fun s a => s.1.kids a) (fun s a => s.1.seen a) fuel s r = .ok s₁ ∧
        Going Z Q cfg speeds roots supply h₀ U₀ s₁.1.1 s₁.1.2 [] m₁ ∧ (∀ i ∈ s.1.2, i ∈ s₁.1.2) ∧ (h₀.get r).id ∈ s₁.1.2 := by
      by_cases hs : (s.1.1.get r).id ∈ s.1.2
      · have hseen : s.1.seen r = true := decide_eq_true hs
        refine .inr ⟨s, m, ?_, G, fun _ h => h, by rw [← G.evolved.id r hUr]; exact hs⟩
        unfold walkFrom
        exact if_pos hseen
      · have hseen : s.1.seen r = false := decide_eq_false hs
        have e' : walkFrom (expandVisit cfg F) (fun s a => s.1.kids a) (fun s a => s.1.seen a) fuel s r =
            expandVisit cfg F s r >>= fun s' => expandWalk cfg F fuel s' [(r, 0)] := by
          unfold walkFrom
          simp only [hseen, Bool.false_eq_true, if_false, bind, Except.bind]
          cases expandVisit cfg F s r <;> rfl
        rw [e']
        unfold expandVisit
        rcases G.visit hWr (G.clear hWr (.inl hr)) hs F [] (by simp) (by simp) with w | ⟨h', us, m', w, G'⟩
        · exact .inl (by rw [w]; rfl)
        · rw [w]
          rcases Going.walk F fuel ((h', s.1.2 ++ [(s.1.1.get r).id]), s.2 ++ us) [(r, 0)] m' G' with v | ⟨s', m'', v1, v2, v3⟩
          · exact .inl v
          · refine .inr ⟨s', m'', v1, v2, fun i hi => v3 i (List.mem_append_left _ hi), v3 _ ?_⟩
            rw [← G.evolved.id r hUr]
            simp
    rcases one with w | ⟨s₁, m₁, w, G₁, k1, k2⟩
    · exact .inl (by rw [w]; rfl)
    · rw [w]
      rcases ih fuel s₁ m₁ G₁ (fun x hx => hrs x (List.mem_cons_of_mem _ hx)) hU with v | ⟨s', m', v1, v2, v3, v4⟩
      · exact .inl v
      · refine .inr ⟨s', m', v1, v2, fun i hi => v3 i (k1 i hi), fun x hx => ?_⟩
        rcases List.mem_cons.1 hx with rfl | hx
        · exact v3 _ k2
        · exact v4 x hx

theorem Going.within (G : Going Z Q cfg speeds roots supply h₀ U₀ h seen stack m) (hU : ∀ r ∈ roots, U₀ r) {a : Addr} (ha : Reach h roots a) :
    Within h₀ U₀ h a := by
  obtain ⟨T, f, M⟩ := G.mixed
  induction ha with
  | root w => exact .inl (hU _ w)
  | @child b c _ hc ih => exact M.region.children b ih c hc

/-- In the end nothing is pending. -/
theorem Going.finished (G : Going Z Q cfg speeds roots supply h₀ U₀ h seen [] m) (strict : Trailing Z h₀ U₀) (hU : ∀ r ∈ roots, U₀ r) (hr : ∀ r ∈ roots, (h₀.get r).id ∈ seen) {a : Addr}
    (ha : Reach h roots a) : Within h₀ U₀ h a ∧ (h.get a).expands = [] := by
  have key : Within h₀ U₀ h a ∧ ((h.get a).id ∈ seen ∨ m a) := by
    induction ha with
    | root w => exact ⟨.inl (hU _ w), .inl (by rw [G.evolved.id _ (hU _ w)]; exact hr _ w)⟩
    | @child b c _ hc ih =>
      obtain ⟨T, f, M⟩ := G.mixed
      refine ⟨M.region.children b ih.1 c hc, ?_⟩
      rcases ih.2 with w | w
      · obtain ⟨j, hj⟩ := List.mem_iff_getElem?.1 hc
        rcases G.cover strict b ih.1 w j c hj with v | v | ⟨i, -, v⟩
        · exact .inl v
        · exact .inr v
        · simp at v
      · exact ((G.via strict b w).2.2 c hc).symm
  refine ⟨key.1, ?_⟩
  rcases key.2 with w | w
  · exact G.done a key.1 w
  · exact (G.via strict a w).2.1

/-- An expanded network carries its flows. -/
theorem Mixed.carries {U : Addr → Prop} {T : Addr → ℚ} {f : Addr → Addr → ℚ} (M : Mixed Z Q speeds roots supply h U T f)
    (hU : ∀ a, U a ↔ Reach h roots a) (hq : ∀ a, Reach h roots a → (h.get a).expands = []) :
    Carries speeds h roots supply T f ∧ Forced speeds h roots supply T f ∧
      ∀ a, Reach h roots a → (h.get a).children = [] → T a = (h.get a).value := by
  have job : ∀ a, Reach h roots a → Outlet Z speeds roots h T f a [] ∧ (h.get a).parents.length ≤ cap roots a := fun a ha => by
    obtain ⟨mg, es, post, q1, q2, q3⟩ := M.jobs a ((hU a).2 ha)
    rw [hq a ha] at q1
    obtain ⟨k1, k2⟩ := List.append_eq_nil_iff.1 q1.symm
    obtain ⟨k0, k1⟩ := List.append_eq_nil_iff.1 k1
    rcases q3 with ⟨w, -⟩ | ⟨-, -, w, -⟩
    · rw [w] at k0
      simp at k0
    · exact ⟨k1 ▸ q2, w.resolve_right fun v => v k2⟩
  have setting : ∀ a, ∃ o : Option (Addr × ℕ), (Reach h roots a → o = none → ¬ Skewed h T f a) ∧
      ∀ x s, o = some (x, s) → s ∈ speeds ∧ Skewed h T f a ∧
        ∃ y, x ≠ y ∧ ((h.get a).children = [x, y] ∨ (h.get a).children = [y, x]) ∧ f a x = s ∧ f a y = T a - s := by
    intro a
    by_cases ha : Reach h roots a ∧ Skewed h T f a
    · obtain ⟨ha, hs⟩ := ha
      cases (job a ha).1 with
      | leaf q =>
        obtain ⟨c, hc, -⟩ := hs
        rw [q] at hc
        simp at hc
      | share q1 q2 q3 =>
        obtain ⟨c, hc, w⟩ := hs
        exact absurd (q3 c hc) w
      | belt x y q1 q2 q3 q4 =>
        obtain ⟨s, w1, w2⟩ := q4
        rcases w2 with w2 | w2
        · refine ⟨some (x, s), by simp, fun x' s' e => ?_⟩
          cases e
          exact ⟨w1, hs, y, q2, .inl q1, w2, by linarith⟩
        · refine ⟨some (y, s), by simp, fun x' s' e => ?_⟩
          cases e
          exact ⟨w1, hs, x, Ne.symm q2, .inr q1, w2, by linarith⟩
    · exact ⟨none, fun w _ w' => ha ⟨w, w'⟩, by simp⟩
  choose set hset using setting
  have hO : Obeys h roots supply set T f := by
    refine ⟨fun a ha => M.intake a ((hU a).2 ha), fun a ha e c hc => ?_, fun a x s _ e => ((hset a).2 x s e).2.2⟩
    by_contra q
    exact (hset a).1 ha e ⟨c, hc, q⟩
  have hforced : Forced speeds h roots supply T f := by
    obtain ⟨ρ, hρ⟩ := M.rank
    refine ⟨set, fun a x s e => ((hset a).2 x s e).1, hO, fun T' f' hO' => hO.unique hO' (fun a ha => M.region.inside a ((hU a).2 ha))
      (fun a ha p hp => (hU p).1 (M.region.parents a ((hU a).2 ha) p hp)) (fun a b ha hb => M.count a b ((hU a).2 ha) ((hU b).2 hb)) M.dry M.paid
      (fun a ha => M.pos a ((hU a).2 ha)) ρ fun a ha c hc => ⟨(hρ a ((hU a).2 ha) c hc).1, fun e => (hρ a ((hU a).2 ha) c hc).2 ?_⟩⟩
    obtain ⟨xs, hxs⟩ := Option.ne_none_iff_exists'.1 e
    exact ((hset a).2 xs.1 xs.2 hxs).2.1
  refine ⟨⟨?_, ?_, ?_, ?_, ?_⟩, hforced, ?_⟩
  · exact fun a ha p hp => (hU p).1 (M.region.parents a ((hU a).2 ha) p hp)
  · exact fun a b ha hb => M.count a b ((hU a).2 ha) ((hU b).2 hb)
  · intro a ha
    have := (job a ha).2
    unfold cap at this
    split at this <;> simp_all
  · exact fun a ha => M.intake a ((hU a).2 ha)
  · intro a ha hne
    cases (job a ha).1 with
    | leaf q => exact absurd q hne
    | share q1 q2 q3 => exact .inl ⟨q2, q3⟩
    | belt x y q1 q2 q3 q4 => exact .inr ⟨x, y, q1, q2, q3, q4⟩
  · intro a ha he
    cases (job a ha).1 with
    | leaf _ q => exact q
    | share q => exact absurd he q
    | belt x y q => rw [he] at q; simp at q

/-- The whole walk. -/
theorem Mixed.going {U : Addr → Prop} {T : Addr → ℚ} {f : Addr → Addr → ℚ} (M : Mixed Z Q speeds roots supply h U T f) (Tm : Tame cfg h U)
    (hU : ∀ a, U a → Reach h roots a) (hQ : ∀ b, Q.bound b → cfg.limit ≤ b) (F : Nat) (us : List (Int × Int)) :
    expandAll cfg F h roots us = .error .diverge ∨ ∃ h' us' seen m, expandAll cfg F h roots us = .ok (h', us') ∧
      Going Z Q cfg speeds roots supply h U h' seen [] m ∧ ∀ r ∈ roots, (h.get r).id ∈ seen := by
  have hW := within_self h U
  have G : Going Z Q cfg speeds roots supply h U h [] [] (fun _ => False) := by
    refine ⟨⟨T, f, by rw [hW]; exact M⟩, by rw [hW]; exact Tm, M.region.evolved True, hQ, M.region.inside, by simp, by simp, by simp, by simp, by simp,
      ?_, by simp, by rw [hW]; exact hU, by rw [hW]; exact fun a ha => ⟨fun e => ⟨ha, e⟩, fun e => e.2⟩, by rw [hW]⟩
    rw [hW]
    exact fun strict p hp z hz hZz _ => .inl ((strict z hZz).2 p hp hz)
  unfold Graph.expandAll
  rcases Going.fromRoots F roots F ((h, []), us) _ G (fun _ h => h) M.top with w | ⟨s', m', w1, G', -, w3⟩
  · exact .inl (by rw [w]; rfl)
  · exact .inr ⟨s'.1.1, s'.2, _, m', by rw [w1]; rfl, G', w3⟩

/-- If the walk leaves nothing pending then what it leaves is a network that carries its flows. -/
theorem Mixed.expandAll_if {U : Addr → Prop} {T : Addr → ℚ} {f : Addr → Addr → ℚ} (M : Mixed Z Q speeds roots supply h U T f) (Tm : Tame cfg h U)
    (hU : ∀ a, U a → Reach h roots a) (hQ : ∀ b, Q.bound b → cfg.limit ≤ b) (F : Nat) (us : List (Int × Int)) :
    expandAll cfg F h roots us = .error .diverge ∨ ∃ h' us', expandAll cfg F h roots us = .ok (h', us') ∧ Evolved True 0 h U h' ∧
      (∀ a, Reach h' roots a ↔ Within h U h' a) ∧ (∀ a, Reach h' roots a → ((h'.get a).children = [] ↔ U a ∧ (h.get a).children = [])) ∧
      tally roots h' (Reach h' roots) = tally roots h U ∧ (Trailing Z h U → ∀ a, Reach h' roots a → (h'.get a).expands = []) ∧
      ((∀ a, Reach h' roots a → (h'.get a).expands = []) → ∃ T' f', Carries speeds h' roots supply T' f' ∧ Forced speeds h' roots supply T' f' ∧
        (∀ b, Q.bound b → ∀ a, Reach h' roots a → T' a ≤ b) ∧ (∀ a, Reach h' roots a → (h'.get a).children = [] → T' a = (h'.get a).value) ∧
        ∀ y, Q.book = some y → ∀ a, Reach h' roots a → T' a = (y a).getD (h'.get a).value) := by
  rcases M.going Tm hU hQ F us with w | ⟨h', us', seen, m, w1, G, w3⟩
  · exact .inl w
  · have hR : ∀ a, Within h U h' a ↔ Reach h' roots a := fun a => ⟨G.reach a, G.within M.top⟩
    refine .inr ⟨h', us', w1, G.evolved, fun a => (hR a).symm, fun a ha => G.leaves a ((hR a).2 ha), ?_, fun strict a ha => (G.finished strict M.top w3 ha).2,
      fun hq => ?_⟩
    · rw [← G.kept, funext fun a => propext (hR a)]
    obtain ⟨T', f', M'⟩ := G.mixed
    obtain ⟨C1, C3, C2⟩ := M'.carries hR hq
    refine ⟨T', f', C1, C3, fun b hb a ha => M'.under b hb a ((hR a).2 ha), C2, fun y hy a ha => ?_⟩
    rcases (M'.labels y hy).label a ((hR a).2 ha) with ⟨q1, q2⟩ | ⟨-, q⟩
    · have : y a = none := by
        by_contra w
        obtain ⟨e, he, -⟩ := q2 w
        rw [hq a ha] at he
        simp at he
      rw [this, q1]
      rfl
    · rw [q]
      rfl

end Satis.Graph
