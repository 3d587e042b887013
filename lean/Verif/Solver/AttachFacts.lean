import Verif.Graph.AttachLemmas
import Verif.Graph.GroupSpec
import Verif.Solver.Spec
/-!
# Attaching the grouped targets to a solution
-/

namespace Satis.Solver
open Satis Satis.Graph

/-- A tree and a forest that do not touch. -/
structure Separate (h : Heap Int) (t : TreeObj Int) (roots inner leaves : List Addr) : Prop where
  good : Good h (Reach h t.roots)
  forest : Forest h roots inner leaves
  rootsNodup : roots.Nodup
  lt : ∀ a ∈ inner ++ leaves, a < h.next
  noLevel : ∀ a ∈ inner ++ leaves, (h.get a).level = none
  inj : ∀ a ∈ inner ++ leaves, ∀ b ∈ inner ++ leaves, (h.get a).id = (h.get b).id → a = b
  ids : ∀ a ∈ inner ++ leaves, ∀ b, Reach h t.roots b → (h.get a).id ≠ (h.get b).id
  values : t.sourceValues = roots.map fun a => (h.get a).value

section
variable {h h1 : Heap Int} {t : TreeObj Int} {roots inner leaves : List Addr} {total : Int} {values : List Int}

theorem Separate.disjoint (S : Separate h t roots inner leaves) (hL : Layered h t) {a : Addr} (ha : Reach h t.roots a) :
    a ∉ inner ++ leaves := by
  intro hm
  obtain ⟨l, h1, _⟩ := hL.range a ha
  rw [S.noLevel a hm] at h1
  simp at h1

theorem Separate.root_mem (S : Separate h t roots inner leaves) {r : Addr} (hr : r ∈ roots) : r ∈ inner ++ leaves :=
  (S.forest.nodes r).1 (.root hr)

/-- The children of a node of the forest. -/
theorem Separate.kid (S : Separate h t roots inner leaves) {a c : Addr} (ha : a ∈ inner ++ leaves) (hc : c ∈ (h.get a).children) :
    a ∈ inner ∧ c ∈ inner ++ leaves ∧ (h.get c).parents = [a] ∧ c ∉ roots := by
  have hi : a ∈ inner := by
    rcases List.mem_append.1 ha with h1 | h1
    · exact h1
    · rw [S.forest.leaf a h1] at hc; simp at hc
  have hp := S.forest.parent a hi c hc
  refine ⟨hi, (S.forest.nodes c).1 (((S.forest.nodes a).2 ha).child hc), hp, ?_⟩
  intro hm
  rw [S.forest.top c hm] at hp
  simp at hp

theorem Separate.nodupKids (S : Separate h t roots inner leaves) {a : Addr} (ha : a ∈ inner ++ leaves) : (h.get a).children.Nodup := by
  rcases List.mem_append.1 ha with h1 | h1
  · exact (S.forest.fan a h1).2
  · rw [S.forest.leaf a h1]; simp

theorem sum_const_map {α : Type} (l : List α) (f : α → Int) (v : Int) (hf : ∀ x ∈ l, f x = v) : (l.map f).sum = (l.length : Int) * v := by
  induction l with
  | nil => simp
  | cons x l ih =>
    rw [List.map_cons, List.sum_cons, ih (fun y hy => hf y (by simp [hy])), hf x (by simp)]
    push_cast [List.length_cons]
    ring

theorem Separate.sumKids (S : Separate h t roots inner leaves) {a : Addr} (ha : a ∈ inner ++ leaves) (hne : (h.get a).children ≠ []) :
    ((h.get a).children.map fun c => (h.get c).value).sum = (h.get a).value := by
  obtain ⟨c0, hc0⟩ := List.exists_mem_of_ne_nil _ hne
  have hi := (S.kid ha hc0).1
  have hlen := (S.forest.fan a hi).1
  have e := S.forest.equal a hi
  rw [sum_const_map _ _ (h.get c0).value, e c0 hc0]
  intro c hc
  have h1 := e c hc
  rw [e c0 hc0] at h1
  have : ((h.get a).children.length : Int) ≠ 0 := by omega
  exact (mul_left_cancel₀ this h1).symm

theorem Separate.lengths (S : Separate h t roots inner leaves) (W : WellFormed h t total) : t.sources.length = roots.length := by
  have := congrArg List.length (W.cached.symm.trans S.values)
  simpa using this

theorem Separate.pair (S : Separate h t roots inner leaves) (W : WellFormed h t total) {p : Addr × Addr}
    (hp : p ∈ t.sources.zip roots) : p.1 ∈ t.sources ∧ p.2 ∈ roots ∧ (h.get p.1).value = (h.get p.2).value := by
  refine ⟨(List.of_mem_zip hp).1, (List.of_mem_zip hp).2, ?_⟩
  obtain ⟨i, hi, e⟩ := List.getElem_of_mem hp
  have hv := W.cached.symm.trans S.values
  simp only [List.getElem_zip] at e
  rw [← e]
  have hi' := hi
  rw [List.length_zip] at hi'
  have h1 : (t.sources.map fun a => (h.get a).value)[i]'(by rw [List.length_map]; omega) =
      (roots.map fun a => (h.get a).value)[i]'(by rw [List.length_map]; omega) := by simp only [hv]
  simpa using h1

theorem Separate.pair_of (S : Separate h t roots inner leaves) (W : WellFormed h t total) :
    (∀ a ∈ t.sources, ∃ r, (a, r) ∈ t.sources.zip roots) ∧ ∀ r ∈ roots, ∃ a, (a, r) ∈ t.sources.zip roots := by
  have hl := S.lengths W
  constructor
  · intro a ha
    obtain ⟨i, hi, rfl⟩ := List.getElem_of_mem ha
    exact ⟨roots[i]'(by omega), List.mem_iff_getElem.2 ⟨i, by rw [List.length_zip]; omega, by simp⟩⟩
  · intro r hr
    obtain ⟨i, hi, rfl⟩ := List.getElem_of_mem hr
    exact ⟨t.sources[i]'(by omega), List.mem_iff_getElem.2 ⟨i, by rw [List.length_zip]; omega, by simp⟩⟩

theorem Separate.apart (S : Separate h t roots inner leaves) (W : WellFormed h t total) (hL : Layered h t) :
    Apart h (t.sources.zip roots) := by
  have hT : ∀ a ∈ t.sources, a ∉ inner ++ leaves := fun a ha => S.disjoint hL ((W.leaves a).1 ha).1
  refine ⟨?_, ?_, ?_, ?_⟩
  · rw [List.map_fst_zip (S.lengths W).le]; exact W.distinct
  · intro p hp q hq e
    exact hT p.1 (S.pair W hp).1 (e ▸ S.root_mem (S.pair W hq).2.1)
  · intro p hp q hq
    have hq2 := S.root_mem (S.pair W hq).2.1
    exact ⟨fun hm => hT p.1 (S.pair W hp).1 (S.kid hq2 hm).2.1, fun hm => (S.kid hq2 hm).2.2.2 (S.pair W hp).2.1⟩
  · have hnd : ((t.sources.zip roots).map Prod.snd).Nodup := by
      rw [List.map_snd_zip (S.lengths W).ge]; exact S.rootsNodup
    unfold List.Nodup at hnd
    rw [List.pairwise_map] at hnd
    refine hnd.imp_of_mem ?_
    intro p q hp hq hne c hc hc'
    have e1 := (S.kid (S.root_mem (S.pair W hp).2.1) hc).2.2.1
    have e2 := (S.kid (S.root_mem (S.pair W hq).2.1) hc').2.2.1
    rw [e1] at e2
    simp at e2
    exact hne e2

/-- The graph once the children are attached, before the levels are set. -/
structure Joint (h : Heap Int) (t : TreeObj Int) (roots inner leaves : List Addr) (h1 : Heap Int) : Prop where
  next : h1.next = h.next
  source : ∀ a r, (a, r) ∈ t.sources.zip roots → h1.get a = grownSource (h.get a) (h.get r).children
  sourceKids : ∀ a r, (a, r) ∈ t.sources.zip roots → (h1.get a).children = (h.get r).children
  tree : ∀ a, Reach h t.roots a → a ∉ t.sources → h1.get a = h.get a
  treeUp : ∀ a, Reach h t.roots a → (h1.get a).parents = (h.get a).parents
  hung : ∀ a r c, (a, r) ∈ t.sources.zip roots → c ∈ (h.get r).children → h1.get c = { h.get c with parents := [a] }
  inside : ∀ a, a ∈ inner ++ leaves → a ∉ roots → (∀ r ∈ roots, a ∉ (h.get r).children) → h1.get a = h.get a
  forestKids : ∀ a, a ∈ inner ++ leaves → (h1.get a).children = (h.get a).children
  value : ∀ a, (h1.get a).value = (h.get a).value
  id : ∀ a, (h1.get a).id = (h.get a).id
  level : ∀ a, (h1.get a).level = (h.get a).level
  other : ∀ a, ¬ Reach h t.roots a → a ∉ inner ++ leaves → h1.get a = h.get a

theorem Separate.joint (S : Separate h t roots inner leaves) (W : WellFormed h t total) (hL : Layered h t)
    (H : Hung h (t.sources.zip roots) h1) : Joint h t roots inner leaves h1 := by
  have hpo := S.pair_of W
  have hfst : (t.sources.zip roots).map Prod.fst = t.sources := List.map_fst_zip (S.lengths W).le
  have hkidF : ∀ p ∈ t.sources.zip roots, ∀ c ∈ (h.get p.2).children, c ∈ inner ++ leaves ∧ (h.get c).parents = [p.2] ∧ c ∉ roots :=
    fun p hp c hc => (S.kid (S.root_mem (S.pair W hp).2.1) hc).2
  have hsrcT : ∀ a ∈ t.sources, Reach h t.roots a ∧ (h.get a).children = [] := fun a ha => (W.leaves a).1 ha
  have hFsrc : ∀ a ∈ inner ++ leaves, a ∉ t.sources := fun a ha hs => S.disjoint hL (hsrcT a hs).1 ha
  have hframe : ∀ a, a ∉ t.sources → (∀ r ∈ roots, a ∉ (h.get r).children) → h1.get a = h.get a := by
    intro a h1 h2
    exact H.frame a (by rw [hfst]; exact h1) (fun p hp => h2 p.2 (S.pair W hp).2.1)
  have hTkid : ∀ a, Reach h t.roots a → ∀ r ∈ roots, a ∉ (h.get r).children :=
    fun a ha r hr hm => S.disjoint hL ha (S.kid (S.root_mem hr) hm).2.1
  have hcases : ∀ a, (∃ r, (a, r) ∈ t.sources.zip roots) ∨ (∃ p ∈ t.sources.zip roots, a ∈ (h.get p.2).children) ∨
      h1.get a = h.get a := by
    intro a
    by_cases h2 : a ∈ t.sources
    · exact Or.inl (hpo.1 a h2)
    · by_cases h3 : ∃ p ∈ t.sources.zip roots, a ∈ (h.get p.2).children
      · exact Or.inr (Or.inl h3)
      · refine Or.inr (Or.inr (hframe a h2 ?_))
        intro r hr hm
        obtain ⟨x, hx⟩ := hpo.2 r hr
        exact h3 ⟨_, hx, hm⟩
  refine ⟨H.next, fun a r hp => H.src _ hp, ?_, ?_, ?_, fun a r c hp hc => H.kid _ hp c hc, ?_, ?_, ?_, ?_, ?_, ?_⟩
  · intro a r hp
    rw [H.src _ hp]
    show (h.get a).children ++ _ = _
    rw [(hsrcT a (S.pair W hp).1).2]; rfl
  · intro a ha hs; exact hframe a hs (hTkid a ha)
  · intro a ha
    by_cases hs : a ∈ t.sources
    · obtain ⟨r, hr⟩ := hpo.1 a hs
      rw [H.src _ hr]; rfl
    · rw [hframe a hs (hTkid a ha)]
  · intro a ha _ hk; exact hframe a (hFsrc a ha) hk
  · intro a ha
    rcases hcases a with ⟨r, hr⟩ | ⟨p, hp, hm⟩ | h2
    · exact absurd (S.pair W hr).1 (hFsrc a ha)
    · rw [H.kid p hp a hm]
    · rw [h2]
  · intro a
    rcases hcases a with ⟨r, hr⟩ | ⟨p, hp, hm⟩ | h2
    · rw [H.src _ hr]; rfl
    · rw [H.kid p hp a hm]
    · rw [h2]
  · intro a
    rcases hcases a with ⟨r, hr⟩ | ⟨p, hp, hm⟩ | h2
    · rw [H.src _ hr]; rfl
    · rw [H.kid p hp a hm]
    · rw [h2]
  · intro a
    rcases hcases a with ⟨r, hr⟩ | ⟨p, hp, hm⟩ | h2
    · rw [H.src _ hr]; rfl
    · rw [H.kid p hp a hm]
    · rw [h2]
  · intro a ha hf
    exact hframe a (fun hs => ha (hsrcT a hs).1) (fun r hr hm => hf (S.kid (S.root_mem hr) hm).2.1)

/-- The nodes of the attached graph. -/
theorem Joint.reach_iff (J : Joint h t roots inner leaves h1) (S : Separate h t roots inner leaves) (W : WellFormed h t total)
    (a : Addr) : Reach h1 t.roots a ↔ Reach h t.roots a ∨ (a ∈ inner ++ leaves ∧ a ∉ roots) := by
  have hpo := S.pair_of W
  have hT : ∀ a, Reach h t.roots a → Reach h1 t.roots a := by
    intro a ha
    induction ha with
    | root hm => exact .root hm
    | @child a b hr hb ih =>
      refine ih.child ?_
      have hs : a ∉ t.sources := by
        intro hs
        rw [((W.leaves a).1 hs).2] at hb; simp at hb
      rw [J.tree a hr hs]; exact hb
  constructor
  · intro ha
    induction ha with
    | root hm => exact Or.inl (.root hm)
    | @child a b _ hb ih =>
      rcases ih with ih | ⟨ih, _⟩
      · by_cases hs : a ∈ t.sources
        · obtain ⟨r, hr⟩ := hpo.1 a hs
          rw [J.sourceKids a r hr] at hb
          have := S.kid (S.root_mem (S.pair W hr).2.1) hb
          exact Or.inr ⟨this.2.1, this.2.2.2⟩
        · rw [J.tree a ih hs] at hb
          exact Or.inl (ih.child hb)
      · rw [J.forestKids a ih] at hb
        have := S.kid ih hb
        exact Or.inr ⟨this.2.1, this.2.2.2⟩
  · rintro (ha | ⟨ha, hr⟩)
    · exact hT a ha
    · have key : ∀ a, Reach h roots a → a ∈ roots ∨ Reach h1 t.roots a := by
        intro a ha
        induction ha with
        | root hm => exact Or.inl hm
        | @child a b hra hb ih =>
          right
          by_cases hm : a ∈ roots
          · obtain ⟨x, hx⟩ := hpo.2 a hm
            refine (hT x ((W.leaves x).1 (S.pair W hx).1).1).child ?_
            rw [J.sourceKids x a hx]; exact hb
          · rcases ih with ih | ih
            · exact absurd ih hm
            · refine ih.child ?_
              rw [J.forestKids a ((S.forest.nodes a).1 hra)]; exact hb
      rcases key a ((S.forest.nodes a).2 ha) with h2 | h2
      · exact absurd h2 hr
      · exact h2

/-- The part of the attached graph from the sources on. -/
def FromSources (t : TreeObj Int) (roots inner leaves : List Addr) (a : Addr) : Prop := a ∈ t.sources ∨ (a ∈ inner ++ leaves ∧ a ∉ roots)

theorem Joint.spreads (J : Joint h t roots inner leaves h1) (S : Separate h t roots inner leaves) (W : WellFormed h t total) :
    Spreads h1 (FromSources t roots inner leaves) := by
  have hpo := S.pair_of W
  have hmap : ∀ l : List Addr, (l.map fun c => (h1.get c).value) = l.map fun c => (h.get c).value :=
    fun l => List.map_congr_left (fun c _ => J.value c)
  constructor
  · rintro a (ha | ⟨ha, hr⟩) c hc
    · obtain ⟨r, hr⟩ := hpo.1 a ha
      rw [J.sourceKids a r hr] at hc
      have := S.kid (S.root_mem (S.pair W hr).2.1) hc
      exact Or.inr ⟨this.2.1, this.2.2.2⟩
    · rw [J.forestKids a ha] at hc
      have := S.kid ha hc
      exact Or.inr ⟨this.2.1, this.2.2.2⟩
  · rintro a (ha | ⟨ha, hr⟩)
    · obtain ⟨r, hr⟩ := hpo.1 a ha
      rw [J.sourceKids a r hr]
      exact S.nodupKids (S.root_mem (S.pair W hr).2.1)
    · rw [J.forestKids a ha]; exact S.nodupKids ha
  · rintro a (ha | ⟨ha, hr⟩) c hc
    · obtain ⟨r, hr⟩ := hpo.1 a ha
      rw [J.sourceKids a r hr] at hc
      rw [J.hung a r c hr hc]
    · rw [J.forestKids a ha] at hc
      obtain ⟨_, k1, k2, k3⟩ := S.kid ha hc
      rw [J.inside c k1 k3, k2]
      intro r hr' hm
      have := (S.kid (S.root_mem hr') hm).2.2.1
      rw [k2] at this
      simp at this
      exact hr (this ▸ hr')
  · rintro a (ha | ⟨ha, hr⟩) hne
    · obtain ⟨r, hr⟩ := hpo.1 a ha
      rw [J.sourceKids a r hr] at hne ⊢
      rw [hmap, S.sumKids (S.root_mem (S.pair W hr).2.1) hne, J.value, (S.pair W hr).2.2]
    · rw [J.forestKids a ha] at hne ⊢
      rw [hmap, S.sumKids ha hne, J.value]

theorem Joint.flow (J : Joint h t roots inner leaves h1) (S : Separate h t roots inner leaves) (W : WellFormed h t total)
    (hL : Layered h t) (F : FlowGraph h t values) : FlowGraph h1 t values := by
  have hpo := S.pair_of W
  have hU := J.spreads S W
  have hTF := fun a (ha : Reach h t.roots a) => S.disjoint hL ha
  have hrootT : ∀ a ∈ t.roots, Reach h t.roots a := fun a ha => .root ha
  -- a hung node has exactly one parent
  have hup : ∀ a, a ∈ inner ++ leaves → a ∉ roots → ∃ p, FromSources t roots inner leaves p ∧ a ∈ (h1.get p).children ∧
      (h1.get a).parents = [p] := by
    intro a ha hr
    have : Reach h roots a := (S.forest.nodes a).2 ha
    cases this with
    | root hm => exact absurd hm hr
    | @child p _ hp hm =>
      have hpF := (S.forest.nodes p).1 hp
      by_cases hpr : p ∈ roots
      · obtain ⟨x, hx⟩ := hpo.2 p hpr
        refine ⟨x, Or.inl (S.pair W hx).1, ?_, ?_⟩
        · rw [J.sourceKids x p hx]; exact hm
        · rw [J.hung x p a hx hm]
      · refine ⟨p, Or.inr ⟨hpF, hpr⟩, ?_, ?_⟩
        · rw [J.forestKids p hpF]; exact hm
        · exact hU.parent p (Or.inr ⟨hpF, hpr⟩) a (by rw [J.forestKids p hpF]; exact hm)
  have hUreach : ∀ p, FromSources t roots inner leaves p → Reach h1 t.roots p := by
    rintro p (hp | hp)
    · exact (J.reach_iff S W p).2 (Or.inl ((W.leaves p).1 hp).1)
    · exact (J.reach_iff S W p).2 (Or.inr hp)
  refine ⟨?_, ?_, ?_, ?_, ?_⟩
  · rw [← F.roots]; exact List.map_congr_left (fun a _ => J.value a)
  · intro a ha
    rcases (J.reach_iff S W a).1 ha with h2 | h2
    · rw [J.treeUp a h2]; exact F.inputs a h2
    · obtain ⟨p, _, _, e⟩ := hup a h2.1 h2.2
      rw [e]
      simp only [List.cons_ne_nil, false_iff]
      intro hm
      exact hTF a (hrootT a hm) h2.1
  · intro a b ha hb
    rcases (J.reach_iff S W b).1 hb with hbT | hbF
    · rw [J.treeUp b hbT]
      rcases (J.reach_iff S W a).1 ha with haT | haF
      · rw [← F.links a b haT hbT]
        by_cases hs : a ∈ t.sources
        · obtain ⟨r, hr⟩ := hpo.1 a hs
          rw [J.sourceKids a r hr, ((W.leaves a).1 hs).2, List.count_nil, List.count_eq_zero]
          intro hm
          exact hTF b hbT (S.kid (S.root_mem (S.pair W hr).2.1) hm).2.1
        · rw [J.tree a haT hs]
      · rw [List.count_eq_zero.2, List.count_eq_zero.2]
        · intro hm; exact hTF a (F.closed b hbT a hm) haF.1
        · intro hm
          rw [J.forestKids a haF.1] at hm
          exact hTF b hbT (S.kid haF.1 hm).2.1
    · obtain ⟨p, q1, q2, q3⟩ := hup b hbF.1 hbF.2
      rw [q3]
      by_cases e : a = p
      · subst e
        rw [List.count_eq_one_of_mem (hU.nodup a q1) q2]
        simp
      · rw [List.count_eq_zero.2, List.count_eq_zero.2]
        · simpa using e
        · intro hm
          have haU : FromSources t roots inner leaves a := by
            rcases (J.reach_iff S W a).1 ha with haT | haF
            · by_cases hs : a ∈ t.sources
              · exact Or.inl hs
              · rw [J.tree a haT hs] at hm
                exact absurd hbF.1 (hTF b (haT.child hm))
            · exact Or.inr haF
          have := hU.parent a haU b hm
          rw [q3] at this
          simp at this
          exact e this.symm
  · intro a ha p hp
    rcases (J.reach_iff S W a).1 ha with h2 | h2
    · rw [J.treeUp a h2] at hp
      exact (J.reach_iff S W p).2 (Or.inl (F.closed a h2 p hp))
    · obtain ⟨q, q1, _, e⟩ := hup a h2.1 h2.2
      rw [e] at hp
      simp at hp
      rw [hp]; exact hUreach q q1
  · obtain ⟨f, hf⟩ := F.flow
    refine ⟨fun a b => if b ∈ inner ++ leaves then (h.get b).value else f a b, ?_⟩
    have hkidsF : ∀ a, FromSources t roots inner leaves a → ∀ b ∈ (h1.get a).children, b ∈ inner ++ leaves := by
      intro a ha b hb
      rcases hU.closed a ha b hb with hs | hs
      · exfalso
        have hbT := ((W.leaves b).1 hs).1
        have e := hU.parent a ha b hb
        rcases ha with ha | ha
        · obtain ⟨r, hr⟩ := hpo.1 a ha
          rw [J.sourceKids a r hr] at hb
          exact hTF b hbT (S.kid (S.root_mem (S.pair W hr).2.1) hb).2.1
        · rw [J.forestKids a ha.1] at hb
          exact hTF b hbT (S.kid ha.1 hb).2.1
      · exact hs.1
    have hdown : ∀ a, FromSources t roots inner leaves a →
        (∀ b ∈ (h1.get a).children, 0 < if b ∈ inner ++ leaves then (h.get b).value else f a b) ∧
        ((h1.get a).children ≠ [] →
          ((h1.get a).children.map fun b => if b ∈ inner ++ leaves then (h.get b).value else f a b).sum = (h1.get a).value) := by
      intro a ha
      refine ⟨?_, ?_⟩
      · intro b hb
        rw [if_pos (hkidsF a ha b hb)]
        exact S.forest.positive b (hkidsF a ha b hb)
      · intro hne
        rw [← hU.sum a ha hne]
        congr 1
        apply List.map_congr_left
        intro b hb
        rw [if_pos (hkidsF a ha b hb), J.value]
    intro a ha
    rcases (J.reach_iff S W a).1 ha with haT | haF
    · have hupT : (h1.get a).parents ≠ [] →
          ((h1.get a).parents.map fun p => if a ∈ inner ++ leaves then (h.get a).value else f p a).sum = (h1.get a).value := by
        rw [J.treeUp a haT, J.value]
        intro hne
        simp only [if_neg (hTF a haT)]
        exact (hf a haT).2.2 hne
      by_cases hs : a ∈ t.sources
      · obtain ⟨d1, d2⟩ := hdown a (Or.inl hs)
        exact ⟨d1, d2, hupT⟩
      · refine ⟨?_, ?_, hupT⟩
        · intro b hb
          rw [J.tree a haT hs] at hb
          show 0 < ite _ _ _
          rw [if_neg (hTF b (haT.child hb))]
          exact (hf a haT).1 b hb
        · rw [J.tree a haT hs]
          intro hne
          rw [← (hf a haT).2.1 hne]
          congr 1
          apply List.map_congr_left
          intro b hb
          exact if_neg (hTF b (haT.child hb))
    · obtain ⟨d1, d2⟩ := hdown a (Or.inr haF)
      refine ⟨d1, d2, ?_⟩
      intro _
      obtain ⟨p, _, _, e⟩ := hup a haF.1 haF.2
      rw [e]
      simp only [List.map_cons, List.map_nil, List.sum_cons, List.sum_nil, if_pos haF.1, add_zero]
      exact (J.value a).symm

open Classical in
/-- Before the second loop. -/
theorem Joint.start (J : Joint h t roots inner leaves h1) (S : Separate h t roots inner leaves) (W : WellFormed h t total)
    (hL : Layered h t) (F : FlowGraph h t values) (hv : values ≠ []) :
    AttachInv h1 (FromSources t roots inner leaves) t total h1 t
      ((t.sources.map fun a => (h1.get a).children).filter fun cs => decide (cs ≠ []))
      ((List.range h.next).filter fun a => decide (Reach h t.roots a ∧ (h.get a).children ≠ [])) := by
  have hpo := S.pair_of W
  have hdone : ∀ a, a ∈ ((List.range h.next).filter fun a => decide (Reach h t.roots a ∧ (h.get a).children ≠ [])) ↔
      Reach h t.roots a ∧ (h.get a).children ≠ [] := by
    intro a
    rw [List.mem_filter, List.mem_range]
    simp only [decide_eq_true_eq]
    exact ⟨fun h => h.2, fun h => ⟨S.good.lt a h.1, h⟩⟩
  have hnots : ∀ a, (h.get a).children ≠ [] → a ∉ t.sources := fun a hne hs => hne ((W.leaves a).1 hs).2
  have hsplit : ∀ a, Reach h t.roots a → (Reach h t.roots a ∧ (h.get a).children ≠ []) ∨ a ∈ t.sources := by
    intro a ha
    by_cases hne : (h.get a).children = []
    · exact Or.inr ((W.leaves a).2 ⟨ha, hne⟩)
    · exact Or.inl ⟨ha, hne⟩
  have hvalmap : (t.sources.map fun a => (h1.get a).value) = t.sources.map fun a => (h.get a).value :=
    List.map_congr_left (fun a _ => J.value a)
  obtain ⟨r0, hr0⟩ : ∃ r, r ∈ t.roots := by
    have := F.roots
    cases hr : t.roots with
    | nil => rw [hr] at this; exact absurd this.symm hv
    | cons r _ => exact ⟨r, by simp⟩
  have hT1 : ∀ a, Reach h t.roots a → Reach h1 t.roots a := fun a ha => (J.reach_iff S W a).2 (Or.inl ha)
  refine ⟨rfl, rfl, fun _ => rfl, fun _ _ => rfl, rfl, rfl, ⟨t.sources.filter fun a => decide ((h1.get a).children ≠ []), ?_, ?_⟩,
    ?_, ?_, fun a ha => Or.inl ha, ?_, ?_, ?_, ?_, ?_, ?_, ?_, ?_, W.count, W.last, ?_⟩
  · exact List.Perm.refl _
  · rw [List.filter_map]; rfl
  · intro a ha
    rw [hdone]
    induction ha with
    | root hm =>
      rcases hsplit _ (.root hm) with h2 | h2
      · exact Or.inl h2
      · exact Or.inr (.root h2)
    | @child a b _ hb ih =>
      rcases ih with ⟨i1, i2⟩ | ih
      · rw [J.tree a i1 (hnots a i2)] at hb
        rcases hsplit b (i1.child hb) with h2 | h2
        · exact Or.inl h2
        · exact Or.inr (.root h2)
      · exact Or.inr (ih.child hb)
  · intro a ha
    rcases List.mem_append.1 ha with h2 | h2
    · exact hT1 a ((hdone a).1 h2).1
    · exact hT1 a ((W.leaves a).1 h2).1
  · rw [List.nodup_append]
    refine ⟨List.nodup_range.filter _, W.distinct, ?_⟩
    intro a ha b hb e
    subst e
    exact hnots a ((hdone a).1 ha).2 hb
  · intro a ha p hp
    have haT : Reach h t.roots a := by
      rcases List.mem_append.1 ha with h2 | h2
      · exact ((hdone a).1 h2).1
      · exact ((W.leaves a).1 h2).1
    rw [J.treeUp a haT] at hp
    have hpT := F.closed a haT p hp
    refine (hdone p).2 ⟨hpT, ?_⟩
    intro hnil
    have := F.links p a hpT haT
    rw [hnil, List.count_nil] at this
    exact List.count_eq_zero.1 this.symm hp
  · intro a ha
    obtain ⟨h2, h3⟩ := (hdone a).1 ha
    rw [J.tree a h2 (hnots a h3)]
    refine ⟨h3, ?_⟩
    intro b hb
    rw [List.mem_append, hdone]
    exact hsplit b (h2.child hb)
  · obtain ⟨l, _, h2, h3⟩ := hL.range r0 (.root hr0)
    omega
  · intro a ha
    obtain ⟨h2, h3⟩ := (hdone a).1 ha
    rw [J.tree a h2 (hnots a h3), J.level a |>.symm.trans (by rw [J.tree a h2 (hnots a h3)])]
    obtain ⟨l, w1, w2, w3⟩ := hL.range a h2
    obtain ⟨b, hb⟩ := List.exists_mem_of_ne_nil _ h3
    refine ⟨l, w1, w2, ?_, ?_⟩
    · obtain ⟨l', m, v1, v2, v3⟩ := hL.edge a b h2 hb
      obtain ⟨m', u1, _, u3⟩ := hL.range b (h2.child hb)
      rw [w1] at v1; rw [v2] at u1
      injection v1 with v1; injection u1 with u1
      omega
    · intro b hb
      obtain ⟨l', m, v1, v2, v3⟩ := hL.edge a b h2 hb
      rw [w1] at v1
      injection v1 with v1
      exact ⟨m, by rw [J.level]; exact v2, by omega⟩
  · intro a ha
    rw [J.level]; exact hL.sources a ha
  · rw [hvalmap]; exact W.sorted
  · rw [hvalmap]; exact W.cached
  · rw [hvalmap]; exact W.total

/-- Changing levels does not change which nodes there are. -/
theorem reach_of_children {h h' : Heap Int} (hc : ∀ a, (h'.get a).children = (h.get a).children) (rs : List Addr) (a : Addr) :
    Reach h' rs a ↔ Reach h rs a := by
  constructor
  · intro ha
    induction ha with
    | root hm => exact .root hm
    | @child a b _ hb ih => exact ih.child (by rw [← hc]; exact hb)
  · intro ha
    induction ha with
    | root hm => exact .root hm
    | @child a b _ hb ih => exact ih.child (by rw [hc]; exact hb)

theorem FlowGraph.relevel {h h' : Heap Int} {t t' : TreeObj Int} (F : FlowGraph h t values)
    (hs : ∀ a, h'.get a = { h.get a with level := (h'.get a).level }) (hr : t'.roots = t.roots) : FlowGraph h' t' values := by
  have hc : ∀ a, (h'.get a).children = (h.get a).children := fun a => by rw [hs a]
  have hp : ∀ a, (h'.get a).parents = (h.get a).parents := fun a => by rw [hs a]
  have hv : ∀ a, (h'.get a).value = (h.get a).value := fun a => by rw [hs a]
  have hre : ∀ a, Reach h' t'.roots a ↔ Reach h t.roots a := by
    intro a; rw [hr]; exact reach_of_children hc _ a
  refine ⟨?_, ?_, ?_, ?_, ?_⟩
  · rw [hr, ← F.roots]; exact List.map_congr_left (fun a _ => hv a)
  · intro a ha; rw [hp, hr]; exact F.inputs a ((hre a).1 ha)
  · intro a b ha hb; rw [hp, hc]; exact F.links a b ((hre a).1 ha) ((hre b).1 hb)
  · intro a ha p hm; rw [hp] at hm; exact (hre p).2 (F.closed a ((hre a).1 ha) p hm)
  · obtain ⟨f, hf⟩ := F.flow
    refine ⟨f, ?_⟩
    intro a ha
    rw [hp, hc, hv]
    exact hf a ((hre a).1 ha)

/-- `attach_leaves` on a tree whose sources have the values of the roots of a forest that does not touch it. -/
theorem attachLeaves_spec (S : Separate h t roots inner leaves) (W : WellFormed h t total) (hL : Layered h t)
    (F : FlowGraph h t values) (hv : values ≠ []) :
    ∃ fuel h' t', (∀ fuel', fuel ≤ fuel' → t.attachLeaves fuel' h roots = .ok (h', t')) ∧
      WellFormed h' t' total ∧ Layered h' t' ∧ FlowGraph h' t' values ∧ t'.roots = t.roots ∧ t'.size = t.size ∧
      (valuesOf h' t'.sources).Perm (valuesOf h leaves) ∧
      (∀ a, Reach h' t'.roots a ↔ Reach h t.roots a ∨ (a ∈ inner ++ leaves ∧ a ∉ roots)) ∧
      (∃ h1, Joint h t roots inner leaves h1 ∧ ∀ a, h'.get a = { h1.get a with level := (h'.get a).level }) ∧
      h'.next = h.next ∧ h'.nextUid = h.nextUid := by
  have hlen := S.lengths W
  obtain ⟨H, hls⟩ := attachOne_all (t.sources.zip roots) h [] (S.apart W hL)
  have J := S.joint W hL H
  generalize hr1 : (t.sources.zip roots).foldl attachOne (h, []) = s1 at H hls J
  obtain ⟨h1, ls⟩ := s1
  simp only [List.nil_append] at hls H J
  have hpo := S.pair_of W
  have hfst : (t.sources.zip roots).map Prod.fst = t.sources := List.map_fst_zip hlen.le
  have hsnd : (t.sources.zip roots).map Prod.snd = roots := List.map_snd_zip hlen.ge
  have hls' : ls = (t.sources.map fun a => (h1.get a).children).filter fun cs => decide (cs ≠ []) := by
    rw [hls]
    congr 1
    rw [← hfst, List.map_map, hfst]
    apply List.map_congr_left
    intro p hp
    show _ = (h1.get p.1).children
    rw [J.sourceKids p.1 p.2 hp, ((W.leaves p.1).1 (S.pair W hp).1).2]
    rfl
  have I0 := J.start S W hL F hv
  rw [← hls'] at I0
  have hid : ∀ a b, Reach h1 t.roots a → Reach h1 t.roots b → (h1.get a).id = (h1.get b).id → a = b := by
    intro a b ha hb e
    rw [J.id, J.id] at e
    rcases (J.reach_iff S W a).1 ha with ha | ha <;> rcases (J.reach_iff S W b).1 hb with hb | hb
    · exact S.good.inj a b ha hb e
    · exact absurd e.symm (S.ids b hb.1 a ha)
    · exact absurd e (S.ids a ha.1 b hb)
    · exact S.inj a ha.1 b hb.1 e
  have hlt : ∀ a, Reach h1 t.roots a → a < h1.next := by
    intro a ha
    rw [J.next]
    rcases (J.reach_iff S W a).1 ha with ha | ha
    · exact S.good.lt a ha
    · exact S.lt a ha.1
  have hloop := fun fuel (hf : h1.next ≤ fuel) => attachLoop_spec (J.spreads S W) hid hlt fuel h1 t ls _ I0 (by omega)
  obtain ⟨h', t', done, e, I⟩ := hloop h1.next le_rfl
  have hmono : ∀ (fuel : Nat) (hh : Heap Int) (tt : TreeObj Int) (l : List (List Addr)) (x : Heap Int × TreeObj Int),
      attachLoop fuel hh tt l = .ok x → ∀ fuel', fuel ≤ fuel' → attachLoop fuel' hh tt l = .ok x := by
    intro fuel
    induction fuel with
    | zero =>
      intro hh tt l x e fuel' _
      cases l with
      | nil => cases fuel' <;> exact e
      | cons _ _ => simp [attachLoop] at e
    | succ fuel ih =>
      intro hh tt l x e fuel' hle
      obtain ⟨k, rfl⟩ : ∃ k, fuel' = k + 1 := ⟨fuel' - 1, by omega⟩
      cases l with
      | nil => exact e
      | cons c cs =>
        simp only [attachLoop] at e ⊢
        split at e
        · simp at e
        · exact ih _ _ _ _ e _ (by omega)
  have hsame : ∀ a, h'.get a = { h1.get a with level := (h'.get a).level } := I.same
  have hc' : ∀ a, (h'.get a).children = (h1.get a).children := fun a => by rw [hsame a]
  have hv' : ∀ a, (h'.get a).value = (h1.get a).value := fun a => by rw [hsame a]
  have hreach : ∀ a, Reach h' t'.roots a ↔ Reach h1 t.roots a := by
    intro a; rw [I.roots]; exact reach_of_children hc' _ a
  have hvm : ∀ l : List Addr, (l.map fun a => (h'.get a).value) = l.map fun a => (h1.get a).value :=
    fun l => List.map_congr_left (fun a _ => hv' a)
  -- no children left below the sources
  have hleaf : ∀ a ∈ t'.sources, (h1.get a).children = [] := by
    obtain ⟨ps, p1, p2⟩ := I.pend
    have : ps = [] := by simpa using p2.symm
    rw [this] at p1
    have := p1.symm.eq_nil
    intro a ha
    by_contra hne
    have : a ∈ (t'.sources.filter fun a => decide ((h1.get a).children ≠ [])) := List.mem_filter.2 ⟨ha, by simpa using hne⟩
    rw [p1.symm.eq_nil] at this
    simp at this
  have hcover : ∀ a, Reach h1 t.roots a → a ∈ done ∨ a ∈ t'.sources := by
    intro a ha
    rcases I.cover a ha with h2 | h2
    · exact Or.inl h2
    · right
      induction h2 with
      | root hm => exact hm
      | @child x y hx hy ih =>
        exfalso
        have hxr : Reach h1 t.roots x := by
          clear ih hy ha
          induction hx with
          | root hm => exact I.reach _ (List.mem_append_right _ hm)
          | child _ hm ih => exact ih.child hm
        have := hleaf x (ih hxr)
        rw [this] at hy; simp at hy
  have hsources : ∀ a, a ∈ t'.sources ↔ Reach h1 t.roots a ∧ (h1.get a).children = [] := by
    intro a
    constructor
    · intro ha; exact ⟨I.reach a (List.mem_append_right _ ha), hleaf a ha⟩
    · rintro ⟨h2, h3⟩
      rcases hcover a h2 with h4 | h4
      · exact absurd h3 (I.down a h4).1
      · exact h4
  have hnd := (List.nodup_append.1 I.nodup).2.1
  have hpos : ∀ a, Reach h1 t.roots a → 0 < (h1.get a).value := by
    intro a ha
    rw [J.value]
    rcases (J.reach_iff S W a).1 ha with ha | ha
    · exact W.positive a ha
    · exact S.forest.positive a ha.1
  have hlevel : ∀ a, Reach h1 t.roots a → ∃ l, (h'.get a).level = some l ∧ 0 ≤ l ∧ l ≤ t'.currentLevel := by
    intro a ha
    rcases hcover a ha with h2 | h2
    · obtain ⟨l, q1, q2, q3, _⟩ := I.doneLevel a h2
      exact ⟨l, q1, q2, q3.le⟩
    · exact ⟨_, I.srcLevel a h2, I.cur, le_rfl⟩
  have hedge : ∀ a b, Reach h1 t.roots a → b ∈ (h1.get a).children →
      ∃ l m, (h'.get a).level = some l ∧ (h'.get b).level = some m ∧ l < m := by
    intro a b ha hb
    rcases hcover a ha with h2 | h2
    · obtain ⟨l, q1, q2, q3, q4⟩ := I.doneLevel a h2
      obtain ⟨m, w1, w2⟩ := q4 b hb
      exact ⟨l, m, q1, w1, w2⟩
    · rw [hleaf a h2] at hb; simp at hb
  refine ⟨h1.next, h', t', ?_, ?_, ?_, ?_, I.roots, I.size, ?_, ?_, ⟨h1, J, hsame⟩, I.next.trans J.next, I.nextUid.trans H.nextUid⟩
  · intro fuel' hf
    unfold TreeObj.attachLeaves
    rw [if_neg (by rw [W.count]; simp [hlen]), if_neg (by rw [W.count]; simp), W.count, List.take_length, hr1]
    exact hmono _ _ _ _ _ e _ hf
  · refine ⟨?_, ?_, ?_, I.count, I.last, hnd, ?_, ?_⟩
    · rw [hvm]; exact I.sorted
    · intro a ha; rw [hv']; exact hpos a ((hreach a).1 ha)
    · rw [hvm]; exact I.cached
    · intro a; rw [hreach, hc']; exact hsources a
    · rw [hvm]; exact I.total
  · refine ⟨?_, I.srcLevel, fun a ha => hlevel a ((hreach a).1 ha), ?_⟩
    · intro a b ha hb
      rw [hc'] at hb
      exact hedge a b ((hreach a).1 ha) hb
    · intro a b ha hb hback
      rw [hreach] at ha
      rw [hc'] at hb
      obtain ⟨l, m, q1, q2, q3⟩ := hedge a b ha hb
      have hbr : Reach h1 t.roots b := ha.child hb
      have key : ∀ c, Reach h' [b] c → Reach h1 t.roots c ∧ ∃ k, (h'.get c).level = some k ∧ m ≤ k := by
        intro c hc
        induction hc with
        | root hm =>
          simp at hm
          subst hm
          exact ⟨hbr, m, q2, le_rfl⟩
        | @child x y _ hy ih =>
          rw [hc'] at hy
          obtain ⟨i1, k, i2, i3⟩ := ih
          obtain ⟨l2, m2, w1, w2, w3⟩ := hedge x y i1 hy
          rw [i2] at w1
          injection w1 with w1
          exact ⟨i1.child hy, m2, w2, by omega⟩
      obtain ⟨_, k, k1, k2⟩ := key a hback
      rw [q1] at k1
      injection k1 with k1
      omega
  · exact (J.flow S W hL F).relevel hsame I.roots
  · -- the values of the leaves
    have hsplit : t'.sources.Perm ((leaves.filter fun a => decide (a ∉ roots)) ++
        ((t.sources.zip roots).filter fun p => decide (p.2 ∈ leaves)).map Prod.fst) := by
      rw [List.perm_ext_iff_of_nodup hnd]
      · intro a
        rw [hsources, J.reach_iff S W, List.mem_append (s := leaves.filter fun a => decide (a ∉ roots)), List.mem_filter, List.mem_map]
        simp only [decide_eq_true_eq]
        constructor
        · rintro ⟨ha | ha, hk⟩
          · right
            have hs : a ∈ t.sources := by
              by_contra hs
              rw [J.tree a ha hs] at hk
              exact hs ((W.leaves a).2 ⟨ha, hk⟩)
            obtain ⟨r, hr⟩ := hpo.1 a hs
            refine ⟨(a, r), List.mem_filter.2 ⟨hr, ?_⟩, rfl⟩
            rw [J.sourceKids a r hr] at hk
            rcases List.mem_append.1 (S.root_mem (S.pair W hr).2.1) with h2 | h2
            · have := (S.forest.fan r h2).1
              rw [hk] at this; simp at this
            · simpa using h2
          · left
            rw [J.forestKids a ha.1] at hk
            refine ⟨?_, ha.2⟩
            rcases List.mem_append.1 ha.1 with h2 | h2
            · have := (S.forest.fan a h2).1
              rw [hk] at this; simp at this
            · exact h2
        · rintro (⟨h2, h3⟩ | ⟨p, hp, rfl⟩)
          · have hm : a ∈ inner ++ leaves := List.mem_append_right _ h2
            exact ⟨Or.inr ⟨hm, h3⟩, by rw [J.forestKids a hm]; exact S.forest.leaf a h2⟩
          · obtain ⟨hp1, hp2⟩ := List.mem_filter.1 hp
            refine ⟨Or.inl ((W.leaves p.1).1 (S.pair W hp1).1).1, ?_⟩
            rw [J.sourceKids p.1 p.2 hp1]
            exact S.forest.leaf p.2 (by simpa using hp2)
      · rw [List.nodup_append]
        refine ⟨(List.nodup_append.1 S.forest.distinct).2.1.filter _, ?_, ?_⟩
        · refine List.Nodup.sublist (List.Sublist.map _ List.filter_sublist) ?_
          rw [hfst]; exact W.distinct
        · intro a ha b hb e
          subst e
          obtain ⟨p, hp, rfl⟩ := List.mem_map.1 hb
          have := ((W.leaves p.1).1 (S.pair W (List.mem_filter.1 hp).1).1).1
          exact S.disjoint hL this (List.mem_append_right _ (List.mem_filter.1 ha).1)
    have hsplit2 : leaves.Perm ((leaves.filter fun a => decide (a ∉ roots)) ++
        ((t.sources.zip roots).filter fun p => decide (p.2 ∈ leaves)).map Prod.snd) := by
      have hndl := (List.nodup_append.1 S.forest.distinct).2.1
      rw [List.perm_ext_iff_of_nodup hndl]
      · intro a
        rw [List.mem_append, List.mem_filter, List.mem_map]
        simp only [decide_eq_true_eq]
        constructor
        · intro ha
          by_cases hr : a ∈ roots
          · right
            obtain ⟨x, hx⟩ := hpo.2 a hr
            exact ⟨(x, a), List.mem_filter.2 ⟨hx, by simpa using ha⟩, rfl⟩
          · exact Or.inl ⟨ha, hr⟩
        · rintro (⟨h2, _⟩ | ⟨p, hp, rfl⟩)
          · exact h2
          · simpa using (List.mem_filter.1 hp).2
      · rw [List.nodup_append]
        refine ⟨hndl.filter _, ?_, ?_⟩
        · refine List.Nodup.sublist (List.Sublist.map _ List.filter_sublist) ?_
          rw [hsnd]; exact S.rootsNodup
        · intro a ha b hb e
          subst e
          obtain ⟨p, hp, rfl⟩ := List.mem_map.1 hb
          have := (List.mem_filter.1 ha).2
          simp only [decide_eq_true_eq] at this
          exact this (S.pair W (List.mem_filter.1 hp).1).2.1
    have e1 := hsplit.map fun a => (h.get a).value
    have e2 := hsplit2.map fun a => (h.get a).value
    have e3 : ((leaves.filter fun a => decide (a ∉ roots)) ++
        ((t.sources.zip roots).filter fun p => decide (p.2 ∈ leaves)).map Prod.fst).map (fun a => (h.get a).value) =
        ((leaves.filter fun a => decide (a ∉ roots)) ++
        ((t.sources.zip roots).filter fun p => decide (p.2 ∈ leaves)).map Prod.snd).map (fun a => (h.get a).value) := by
      rw [List.map_append, List.map_append, List.map_map, List.map_map]
      congr 1
      apply List.map_congr_left
      intro p hp
      exact (S.pair W (List.mem_filter.1 hp).1).2.2
    unfold valuesOf
    rw [hvm, List.map_congr_left (fun a _ => J.value a)]
    rw [e3] at e1
    exact e1.trans e2.symm
  · intro a; rw [hreach]; exact J.reach_iff S W a

end

end Satis.Solver
