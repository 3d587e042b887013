import Verif.Graph.Attach
import Verif.Graph.Copy
import Mathlib.Algebra.BigOperators.Group.List.Basic
import Mathlib.Data.List.Nodup
import Mathlib.Data.List.Perm.Subperm
/-!
# What `attach_leaves` does to the heap
-/

namespace Satis.Graph
open Satis

variable {V : Type}

theorem adopt_all (p : Addr) (cs : List Addr) (h : Heap V) (hp : p ∉ cs) :
    (cs.foldl (adopt p) h).next = h.next ∧ (cs.foldl (adopt p) h).nextUid = h.nextUid ∧
    (cs.foldl (adopt p) h).get p = { h.get p with children := (h.get p).children ++ cs } ∧
    (∀ c ∈ cs, (cs.foldl (adopt p) h).get c = { h.get c with parents := [p] }) ∧
    ∀ b, b ≠ p → b ∉ cs → (cs.foldl (adopt p) h).get b = h.get b := by
  induction cs generalizing h with
  | nil => exact ⟨rfl, rfl, by simp, by simp, fun _ _ _ => rfl⟩
  | cons c cs ih =>
    simp only [List.mem_cons, not_or] at hp
    obtain ⟨i1, i2, i3, i4, i5⟩ := ih (adopt p h c) hp.2
    have g1 : (adopt p h c).get p = { h.get p with children := (h.get p).children ++ [c] } := by
      simp [adopt, Heap.modify, Heap.set, hp.1]
    have g2 : (adopt p h c).get c = { h.get c with parents := [p] } := by
      simp [adopt, Heap.modify, Heap.set, Ne.symm hp.1]
    have g3 : ∀ b, b ≠ p → b ≠ c → (adopt p h c).get b = h.get b := by
      intro b hb hc; simp [adopt, Heap.modify, Heap.set, hb, hc]
    simp only [List.foldl_cons]
    refine ⟨i1, i2, ?_, ?_, ?_⟩
    · rw [i3, g1]; simp
    · intro x hx
      by_cases hxc : x ∈ cs
      · rw [i4 x hxc]
        by_cases hx2 : x = c
        · subst hx2; rw [g2]
        · rw [g3 x (fun e => hp.2 (e ▸ hxc)) hx2]
      · have : x = c := by rcases List.mem_cons.1 hx with h | h; exacts [h, absurd h hxc]
        subst this
        rw [i5 x (Ne.symm hp.1) hxc, g2]
    · intro b hb hbc
      simp only [List.mem_cons, not_or] at hbc
      rw [i5 b hb hbc.2, g3 b hb hbc.1]

/-- A source that got the children `cs`. -/
def grownSource (o : NodeObj V) (cs : List Addr) : NodeObj V :=
  { o with
    children := o.children ++ cs
    expands := o.expands ++ if 3 < (o.children ++ cs).length then [.divide (o.children ++ cs).length] else [] }

/-- The children of the leaves were given to the sources, pair by pair. -/
structure Hung (h : Heap V) (ps : List (Addr × Addr)) (h' : Heap V) : Prop where
  next : h'.next = h.next
  nextUid : h'.nextUid = h.nextUid
  src : ∀ p ∈ ps, h'.get p.1 = grownSource (h.get p.1) (h.get p.2).children
  kid : ∀ p ∈ ps, ∀ c ∈ (h.get p.2).children, h'.get c = { h.get c with parents := [p.1] }
  frame : ∀ a, a ∉ ps.map Prod.fst → (∀ p ∈ ps, a ∉ (h.get p.2).children) → h'.get a = h.get a

/-- The nodes involved are different. -/
structure Apart (h : Heap V) (ps : List (Addr × Addr)) : Prop where
  srcs : (ps.map Prod.fst).Nodup
  leaf : ∀ p ∈ ps, ∀ q ∈ ps, p.1 ≠ q.2
  below : ∀ p ∈ ps, ∀ q ∈ ps, p.1 ∉ (h.get q.2).children ∧ p.2 ∉ (h.get q.2).children
  kids : ps.Pairwise fun p q => ∀ c ∈ (h.get p.2).children, c ∉ (h.get q.2).children

theorem attachOne_all : ∀ (ps : List (Addr × Addr)) (h : Heap V) (ls : List (List Addr)), Apart h ps →
    Hung h ps (ps.foldl attachOne (h, ls)).1 ∧ (ps.foldl attachOne (h, ls)).2 =
      ls ++ (ps.map fun p => (h.get p.1).children ++ (h.get p.2).children).filter fun cs => decide (cs ≠ []) := by
  intro ps
  induction ps with
  | nil =>
    intro h ls _
    exact ⟨⟨rfl, rfl, by simp, by simp, fun _ _ _ => rfl⟩, by simp⟩
  | cons p ps ih =>
    intro h ls hA
    obtain ⟨a, l⟩ := p
    have hal := hA.leaf (a, l) (by simp) (a, l) (by simp)
    have hbel := hA.below (a, l) (by simp) (a, l) (by simp)
    obtain ⟨e1, e2, e3, e4, e5⟩ := adopt_all a (h.get l).children h hbel.1
    obtain ⟨h1, ls1, hone⟩ : ∃ h1 ls1, attachOne (h, ls) (a, l) = (h1, ls1) := ⟨_, _, rfl⟩
    have key : h1.next = h.next ∧ h1.nextUid = h.nextUid ∧ h1.get a = grownSource (h.get a) (h.get l).children ∧
        (∀ c ∈ (h.get l).children, h1.get c = { h.get c with parents := [a] }) ∧
        (∀ b, b ≠ a → b ∉ (h.get l).children → h1.get b = h.get b) ∧
        ls1 = ls ++ [(h.get a).children ++ (h.get l).children].filter fun cs => decide (cs ≠ []) := by
      have hch : (((h.get l).children.foldl (adopt a) h).get a).children = (h.get a).children ++ (h.get l).children := by rw [e3]
      unfold attachOne at hone
      simp only [hch] at hone
      by_cases hnil : (h.get a).children ++ (h.get l).children = []
      · rw [if_pos hnil] at hone
        injection hone with w1 w2
        subst w1 w2
        refine ⟨e1, e2, ?_, e4, e5, ?_⟩
        · rw [e3]; unfold grownSource; rw [if_neg (by rw [hnil]; simp)]; simp
        · rw [hnil]; simp
      · rw [if_neg hnil] at hone
        injection hone with w1 w2
        subst w1 w2
        by_cases h3 : ((h.get a).children ++ (h.get l).children).length > 3
        · rw [if_pos h3]
          refine ⟨e1, e2, ?_, ?_, ?_, ?_⟩
          · simp only [tagExpand, Heap.modify, Heap.set, if_true]
            rw [e3]; unfold grownSource; rw [if_pos h3]
          · intro c hc
            have : c ≠ a := fun e => hbel.1 (e ▸ hc)
            simp only [tagExpand, Heap.modify, Heap.set, if_neg this]
            exact e4 c hc
          · intro b hb hbc
            simp only [tagExpand, Heap.modify, Heap.set, if_neg hb]
            exact e5 b hb hbc
          · simp only [List.filter_cons, List.filter_nil]
            rw [if_pos (decide_eq_true hnil)]
        · rw [if_neg h3]
          refine ⟨e1, e2, ?_, e4, e5, ?_⟩
          · rw [e3]; unfold grownSource; rw [if_neg h3]; simp
          · simp only [List.filter_cons, List.filter_nil]
            rw [if_pos (decide_eq_true hnil)]
    obtain ⟨k1, k2, k3, k4, k5, k6⟩ := key
    have hsrcs := hA.srcs
    rw [List.map_cons, List.nodup_cons] at hsrcs
    have hkids := List.pairwise_cons.1 hA.kids
    -- what the remaining pairs look at has not changed
    have hl1 : ∀ q ∈ ps, (h1.get q.2).children = (h.get q.2).children := by
      intro q hq
      have h1a : q.2 ≠ a := fun e => hA.leaf (a, l) (by simp) q (by simp [hq]) e.symm
      by_cases hm : q.2 ∈ (h.get l).children
      · rw [k4 _ hm]
      · rw [k5 _ h1a hm]
    have hs1 : ∀ q ∈ ps, h1.get q.1 = h.get q.1 := by
      intro q hq
      refine k5 _ (fun e => hsrcs.1 (List.mem_map.2 ⟨q, hq, e⟩)) (hA.below q (by simp [hq]) (a, l) (by simp)).1
    have hA1 : Apart h1 ps := by
      refine ⟨hsrcs.2, fun p hp q hq => hA.leaf p (by simp [hp]) q (by simp [hq]), ?_, ?_⟩
      · intro p hp q hq; rw [hl1 q hq]; exact hA.below p (by simp [hp]) q (by simp [hq])
      · exact hkids.2.imp_of_mem (fun {p q} hp hq hpq => by rw [hl1 p hp, hl1 q hq]; exact hpq)
    obtain ⟨i1, i2⟩ := ih h1 ls1 hA1
    rw [List.foldl_cons, hone]
    refine ⟨⟨i1.next.trans k1, i1.nextUid.trans k2, ?_, ?_, ?_⟩, ?_⟩
    · intro q hq
      rcases List.mem_cons.1 hq with rfl | hq
      · rw [i1.frame a hsrcs.1 (fun q hq => by
          rw [hl1 q hq]; exact (hA.below (a, l) (by simp) q (by simp [hq])).1), k3]
      · rw [i1.src q hq, hs1 q hq, hl1 q hq]
    · intro q hq c hc
      rcases List.mem_cons.1 hq with rfl | hq
      · rw [i1.frame c (fun hm => by
            obtain ⟨q, hq, rfl⟩ := List.mem_map.1 hm
            exact (hA.below q (by simp [hq]) (a, l) (by simp)).1 hc)
          (fun q hq => by rw [hl1 q hq]; exact hkids.1 q hq c hc), k4 c hc]
      · have hca : c ≠ a := fun e => (hA.below (a, l) (by simp) q (by simp [hq])).1 (e ▸ hc)
        have hcl : c ∉ (h.get l).children := fun hm => hkids.1 q hq c hm hc
        rw [i1.kid q hq c (by rw [hl1 q hq]; exact hc), k5 c hca hcl]
    · intro b hb hbk
      rw [List.map_cons, List.mem_cons, not_or] at hb
      rw [i1.frame b hb.2 (fun q hq => by rw [hl1 q hq]; exact hbk q (by simp [hq])), k5 b hb.1 (hbk (a, l) (by simp))]
    · have e : (ps.map fun p => (h1.get p.1).children ++ (h1.get p.2).children) =
          ps.map fun p => (h.get p.1).children ++ (h.get p.2).children := by
        apply List.map_congr_left
        intro q hq
        rw [hs1 q hq, hl1 q hq]
      rw [i2, k6, e, List.append_assoc, ← List.filter_append]
      rfl

/-! ### The second loop -/

section loop
variable [LinearOrder V] [AddCommMonoid V]

/-- Below the nodes `U` the graph is a forest in which flow is conserved. -/
structure Spreads (h : Heap V) (U : Addr → Prop) : Prop where
  closed : ∀ a, U a → ∀ c ∈ (h.get a).children, U c
  nodup : ∀ a, U a → (h.get a).children.Nodup
  parent : ∀ a, U a → ∀ c ∈ (h.get a).children, (h.get c).parents = [a]
  sum : ∀ a, U a → (h.get a).children ≠ [] → ((h.get a).children.map fun c => (h.get c).value).sum = (h.get a).value

/-- What holds at the loop test: the nodes `done` have their final levels, the others are below the sources of `t`. -/
structure AttachInv (h0 : Heap V) (U : Addr → Prop) (t0 : TreeObj V) (total : V) (h : Heap V) (t : TreeObj V) (levels : List (List Addr))
    (done : List Addr) : Prop where
  next : h.next = h0.next
  nextUid : h.nextUid = h0.nextUid
  same : ∀ a, h.get a = { h0.get a with level := (h.get a).level }
  frame : ∀ a, ¬ Reach h0 t0.roots a → h.get a = h0.get a
  roots : t.roots = t0.roots
  size : t.size = t0.size
  pend : ∃ ps : List Addr, ps.Perm (t.sources.filter fun a => decide ((h0.get a).children ≠ [])) ∧ levels = ps.map fun a => (h0.get a).children
  cover : ∀ a, Reach h0 t0.roots a → a ∈ done ∨ Reach h0 t.sources a
  reach : ∀ a ∈ done ++ t.sources, Reach h0 t0.roots a
  below : ∀ a ∈ t.sources, U a
  nodup : (done ++ t.sources).Nodup
  up : ∀ a ∈ done ++ t.sources, ∀ p ∈ (h0.get a).parents, p ∈ done
  down : ∀ a ∈ done, (h0.get a).children ≠ [] ∧ ∀ b ∈ (h0.get a).children, b ∈ done ++ t.sources
  cur : 0 ≤ t.currentLevel
  doneLevel : ∀ a ∈ done, ∃ l, (h.get a).level = some l ∧ 0 ≤ l ∧ l < t.currentLevel ∧
    ∀ b ∈ (h0.get a).children, ∃ m, (h.get b).level = some m ∧ l < m
  srcLevel : ∀ a ∈ t.sources, (h.get a).level = some t.currentLevel
  sorted : (t.sources.map fun a => (h0.get a).value).Pairwise (· ≤ ·)
  cached : t.sourceValues = t.sources.map fun a => (h0.get a).value
  count : t.nSources = t.sources.length
  last : t.levels.getLast? = some t.sources
  total : (t.sources.map fun a => (h0.get a).value).sum = total

theorem AttachInv.step {h0 : Heap V} {U : Addr → Prop} {t0 : TreeObj V} {total : V} (hU : Spreads h0 U)
    (hid : ∀ a b, Reach h0 t0.roots a → Reach h0 t0.roots b → (h0.get a).id = (h0.get b).id → a = b)
    {h : Heap V} {t : TreeObj V} {level : List Addr} {levels : List (List Addr)} {done : List Addr}
    (I : AttachInv h0 U t0 total h t (level :: levels) done) :
    ∃ h' t' p, t.add h level 0 = .ok (h', t') ∧ p ∉ done ∧ Reach h0 t0.roots p ∧ AttachInv h0 U t0 total h' t'
      (levels ++ (level.map fun a => (h'.get a).children).filter fun cs => decide (cs ≠ [])) (p :: done) := by
  obtain ⟨ps, hps, hlev⟩ := I.pend
  cases ps with
  | nil => simp at hlev
  | cons p ps =>
    rw [List.map_cons] at hlev
    injection hlev with hl1 hl2
    have hpm : p ∈ t.sources ∧ (h0.get p).children ≠ [] := by
      have := hps.mem_iff.1 (List.mem_cons_self (a := p) (l := ps))
      simpa using List.mem_filter.1 this
    obtain ⟨hpS, hpne⟩ := hpm
    have hUp := I.below p hpS
    have hnd := List.nodup_append.1 I.nodup
    have hpd : p ∉ done := fun hd => hnd.2.2 p hd p hpS rfl
    have hRp := I.reach p (List.mem_append_right _ hpS)
    have hch : ∀ a, (h.get a).children = (h0.get a).children := fun a => by rw [I.same a]
    have hpar : ∀ a, (h.get a).parents = (h0.get a).parents := fun a => by rw [I.same a]
    have hidh : ∀ a, (h.get a).id = (h0.get a).id := fun a => by rw [I.same a]
    have hval : ∀ a, (h.get a).value = (h0.get a).value := fun a => by rw [I.same a]
    -- the new nodes
    have hcR : ∀ c ∈ level, Reach h0 t0.roots c := fun c hc => hRp.child (hl1 ▸ hc)
    have hcpar : ∀ c ∈ level, (h0.get c).parents = [p] := fun c hc => hU.parent p hUp c (hl1 ▸ hc)
    have hcnew : ∀ c ∈ level, c ∉ done ++ t.sources := by
      intro c hc hm
      exact hpd (I.up c hm p (by rw [hcpar c hc]; simp))
    have hcp : ∀ c ∈ level, c ≠ p := fun c hc e => hcnew c hc (e ▸ List.mem_append_right _ hpS)
    have hlne : level ≠ [] := hl1 ▸ hpne
    obtain ⟨n0, rest, hcons⟩ := List.exists_cons_of_ne_nil hlne
    have hn0 : n0 ∈ level := by rw [hcons]; simp
    have hkept : (t.sources.filter fun s => !h.mem s (h.get n0).parents) = t.sources.filter fun s => decide (s ≠ p) := by
      apply List.filter_congr
      intro s hs
      rw [hpar n0, hcpar n0 hn0]
      simp only [Heap.mem, Heap.same, List.any_cons, List.any_nil, Bool.or_false]
      rw [hidh, hidh]
      by_cases e : s = p
      · subst e; simp
      · have : (h0.get p).id ≠ (h0.get s).id := fun e' => e (hid p s hRp (I.reach s (List.mem_append_right _ hs)) e').symm
        simp [e, this]
    obtain ⟨srcs, hsrcs⟩ : ∃ srcs, srcs = insortAll (fun a => (h.get a).value) (t.sources.filter fun s => decide (s ≠ p)) level := ⟨_, rfl⟩
    obtain ⟨h', hh'⟩ : ∃ h', h' = setLevels h srcs (t.currentLevel + 1) := ⟨_, rfl⟩
    have hperm : srcs.Perm (level ++ t.sources.filter fun s => decide (s ≠ p)) := by rw [hsrcs]; exact insortAll_perm _ _ _
    have hmem : ∀ a, a ∈ srcs ↔ a ∈ level ∨ (a ∈ t.sources ∧ a ≠ p) := by
      intro a; rw [hperm.mem_iff, List.mem_append, List.mem_filter]; simp
    have hfilt : (p :: t.sources.filter fun s => decide (s ≠ p)).Perm t.sources := by
      have e : (t.sources.filter fun s => decide (s ≠ p)) = t.sources.erase p := by
        rw [hnd.2.1.erase_eq_filter]
        apply List.filter_congr
        intro s _
        by_cases e : s = p <;> simp [e]
      rw [e]; exact (List.perm_cons_erase hpS).symm
    have hadd : t.add h level 0 = .ok (h', { t with
        sources := srcs
        nSources := srcs.length
        currentLevel := t.currentLevel + 1
        levels := t.levels ++ [srcs]
        size := t.size + 0
        past := t.past.append t.sourceValues
        sourceValues := valuesOf h' srcs }) := by
      rw [hh', hsrcs, ← hkept, hcons]
      unfold TreeObj.add
      simp only [I.last]
    have hget : ∀ a, h'.get a = if a ∈ srcs then { h.get a with level := some (t.currentLevel + 1) } else h.get a := by
      intro a; rw [hh', setLevels_get]
    have hsame' : ∀ a, h'.get a = { h0.get a with level := (h'.get a).level } := by
      intro a
      rw [hget a]
      split
      · rw [I.same a]
      · exact I.same a
    have hch' : ∀ a, (h'.get a).children = (h0.get a).children := fun a => by rw [hsame' a]
    have hval' : ∀ a, (h'.get a).value = (h0.get a).value := fun a => by rw [hsame' a]
    have hdone' : ∀ a ∈ p :: done, a ∉ srcs := by
      intro a ha hm
      rcases (hmem a).1 hm with h1 | ⟨h1, h2⟩
      · rcases List.mem_cons.1 ha with rfl | ha
        · exact hcp a h1 rfl
        · exact hcnew a h1 (List.mem_append_left _ ha)
      · rcases List.mem_cons.1 ha with rfl | ha
        · exact h2 rfl
        · exact hnd.2.2 a ha a h1 rfl
    have hall : ∀ a, a ∈ (p :: done) ++ srcs ↔ a ∈ done ++ t.sources ∨ a ∈ level := by
      intro a
      rw [List.mem_append, List.mem_cons, hmem, List.mem_append]
      constructor
      · rintro ((rfl | h1) | h1 | ⟨h1, _⟩)
        · exact Or.inl (Or.inr hpS)
        · exact Or.inl (Or.inl h1)
        · exact Or.inr h1
        · exact Or.inl (Or.inr h1)
      · rintro ((h1 | h1) | h1)
        · exact Or.inl (Or.inr h1)
        · by_cases e : a = p
          · exact Or.inl (Or.inl e)
          · exact Or.inr (Or.inr ⟨h1, e⟩)
        · exact Or.inr (Or.inl h1)
    refine ⟨h', _, p, hadd, hpd, hRp, ?_⟩
    have hlevelne : (level.map fun a => (h'.get a).children) = level.map fun a => (h0.get a).children :=
      List.map_congr_left (fun a _ => hch' a)
    constructor
    · rw [hh', setLevels_next]; exact I.next
    · rw [hh', setLevels_nextUid]; exact I.nextUid
    · exact hsame'
    · intro a ha
      rw [hget a, if_neg, I.frame a ha]
      intro hm
      rcases (hmem a).1 hm with h1 | ⟨h1, _⟩
      · exact ha (hcR a h1)
      · exact ha (I.reach a (List.mem_append_right _ h1))
    · exact I.roots
    · show t.size + 0 = _; rw [add_zero]; exact I.size
    · refine ⟨ps ++ level.filter fun a => decide ((h0.get a).children ≠ []), ?_, ?_⟩
      · show List.Perm _ (srcs.filter _)
        refine List.Perm.trans ?_ (hperm.filter _).symm
        rw [List.filter_append]
        refine (List.perm_append_comm).trans (List.Perm.append_left _ ?_)
        have h1 := (hfilt.filter fun a => decide ((h0.get a).children ≠ [])).symm
        have h2 := hps.trans h1
        rw [List.filter_cons, if_pos (by simpa using hpne)] at h2
        exact (List.perm_cons p).1 h2
      · rw [hl2, hlevelne, List.map_append, List.filter_map]; rfl
    · intro a ha
      rcases I.cover a ha with h1 | h1
      · exact Or.inl (by simp [h1])
      · clear ha
        induction h1 with
        | @root a hm =>
          by_cases e : a = p
          · exact Or.inl (by simp [e])
          · exact Or.inr (.root ((hmem a).2 (Or.inr ⟨hm, e⟩)))
        | @child a b _ hb ih =>
          rcases ih with h2 | h2
          · rcases List.mem_cons.1 h2 with rfl | h2
            · exact Or.inr (.root ((hmem b).2 (Or.inl (hl1 ▸ hb))))
            · have := (I.down a h2).2 b hb
              rw [List.mem_append] at this
              rcases this with h3 | h3
              · exact Or.inl (by simp [h3])
              · by_cases e : b = p
                · exact Or.inl (by simp [e])
                · exact Or.inr (.root ((hmem b).2 (Or.inr ⟨h3, e⟩)))
          · exact Or.inr (h2.child hb)
    · intro a ha
      rcases (hall a).1 ha with h1 | h1
      · exact I.reach a h1
      · exact hcR a h1
    · intro a ha
      rcases (hmem a).1 ha with h1 | ⟨h1, _⟩
      · exact hU.closed p hUp a (hl1 ▸ h1)
      · exact I.below a h1
    · rw [List.nodup_append]
      refine ⟨List.nodup_cons.2 ⟨hpd, hnd.1⟩, ?_, ?_⟩
      · rw [hperm.nodup_iff, List.nodup_append]
        refine ⟨by rw [hl1]; exact hU.nodup p hUp, hnd.2.1.filter _, ?_⟩
        intro a ha b hb e
        subst e
        exact hcnew a ha (List.mem_append_right _ (List.mem_filter.1 hb).1)
      · intro a ha b hb e
        subst e
        exact hdone' a ha hb
    · intro a ha q hq
      rcases (hall a).1 ha with h1 | h1
      · exact List.mem_cons_of_mem _ (I.up a h1 q hq)
      · rw [hcpar a h1] at hq; simp at hq; simp [hq]
    · intro a ha
      rcases List.mem_cons.1 ha with rfl | ha
      · exact ⟨hpne, fun b hb => (hall b).2 (Or.inr (hl1 ▸ hb))⟩
      · exact ⟨(I.down a ha).1, fun b hb => (hall b).2 (Or.inl ((I.down a ha).2 b hb))⟩
    · show 0 ≤ t.currentLevel + 1; have := I.cur; omega
    · intro a ha
      have hna := hdone' a ha
      rw [hget a, if_neg hna]
      rcases List.mem_cons.1 ha with rfl | ha
      · refine ⟨t.currentLevel, I.srcLevel a hpS, I.cur, by show _ < t.currentLevel + 1; omega, ?_⟩
        intro b hb
        rw [hget b, if_pos ((hmem b).2 (Or.inl (hl1 ▸ hb)))]
        exact ⟨_, rfl, by omega⟩
      · obtain ⟨l, w1, w2, w3, w4⟩ := I.doneLevel a ha
        refine ⟨l, w1, w2, by show _ < t.currentLevel + 1; omega, ?_⟩
        intro b hb
        rw [hget b]
        split
        · exact ⟨_, rfl, by omega⟩
        · exact w4 b hb
    · intro a ha
      replace ha : a ∈ srcs := ha
      rw [hget a, if_pos ha]
    · show (srcs.map fun a => (h0.get a).value).Pairwise (· ≤ ·)
      rw [List.pairwise_map, hsrcs]
      have : (fun a => (h.get a).value) = fun a => (h0.get a).value := funext hval
      rw [this]
      refine insortAll_sorted _ _ _ ?_
      have hs := I.sorted
      rw [List.pairwise_map] at hs
      exact hs.sublist List.filter_sublist
    · show valuesOf h' srcs = srcs.map _
      exact List.map_congr_left (fun a _ => hval' a)
    · rfl
    · show (t.levels ++ [srcs]).getLast? = some srcs
      simp
    · show (srcs.map fun a => (h0.get a).value).sum = total
      rw [← I.total, (hperm.map _).sum_eq, (hfilt.symm.map fun a => (h0.get a).value).sum_eq, List.map_append, List.sum_append,
        List.map_cons, List.sum_cons, hl1, hU.sum p hUp hpne]

theorem attachLoop_spec {h0 : Heap V} {U : Addr → Prop} {t0 : TreeObj V} {total : V} (hU : Spreads h0 U)
    (hid : ∀ a b, Reach h0 t0.roots a → Reach h0 t0.roots b → (h0.get a).id = (h0.get b).id → a = b)
    (hlt : ∀ a, Reach h0 t0.roots a → a < h0.next) :
    ∀ (fuel : Nat) (h : Heap V) (t : TreeObj V) (levels : List (List Addr)) (done : List Addr),
      AttachInv h0 U t0 total h t levels done → h0.next ≤ fuel + done.length →
      ∃ h' t' done', attachLoop fuel h t levels = .ok (h', t') ∧ AttachInv h0 U t0 total h' t' [] done' := by
  intro fuel
  induction fuel with
  | zero =>
    intro h t levels done I hf
    cases levels with
    | nil => exact ⟨h, t, done, rfl, I⟩
    | cons level levels =>
      exfalso
      obtain ⟨_, _, p, _, hp, hR, I'⟩ := I.step hU hid
      have hnd := (List.nodup_append.1 I'.nodup).1
      have hsub : (p :: done) ⊆ List.range h0.next := by
        intro a ha
        exact List.mem_range.2 (hlt a (I'.reach a (List.mem_append_left _ ha)))
      have := (List.subperm_of_subset hnd hsub).length_le
      simp at this
      omega
  | succ fuel ih =>
    intro h t levels done I hf
    cases levels with
    | nil => exact ⟨h, t, done, rfl, I⟩
    | cons level levels =>
      obtain ⟨h1, t1, p, e, _, _, I'⟩ := I.step hU hid
      obtain ⟨h', t', done', e', I''⟩ := ih h1 t1 _ _ I' (by simp; omega)
      refine ⟨h', t', done', ?_, I''⟩
      show (match t.add h level 0 with
        | .error e => Except.error e
        | .ok (h', t') => attachLoop fuel h' t' (levels ++ (level.map fun a => (h'.get a).children).filter fun cs => decide (cs ≠ []))) = _
      rw [e]
      exact e'

end loop

end Satis.Graph
