import Verif.Graph.Twin
/-!
# The same network in two heaps

What is said about a network depends on the nodes of the network only.
-/

namespace Satis.Graph
open Satis Satis.Cost

/-- The network below `roots` is the same in both heaps. -/
structure Copies (h g : Heap ℚ) (roots : List Addr) : Prop where
  next : h.next ≤ g.next
  nextUid : h.nextUid ≤ g.nextUid
  node : ∀ a, Reach h roots a → Twin h g a ∧ (g.get a).level = (h.get a).level

variable {h g : Heap ℚ} {roots : List Addr} {speeds : List Nat} {cfg : Config}

theorem Copies.reach (K : Copies h g roots) {a : Addr} : Reach g roots a ↔ Reach h roots a := by
  constructor
  · intro ha
    induction ha with
    | root hm => exact .root hm
    | child _ hb ih =>
      rw [(K.node _ ih).1.children] at hb
      exact ih.child hb
  · intro ha
    induction ha with
    | root hm => exact .root hm
    | @child x c hx hb ih =>
      refine ih.child ?_
      rw [(K.node _ hx).1.children]
      exact hb

theorem Copies.region (K : Copies h g roots) (H : Region h (Reach h roots)) : Region g (Reach g roots) where
  inside a ha := lt_of_lt_of_le (H.inside a (K.reach.1 ha)) K.next
  children a ha c hc := ha.child hc
  parents a ha p hp := by
    rw [(K.node a (K.reach.1 ha)).1.parents] at hp
    exact K.reach.2 (H.parents a (K.reach.1 ha) p hp)
  ids a b ha hb e := by
    rw [(K.node a (K.reach.1 ha)).1.id, (K.node b (K.reach.1 hb)).1.id] at e
    exact H.ids a b (K.reach.1 ha) (K.reach.1 hb) e
  fresh a ha := by
    rw [(K.node a (K.reach.1 ha)).1.id]
    exact lt_of_lt_of_le (H.fresh a (K.reach.1 ha)) K.nextUid

theorem Copies.values (K : Copies h g roots) {a : Addr} (ha : Reach h roots a) :
    ((h.get a).children.map fun x => (g.get x).value) = (h.get a).children.map fun x => (h.get x).value :=
  List.map_congr_left fun x hx => (K.node x (ha.child hx)).1.value

theorem Copies.job (K : Copies h g roots) {a : Addr} (ha : Reach h roots a) {es : List (Expand ℚ)} (J : Job speeds h a es) : Job speeds g a es := by
  have T := (K.node a ha).1
  have kid : ∀ c ∈ (h.get a).children, (g.get c).value = (h.get c).value := fun c hc => (K.node c (ha.child hc)).1.value
  cases J with
  | leaf q => exact .leaf (by rw [T.children]; exact q)
  | pass c q => exact .pass c (by rw [T.children]; exact q)
  | few q1 q2 =>
    refine .few (by rw [T.children]; exact q1) ?_
    rw [T.children, T.value]
    exact fun c hc => (kid c hc).trans (q2 c hc)
  | belt x y q1 q2 q3 =>
    have hx := kid x (by rw [q1]; simp)
    have hy := kid y (by rw [q1]; simp)
    exact .belt x y (by rw [T.children]; exact q1) (by rw [hx, hy, T.value]; exact q2) (by rw [hx, hy]; exact q3)
  | divide d D =>
    refine .divide d ⟨lt_of_lt_of_le D.inside K.next, ?_, D.two, ?_, ?_, ?_, ?_, ?_⟩
    · rw [T.value]; exact D.nonneg
    · rw [T.children]; exact D.count
    · rw [T.children]; exact D.nodup
    · rw [T.children]; exact fun c hc => lt_of_lt_of_le (D.lt c hc) K.next
    · rw [T.children]; exact D.ne
    · rw [T.children, T.value]; exact fun c hc => (kid c hc).trans (D.share c hc)
  | extract v c x y D =>
    have hx := kid x (by rw [D.children]; simp)
    have hy := kid y (by rw [D.children]; simp)
    refine .extract v c x y ⟨lt_of_lt_of_le D.inside K.next, ?_, D.pos, D.lt, ?_, ⟨lt_of_lt_of_le D.left.1 K.next, D.left.2⟩,
      ⟨lt_of_lt_of_le D.right.1 K.next, D.right.2⟩, D.ne, ?_⟩
    · rw [T.value]; exact D.value
    · rw [T.children]; exact D.children
    · rw [hx, hy]; exact D.share

theorem Copies.sound (K : Copies h g roots) (P : Sound speeds h roots) : Sound speeds g roots := by
  refine ⟨K.region P.region, ?_, ?_, ?_, ?_, ?_, ?_, ?_, ?_⟩
  · intro a ha
    rw [(K.node a (K.reach.1 ha)).2]
    exact P.levels a (K.reach.1 ha)
  · intro a ha
    rw [(K.node a (K.reach.1 ha)).1.value]
    exact P.positive a (K.reach.1 ha)
  · intro a ha c hc
    have ha := K.reach.1 ha
    rw [(K.node a ha).1.children] at hc
    rw [(K.node a ha).2, (K.node c (ha.child hc)).2]
    exact P.down a ha c hc
  · intro r hr
    rw [(K.node r (.root hr)).1.parents]
    exact P.top r hr
  · intro a b ha hb
    rw [(K.node a (K.reach.1 ha)).1.children, (K.node b (K.reach.1 hb)).1.parents]
    exact P.links a b (K.reach.1 ha) (K.reach.1 hb)
  · intro a ha h2 c hc
    have ha := K.reach.1 ha
    rw [(K.node a ha).1.children] at h2 hc
    rw [(K.node c (ha.child hc)).1.parents]
    exact P.tree a ha h2 c hc
  · intro a ha har
    have ha := K.reach.1 ha
    have T := (K.node a ha).1
    rcases P.merge a ha har with ⟨p, w1, w2⟩ | ⟨w1, w2, w3⟩
    · refine .inl ⟨p, T.parents.trans w1, ?_⟩
      rw [(K.node p (P.region.parents a ha p (by rw [w1]; simp))).1.children]
      exact w2
    · refine .inr ⟨by rw [T.parents]; exact w1, fun p hp => ?_, ?_⟩
      · rw [T.parents] at hp
        have Tp := (K.node p (P.region.parents a ha p hp)).1
        rw [Tp.children, Tp.value]
        exact w2 p hp
      · rw [T.value, T.parents, w3]
        congr 1
        exact List.map_congr_left fun p hp => (K.node p (P.region.parents a ha p hp)).1.value.symm
  · intro a ha
    have ha := K.reach.1 ha
    have T := (K.node a ha).1
    obtain ⟨es, q1, q2⟩ := P.jobs a ha
    refine ⟨es, q1.imp (K.job ha) fun w => ?_, ?_⟩
    · rw [T.children, T.value, K.values ha]
      exact w
    · rw [T.expands, T.parents]
      exact q2

theorem Copies.roomy (K : Copies h g roots) (H : Region h (Reach h roots)) (R : Roomy h roots) : Roomy g roots := by
  refine ⟨fun a ha => ?_, fun a ha hp => ?_, fun a ha v c hv hc z hz => ?_⟩ <;> have ha := K.reach.1 ha <;> have T := (K.node a ha).1
  · rw [T.expands]
    exact R.unsplit a ha
  · rw [T.expands, T.parents, T.value]
    refine R.back a ha fun p hp' => ?_
    rw [← (K.node p (H.parents a ha p hp')).1.expands]
    exact hp p (by rw [T.parents]; exact hp')
  · rw [T.value] at hv
    rw [T.expands] at hc
    rw [T.children] at hz
    rw [(K.node z (ha.child hz)).1.value, (K.node z (ha.child hz)).1.expands]
    exact R.room a ha v c hv hc z hz

theorem Copies.tidy (K : Copies h g roots) (H : Region h (Reach h roots)) (R : Tidy h roots) : Tidy g roots := by
  refine ⟨fun a ha hp => ?_, fun a ha v c hv hc z hz => ?_⟩ <;> have ha := K.reach.1 ha <;> have T := (K.node a ha).1
  · rw [T.expands, T.value]
    refine R.back a ha fun p hp' => ?_
    rw [← (K.node p (H.parents a ha p hp')).1.expands]
    exact hp p (by rw [T.parents]; exact hp')
  · rw [T.value] at hv
    rw [T.expands] at hc
    rw [T.children] at hz
    rw [(K.node z (ha.child hz)).1.value, (K.node z (ha.child hz)).1.expands]
    exact R.room a ha v c hv hc z hz

theorem Copies.light (K : Copies h g roots) (R : Light h roots) : Light g roots := by
  intro a ha v c hv hc z hz
  have ha := K.reach.1 ha
  have T := (K.node a ha).1
  rw [T.value] at hv
  rw [T.expands] at hc
  rw [T.children] at hz
  rw [(K.node z (ha.child hz)).1.value, (K.node z (ha.child hz)).1.expands]
  exact R a ha v c hv hc z hz

theorem Copies.even (K : Copies h g roots) (R : Even h roots) : Even g roots := by
  intro a ha
  have ha := K.reach.1 ha
  have T := (K.node a ha).1
  rw [T.expands, T.children]
  intro h1 x y hxy
  rw [(K.node x (ha.child (by rw [hxy]; simp))).1.value, (K.node y (ha.child (by rw [hxy]; simp))).1.value]
  exact R a ha h1 x y hxy

theorem Copies.within (K : Copies h g roots) (R : WithinLimit cfg h (Reach h roots)) : WithinLimit cfg g (Reach g roots) := by
  refine ⟨fun a ha => ?_, fun a ha => ?_⟩ <;> have ha := K.reach.1 ha <;> have T := (K.node a ha).1 <;> rw [T.expands, T.value]
  · exact R.1 a ha
  · exact R.2 a ha

end Satis.Graph
