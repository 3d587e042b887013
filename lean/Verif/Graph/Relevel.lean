import Verif.Graph.Expanded
import Verif.Graph.Modest
import Verif.Graph.WrapLemmas
/-!
# Networks that differ in their levels only

`Node.save` sets the levels of the roots before anything is expanded (`src/node.py:546`).
-/

namespace Satis.Graph
open Satis Satis.Spec

/-- The same network, with other levels. -/
structure Relevelled (h h' : Heap ℚ) : Prop extends SameGraph h h' where
  value : ∀ a, (h'.get a).value = (h.get a).value
  expands : ∀ a, (h'.get a).expands = (h.get a).expands

theorem setLevels_relevelled (h : Heap ℚ) (l : List Addr) (k : Int) : Relevelled h (setLevels h l k) :=
  { setLevels_same h l k with
    value := fun a => by rw [setLevels_get]; split <;> rfl
    expands := fun a => by rw [setLevels_get]; split <;> rfl }

variable {h h' : Heap ℚ} {roots : List Addr} {speeds : List Nat} {cfg : Config}

theorem Relevelled.job (S : Relevelled h h') {a : Addr} {es : List (Expand ℚ)} (J : Job speeds h a es) : Job speeds h' a es := by
  cases J with
  | leaf q => exact .leaf (by rw [S.children]; exact q)
  | pass c q => exact .pass c (by rw [S.children]; exact q)
  | few q1 q2 => exact .few (by rw [S.children]; exact q1) (by simpa only [S.children, S.value] using q2)
  | belt x y q1 q2 q3 => exact .belt x y (by rw [S.children]; exact q1) (by simpa only [S.value] using q2) (by simpa only [S.value] using q3)
  | divide d D =>
    refine .divide d ⟨?_, ?_, D.two, ?_, ?_, ?_, ?_, ?_⟩
    · rw [S.next]; exact D.inside
    · rw [S.value]; exact D.nonneg
    · rw [S.children]; exact D.count
    · rw [S.children]; exact D.nodup
    · rw [S.children, S.next]; exact D.lt
    · rw [S.children]; exact D.ne
    · simpa only [S.children, S.value] using D.share
  | extract v c x y D =>
    refine .extract v c x y ⟨?_, ?_, D.pos, D.lt, ?_, ?_, ?_, D.ne, ?_⟩
    · rw [S.next]; exact D.inside
    · rw [S.value]; exact D.value
    · rw [S.children]; exact D.children
    · rw [S.next]; exact D.left
    · rw [S.next]; exact D.right
    · simpa only [S.value] using D.share

/-- With the levels of the roots set to 0. -/
theorem Sound.relevel (P : Sound speeds h roots) (h0 : ∀ r ∈ roots, ∃ l, (h.get r).level = some l ∧ 0 ≤ l) : Sound speeds (setLevels h roots 0) roots := by
  have S := setLevels_relevelled h roots 0
  refine ⟨?_, ?_, ?_, ?_, ?_, ?_, ?_, ?_, ?_⟩
  · have : Reach (setLevels h roots 0) roots = Reach h roots := funext fun a => propext S.reach
    rw [this]
    exact S.region P.region
  · intro a ha
    rw [setLevels_get]
    split
    · simp
    · exact P.levels a (S.reach.1 ha)
  · simpa only [S.reach, S.value] using P.positive
  · intro a ha c hc
    rw [S.reach] at ha
    rw [S.children] at hc
    obtain ⟨l, m, e1, e2, e3⟩ := P.down a ha c hc
    have hcr : c ∉ roots := fun w => by
      have := P.links a c ha (ha.child hc)
      rw [P.top c w] at this
      exact absurd (List.count_pos_iff.2 hc) (by rw [this]; simp)
    rw [setLevels_get, setLevels_get, if_neg hcr]
    split
    · next hr =>
      obtain ⟨l', q1, q2⟩ := h0 a hr
      rw [e1] at q1
      simp only [Option.some.injEq] at q1
      exact ⟨0, m, rfl, e2, by omega⟩
    · exact ⟨l, m, e1, e2, e3⟩
  · simpa only [S.parents] using P.top
  · simpa only [S.reach, S.parents, S.children] using P.links
  · simpa only [S.reach, S.parents, S.children] using P.tree
  · simpa only [S.reach, S.parents, S.children, S.value] using P.merge
  · intro a ha
    obtain ⟨es, q1, q2⟩ := P.jobs a (S.reach.1 ha)
    refine ⟨es, q1.imp S.job fun w => ?_, ?_⟩
    · simpa only [S.children, S.value] using w
    · rw [S.expands, S.parents]
      exact q2

theorem Relevelled.roomy (S : Relevelled h h') (R : Roomy h roots) : Roomy h' roots := by
  refine ⟨?_, ?_, ?_⟩
  · simpa only [S.reach, S.expands] using R.unsplit
  · simpa only [S.reach, S.expands, S.parents, S.value] using R.back
  · simpa only [S.reach, S.expands, S.children, S.value] using R.room

theorem Relevelled.tidy (S : Relevelled h h') (R : Tidy h roots) : Tidy h' roots := by
  refine ⟨?_, ?_⟩
  · simpa only [S.reach, S.expands, S.parents, S.value] using R.back
  · simpa only [S.reach, S.expands, S.children, S.value] using R.room

theorem Relevelled.light (S : Relevelled h h') (R : Light h roots) : Light h' roots := by
  unfold Light at R ⊢
  simpa only [S.reach, S.expands, S.children, S.value] using R

theorem Relevelled.even (S : Relevelled h h') (R : Even h roots) : Even h' roots := by
  unfold Even at R ⊢
  simpa only [S.reach, S.expands, S.children, S.value] using R

theorem Relevelled.within (S : Relevelled h h') (W : WithinLimit cfg h (Reach h roots)) : WithinLimit cfg h' (Reach h' roots) := by
  have : Reach h' roots = Reach h roots := funext fun a => propext S.reach
  rw [this]
  refine ⟨?_, ?_⟩
  · simpa only [S.expands, S.value] using W.1
  · simpa only [S.expands, S.value] using W.2

/-- What expansion keeps. -/
theorem Sound.expanded_region (P : Sound speeds h roots) (W : WithinLimit cfg h (Reach h roots))
    (q : Settles (fun fuel => expandRoots cfg fuel h roots) (.ok h')) :
    ∃ U, Region h' U ∧ (∀ a, Reach h' roots a → U a) ∧ h.nextUid ≤ h'.nextUid ∧ ∀ a, Reach h roots a → (h'.get a).id = (h.get a).id := by
  have Tm := W.tame P.levels
  have hr : ∀ r ∈ roots, Reach h roots r := fun r hr => .root hr
  obtain ⟨low, e, -⟩ := C57_min_level h _ P.region roots hr P.levels
  obtain ⟨B, r, h1, h2⟩ := expandAll_ends (strict := True) cfg h _ roots [(1, 1 - low)] P.region (fun _ => Tm) hr
  cases r with
  | error er =>
    have : Settles (fun fuel => expandRoots cfg fuel h roots) (.error er) := e.bind (k := fun _ => .error er) fun x hx => by
      cases hx
      exact Settles.bind (r := .error er) (k := fun _ => .error er) ⟨B, h2⟩ fun x hx => by cases hx
    exact absurd (q.unique this) (by simp)
  | ok x =>
    obtain ⟨h₁, us⟩ := x
    have E : Evolved True 0 h (Reach h roots) h₁ := (Ends.iff.1 h1).2 _ rfl
    have T₁ := Tm.evolved trivial E
    have hU : ∀ a, Reach h₁ roots a → Within h (Reach h roots) h₁ a := by
      intro a ha
      induction ha with
      | root hm => exact .inl (hr _ hm)
      | child _ hb ih => exact E.region.children _ ih _ hb
    obtain ⟨h'', q1, q2, S⟩ := levels_spec roots (fun r hr' => .inl (hr r hr')) _ us h₁ E.region (fun a ha => T₁.levels a (hU a ha)) le_rfl
    have : Settles (fun fuel => expandRoots cfg fuel h roots) (.ok h'') := by
      refine e.bind (k := fun _ => .ok h'') fun x hx => ?_
      cases hx
      refine Settles.bind (r := .ok (h₁, us)) (k := fun _ => .ok h'') ⟨B, h2⟩ fun x hx => ?_
      cases hx
      exact (levels_stable us h₁ roots).settles (by simp) q1
    have := q.unique this
    simp only [Except.ok.injEq] at this
    subst this
    exact ⟨_, q2.region E.region, fun a ha => hU a (q2.reach.1 ha), by rw [q2.nextUid]; exact E.uid, fun a ha => by rw [q2.id, E.id a ha]⟩

end Satis.Graph
