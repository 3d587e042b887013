import Verif.Graph.CalmLevels
import Verif.Graph.Copies
import Verif.Graph.Picture
/-!
# Saving a network

What the pictures that `Tree.save` writes show, and what it leaves of the heap.
-/

namespace Satis.Graph
open Satis Satis.Cost Satis.Spec

theorem setLevels_again (h : Heap ℚ) (l : List Addr) (k : Int) : setLevels (setLevels h l k) l k = setLevels h l k := by
  have e1 := (setLevels_same (setLevels h l k) l k).next
  have e2 := (setLevels_same (setLevels h l k) l k).nextUid
  have e3 : (setLevels (setLevels h l k) l k).get = (setLevels h l k).get := by
    funext a
    rw [setLevels_get]
    split
    · rw [setLevels_get, if_pos (by assumption)]
    · rfl
  generalize setLevels (setLevels h l k) l k = x at *
  generalize setLevels h l k = y at *
  cases x
  cases y
  simp_all

/-- **`Tree.save`** on a network whose expansion loses no belts. -/
theorem saveTree_shows {cfg : Config} {h₁ : Heap ℚ} {roots sources : List Addr} {k : Nat} {S T : List ℚ} (q2 : Sound cfg.speeds h₁ roots)
    (p1 : ∀ r ∈ roots, ∃ l, (h₁.get r).level = some l ∧ 0 ≤ l) (p2 : roots ≠ []) (hk : (1 : ℚ) ≤ k) (hi : k = 1 ∨ Even h₁ roots)
    (hR : Roomy h₁ roots) (hL : Light h₁ roots) (hTd : Tidy h₁ roots) (hW : WithinLimit cfg h₁ (Reach h₁ roots)) (q4 : sources.Nodup)
    (q5 : ∀ x, x ∈ sources ↔ Reach h₁ roots x ∧ (h₁.get x).children = []) (hS' : (roots.map fun x => (h₁.get x).value / (k : ℚ)).Perm S)
    (hT' : (sources.map fun x => (h₁.get x).value / (k : ℚ)).Perm T) :
    ∃ h₂ x, Settles (fun fuel => saveTree cfg fuel h₁ roots) (.ok (setLevels h₂ roots 0, x)) ∧
      Settles (fun fuel => expandRoots cfg fuel (setLevels h₁ roots 0) roots) (.ok h₂) ∧
      (∀ a, Reach h₁ roots a → (h₂.get a).value = (h₁.get a).value ∧ (h₂.get a).id = (h₁.get a).id) ∧
      ∀ γ : Uid → Uid, Function.Injective γ → (∀ i < h₁.nextUid, γ i = i) → Shows cfg.speeds (x.2.1.rename γ) x.1.1 k S T := by
  have Rl := setLevels_relevelled h₁ roots 0
  have P := q2.relevel p1
  obtain ⟨speeds, hS, hscale⟩ : ∃ speeds, Sound speeds (setLevels h₁ roots 0) roots ∧
      ∀ (g : Heap ℚ) (rs : List Addr) (supply T : Addr → ℚ) (f : Addr → Addr → ℚ),
      Carries speeds g rs supply T f → Forced speeds g rs supply T f →
      Carries cfg.speeds g rs (fun a' => supply a' / (k : ℚ)) (fun a' => T a' / (k : ℚ)) (fun a' b => f a' b / (k : ℚ)) ∧
      Forced cfg.speeds g rs (fun a' => supply a' / (k : ℚ)) (fun a' => T a' / (k : ℚ)) (fun a' b => f a' b / (k : ℚ)) := by
    rcases hi with hi | hE
    · rw [hi]
      simp only [Nat.cast_one, div_one]
      exact ⟨_, P, fun _ _ _ _ _ w w' => ⟨w, w'⟩⟩
    · exact ⟨[], P.even (Rl.even hE), fun _ _ _ _ _ w w' => ⟨w.scale _ _, w'.scale _ (by linarith)⟩⟩
  have hW' := Rl.within hW
  obtain ⟨h₂, w1, w3, w2, w⟩ := hS.expanded (Rl.roomy hR) hW'
  have done := w2 (Rl.light hL)
  obtain ⟨-, F, f, w4, w6, -, w5, w8⟩ := w done
  have Lb := w8 (Rl.tidy hTd)
  obtain ⟨U, u1, u2, u3, u4⟩ := P.expanded_region hW' w1
  obtain ⟨v4, v6⟩ := hscale _ _ _ _ _ w4 w6
  have hval : ∀ x, ((setLevels h₁ roots 0).get x).value = (h₁.get x).value := Rl.value
  have hrc : ∀ x, Reach (setLevels h₁ roots 0) roots x ↔ Reach h₁ roots x := fun x => Rl.reach
  have again := setLevels_again h₁ roots 0
  have hids : ∀ b, Reach (setLevels h₁ roots 0) roots b → ((setLevels h₁ roots 0).get b).id < h₁.nextUid := fun b hb => by
    have := P.region.fresh b hb
    rw [Rl.nextUid] at this
    exact this
  obtain ⟨shown₁, order₁, a1, a2, -, -, a3⟩ : ∃ shown order : List Addr, shown.Nodup ∧ (∀ b, b ∈ shown ↔ Reach h₁ roots b) ∧ True ∧ True ∧
      Settles (fun fuel => saveNodes fuel h₁ roots) (.ok (setLevels h₁ roots 0,
        drawing (setLevels h₁ roots 0) shown, order.map (nodeData (setLevels h₁ roots 0)))) := by
    cases hrs : roots with
    | nil => exact absurd hrs p2
    | cons r rs =>
      obtain ⟨shown, order, k1, k2, -, -, k3⟩ := saveNodes_settles q2.region r rs (fun r' hr' => .root (hrs ▸ hr'))
      exact ⟨shown, order, k1, k2, trivial, trivial, k3⟩
  obtain ⟨shown₂, order₂, b1, b2, -, -, b3⟩ : ∃ shown order : List Addr, shown.Nodup ∧ (∀ b, b ∈ shown ↔ Reach h₂ roots b) ∧ True ∧ True ∧
      Settles (fun fuel => saveNodes fuel h₂ roots) (.ok (setLevels h₂ roots 0,
        drawing (setLevels h₂ roots 0) shown, order.map (nodeData (setLevels h₂ roots 0)))) := by
    cases hrs : roots with
    | nil => exact absurd hrs p2
    | cons r rs =>
      obtain ⟨shown, order, k1, k2, -, -, k3⟩ := saveNodes_settles u1 r rs (fun r' hr' => u2 r' (.root (hrs ▸ hr')))
      exact ⟨shown, order, k1, k2, trivial, trivial, k3⟩
  refine ⟨h₂, ((drawing (setLevels h₁ roots 0) shown₁, order₁.map (nodeData (setLevels h₁ roots 0))),
    (drawing (setLevels h₂ roots 0) shown₂, order₂.map (nodeData (setLevels h₂ roots 0)))), ?_, w1, fun x hx => ?_, fun γ hγ hfix => ?_⟩
  · obtain ⟨F1, hF1⟩ := a3
    obtain ⟨F2, hF2⟩ := w1
    obtain ⟨F3, hF3⟩ := b3
    refine ⟨max F1 (max F2 F3), fun fuel hf => ?_⟩
    simp only [max_le_iff] at hf
    obtain ⟨f1, f2, f3⟩ := hf
    have g1 := hF1 fuel f1
    have g2 := hF2 fuel f2
    have g3 := hF3 fuel f3
    simp only at g1 g2 g3
    unfold saveTree
    simp only [bind, Except.bind, g1, g2, g3, pure, Except.pure]
  · have hx' := (hrc x).2 hx
    exact ⟨by rw [Lb.kept x hx', hval], by rw [u4 x hx', Rl.id]⟩
  · have hk0 : (0 : ℚ) < k := by linarith
    have Lk : Labels (setLevels h₁ roots 0) h₂ roots k (fun a' => F a' / (k : ℚ)) := by
      refine ⟨fun x hx hm => ?_, Lb.kept, fun x hx es V he hV => ?_⟩
      · have := Lb.plain x hx hm
        simp only [Nat.cast_one, div_one] at this
        show F x / _ = _
        rw [this]
      · have := Lb.worked x hx es V he hV
        simp only [Nat.cast_one, div_one] at this
        show F x / _ = _
        rw [this]
    have := shows_of (γ := γ) (order₁ := shown₁) (order := shown₂) (n := h₁.nextUid) (S := S) (Tl := T) (sources := sources) P u1 u2 u4 hids hγ hfix
      a1 (fun b => (a2 b).trans (hrc b).symm) b1 b2 v4 v6
      (fun x hx => by show (if x ∈ roots then _ else 0) / (k : ℚ) = 0; rw [if_neg hx, zero_div]) ?_
      (fun r hr => by show (if r ∈ roots then _ else 0) / (k : ℚ) = _; rw [if_pos hr]) q4
      (fun x => by rw [q5, w3, hrc, Rl.children]) ?_ ?_ Lk
    · rw [again] at this
      exact this
    · refine (List.Perm.of_eq (List.map_congr_left fun x hx => ?_)).trans hS'
      show (if x ∈ roots then ((setLevels h₁ roots 0).get x).value else 0) / (k : ℚ) = _
      rw [if_pos hx, hval]
    · refine (List.Perm.of_eq (List.map_congr_left fun x hx => ?_)).trans hT'
      have := (q5 x).1 hx
      show F x / (k : ℚ) = _
      rw [w5 x ((hrc x).2 this.1) (by rw [Rl.children]; exact this.2), hval]
    · intro x hx hc
      have := (w3 x).1 ⟨hx, hc⟩
      show F x / (k : ℚ) = _
      rw [w5 x this.1 this.2, Lb.kept x this.1]

/-- `Tree.save` leaves alone what is outside of the network. -/
theorem saveTree_frame {cfg : Config} {h₁ h₂ : Heap ℚ} {roots : List Addr} (H : Region h₁ (Reach h₁ roots))
    (w : Settles (fun fuel => expandRoots cfg fuel (setLevels h₁ roots 0) roots) (.ok h₂)) :
    h₁.next ≤ (setLevels h₂ roots 0).next ∧ h₁.nextUid ≤ (setLevels h₂ roots 0).nextUid ∧
      ∀ a, a < h₁.next → ¬ Reach h₁ roots a → (setLevels h₂ roots 0).get a = h₁.get a := by
  have S := setLevels_same h₁ roots 0
  obtain ⟨r, e1, e2⟩ := expandRoots_frame cfg (S.region H) roots fun r hr => .root hr
  have := w.unique e2
  subst this
  obtain ⟨f1, f2, f3, -⟩ := (Ends.iff.1 e1).2 _ rfl
  rw [S.next] at f1
  rw [S.nextUid] at f2
  refine ⟨?_, ?_, fun a ha hU => ?_⟩
  · rw [(setLevels_same h₂ roots 0).next]; exact f1
  · rw [(setLevels_same h₂ roots 0).nextUid]; exact f2
  · have hr : a ∉ roots := fun q => hU (.root q)
    rw [setLevels_get, if_neg hr, f3 a (by rw [S.next]; exact ha) hU, setLevels_get, if_neg hr]

/-- `Tree.save` leaves alone the parts of the network in which nothing is pending. -/
theorem saveTree_calm {cfg : Config} {h₁ h₂ : Heap ℚ} {roots : List Addr} {Q R E : Addr → Prop} (H : Region h₁ (Reach h₁ roots))
    (w : Settles (fun fuel => expandRoots cfg fuel (setLevels h₁ roots 0) roots) (.ok h₂)) (St : Still Q E h₁ (Reach h₁ roots))
    (C : Calm Q R E h₁ (Reach h₁ roots) h₁) (hq : ∀ r ∈ roots, ¬ Q r) (hz : ∀ a, Q a → (h₁.get a).levelsToAdd = 0) :
    (∀ a, Q a → (setLevels h₂ roots 0).get a =
        { h₁.get a with level := ((setLevels h₂ roots 0).get a).level, parents := ((setLevels h₂ roots 0).get a).parents }) ∧
      ∀ a, Q a → ¬ R a → ((setLevels h₂ roots 0).get a).parents = (h₁.get a).parents := by
  have S := setLevels_relevelled h₁ roots 0
  have hr : ∀ a, Q a → a ∉ roots := fun a ha hm => hq a hm ha
  have C' : Calm Q R E h₁ (Reach h₁ roots) (setLevels h₁ roots 0) := by
    have wi : ∀ {x}, Within h₁ (Reach h₁ roots) (setLevels h₁ roots 0) x ↔ Within h₁ (Reach h₁ roots) h₁ x := fun {x} => by
      unfold Within
      rw [S.next]
    refine ⟨S.next.ge, fun a ha => ?_, fun a ha hr => ?_, fun a ha hq => ?_, fun a ha hq => ?_, fun a ha hq => ?_⟩
    · rw [setLevels_get, if_neg (hr a ha)]
    · rw [S.parents]
    · rw [S.parents]; exact fun p hp => ⟨wi.2 (C.up a (wi.1 ha) hq p hp).1, (C.up a (wi.1 ha) hq p hp).2⟩
    · rw [S.children]; exact fun p hp => ⟨wi.2 (C.down a (wi.1 ha) hq p hp).1, (C.down a (wi.1 ha) hq p hp).2⟩
    · rw [S.expands]; exact C.extract a (wi.1 ha) hq
  obtain ⟨k1, k2⟩ := calm_expandRoots St cfg C' ((setLevels_same h₁ roots 0).region H) roots (fun r hr => .inl (.root hr)) (fun r hr => .root hr) w hz
  have e : ∀ a, Q a → (setLevels h₂ roots 0).get a = h₂.get a := fun a ha => by rw [setLevels_get, if_neg (hr a ha)]
  exact ⟨fun a ha => by rw [e a ha]; exact k1 a ha, fun a ha hra => by rw [e a ha]; exact k2 a ha hra⟩

/-- The heap that `Tree.save` leaves. -/
theorem saveTree_expands {cfg : Config} {h₁ : Heap ℚ} {roots : List Addr} (H : Region h₁ (Reach h₁ roots)) {x : Heap ℚ × Saved ℚ × Saved ℚ}
    (w : Settles (fun fuel => saveTree cfg fuel h₁ roots) (.ok x)) :
    ∃ h₂, Settles (fun fuel => expandRoots cfg fuel (setLevels h₁ roots 0) roots) (.ok h₂) ∧ x.1 = setLevels h₂ roots 0 := by
  have S := setLevels_same h₁ roots 0
  obtain ⟨r, -, e2⟩ := expandRoots_frame cfg (S.region H) roots fun r hr => .root hr
  obtain ⟨F, hF⟩ := w
  obtain ⟨G, hG⟩ := e2
  have a := hF (max F G) (le_max_left _ _)
  have b := hG (max F G) (le_max_right _ _)
  simp only at a b
  have key : ∀ (h : Heap ℚ) (y : Heap ℚ × Saved ℚ), saveNodes (max F G) h roots = .ok y → y.1 = setLevels h roots 0 := by
    intro h y e
    unfold saveNodes at e
    cases roots with
    | nil => cases e
    | cons r rs =>
      simp only at e
      cases e1 : populate (max F G) (setLevels h (r :: rs) 0) (r :: rs) with
      | error er => rw [e1] at e; cases e
      | ok p =>
        cases e2 : wrap (max F G) (setLevels h (r :: rs) 0) r with
        | error er => rw [e1] at e; simp only [bind, Except.bind] at e; rw [e2] at e; cases e
        | ok q =>
          rw [e1] at e
          simp only [bind, Except.bind] at e
          rw [e2] at e
          cases e
          rfl
  unfold saveTree at a
  cases e1 : saveNodes (max F G) h₁ roots with
  | error er => rw [e1] at a; cases a
  | ok y =>
    rw [e1] at a
    simp only [bind, Except.bind] at a
    rw [key _ _ e1, b] at a
    cases r with
    | error er => cases a
    | ok h₂ =>
      simp only at a
      cases e3 : saveNodes (max F G) h₂ roots with
      | error er => rw [e3] at a; cases a
      | ok z =>
        rw [e3] at a
        cases a
        exact ⟨h₂, ⟨G, hG⟩, key _ _ e3⟩

end Satis.Graph
