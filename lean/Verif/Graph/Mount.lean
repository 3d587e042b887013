import Verif.Graph.Conclude
import Verif.Graph.PictureSave
import Verif.Graph.RenameSave
/-!
# Saving all solutions, one after the other

The grouped targets are attached to every solution in turn. If nothing is pending inside of the groups then the solutions that were saved before do not matter.
-/

namespace Satis.Graph
open Satis Satis.Cost Satis.Spec

/-- The solution `t`, with the nodes `X`, and the groups below `tops`, with the nodes `B`: in the heap `h` the groups can be attached to it. -/
structure Mount (h : Heap ℚ) (tops : List Addr) (X B : Addr → Prop) (t : TreeObj ℚ) (h₁ : Heap ℚ) (t₁ : TreeObj ℚ) : Prop where
  ready : Ready h t tops X B
  attach : Settles (fun fuel => t.attachLeaves fuel h tops) (.ok (h₁, t₁))
  next : h₁.next = h.next
  nextUid : h₁.nextUid = h.nextUid
  nodes : ∀ a, Reach h₁ t₁.roots a ↔ X a ∨ B a
  inside : ∀ a, X a → a < h.next
  roots : ∀ r ∈ t₁.roots, X r
  plain : ∀ a ∈ t.sources, ∀ x, .extract x ∉ (h.get a).expands
  region : Region h₁ (Reach h₁ t₁.roots)
  levelled : ∀ a, Reach h₁ t₁.roots a → (h₁.get a).level ≠ none
  nonempty : t₁.roots ≠ []

/-- Nothing is pending in the nodes `B`. -/
structure Quiet (h : Heap ℚ) (tops : List Addr) (B : Addr → Prop) : Prop where
  expands : ∀ a, B a → (h.get a).expands = []
  levels : ∀ a, B a → (h.get a).levelsToAdd = 0
  tops : ∀ a ∈ tops, a < h.next

variable {cfg : Config} {h g : Heap ℚ} {tops : List Addr} {X B : Addr → Prop} {t : TreeObj ℚ} {h₁ : Heap ℚ} {t₁ : TreeObj ℚ}

/-- Attaching in a heap in which other solutions have been saved: the same network as in `h` is made. Saving it leaves the groups alone again. -/
theorem Mount.again (F : Mount h tops X B t h₁ t₁) (hq : Quiet h tops B) (K : Resting tops B h g) (hX : ∀ a, X a → g.get a = h.get a) :
    ∃ g₁, Settles (fun fuel => t.attachLeaves fuel g tops) (.ok (g₁, t₁)) ∧ h₁.next ≤ g₁.next ∧ h₁.nextUid ≤ g₁.nextUid ∧
      (∀ a, Reach h₁ t₁.roots a → g₁.get a = h₁.get a) ∧
      ∀ x, Settles (fun fuel => saveTree cfg fuel g₁ t₁.roots) (.ok x) →
        Resting tops B h x.1 ∧ ∀ a, a < h.next → ¬ X a → ¬ B a → x.1.get a = g.get a := by
  obtain ⟨n, hn⟩ := F.attach
  have D := F.ready
  obtain ⟨g₁, a1, a2, a3, a4, a5, a6, a7, a8⟩ := attachLeaves_alike D K hX (hn n le_rfl)
  have hrest := K.trans a3
  have heq : ∀ a, Reach h₁ t₁.roots a → g₁.get a = h₁.get a := fun a ha =>
    have hw := a2 a ((F.nodes a).1 ha)
    hw.1.eq (hw.2.resolve_right (F.levelled a ha))
  have hnext : h₁.next ≤ g₁.next := by rw [F.next]; exact hrest.next
  have huid : h₁.nextUid ≤ g₁.nextUid := by rw [F.nextUid]; exact hrest.nextUid
  have hreach : ∀ a, Reach g₁ t₁.roots a ↔ Reach h₁ t₁.roots a := by
    have C : Copies h₁ g₁ t₁.roots := ⟨hnext, huid, fun a ha => ⟨(a2 a ((F.nodes a).1 ha)).1, by rw [heq a ha]⟩⟩
    exact fun a => C.reach
  have hP : Region g₁ (Reach g₁ t₁.roots) := by
    have e : Reach g₁ t₁.roots = Reach h₁ t₁.roots := funext fun a => propext (hreach a)
    rw [e]
    exact F.region.frame hnext huid heq
  have hnodes : ∀ a, Reach g₁ t₁.roots a ↔ X a ∨ B a := fun a => (hreach a).trans (F.nodes a)
  refine ⟨g₁, (attachLeaves_stable g t tops).settles (by simp) a1, hnext, huid, heq, fun x hx => ?_⟩
  obtain ⟨g₂, s2, s1⟩ := saveTree_expands hP hx
  obtain ⟨f1, f2, f3⟩ := saveTree_frame hP s2
  -- the groups
  have hkid : ∀ a, X a → ∀ c ∈ (g₁.get a).children, B c → a ∈ t.sources ∧ ∃ r ∈ tops, c ∈ (h.get r).children := fun a ha c hc hb => by
    rw [(a2 a (.inl ha)).1.children] at hc
    have hs : a ∈ t.sources := by
      by_contra hs
      rw [a7 a ha hs] at hc
      exact D.disjoint c ((D.closed a ha).1 c hc) hb
    refine ⟨hs, ((a8 a hs).1 c hc).resolve_left fun w => D.disjoint c ((D.closed a ha).1 c w) hb⟩
  have St : Still B (fun a => X a ∧ ∃ c, .extract c ∈ (g₁.get a).expands) g₁ (Reach g₁ t₁.roots) := by
    refine ⟨hP.inside, fun a ha => (hnodes a).2 (.inr ha), fun a ha c hc => ?_, fun a ha => ?_, fun a ha => (hnodes a).2 (.inl ha.1)⟩
    · rw [hrest.children ha] at hc
      exact D.below a ha c hc
    · rw [hrest.expands ha]
      exact hq.expands a ha
  have Cm : Calm B (fun a => ∃ r ∈ tops, a ∈ (h.get r).children) (fun a => X a ∧ ∃ c, .extract c ∈ (g₁.get a).expands) g₁ (Reach g₁ t₁.roots) g₁ := by
    have wi : ∀ {y}, Within g₁ (Reach g₁ t₁.roots) g₁ y → Reach g₁ t₁.roots y := fun {y} w => w.resolve_right fun w => absurd w.2 (not_lt.2 w.1)
    have hx : ∀ {y}, Within g₁ (Reach g₁ t₁.roots) g₁ y → ¬ B y → X y := fun {y} w hb => ((hnodes y).1 (wi w)).resolve_right hb
    refine ⟨le_rfl, fun a ha => rfl, fun _ _ _ => rfl, fun a ha hb p hp => ?_, fun a ha hb c hc => ⟨.inl ((wi ha).child hc), fun w => ?_⟩,
      fun a ha hb c hc => ⟨hx ha hb, c, hc⟩⟩
    · have hxa := hx ha hb
      rw [(a2 a (.inl hxa)).1.parents, a6 a hxa] at hp
      have := (D.closed a hxa).2 p hp
      exact ⟨.inl ((hnodes p).2 (.inl this)), D.disjoint p this⟩
    · obtain ⟨w1, w2⟩ := hkid a (hx ha hb) c hc w
      refine ⟨w2, ?_⟩
      rintro ⟨-, y, hy⟩
      rw [(a2 a (.inl (hx ha hb))).1.expands] at hy
      exact F.plain a w1 y ((a8 a w1).2 y hy)
  obtain ⟨c1, c2⟩ := saveTree_calm hP s2 St Cm (fun r hr hb => D.disjoint r (F.roots r hr) hb) fun a ha => by
    rw [hrest.keep a ha]
    exact hq.levels a ha
  have hg : ∀ a, ¬ X a → ¬ B a → ¬ Reach g₁ t₁.roots a := fun a h1 h2 w => ((hnodes a).1 w).elim h1 h2
  rw [s1]
  refine ⟨hrest.trans ⟨f1, f2, fun a ha => ?_, c1, fun a ha hr => ?_⟩, fun a ha h1 h2 => ?_⟩
  · exact f3 a (lt_of_lt_of_le (hq.tops a ha) hrest.next) (hg a (D.topX a ha) (D.topB a ha))
  · refine c2 a ha ?_
    rintro ⟨r, hr', hc⟩
    rw [← hrest.top r hr'] at hc
    exact hr r hr' hc
  · rw [f3 a (lt_of_lt_of_le ha hrest.next) (hg a h1 h2), a4 a h1 h2]

theorem concludeAll_cons {t : TreeObj ℚ} {ts : List (TreeObj ℚ)} {r : Py (Heap ℚ × Saved ℚ × Saved ℚ)} {k : Heap ℚ → Py (Heap ℚ × List (Saved ℚ × Saved ℚ))}
    (s1 : Settles (fun fuel => t.attachLeaves fuel h tops) (.ok (h₁, t₁))) (s2 : Settles (fun fuel => saveTree cfg fuel h₁ t₁.roots) r)
    (s3 : ∀ x, r = .ok x → Settles (fun fuel => concludeAll cfg fuel tops x.1 ts) (k x.1)) :
    Settles (fun fuel => concludeAll cfg fuel tops h (t :: ts)) (r >>= fun x => k x.1 >>= fun y => .ok (y.1, x.2 :: y.2)) := by
  have := Settles.bind s1 (g := fun fuel x => saveTree cfg fuel x.1 x.2.roots >>= fun x => concludeAll cfg fuel tops x.1 ts >>= fun y => .ok (y.1, x.2 :: y.2))
    (k := fun _ => r >>= fun x => k x.1 >>= fun y => .ok (y.1, x.2 :: y.2)) fun x hx => by
      cases hx
      exact Settles.bind s2 fun x hx => Settles.bind (s3 x hx) fun y _ => ⟨0, fun _ _ => rfl⟩
  refine this.congr fun n => ?_
  conv_lhs => unfold concludeAll
  rfl

/-- Saving several networks that share the groups only, after others have been saved: it ends; what is written for each, and what goes wrong, is what is
written, and what goes wrong, when it is saved alone in the heap `h`. -/
theorem concludeAll_mounts (hq : Quiet h tops B) (X : TreeObj ℚ → Addr → Prop) : ∀ (ts : List (TreeObj ℚ)) (g : Heap ℚ),
    (∀ t ∈ ts, ∃ h₁ t₁, Mount h tops (X t) B t h₁ t₁) → ts.Pairwise (fun t t' => ∀ a, X t a → ¬ X t' a) → Resting tops B h g →
    (∀ t ∈ ts, ∀ a, X t a → g.get a = h.get a) →
    ∃ r, Settles (fun fuel => concludeAll cfg fuel tops g ts) r ∧ r ≠ .error .diverge ∧
      (∀ h' l, r = .ok (h', l) → List.Forall₂ (fun t x => ∃ h'' y, Settles (fun fuel => concludeAll cfg fuel tops h [t]) (.ok (h'', [y])) ∧ y.1 = x.1 ∧
          SameUpTo h.nextUid y.2 x.2) ts l) ∧
      ∀ er, r = .error er → ∃ t ∈ ts, Settles (fun fuel => concludeAll cfg fuel tops h [t]) (.error er) := by
  intro ts
  induction ts with
  | nil =>
    refine fun g _ _ _ _ => ⟨.ok (g, []), ⟨0, fun _ _ => rfl⟩, by simp, fun h' l e => ?_, fun er e => by cases e⟩
    cases e
    exact .nil
  | cons t ts ih =>
    intro g hF hd K hX
    obtain ⟨h₁, t₁, F⟩ := hF t (by simp)
    rw [List.pairwise_cons] at hd
    obtain ⟨g₁, b1, b2, b3, b4, b5⟩ := F.again (cfg := cfg) hq K (hX t (by simp))
    have hr : ∀ a ∈ t₁.roots, Reach h₁ t₁.roots a := fun a ha => .root ha
    have HG := F.region.frame b2 b3 b4
    obtain ⟨s, hs⟩ := saveNodes_agree F.region t₁.roots F.nonempty hr
    obtain ⟨r₁, q1, q2⟩ := saveTree_settles cfg F.region F.nonempty hr (hs h₁ fun _ _ => rfl) rfl
    obtain ⟨r₂, q3, q4⟩ := saveTree_settles cfg HG F.nonempty hr (hs g₁ b4) rfl
    have S := F.region.sim b2 b3 b4
    have R : Rel (fun x y => SameUpTo h.nextUid x.2.2 y.2.2) r₁ r₂ := by
      obtain ⟨F1, hF1⟩ := q1
      obtain ⟨F2, hF2⟩ := q3
      have := S.saveTree cfg (max F1 F2) (roots := t₁.roots) fun a ha => .inl (hr a ha)
      have e : t₁.roots.map (Ren.addr ⟨Reach h₁ t₁.roots, h₁.next, g₁.next - h₁.next, h₁.nextUid, g₁.nextUid - h₁.nextUid⟩) = t₁.roots := by
        conv_rhs => rw [← List.map_id t₁.roots]
        exact List.map_congr_left fun x hx => by
          unfold Ren.addr
          rw [if_pos (F.region.inside x (hr x hx))]
          rfl
      have e1 := hF1 (max F1 F2) (le_max_left _ _)
      have e2 := hF2 (max F1 F2) (le_max_right _ _)
      simp only at e1 e2
      rw [e, e1, e2] at this
      refine this.mono fun x y hxy => ⟨Ren.uid _, fun a b h => Ren.uid_inj _ h, fun i hi => ?_, hxy.2⟩
      unfold Ren.uid
      rw [if_pos (by rw [F.nextUid]; exact hi)]
    have one := concludeAll_cons (ts := []) (k := fun h => .ok (h, [])) F.attach q1 fun x _ => ⟨0, fun _ _ => rfl⟩
    cases r₁ with
    | error e1 =>
      cases r₂ with
      | ok x => exact R.elim
      | error e2 =>
        have R : e2 = e1 := R
        subst R
        refine ⟨.error e2, concludeAll_cons (k := fun h => .ok (h, [])) b1 q3 (fun x hx => by cases hx), fun w => ?_, (fun h' l w => by cases w), fun er w => ?_⟩
        · cases w
          exact (Ends.iff.1 q4).1 rfl
        · cases w
          exact ⟨t, by simp, one⟩
    | ok x =>
      cases r₂ with
      | error e2 => exact R.elim
      | ok y =>
        have R : SameUpTo h.nextUid x.2.2 y.2.2 := R
        obtain ⟨k1, k2⟩ := b5 y q3
        obtain ⟨r, w1, w2, w3, w4⟩ := ih y.1 (fun t' ht' => hF t' (List.mem_cons_of_mem _ ht')) hd.2 k1 fun t' ht' a ha => by
          obtain ⟨h₁', t₁', F'⟩ := hF t' (List.mem_cons_of_mem _ ht')
          rw [k2 a (F'.inside a ha) (fun w => hd.1 t' ht' a w ha) (F'.ready.disjoint a ha)]
          exact hX t' (List.mem_cons_of_mem _ ht') a ha
        refine ⟨_, concludeAll_cons (k := fun _ => r) b1 q3 (fun x hx => by cases hx; exact w1), ?_, ?_, ?_⟩
        · cases r with
          | error er => exact fun w => w2 w
          | ok z => simp [bind, Except.bind]
        · intro h' l w
          cases r with
          | error er => cases w
          | ok z =>
            cases w
            refine .cons ⟨x.1, x.2, one, ?_, R⟩ (w3 _ _ rfl)
            rw [((Ends.iff.1 q2).2 x rfl).1, ((Ends.iff.1 q4).2 y rfl).1]
        · intro er w
          cases r with
          | ok z => cases w
          | error e' =>
            cases w
            obtain ⟨t', ht', k⟩ := w4 _ rfl
            exact ⟨t', List.mem_cons_of_mem _ ht', k⟩

end Satis.Graph
