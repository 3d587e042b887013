import Verif.Graph.Mount
/-!
# The pictures of all solutions
-/

namespace Satis.Graph
open Satis Satis.Cost Satis.Spec

/-- The solution `t`, with the nodes `X`, could be saved in the heap `h`, alone, and would show sources `S` and targets `T`. -/
structure Fit (cfg : Config) (h : Heap ℚ) (tops : List Addr) (X B : Addr → Prop) (k : Nat) (S T : List ℚ) (t : TreeObj ℚ) (h₁ : Heap ℚ) (t₁ : TreeObj ℚ) : Prop where
  mount : Mount h tops X B t h₁ t₁
  sound : Sound cfg.speeds h₁ t₁.roots
  levels : ∀ r ∈ t₁.roots, ∃ l, (h₁.get r).level = some l ∧ 0 ≤ l
  unit : k = 1 ∨ Even h₁ t₁.roots
  roomy : Roomy h₁ t₁.roots
  light : Light h₁ t₁.roots
  tidy : Tidy h₁ t₁.roots
  limit : WithinLimit cfg h₁ (Reach h₁ t₁.roots)
  distinct : t₁.sources.Nodup
  sources : ∀ x, x ∈ t₁.sources ↔ Reach h₁ t₁.roots x ∧ (h₁.get x).children = []
  supply : (t₁.roots.map fun x => (h₁.get x).value / (k : ℚ)).Perm S
  demand : (t₁.sources.map fun x => (h₁.get x).value / (k : ℚ)).Perm T

variable {cfg : Config} {h g : Heap ℚ} {tops : List Addr} {X B : Addr → Prop} {k : Nat} {S T : List ℚ} {t : TreeObj ℚ} {h₁ : Heap ℚ} {t₁ : TreeObj ℚ}

/-- One solution, in a heap in which others have been saved. -/
theorem Fit.save (F : Fit cfg h tops X B k S T t h₁ t₁) (hk : (1 : ℚ) ≤ k) (hq : Quiet h tops B) (K : Resting tops B h g) (hX : ∀ a, X a → g.get a = h.get a) :
    ∃ g₁ g₃ x, Settles (fun fuel => t.attachLeaves fuel g tops) (.ok (g₁, t₁)) ∧ Settles (fun fuel => saveTree cfg fuel g₁ t₁.roots) (.ok (g₃, x)) ∧
      Resting tops B h g₃ ∧ (∀ a, a < h.next → ¬ X a → ¬ B a → g₃.get a = g.get a) ∧ Shows cfg.speeds x.2.1 x.1.1 k S T := by
  obtain ⟨g₁, b1, b2, b3, b4, b5⟩ := F.mount.again (cfg := cfg) hq K hX
  have C : Copies h₁ g₁ t₁.roots := ⟨b2, b3, fun a ha => ⟨by unfold Twin; rw [b4 a ha], by rw [b4 a ha]⟩⟩
  have hP := C.sound F.sound
  obtain ⟨g₂, x, s1, s2, s3, s4⟩ := saveTree_shows (k := k) (S := S) (T := T) (sources := t₁.sources) hP (fun r hr => by rw [b4 r (.root hr)]; exact F.levels r hr)
    F.mount.nonempty hk (F.unit.imp_right C.even) (C.roomy F.sound.region F.roomy) (C.light F.light) (C.tidy F.sound.region F.tidy) (C.within F.limit) F.distinct
    (fun y => by
      rw [F.sources, C.reach]
      refine and_congr_right fun hy => ?_
      rw [(C.node y hy).1.children])
    ((List.Perm.of_eq (List.map_congr_left fun y hy => by rw [(C.node y (.root hy)).1.value])).trans F.supply)
    ((List.Perm.of_eq (List.map_congr_left fun y hy => by rw [(C.node y ((F.sources y).1 hy).1).1.value])).trans F.demand)
  obtain ⟨k1, k2⟩ := b5 _ s1
  refine ⟨g₁, _, x, b1, s1, k1, k2, ?_⟩
  have := s4 _root_.id (fun _ _ e => e) fun _ _ => rfl
  rwa [Drawing.rename_id] at this

/-- All solutions. -/
theorem concludeAll_fit (hk : (1 : ℚ) ≤ k) (hq : Quiet h tops B) (X : TreeObj ℚ → Addr → Prop) : ∀ (ts : List (TreeObj ℚ)) (g : Heap ℚ), (∀ t ∈ ts, ∃ h₁ t₁, Fit cfg h tops (X t) B k S T t h₁ t₁) →
    ts.Pairwise (fun t t' => ∀ a, X t a → ¬ X t' a) → Resting tops B h g → (∀ t ∈ ts, ∀ a, X t a → g.get a = h.get a) →
    ∃ g' l, Settles (fun fuel => concludeAll cfg fuel tops g ts) (.ok (g', l)) ∧ l.length = ts.length ∧ ∀ x ∈ l, Shows cfg.speeds x.2.1 x.1.1 k S T := by
  intro ts
  induction ts with
  | nil => exact fun g _ _ _ _ => ⟨g, [], ⟨0, fun _ _ => rfl⟩, rfl, by simp⟩
  | cons t ts ih =>
    intro g hF hd K hX
    obtain ⟨h₁, t₁, F⟩ := hF t (by simp)
    obtain ⟨g₁, g₃, x, s1, s2, s3, s4, s5⟩ := F.save hk hq K (hX t (by simp))
    rw [List.pairwise_cons] at hd
    obtain ⟨g', l, w1, w2, w3⟩ := ih g₃ (fun t' ht' => hF t' (List.mem_cons_of_mem _ ht')) hd.2 s3 fun t' ht' a ha => by
      obtain ⟨h₁', t₁', F'⟩ := hF t' (List.mem_cons_of_mem _ ht')
      rw [s4 a (F'.mount.inside a ha) (fun w => hd.1 t' ht' a w ha) (F'.mount.ready.disjoint a ha)]
      exact hX t' (List.mem_cons_of_mem _ ht') a ha
    refine ⟨g', x :: l, ?_, by rw [List.length_cons, List.length_cons, w2], fun y hy => ?_⟩
    · exact concludeAll_cons (k := fun _ => .ok (g', l)) s1 s2 fun x hx => by cases hx; exact w1
    · rcases List.mem_cons.1 hy with rfl | hy
      · exact s5
      · exact w3 y hy

end Satis.Graph
