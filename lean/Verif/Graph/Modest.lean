import Verif.Graph.PlainSpec
import Verif.Graph.TogetherFacts
/-!
# Networks with few belts per node, and networks that split evenly

A simple condition under which expansion loses no belts and leaves nothing pending, and one under which the unit of the flows does not matter.
-/

namespace Satis.Graph
open Satis Satis.Spec

/-- No split is pending, at most three belts lead back to a node, and a node below an extraction gets at most three belts by expansion. -/
structure Modest (h : Heap ℚ) (roots : List Addr) : Prop where
  unsplit : ∀ a, Reach h roots a → ∀ c, .split c ∉ (h.get a).expands
  back : ∀ a, Reach h roots a → ∀ es ls, (h.get a).expands = es ∨ (h.get a).expands = .merge 3 :: es → Back (h.get a).value es ls → ls.length ≤ 3
  forth : ∀ a, Reach h roots a → ∀ v c : Nat, (h.get a).value = v → .extract c ∈ (h.get a).expands → ∀ z ∈ (h.get a).children,
    ∀ (k : Nat) (ls ls' : List (Nat × Nat)), (h.get z).value = k → Forth v c k ls → Back (h.get z).value (h.get z).expands ls' →
    ls.length + ls'.length ≤ 3

/-- No node needs a conveyor of a given speed: one with two children has an extraction pending, or shares evenly. -/
def Even (h : Heap ℚ) (roots : List Addr) : Prop :=
  ∀ a, Reach h roots a → (∀ c, .extract c ∉ (h.get a).expands) → ∀ x y, (h.get a).children = [x, y] → (h.get x).value = (h.get y).value

/-- If only the last three of more than `t` belts may come from the same machine, then merging does not separate them. -/
theorem parted_modest {α β : Type} {t : Nat} {ps : List α} {qs : List β} (hp : ps.Nodup) (hq : qs.length ≤ 3) :
    Parted t (ps.map Sum.inl ++ qs.map Sum.inr) := by
  unfold Parted
  rw [List.disjoint_left]
  intro x hx hx'
  by_cases ht : (ps.map Sum.inl ++ qs.map (Sum.inr : β → α ⊕ β)).length ≤ t
  · rw [untouched, if_pos ht, List.drop_length] at hx'
    exact absurd hx' List.not_mem_nil
  have hu : untouched t (ps.map Sum.inl ++ qs.map (Sum.inr : β → α ⊕ β)).length ≤ (ps.map (Sum.inl : α → α ⊕ β)).length := by
    unfold untouched
    rw [if_neg ht]
    simp only [List.length_append, List.length_map] at ht ⊢
    omega
  rw [List.take_append_of_le_length hu] at hx
  rw [List.drop_append_of_le_length hu, List.mem_append] at hx'
  have hn : (ps.map (Sum.inl : α → α ⊕ β)).Nodup := hp.map Sum.inl_injective
  rcases hx' with hx' | hx'
  · exact List.disjoint_take_drop hn le_rfl hx hx'
  · obtain ⟨y, -, rfl⟩ := List.mem_map.1 hx'
    simpa using List.mem_of_mem_take hx

theorem Modest.light {h : Heap ℚ} {roots : List Addr} (M : Modest h roots) : Light h roots :=
  fun a ha v c hv hc z hz hk ls ls' hf hb => .inl (M.forth a ha v c hv hc z hz c ls ls' hk hf hb)

theorem Modest.tidy {h : Heap ℚ} {roots : List Addr} (M : Modest h roots) : Tidy h roots :=
  ⟨fun a ha _ es ls he hb => together_few (M.back a ha es ls he hb), fun a ha v c hv hc z hz k ls ls' hk hf hb => together_few (by
    have := M.forth a ha v c hv hc z hz k ls ls' hk hf hb
    simpa using this)⟩

theorem Modest.roomy {speeds : List Nat} {h : Heap ℚ} {roots : List Addr} (P : Sound speeds h roots) (M : Modest h roots) : Roomy h roots := by
  refine ⟨M.unsplit, fun a ha _ es ls he hb => parted_modest ?_ (M.back a ha es ls he hb), fun a ha v c hv hc z hz k ls ls' hk hf hb => ?_⟩
  · by_cases hr : a ∈ roots
    · rw [P.top a hr]; exact List.nodup_nil
    · rcases P.merge a ha hr with ⟨p, hp, -⟩ | ⟨hp, -⟩
      · rw [hp]; exact List.nodup_singleton p
      · exact hp
  · have w := M.forth a ha v c hv hc z hz k ls ls' hk hf hb
    unfold Parted untouched
    rw [if_pos (by simpa using w), List.drop_length]
    exact List.disjoint_nil_right _

theorem Sound.even {speeds : List Nat} {h : Heap ℚ} {roots : List Addr} (P : Sound speeds h roots) (E : Even h roots) : Sound [] h roots := by
  refine ⟨P.region, P.levels, P.positive, P.down, P.top, P.links, P.tree, P.merge, fun a ha => ?_⟩
  obtain ⟨es, J, he⟩ := P.jobs a ha
  refine ⟨es, J.imp_left fun J => ?_, he⟩
  cases J with
  | leaf w => exact .leaf w
  | pass c w => exact .pass c w
  | few w w' => exact .few w w'
  | belt x y w w' _ =>
    have hxy := E a ha (fun c hc => by rw [he] at hc; split at hc <;> simp at hc) x y w
    refine .few (.inl (by rw [w]; rfl)) fun c hc => ?_
    rw [w] at hc ⊢
    simp only [List.mem_cons, List.not_mem_nil, or_false] at hc
    have : (([x, y] : List Addr).length : ℚ) = 2 := by norm_num
    rw [this]
    rcases hc with rfl | rfl <;> linarith
  | divide d w => exact .divide d w
  | extract v c x y w => exact .extract v c x y w

theorem sum_map_div (l : List Addr) (g : Addr → ℚ) (k : ℚ) : (l.map g).sum / k = (l.map fun x => g x / k).sum := by
  induction l with
  | nil => simp
  | cons x l ih => simp only [List.map_cons, List.sum_cons, add_div, ih]

theorem sum_map_mul (l : List Addr) (g : Addr → ℚ) (k : ℚ) : (l.map g).sum * k = (l.map fun x => g x * k).sum := by
  induction l with
  | nil => simp
  | cons x l ih => simp only [List.map_cons, List.sum_cons, add_mul, ih]

/-- Where nothing but the number of belts decides about the shares, flows can be given in any unit. -/
theorem Carries.scale {h : Heap ℚ} {roots : List Addr} {supply T : Addr → ℚ} {f : Addr → Addr → ℚ} (C : Carries [] h roots supply T f) (speeds : List Nat)
    (k : ℚ) : Carries speeds h roots (fun a => supply a / k) (fun a => T a / k) (fun a b => f a b / k) := by
  refine ⟨C.closed, C.links, C.inputs, fun a ha => ?_, fun a ha hc => ?_⟩
  · rw [C.intake a ha, add_div, sum_map_div]
  · rcases C.share a ha hc with ⟨w1, w2⟩ | ⟨x, y, -, -, -, s, hs, -⟩
    · refine .inl ⟨w1, fun c hc => ?_⟩
      rw [w2 c hc, div_right_comm]
    · simp at hs

theorem Forced.scale {h : Heap ℚ} {roots : List Addr} {supply T : Addr → ℚ} {f : Addr → Addr → ℚ} (F : Forced [] h roots supply T f) (speeds : List Nat)
    {k : ℚ} (hk : k ≠ 0) : Forced speeds h roots (fun a => supply a / k) (fun a => T a / k) (fun a b => f a b / k) := by
  obtain ⟨set, h1, h2, h3⟩ := F
  have hn : ∀ a x s, set a ≠ some (x, s) := fun a x s w => by simpa using h1 a x s w
  refine ⟨set, fun a x s w => absurd w (hn a x s), ⟨fun a ha => ?_, fun a ha hs c hc => ?_, fun a x s _ w => absurd w (hn a x s)⟩, fun T' f' O a ha => ?_⟩
  · rw [h2.intake a ha, add_div, sum_map_div]
  · rw [h2.even a ha hs c hc, div_right_comm]
  · have := h3 (fun a => T' a * k) (fun a b => f' a b * k) ⟨fun a ha => ?_, fun a ha hs c hc => ?_, fun a x s _ w => absurd w (hn a x s)⟩ a ha
    · refine ⟨by show _ = T a / k; rw [← this.1, mul_div_cancel_right₀ _ hk], fun c hc => ?_⟩
      show _ = f a c / k
      rw [← this.2 c hc, mul_div_cancel_right₀ _ hk]
    · rw [O.intake a ha, add_mul, div_mul_cancel₀ _ hk, sum_map_mul]
    · rw [O.even a ha hs c hc, div_mul_eq_mul_div]

end Satis.Graph
