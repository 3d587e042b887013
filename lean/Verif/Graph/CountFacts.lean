import Mathlib.Algebra.BigOperators.Group.Finset.Basic
import Mathlib.Algebra.Group.Nat.Even
import Verif.Graph.CountSpec
import Verif.Graph.DeliverStart
import Verif.Graph.TallyStep
/-!
# The machines there will be, node by node
-/

namespace Satis.Graph
open Satis Satis.Cost Satis.Spec

variable {speeds : List Nat} {roots : List Addr} {h : Heap ℚ}

/-- What is pending besides a merge is determined. -/
theorem Job.unique {a : Addr} {es es' : List (Expand ℚ)} {ls : List (Nat × Nat)} (J : Job speeds h a es')
    (h1 : (h.get a).expands = (if 3 < (h.get a).parents.length then [.merge 3] else []) ++ es')
    (he : (h.get a).expands = es ∨ (h.get a).expands = .merge 3 :: es) (hb : Back (h.get a).value es ls) : es = es' := by
  have nm : ∀ e ∈ es', ∀ t, e ≠ .merge t := by
    intro e he' t
    cases J <;> simp_all
  have nm' : ∀ e ∈ es, ∀ t, e ≠ .merge t := by
    intro e he' t
    cases hb <;> simp_all
  rw [h1] at he
  split at he
  · rcases he with he | he
    · exact absurd rfl (nm' (.merge 3) (by rw [← he]; simp) 3)
    · simpa using he.symm
  · rcases he with he | he
    · simpa using he.symm
    · exact absurd rfl (nm (.merge 3) (by rw [List.nil_append] at he; rw [he]; simp) 3)

/-- An extraction is pending, or none. -/
theorem Sound.cutting (S : Sound speeds h roots) (U : ∀ a, Reach h roots a → ∀ c, .split c ∉ (h.get a).expands) {a : Addr} (ha : Reach h roots a) :
    ((h.get a).expands.findSome? cut = none ∧ ∀ c, .extract c ∉ (h.get a).expands) ∨
    ∃ v c : Nat, ∃ x y, ExtractInput h a x y v c ∧ (h.get a).expands.findSome? cut = some (c : ℚ) ∧
      (h.get a).expands = (if 3 < (h.get a).parents.length then [.merge 3] else []) ++ [.extract c] ∧
      ∀ c' : ℚ, .extract c' ∈ (h.get a).expands → c' = c := by
  obtain ⟨es, J, h1, -⟩ := S.jobs' U ha
  have hm : ∀ e ∈ (if 3 < (h.get a).parents.length then [Expand.merge 3] else [] : List (Expand ℚ)), ∃ t, e = .merge t := by
    intro e he
    split at he
    · exact ⟨3, List.mem_singleton.1 he⟩
    · simp at he
  have hc := cut_merge (es := es) (post := []) hm (by simp)
  rw [List.append_nil, ← h1] at hc
  have hx : ∀ c, .extract c ∈ (h.get a).expands → .extract c ∈ es := fun c w => by
    rw [h1] at w
    rcases List.mem_append.1 w with w | w
    · obtain ⟨t, e⟩ := hm _ w
      simp at e
    · exact w
  cases J with
  | extract v c x y q =>
    refine .inr ⟨v, c, x, y, q, by rw [hc]; rfl, h1, fun c' w => ?_⟩
    have := hx c' w
    simpa using this
  | divide d q =>
    left
    refine ⟨by rw [hc]; rfl, fun c w => ?_⟩
    have := hx c w
    simp at this
  | _ =>
    left
    refine ⟨by rw [hc]; rfl, fun c w => ?_⟩
    have := hx c w
    simp at this

/-- The belts that arrive at a node. -/
theorem Sound.arrivals (S : Sound speeds h roots) (U : ∀ a, Reach h roots a → ∀ c, .split c ∉ (h.get a).expands) {a : Addr} (ha : Reach h roots a)
    (n : ℕ) : Arrivals h roots a n ↔ n = (if a ∈ roots then 1 else 0) + comes h a := by
  have hroot := S.root_iff ha
  have pReach : ∀ p ∈ (h.get a).parents, Reach h roots p := fun p hp => S.region.parents a ha p hp
  by_cases hr : a ∈ roots
  · have hp := hroot.1 hr
    have hc : comes h a = 0 := by
      unfold comes
      rw [hp]
      rfl
    rw [if_pos hr, hc]
    refine ⟨fun w => ?_, fun w => by subst w; exact .source hr⟩
    cases w with
    | source => rfl
    | extracted h1 => rw [hp] at h1; simp at h1
    | other h1 => exact absurd hr h1
  · rw [if_neg hr, Nat.zero_add]
    by_cases q : ∃ p ∈ (h.get a).parents, ∃ c, .extract c ∈ (h.get p).expands
    · obtain ⟨p, hp, c', hc'⟩ := q
      have hpr := pReach p hp
      rcases S.cutting U hpr with ⟨-, w⟩ | ⟨v, c, x, y, I, w1, -, w2⟩
      · exact absurd hc' (w c')
      have hap : a ∈ (h.get p).children := by
        rw [← List.count_pos_iff, S.links p a hpr ha, List.count_pos_iff]
        exact hp
      have hpar : (h.get a).parents = [p] := S.tree p hpr (by rw [I.children]; simp) a hap
      obtain ⟨k, hk⟩ : ∃ k : Nat, (h.get a).value = k := by
        rw [I.children] at hap
        have hle := I.lt.le
        simp only [List.mem_cons, List.not_mem_nil, or_false] at hap
        rcases hap with rfl | rfl <;> rcases I.share with ⟨s1, s2⟩ | ⟨s1, s2⟩
        · exact ⟨c, s1⟩
        · exact ⟨v - c, by rw [s2, Nat.cast_sub hle]⟩
        · exact ⟨v - c, by rw [s2, Nat.cast_sub hle]⟩
        · exact ⟨c, s1⟩
      have hcomes : comes h a = (forth v c k).length := by
        unfold comes
        rw [hpar]
        simp only [w1, I.value, hk]
      have hcp := w2 c' hc'
      subst hcp
      rw [hcomes]
      refine ⟨fun w => ?_, fun w => ?_⟩
      · cases w with
        | source h1 => exact absurd h1 hr
        | @extracted p' v' c' k' ls h1 h2 h3 h4 h5 =>
          rw [hpar] at h1
          obtain rfl : p = p' := by simpa using h1
          have hc := w2 _ h2
          rw [I.value] at h3
          rw [hk] at h4
          obtain rfl : v = v' := by exact_mod_cast h3
          obtain rfl : k = k' := by exact_mod_cast h4
          obtain rfl : c' = c := by exact_mod_cast hc
          rw [h5.eq I.pos I.lt]
        | other _ h2 => exact absurd hc' (h2 p hp _)
      · rw [w]
        exact .extracted hpar hc' I.value hk (forth_spec k I.pos I.lt)
    · have none : ∀ p ∈ (h.get a).parents, ∀ c, .extract c ∉ (h.get p).expands := fun p hp c w => q ⟨p, hp, c, w⟩
      have hcomes : comes h a = (h.get a).parents.length := comes_eq fun p hp => by
        rcases S.cutting U (pReach p hp) with w | ⟨v, c, x, y, I, w1, w2, -⟩
        · exact w.1
        · refine absurd ?_ (none p hp c)
          rw [w2]
          simp
      rw [hcomes]
      refine ⟨fun w => ?_, fun w => by rw [w]; exact .other hr none⟩
      cases w with
      | source h1 => exact absurd h1 hr
      | extracted h1 h2 => exact absurd h2 (none _ (by rw [h1]; simp) _)
      | other => rfl

theorem Sound.joins (S : Sound speeds h roots) (U : ∀ a, Reach h roots a → ∀ c, .split c ∉ (h.get a).expands) {a : Addr} (ha : Reach h roots a) :
    Joins h roots a ↔ Even ((if a ∈ roots then 1 else 0) + comes h a) ∧ Odd (loops h a).length := by
  obtain ⟨es, J, h1, h2⟩ := S.jobs' U ha
  constructor
  · rintro ⟨n, es', ls, q1, q2, q3, q4, q5⟩
    have := J.unique h1 q3 q4
    subst this
    rw [(S.arrivals U ha n).1 q1] at q2
    rw [J.back_eq q4, ← h2] at q5
    exact ⟨q2, q5⟩
  · rintro ⟨q1, q2⟩
    refine ⟨_, es, _, (S.arrivals U ha _).2 rfl, q1, ?_, J.back, by rw [← h2]; exact q2⟩
    rw [h1]
    split <;> simp

/-- What the division or extraction of a node makes. -/
def own (h : Heap ℚ) (a : Addr) : ℕ :=
  outlay h a + toOne (1 + (loops h a).length) +
    if ((h.get a).expands.findSome? cut).isSome then ((h.get a).children.map fun z => toOne (comes h z)).sum else 0

open Classical in
/-- The machines there will be are those that are made for the nodes, and those that merge the belts there are. -/
theorem Sound.tally_own (S : Sound speeds h roots) (U : ∀ a, Reach h roots a → ∀ c, .split c ∉ (h.get a).expands) :
    tally roots h (Reach h roots) + joinCount h roots =
      ∑ a ∈ Finset.range h.next with Reach h roots a, (own h a + toOne (h.get a).parents.length) := by
  have hmem : ∀ a, a ∈ (Finset.range h.next).filter (Reach h roots) ↔ Reach h roots a := fun a => by
    rw [Finset.mem_filter, Finset.mem_range]
    exact ⟨fun w => w.2, fun w => ⟨S.region.inside a w, w⟩⟩
  have hj : joinCount h roots = ∑ a ∈ Finset.range h.next with Reach h roots a, if Joins h roots a then 1 else 0 := by
    unfold joinCount
    rw [← Finset.filter_filter, Finset.card_filter]
  rw [hj]
  unfold tally
  rw [← Finset.sum_add_distrib]
  generalize (Finset.range h.next).filter (Reach h roots) = A at hmem ⊢
  have step1 : ∀ a ∈ A, outlay h a + inlay roots h a + (if Joins h roots a then 1 else 0) =
      (outlay h a + toOne (1 + (loops h a).length)) + toOne ((if a ∈ roots then 1 else 0) + comes h a) := fun a ha => by
    have hJ := S.joins U ((hmem a).1 ha)
    rw [Nat.even_iff, Nat.odd_iff] at hJ
    unfold inlay
    generalize (if a ∈ roots then 1 else 0) + comes h a = i at hJ ⊢
    generalize (loops h a).length = b at hJ ⊢
    unfold toOne
    by_cases q : Joins h roots a
    · rw [if_pos q]
      have := hJ.1 q
      omega
    · rw [if_neg q]
      have : ¬ (i % 2 = 0 ∧ b % 2 = 1) := fun w => q (hJ.2 w)
      omega
  have step2 : ∀ z ∈ A, toOne ((if z ∈ roots then 1 else 0) + comes h z) = toOne (h.get z).parents.length +
      ∑ a ∈ A, if ((h.get a).expands.findSome? cut).isSome then (h.get a).children.count z * toOne (comes h z) else 0 := fun z hz => by
    have hzr := (hmem z).1 hz
    have pReach : ∀ p ∈ (h.get z).parents, Reach h roots p := fun p hp => S.region.parents z hzr p hp
    by_cases q : ∃ p ∈ (h.get z).parents, ((h.get p).expands.findSome? cut).isSome
    · obtain ⟨p, hp, hc⟩ := q
      have hpr := pReach p hp
      rcases S.cutting U hpr with ⟨w, -⟩ | ⟨v, c, x, y, I, -⟩
      · rw [w] at hc
        simp at hc
      have hzp : z ∈ (h.get p).children := by
        rw [← List.count_pos_iff, S.links p z hpr hzr, List.count_pos_iff]
        exact hp
      have hpar : (h.get z).parents = [p] := S.tree p hpr (by rw [I.children]; simp) z hzp
      have hnr : z ∉ roots := fun w => by
        rw [(S.root_iff hzr).1 w] at hpar
        simp at hpar
      rw [Finset.sum_eq_single p]
      · rw [if_pos hc, S.links p z hpr hzr, hpar, if_neg hnr]
        simp [toOne]
      · intro b hb hne
        have : (h.get b).children.count z = 0 := by
          rw [S.links b z ((hmem b).1 hb) hzr, hpar, List.count_eq_zero]
          simpa using hne
        rw [this]
        simp
      · intro w
        exact absurd ((hmem p).2 hpr) w
    · have hcomes : comes h z = (h.get z).parents.length := comes_eq fun p hp => by
        by_contra w
        exact q ⟨p, hp, Option.isSome_iff_ne_none.2 w⟩
      rw [Finset.sum_eq_zero, hcomes]
      · by_cases hr : z ∈ roots
        · rw [if_pos hr, (S.root_iff hzr).1 hr]
          rfl
        · rw [if_neg hr, Nat.zero_add, Nat.add_zero]
      · intro a ha
        by_cases w : ((h.get a).expands.findSome? cut).isSome
        · have : (h.get a).children.count z = 0 := by
            rw [S.links a z ((hmem a).1 ha) hzr, List.count_eq_zero]
            exact fun hp => q ⟨a, hp, w⟩
          rw [this]
          simp
        · rw [if_neg w]
  rw [Finset.sum_congr rfl step1, Finset.sum_add_distrib, Finset.sum_congr rfl step2,
    Finset.sum_add_distrib (s := A) (f := fun z => toOne (h.get z).parents.length)]
  have step3 : ∀ a ∈ A, (∑ z ∈ A, if ((h.get a).expands.findSome? cut).isSome then (h.get a).children.count z * toOne (comes h z) else 0) =
      if ((h.get a).expands.findSome? cut).isSome then ((h.get a).children.map fun z => toOne (comes h z)).sum else 0 := fun a ha => by
    split
    · rw [Finset.sum_list_map_count]
      symm
      apply Finset.sum_subset
      · intro z hz
        exact (hmem z).2 (.child ((hmem a).1 ha) (List.mem_toFinset.1 hz))
      · intro z _ hz
        rw [List.count_eq_zero.2 fun w => hz (List.mem_toFinset.2 w), zero_nsmul]
    · simp
  rw [Finset.sum_comm (s := A) (t := A), Finset.sum_congr rfl step3, ← Finset.sum_add_distrib, ← Finset.sum_add_distrib]
  refine Finset.sum_congr rfl fun a _ => ?_
  unfold own
  omega

end Satis.Graph
