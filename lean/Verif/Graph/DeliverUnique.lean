import Verif.Graph.DeliverSpec
import Mathlib.Algebra.BigOperators.Fin
import Mathlib.Algebra.Order.BigOperators.Group.Finset
import Mathlib.Algebra.Order.BigOperators.Group.List
import Mathlib.Algebra.Order.Field.Basic
import Mathlib.Algebra.Order.Field.Rat
import Mathlib.Data.Finset.Max
import Mathlib.Tactic.Linarith
import Mathlib.Tactic.FieldSimp
import Mathlib.Tactic.Ring
/-!
# The machines leave no choice about the flows
-/

namespace Satis.Graph
open Satis

variable {h : Heap ℚ} {roots : List Addr}

theorem list_sum_count {N : Finset Addr} {l : List Addr} (hl : ∀ x ∈ l, x ∈ N) (g : Addr → ℚ) :
    (l.map g).sum = ∑ a ∈ N, (l.count a : ℚ) * g a := by
  rw [Finset.sum_list_map_count]
  simp only [nsmul_eq_mul]
  refine Finset.sum_subset (fun x hx => hl x (List.mem_toFinset.1 hx)) fun x _ hx => ?_
  rw [List.count_eq_zero.2 fun w => hx (List.mem_toFinset.2 w)]
  simp

/-- A sum over all belts, by where they end and by where they start. -/
theorem sum_swap {N : Finset Addr} (hc : ∀ a ∈ N, ∀ c ∈ (h.get a).children, c ∈ N) (hp : ∀ a ∈ N, ∀ p ∈ (h.get a).parents, p ∈ N)
    (hl : ∀ a ∈ N, ∀ b ∈ N, (h.get a).children.count b = (h.get b).parents.count a) (F : Addr → Addr → ℚ) :
    ∑ b ∈ N, ((h.get b).parents.map fun p => F p b).sum = ∑ a ∈ N, ((h.get a).children.map fun c => F a c).sum := by
  rw [Finset.sum_congr rfl fun b hb => list_sum_count (hp b hb) fun p => F p b,
    Finset.sum_congr rfl fun a ha => list_sum_count (hc a ha) fun c => F a c, Finset.sum_comm]
  refine Finset.sum_congr rfl fun a ha => Finset.sum_congr rfl fun b hb => ?_
  rw [hl a ha b hb]

theorem list_sum_nonneg {l : List Addr} {g : Addr → ℚ} (hg : ∀ x ∈ l, 0 ≤ g x) : 0 ≤ (l.map g).sum :=
  List.sum_nonneg fun y hy => by
    obtain ⟨x, hx, rfl⟩ := List.mem_map.1 hy
    exact hg x hx

theorem list_sum_pos {l : List Addr} {g : Addr → ℚ} (hg : ∀ x ∈ l, 0 ≤ g x) {x : Addr} (hx : x ∈ l) (h0 : 0 < g x) : 0 < (l.map g).sum := by
  induction l with
  | nil => simp at hx
  | cons y l ih =>
    rw [List.map_cons, List.sum_cons]
    rcases List.mem_cons.1 hx with rfl | hx
    · have := list_sum_nonneg fun z hz => hg z (List.mem_cons_of_mem _ hz)
      linarith
    · have := ih (fun z hz => hg z (List.mem_cons_of_mem _ hz)) hx
      have := hg y (by simp)
      linarith

theorem list_abs_sum (l : List Addr) (g : Addr → ℚ) : |(l.map g).sum| ≤ (l.map fun x => |g x|).sum := by
  induction l with
  | nil => simp
  | cons x l ih =>
    rw [List.map_cons, List.map_cons, List.sum_cons, List.sum_cons]
    exact (abs_add_le _ _).trans (by linarith)

/-- A part that all belts stay in, once they have entered it, has a way out: nothing would be left over for what enters. -/
theorem no_trap {supply T : Addr → ℚ} {f : Addr → Addr → ℚ} {N Y : Finset Addr} (hN : ∀ a, a ∈ N ↔ Reach h roots a)
    (hp : ∀ a ∈ N, ∀ p ∈ (h.get a).parents, p ∈ N) (hl : ∀ a ∈ N, ∀ b ∈ N, (h.get a).children.count b = (h.get b).parents.count a)
    (dry : ∀ a, a ∉ roots → supply a = 0) (paid : ∀ r ∈ roots, 0 < supply r) (pos : ∀ a ∈ N, ∀ c ∈ (h.get a).children, 0 < f a c)
    (intake : ∀ a ∈ N, T a = supply a + ((h.get a).parents.map fun p => f p a).sum) (hY : Y ⊆ N)
    (hs : ∀ a ∈ Y, (h.get a).children ≠ [] ∧ (∀ c ∈ (h.get a).children, c ∈ Y ∧ f a c = T a / (h.get a).children.length)) : Y = ∅ := by
  have hc : ∀ a ∈ N, ∀ c ∈ (h.get a).children, c ∈ N := fun a ha c hc => (hN c).2 (.child ((hN a).1 ha) hc)
  have sup0 : ∀ a, 0 ≤ supply a := fun a => by
    by_cases q : a ∈ roots
    · exact (paid a q).le
    · rw [dry a q]
  obtain ⟨F, hF⟩ : ∃ F : Addr → Addr → ℚ, F = fun p b => if b ∈ Y then f p b else 0 := ⟨_, rfl⟩
  have FY : ∀ p b, b ∈ Y → F p b = f p b := fun p b hb => by rw [hF]; exact if_pos hb
  have FN : ∀ p b, b ∉ Y → F p b = 0 := fun p b hb => by rw [hF]; exact if_neg hb
  have F0 : ∀ a ∈ N, ∀ c ∈ (h.get a).children, 0 ≤ F a c := fun a ha c hc => by
    by_cases q : c ∈ Y
    · rw [FY a c q]; exact (pos a ha c hc).le
    · rw [FN a c q]
  have hsum := sum_swap hc hp hl F
  have h1 : ∑ b ∈ N, ((h.get b).parents.map fun p => F p b).sum = ∑ b ∈ Y, (T b - supply b) := by
    rw [← Finset.sum_subset hY]
    · refine Finset.sum_congr rfl fun b hb => ?_
      rw [intake b (hY hb), List.map_congr_left fun p _ => FY p b hb]
      ring
    · intro b _ hb
      rw [List.map_congr_left fun p _ => FN p b hb]
      simp
  have own : ∀ a ∈ Y, ((h.get a).children.map fun c => F a c).sum = T a := fun a ha => by
    obtain ⟨w1, w2⟩ := hs a ha
    have : ((h.get a).children.map fun c => F a c) = (h.get a).children.map fun _ => T a / (h.get a).children.length :=
      List.map_congr_left fun c hc => by rw [FY a c (w2 c hc).1, (w2 c hc).2]
    have hlen : ((h.get a).children.length : ℚ) ≠ 0 := by
      have := List.length_pos_iff.2 w1
      exact_mod_cast this.ne'
    rw [this, List.map_const', List.sum_replicate, nsmul_eq_mul]
    field_simp
  have nn : ∀ a ∈ N, 0 ≤ ((h.get a).children.map fun c => F a c).sum := fun a ha => list_sum_nonneg (F0 a ha)
  have h2 : ∑ b ∈ Y, T b ≤ ∑ a ∈ N, ((h.get a).children.map fun c => F a c).sum := by
    rw [Finset.sum_congr rfl fun a ha => (own a ha).symm]
    exact Finset.sum_le_sum_of_subset_of_nonneg hY fun a ha _ => nn a ha
  have h3 : ∀ b ∈ Y, supply b = 0 := by
    have : ∑ b ∈ Y, supply b ≤ 0 := by
      rw [Finset.sum_sub_distrib] at h1
      linarith
    have h0 : ∑ b ∈ Y, supply b = 0 := le_antisymm this (Finset.sum_nonneg fun b _ => sup0 b)
    exact (Finset.sum_eq_zero_iff_of_nonneg fun b _ => sup0 b).1 h0
  have h4 : ∀ a ∈ N, a ∉ Y → ∀ c ∈ (h.get a).children, c ∉ Y := by
    intro a ha haY c hc hcY
    have hpos : 0 < ((h.get a).children.map fun c => F a c).sum :=
      list_sum_pos (F0 a ha) hc (by rw [FY a c hcY]; exact pos a ha c hc)
    have hle : ((h.get a).children.map fun c => F a c).sum + ∑ b ∈ Y, T b ≤ ∑ a ∈ N, ((h.get a).children.map fun c => F a c).sum := by
      rw [Finset.sum_congr rfl fun a ha => (own a ha).symm, 
        ← Finset.sum_insert (f := fun a => ((h.get a).children.map fun c => F a c).sum) haY]
      refine Finset.sum_le_sum_of_subset_of_nonneg (fun x hx => ?_) fun a ha _ => nn a ha
      rcases Finset.mem_insert.1 hx with rfl | hx
      · exact ha
      · exact hY hx
    rw [Finset.sum_sub_distrib] at h1
    have := Finset.sum_nonneg fun b (_ : b ∈ Y) => sup0 b
    linarith
  have out : ∀ a, Reach h roots a → a ∉ Y := by
    intro a ha
    induction ha with
    | root w =>
      intro q
      have := paid _ w
      rw [h3 _ q] at this
      exact lt_irrefl _ this
    | child hb hc ih => exact h4 _ ((hN _).2 hb) ih _ hc
  refine Finset.eq_empty_of_forall_notMem fun a ha => out a ((hN a).1 (hY ha)) ha

/-- If a node that does not share evenly is in no loop, and all flows are positive, they are the only ones. -/
theorem Obeys.unique {supply : Addr → ℚ} {set : Addr → Option (Addr × ℕ)} {T T' : Addr → ℚ} {f f' : Addr → Addr → ℚ}
    (O : Obeys h roots supply set T f) (O' : Obeys h roots supply set T' f') (fin : ∀ a, Reach h roots a → a < h.next)
    (closed : ∀ a, Reach h roots a → ∀ p ∈ (h.get a).parents, Reach h roots p)
    (links : ∀ a b, Reach h roots a → Reach h roots b → (h.get a).children.count b = (h.get b).parents.count a)
    (dry : ∀ a, a ∉ roots → supply a = 0) (paid : ∀ r ∈ roots, 0 < supply r)
    (pos : ∀ a, Reach h roots a → ∀ c ∈ (h.get a).children, 0 < f a c) (ρ : Addr → ℤ)
    (rank : ∀ a, Reach h roots a → ∀ c ∈ (h.get a).children, ρ a ≤ ρ c ∧ (set a ≠ none → ρ a < ρ c)) :
    ∀ a, Reach h roots a → T' a = T a ∧ ∀ c ∈ (h.get a).children, f' a c = f a c := by
  classical
  obtain ⟨N, hN⟩ : ∃ N : Finset Addr, ∀ a, a ∈ N ↔ Reach h roots a :=
    ⟨(Finset.range h.next).filter fun a => Reach h roots a, fun a => by
      rw [Finset.mem_filter, Finset.mem_range]
      exact ⟨fun w => w.2, fun w => ⟨fin a w, w⟩⟩⟩
  have hc : ∀ a ∈ N, ∀ c ∈ (h.get a).children, c ∈ N := fun a ha c hc => (hN c).2 (.child ((hN a).1 ha) hc)
  have hp : ∀ a ∈ N, ∀ p ∈ (h.get a).parents, p ∈ N := fun a ha p hp => (hN p).2 (closed a ((hN a).1 ha) p hp)
  have hl : ∀ a ∈ N, ∀ b ∈ N, (h.get a).children.count b = (h.get b).parents.count a := fun a ha b hb =>
    links a b ((hN a).1 ha) ((hN b).1 hb)
  obtain ⟨D, hD⟩ : ∃ D : Addr → ℚ, ∀ a, D a = T' a - T a := ⟨_, fun _ => rfl⟩
  obtain ⟨g, hg⟩ : ∃ g : Addr → Addr → ℚ, ∀ a b, g a b = f' a b - f a b := ⟨_, fun _ _ => rfl⟩
  -- the differences flow, too
  have din : ∀ b ∈ N, D b = ((h.get b).parents.map fun p => g p b).sum := fun b hb => by
    rw [hD, O'.intake b ((hN b).1 hb), O.intake b ((hN b).1 hb), List.map_congr_left fun p _ => hg p b]
    have : ∀ l : List Addr, (l.map fun p => f' p b - f p b).sum = (l.map fun p => f' p b).sum - (l.map fun p => f p b).sum := by
      intro l
      induction l with
      | nil => simp
      | cons x l ih =>
        rw [List.map_cons, List.map_cons, List.map_cons, List.sum_cons, List.sum_cons, List.sum_cons, ih]
        ring
    rw [this]
    ring
  have even : ∀ a ∈ N, set a = none → ∀ c ∈ (h.get a).children, g a c = D a / (h.get a).children.length := fun a ha hs c hc => by
    rw [hg, hD, O'.even a ((hN a).1 ha) hs c hc, O.even a ((hN a).1 ha) hs c hc]
    ring
  have belt : ∀ a ∈ N, ∀ x s, set a = some (x, s) → ∃ y, ((h.get a).children = [x, y] ∨ (h.get a).children = [y, x]) ∧ g a x = 0 ∧ g a y = D a := by
    intro a ha x s hs
    obtain ⟨y, w1, w2, w3, w4⟩ := O.belt a x s ((hN a).1 ha) hs
    obtain ⟨y', v1, v2, v3, v4⟩ := O'.belt a x s ((hN a).1 ha) hs
    have : y' = y := by
      rcases w2 with w2 | w2 <;> rcases v2 with v2 | v2 <;> rw [w2] at v2 <;> simp at v2
      · exact v2.symm
      · exact absurd v2.2.symm w1
      · exact absurd v2.2 v1
      · exact v2.symm
    subst this
    refine ⟨y', w2, ?_, ?_⟩
    · rw [hg, w3, v3]; ring
    · rw [hg, hD, w4, v4]; ring
  have dout : ∀ a ∈ N, (h.get a).children ≠ [] → ((h.get a).children.map fun c => |g a c|).sum = |D a| := by
    intro a ha hne
    cases hs : set a with
    | none =>
      have : ((h.get a).children.map fun c => |g a c|) = (h.get a).children.map fun _ => |D a| / (h.get a).children.length :=
        List.map_congr_left fun c hc => by rw [even a ha hs c hc, abs_div, Nat.abs_cast]
      have hlen : ((h.get a).children.length : ℚ) ≠ 0 := by
        have := List.length_pos_iff.2 hne
        exact_mod_cast this.ne'
      rw [this, List.map_const', List.sum_replicate, nsmul_eq_mul]
      field_simp
    | some xs =>
      obtain ⟨y, w1, w2, w3⟩ := belt a ha xs.1 xs.2 hs
      rcases w1 with w1 | w1 <;> rw [w1] <;> simp [w2, w3]
  have hsum := sum_swap hc hp hl fun p b => |g p b|
  have le1 : ∀ b ∈ N, |D b| ≤ ((h.get b).parents.map fun p => |g p b|).sum := fun b hb => by
    rw [din b hb]
    exact list_abs_sum _ _
  have le2 : ∀ a ∈ N, ((h.get a).children.map fun c => |g a c|).sum ≤ |D a| := fun a ha => by
    by_cases q : (h.get a).children = []
    · rw [q]
      simp
    · rw [dout a ha q]
  have eq1 : ∀ b ∈ N, |D b| = ((h.get b).parents.map fun p => |g p b|).sum :=
    (Finset.sum_eq_sum_iff_of_le le1).1 (le_antisymm (Finset.sum_le_sum le1) (by rw [hsum]; exact Finset.sum_le_sum le2))
  have eq2 : ∀ a ∈ N, ((h.get a).children.map fun c => |g a c|).sum = |D a| :=
    (Finset.sum_eq_sum_iff_of_le le2).1 (le_antisymm (Finset.sum_le_sum le2) (by rw [← hsum]; exact Finset.sum_le_sum le1))
  have leaf : ∀ a ∈ N, (h.get a).children = [] → D a = 0 := fun a ha q => by
    have := eq2 a ha
    rw [q] at this
    simpa using this.symm
  -- a difference on a belt goes on
  have step : ∀ a ∈ N, ∀ c ∈ (h.get a).children, g a c ≠ 0 → D c ≠ 0 := by
    intro a ha c hcm hne e
    have h1 := eq1 c (hc a ha c hcm)
    have h2 : a ∈ (h.get c).parents := by
      rw [← List.count_pos_iff, ← hl a ha c (hc a ha c hcm)]
      exact List.count_pos_iff.2 hcm
    have h3 : 0 < ((h.get c).parents.map fun p => |g p c|).sum := list_sum_pos (fun x _ => abs_nonneg _) h2 (abs_pos.2 hne)
    rw [← h1, e] at h3
    simp at h3
  have zero : ∀ a ∈ N, D a = 0 := by
    by_contra hcon
    simp only [not_forall] at hcon
    obtain ⟨a₀, ha₀, hd₀⟩ := hcon
    obtain ⟨m, hm, hmax⟩ := Finset.exists_max_image (N.filter fun a => D a ≠ 0) ρ ⟨a₀, Finset.mem_filter.2 ⟨ha₀, hd₀⟩⟩
    have hm' := Finset.mem_filter.1 hm
    have hY : N.filter (fun a => D a ≠ 0 ∧ ρ a = ρ m) = ∅ := by
      refine no_trap (supply := supply) (T := T) (f := f) hN hp hl dry paid (fun a ha => pos a ((hN a).1 ha))
        (fun a ha => O.intake a ((hN a).1 ha)) (Finset.filter_subset _ _) fun a ha => ?_
      obtain ⟨haN, had, haρ⟩ := Finset.mem_filter.1 ha
      have hne : (h.get a).children ≠ [] := fun q => had (leaf a haN q)
      have up : ∀ c ∈ (h.get a).children, g a c ≠ 0 → ρ c ≤ ρ m := fun c hcm hgc =>
        hmax c (Finset.mem_filter.2 ⟨hc a haN c hcm, step a haN c hcm hgc⟩)
      have hs : set a = none := by
        cases hs : set a with
        | none => rfl
        | some xs =>
          exfalso
          obtain ⟨y, w1, -, w3⟩ := belt a haN xs.1 xs.2 hs
          have hy : y ∈ (h.get a).children := by rcases w1 with w1 | w1 <;> rw [w1] <;> simp
          have h1 := up y hy (by rw [w3]; exact had)
          have h2 := (rank a ((hN a).1 haN) y hy).2 (by rw [hs]; simp)
          omega
      refine ⟨hne, fun c hcm => ?_⟩
      have hgc : g a c ≠ 0 := by
        rw [even a haN hs c hcm]
        have := List.length_pos_iff.2 hne
        exact div_ne_zero had (by exact_mod_cast this.ne')
      refine ⟨Finset.mem_filter.2 ⟨hc a haN c hcm, step a haN c hcm hgc, ?_⟩, O.even a ((hN a).1 haN) hs c hcm⟩
      have h1 := up c hcm hgc
      have h2 := (rank a ((hN a).1 haN) c hcm).1
      omega
    have : m ∈ N.filter (fun a => D a ≠ 0 ∧ ρ a = ρ m) := Finset.mem_filter.2 ⟨hm'.1, hm'.2, rfl⟩
    rw [hY] at this
    simp at this
  intro a ha
  have haN := (hN a).2 ha
  have h0 := zero a haN
  refine ⟨by rw [hD] at h0; linarith, fun c hcm => ?_⟩
  by_contra q
  exact step a haN c hcm (by rw [hg]; exact sub_ne_zero.2 q) (zero c (hc a haN c hcm))

theorem Obeys.relink {h' : Heap ℚ} {supply : Addr → ℚ} {set : Addr → Option (Addr × ℕ)} {T : Addr → ℚ} {f : Addr → Addr → ℚ}
    (O : Obeys h roots supply set T f) (hr : ∀ a, Reach h' roots a ↔ Reach h roots a) (hc : ∀ a, (h'.get a).children = (h.get a).children)
    (hp : ∀ a, (h'.get a).parents = (h.get a).parents) : Obeys h' roots supply set T f := by
  refine ⟨fun a ha => ?_, fun a ha => ?_, fun a x s ha => ?_⟩
  · rw [hp]; exact O.intake a ((hr a).1 ha)
  · rw [hc]; exact O.even a ((hr a).1 ha)
  · rw [hc]; exact O.belt a x s ((hr a).1 ha)

theorem Forced.relink {h' : Heap ℚ} {speeds : List Nat} {supply T : Addr → ℚ} {f : Addr → Addr → ℚ} (F : Forced speeds h roots supply T f)
    (hr : ∀ a, Reach h' roots a ↔ Reach h roots a) (hc : ∀ a, (h'.get a).children = (h.get a).children)
    (hp : ∀ a, (h'.get a).parents = (h.get a).parents) : Forced speeds h' roots supply T f := by
  obtain ⟨set, h1, h2, h3⟩ := F
  refine ⟨set, h1, h2.relink hr hc hp, fun T' f' O a ha => ?_⟩
  rw [hc]
  exact h3 T' f' (O.relink (fun a => (hr a).symm) (fun a => (hc a).symm) fun a => (hp a).symm) a ((hr a).1 ha)

end Satis.Graph
