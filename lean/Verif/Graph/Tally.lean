import Mathlib.Algebra.BigOperators.Group.Finset.Basic
import Mathlib.Order.Interval.Finset.Nat
import Verif.Graph.Deliver
/-!
# How many machines a network that is partly expanded will have
-/

namespace Satis.Graph
open Satis Satis.Cost Satis.Spec

/-- A pending division or extraction. -/
def outward : Expand ℚ → Bool
  | .merge _ => false
  | _ => true

/-- The splitters that a division or an extraction of a node of value `v` makes, the node being the first of them. -/
def splits (v : ℚ) : Expand ℚ → ℕ
  | .divide d => match findNML d with
    | .ok (n, m, l, _) => S n m - savedSplitters n m (gsel n m l l)
    | .error _ => 0
  | .extract c =>
    let g := Nat.gcd v.num.toNat c.num.toNat
    let d := v.num.toNat / g
    let e := c.num.toNat / g
    match findNML d with
    | .ok (n, m, l, _) => S n m - (savedSplitters n m (gsel n m l l) + savedSplitters n m (gsel n m e e) + savedSplitters n m (gsel n m (d - e) (d - e)))
    | .error _ => 0
  | _ => 0

/-- The splitters there will be for a node. -/
def outlay (h : Heap ℚ) (a : Addr) : ℕ :=
  if (h.get a).expands.filter outward = [] then (if 2 ≤ (h.get a).children.length then 1 else 0)
  else (((h.get a).expands.filter outward).map (splits (h.get a).value)).sum

/-- What a pending extraction takes. -/
def cut : Expand ℚ → Option ℚ
  | .extract c => some c
  | _ => none

/-- The belts that will lead to a node from above. -/
def comes (h : Heap ℚ) (a : Addr) : ℕ :=
  match (h.get a).parents with
  | [p] => match (h.get p).expands.findSome? cut with
    | some c => (forth (h.get p).value c (h.get a).value).length
    | none => 1
  | ps => ps.length

/-- The mergers there will be in front of a node. -/
def inlay (roots : List Addr) (h : Heap ℚ) (a : Addr) : ℕ := toOne ((if a ∈ roots then 1 else 0) + comes h a + (loops h a).length)

open Classical in
/-- The machines there will be. -/
noncomputable def tally (roots : List Addr) (h : Heap ℚ) (U : Addr → Prop) : ℕ :=
  ∑ a ∈ Finset.range h.next with U a, (outlay h a + inlay roots h a)

variable {roots : List Addr} {h h' : Heap ℚ} {U : Addr → Prop}

open Classical in
/-- What was there, and what is new. -/
theorem tally_within (hin : ∀ a, U a → a < h.next) (hn : h.next ≤ h'.next) :
    tally roots h' (Within h U h') = (∑ a ∈ Finset.range h.next with U a, (outlay h' a + inlay roots h' a)) +
      ∑ a ∈ Finset.Ico h.next h'.next, (outlay h' a + inlay roots h' a) := by
  unfold tally
  have e : (Finset.range h'.next).filter (Within h U h') = (Finset.range h.next).filter U ∪ Finset.Ico h.next h'.next := by
    ext a
    simp only [Finset.mem_filter, Finset.mem_range, Finset.mem_union, Finset.mem_Ico, Within]
    constructor
    · rintro ⟨w, q | q⟩
      · exact .inl ⟨hin a q, q⟩
      · exact .inr q
    · rintro (⟨w, q⟩ | q)
      · exact ⟨by omega, .inl q⟩
      · exact ⟨q.2, .inr q⟩
  rw [e, Finset.sum_union]
  rw [Finset.disjoint_left]
  intro a h1 h2
  simp only [Finset.mem_filter, Finset.mem_range, Finset.mem_Ico] at h1 h2
  omega

open Classical in
/-- Everything stays as it was for the nodes there were, but one; every new node is `k` machines. -/
theorem tally_step {node : Addr} (hin : ∀ a, U a → a < h.next) (hn : h.next ≤ h'.next) (hU : U node)
    (hold : ∀ a, U a → a ≠ node → outlay h' a + inlay roots h' a = outlay h a + inlay roots h a)
    (hnew : ∀ a, h.next ≤ a → a < h'.next → outlay h' a + inlay roots h' a = 1)
    (hnode : outlay h' node + inlay roots h' node + (h'.next - h.next) = outlay h node + inlay roots h node) :
    tally roots h' (Within h U h') = tally roots h U := by
  rw [tally_within hin hn, Finset.sum_congr rfl (g := fun _ => 1) (s₁ := Finset.Ico _ _) fun a ha => by
    rw [Finset.mem_Ico] at ha
    exact hnew a ha.1 ha.2]
  have hm : node ∈ (Finset.range h.next).filter U := by
    rw [Finset.mem_filter, Finset.mem_range]
    exact ⟨hin node hU, hU⟩
  unfold tally
  rw [← Finset.add_sum_erase _ _ hm, ← Finset.add_sum_erase _ (fun a => outlay h a + inlay roots h a) hm, Finset.sum_congr rfl
    (g := fun a => outlay h a + inlay roots h a) (s₁ := Finset.erase _ _) fun a ha => by
      rw [Finset.mem_erase, Finset.mem_filter] at ha
      exact hold a ha.2.2 ha.1]
  rw [← Finset.card_eq_sum_ones, Nat.card_Ico]
  omega

theorem comes_eq {a : Addr} (hq : ∀ p ∈ (h.get a).parents, (h.get p).expands.findSome? cut = none) : comes h a = (h.get a).parents.length := by
  unfold comes
  split
  · rename_i p e
    rw [e, hq p (by rw [e]; simp)]
    rfl
  · rfl

theorem cut_merges {es : List (Expand ℚ)} (hm : ∀ e ∈ es, ∃ t, e = .merge t) : es.findSome? cut = none := by
  rw [List.findSome?_eq_none_iff]
  intro e he
  obtain ⟨t, rfl⟩ := hm e he
  rfl

theorem outward_merges {es : List (Expand ℚ)} (hm : ∀ e ∈ es, ∃ t, e = .merge t) : es.filter outward = [] := by
  rw [List.filter_eq_nil_iff]
  intro e he
  obtain ⟨t, rfl⟩ := hm e he
  simp [outward]

theorem cut_merge {es mg post : List (Expand ℚ)} (hm : ∀ e ∈ mg, ∃ t, e = .merge t) (hp : ∀ e ∈ post, ∃ t, e = .merge t) :
    (mg ++ es ++ post).findSome? cut = es.findSome? cut := by
  rw [List.findSome?_append, List.findSome?_append, cut_merges hm, cut_merges hp]
  simp

theorem outward_merge {es mg post : List (Expand ℚ)} (hm : ∀ e ∈ mg, ∃ t, e = .merge t) (hp : ∀ e ∈ post, ∃ t, e = .merge t) :
    (mg ++ es ++ post).filter outward = es.filter outward := by
  rw [List.filter_append, List.filter_append, outward_merges hm, outward_merges hp]
  simp

theorem outlay_congr {a : Addr} (hv : (h'.get a).value = (h.get a).value) (he : (h'.get a).expands.filter outward = (h.get a).expands.filter outward)
    (hc : (h'.get a).children.length = (h.get a).children.length) : outlay h' a = outlay h a := by
  unfold outlay
  rw [hv, he, hc]

end Satis.Graph
