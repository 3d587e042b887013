import Verif.Graph.BeltSpec
/-!
# Belts that are merged together
-/

namespace Satis.Graph

theorem together_few {α : Type} {l : List α} (h : l.length ≤ 3) : Together l := by
  intro i hi j hj _
  omega

theorem Together.map {α β : Type} {l : List α} (H : Together l) (g : α → β) (hg : ∀ x ∈ l, ∀ y ∈ l, g x = g y → x = y) : Together (l.map g) := by
  intro i hi j hj e
  rw [List.length_map] at hi hj
  refine H i hi j hj ?_
  have hi' : i < l.reverse.length := by simpa using hi
  have hj' : j < l.reverse.length := by simpa using hj
  rw [← List.map_reverse, List.getElem?_map, List.getElem?_map, List.getElem?_eq_getElem hi', List.getElem?_eq_getElem hj'] at e
  rw [List.getElem?_eq_getElem hi', List.getElem?_eq_getElem hj']
  simp only [Option.map_some, Option.some.injEq] at e ⊢
  exact hg _ (List.mem_reverse.1 (List.getElem_mem hi')) _ (List.mem_reverse.1 (List.getElem_mem hj')) e

theorem Together.right {α : Type} {xs ls : List α} (H : Together (xs ++ ls)) : Together ls := by
  intro i hi j hj e
  refine H i (by simp; omega) j (by simp; omega) ?_
  rw [List.reverse_append, List.getElem?_append_left (by simpa using hi), List.getElem?_append_left (by simpa using hj)]
  exact e

/-- Belts from different machines, and others. -/
theorem together_append {α β : Type} {xs : List α} {ls : List β} (hx : xs.Nodup) (H : Together ls) :
    Together (xs.map Sum.inl ++ ls.map (Sum.inr : β → α ⊕ β)) := by
  have H' : Together (ls.map (Sum.inr : β → α ⊕ β)) := H.map _ fun x _ y _ e => Sum.inr_injective e
  have hx' : (xs.map (Sum.inl : α → α ⊕ β)).reverse.Nodup := List.nodup_reverse.2 (hx.map Sum.inl_injective)
  intro i hi j hj e
  rw [List.length_append] at hi hj
  rw [List.reverse_append] at e
  have no : ∀ i j, i < (ls.map (Sum.inr : β → α ⊕ β)).reverse.length → ¬ j < (ls.map (Sum.inr : β → α ⊕ β)).reverse.length →
      ((ls.map (Sum.inr : β → α ⊕ β)).reverse ++ (xs.map (Sum.inl : α → α ⊕ β)).reverse)[i]? =
      ((ls.map (Sum.inr : β → α ⊕ β)).reverse ++ (xs.map (Sum.inl : α → α ⊕ β)).reverse)[j]? → False := fun i j h1 h2 e => by
    rw [List.getElem?_append_left h1, List.getElem?_append_right (by omega), List.getElem?_eq_getElem h1] at e
    have m1 := List.getElem_mem h1
    have m2 := List.mem_of_getElem? e.symm
    rw [List.mem_reverse] at m1 m2
    obtain ⟨b, -, hb⟩ := List.mem_map.1 m1
    obtain ⟨a, -, ha⟩ := List.mem_map.1 m2
    rw [← hb] at ha
    simp at ha
  by_cases h1 : i < (ls.map (Sum.inr : β → α ⊕ β)).reverse.length <;> by_cases h2 : j < (ls.map (Sum.inr : β → α ⊕ β)).reverse.length
  · rw [List.getElem?_append_left h1, List.getElem?_append_left h2] at e
    exact H' i (by simpa using h1) j (by simpa using h2) e
  · exact (no i j h1 h2 e).elim
  · exact (no j i h2 h1 e.symm).elim
  · rw [List.getElem?_append_right (by omega), List.getElem?_append_right (by omega)] at e
    rw [List.length_reverse] at h1 h2
    have := (List.getElem?_inj (by simp only [List.length_reverse, List.length_map] at *; omega) hx').1 e
    rw [List.length_reverse] at this
    have : i = j := by omega
    rw [this]

theorem together_nodup {α : Type} {xs : List α} (hx : xs.Nodup) : Together xs := by
  have := (together_append (ls := ([] : List Unit)) hx (together_few (by simp))).map (Sum.elim (fun x => some x) (fun _ => none)) fun x hx y hy e => by
    rcases x with x | x <;> rcases y with y | y <;> simp at hx hy e ⊢
    exact e
  simp only [List.map_nil, List.append_nil, List.map_map] at this
  intro i hi j hj e
  refine this i (by simpa using hi) j (by simpa using hj) ?_
  rw [← List.map_reverse, List.getElem?_map, List.getElem?_map, e]

/-- What was merged before does not come again. -/
theorem Together.apart {α : Type} {ps gone d rest : List α} {k : Nat} (H : Together ps) (e : gone ++ (d ++ rest) = ps.reverse)
    (hg : gone.length = 0 ∨ 1 ≤ k ∧ gone.length = 2 * k + 1) (hd : gone.length ≠ 0 → d.length ≤ 2) : ∀ x ∈ d, x ∉ gone := by
  intro x hx hx'
  obtain ⟨i, hi, e1⟩ := List.getElem_of_mem hx'
  obtain ⟨j, hj, e2⟩ := List.getElem_of_mem hx
  have hlen := congrArg List.length e
  simp only [List.length_append, List.length_reverse] at hlen
  have := H i (by omega) (gone.length + j) (by omega) (by
    rw [← e, List.getElem?_append_left hi, List.getElem?_append_right (by omega), Nat.add_sub_cancel_left, List.getElem?_append_left hj,
      List.getElem?_eq_getElem hi, List.getElem?_eq_getElem hj, e1, e2])
  have := hd (by omega)
  omega

end Satis.Graph
