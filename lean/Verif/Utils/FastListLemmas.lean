import Verif.Utils.FastListSpec
import Mathlib.Data.List.Nodup
/-!
# Lemmas about `FastList`
-/

namespace Satis.FastList
variable {α : Type} [DecidableEq α]

/-- The representation invariant. -/
structure WF (l : FastList α) : Prop where
  nodup : l.items.Nodup
  set_iff : ∀ x, x ∈ l.set ↔ x ∈ l.items

theorem WF.contains_iff {l : FastList α} (h : l.WF) (x : α) : l.contains x = true ↔ x ∈ l.items := by
  simp [contains, h.set_iff]

omit [DecidableEq α] in
theorem wf_empty : (empty : FastList α).WF := ⟨by simp [empty], by simp [empty]⟩

/-- Effect of `append` on the elements. -/
def ref1 (l : List α) (x : α) : List α := if x ∈ l then l else l ++ [x]

theorem append_items {l : FastList α} (h : l.WF) (x : α) : (l.append x).items = ref1 l.items x := by
  unfold append ref1
  by_cases hx : x ∈ l.items
  · rw [if_pos ((h.contains_iff x).2 hx), if_pos hx]
  · rw [if_neg (fun hc => hx ((h.contains_iff x).1 hc)), if_neg hx]

theorem wf_append {l : FastList α} (h : l.WF) (x : α) : (l.append x).WF := by
  unfold append
  by_cases hx : x ∈ l.items
  · rw [if_pos ((h.contains_iff x).2 hx)]; exact h
  · rw [if_neg (fun hc => hx ((h.contains_iff x).1 hc))]
    refine ⟨?_, ?_⟩
    · simp only
      rw [List.nodup_append]
      exact ⟨h.nodup, by simp, by simp; rintro a ha rfl; exact hx ha⟩
    · intro y; simp [h.set_iff]

theorem wf_extend {l : FastList α} (h : l.WF) (xs : List α) : (l.extend xs).WF := by
  induction xs generalizing l with
  | nil => exact h
  | cons x xs ih => exact ih (wf_append h x)

theorem extend_items {l : FastList α} (h : l.WF) (xs : List α) : (l.extend xs).items = xs.foldl ref1 l.items := by
  induction xs generalizing l with
  | nil => rfl
  | cons x xs ih =>
    show ((l.append x).extend xs).items = _
    rw [ih (wf_append h x), append_items h]; rfl

theorem mem_ref1 (l : List α) (x y : α) : y ∈ ref1 l x ↔ y ∈ l ∨ y = x := by
  unfold ref1
  split
  · rename_i h
    constructor
    · exact Or.inl
    · rintro (h' | rfl)
      · exact h'
      · exact h
  · simp

theorem mem_foldl_ref1 (xs l : List α) (y : α) : y ∈ xs.foldl ref1 l ↔ y ∈ l ∨ y ∈ xs := by
  induction xs generalizing l with
  | nil => simp
  | cons x xs ih =>
    simp only [List.foldl_cons, ih, mem_ref1, List.mem_cons]
    tauto

theorem mem_extend {l : FastList α} (h : l.WF) (xs : List α) (y : α) : y ∈ (l.extend xs).items ↔ y ∈ l.items ∨ y ∈ xs := by
  rw [extend_items h, mem_foldl_ref1]

theorem wf_new (xs : List α) : (new xs).WF := wf_extend wf_empty xs

theorem mem_new (xs : List α) (y : α) : y ∈ (new xs).items ↔ y ∈ xs := by
  unfold new; rw [mem_extend wf_empty]; simp [empty]

theorem contains_new (xs : List α) (y : α) : (new xs).contains y = true ↔ y ∈ xs := by
  rw [(wf_new xs).contains_iff, mem_new]

theorem contains_extend {l : FastList α} (h : l.WF) (xs : List α) (y : α) :
    (l.extend xs).contains y = true ↔ l.contains y = true ∨ y ∈ xs := by
  rw [(wf_extend h xs).contains_iff, mem_extend h, h.contains_iff]

theorem contains_append {l : FastList α} (h : l.WF) (x y : α) :
    (l.append x).contains y = true ↔ l.contains y = true ∨ y = x := by
  rw [(wf_append h x).contains_iff, append_items h, mem_ref1, h.contains_iff]

theorem setRemove_ok {l : FastList α} (h : l.WF) {x : α} (hx : x ∈ l.items) :
    setRemove l.set x = .ok (l.set.filter (· ≠ x)) := by
  unfold setRemove; rw [if_pos ((h.set_iff x).2 hx)]

theorem remove_ok {l : FastList α} (h : l.WF) {x : α} (hx : x ∈ l.items) :
    l.remove x = (⟨l.items.erase x, l.set.filter (· ≠ x)⟩, .ok ()) := by
  unfold remove; rw [if_pos hx, setRemove_ok h hx]

theorem pop_ok {l : FastList α} (h : l.WF) {i : Int} {k : Nat} (hk : pyIndex l.items.length i = some k) {x : α}
    (hx : l.items[k]? = some x) : l.pop i = (⟨l.items.eraseIdx k, l.set.filter (· ≠ x)⟩, .ok x) := by
  unfold pop
  simp only [hk, hx, setRemove_ok h (List.mem_of_getElem? hx)]

theorem wf_remove {l : FastList α} (h : l.WF) (x : α) : (l.remove x).1.WF := by
  by_cases hx : x ∈ l.items
  · rw [remove_ok h hx]
    refine ⟨h.nodup.erase x, ?_⟩
    intro y
    simp only [List.mem_filter, h.set_iff, h.nodup.mem_erase_iff]
    simp; tauto
  · unfold remove; rw [if_neg hx]; exact h

theorem pyIndex_lt {n : Nat} {i : Int} {k : Nat} (h : pyIndex n i = some k) : k < n := by
  unfold pyIndex at h
  split at h
  · split at h
    · simp at h; omega
    · simp at h
  · split at h
    · simp at h; omega
    · simp at h

theorem wf_pop {l : FastList α} (h : l.WF) (i : Int) : (l.pop i).1.WF := by
  cases hk : pyIndex l.items.length i with
  | none => unfold pop; simp only [hk]; exact h
  | some k =>
    have hlt := pyIndex_lt hk
    have hx : l.items[k]? = some l.items[k] := List.getElem?_eq_getElem hlt
    rw [pop_ok h hk hx]
    refine ⟨h.nodup.eraseIdx k, ?_⟩
    intro y
    have hmem : y ∈ l.items.eraseIdx k ↔ y ∈ l.items ∧ y ≠ l.items[k] := by
      rw [← h.nodup.erase_getElem k hlt, h.nodup.mem_erase_iff]; tauto
    simp only [List.mem_filter, h.set_iff]
    rw [hmem]; simp

end Satis.FastList

namespace Satis.FastList
variable {α : Type} [DecidableEq α]
open Spec

omit [DecidableEq α] in
theorem at?_pyIndex (l : List α) (i : Int) : at? l i = (pyIndex l.length i).bind fun k => l[k]? := by
  unfold at? pyIndex
  by_cases h : 0 ≤ i
  · rw [if_pos h, if_pos h]
    by_cases h2 : i < l.length
    · rw [if_pos h2]; rfl
    · rw [if_neg h2]; simp; omega
  · rw [if_neg h, if_neg h]
    by_cases h2 : 0 ≤ i + l.length
    · rw [if_pos h2, List.getElem?_reverse (by omega)]
      simp only [Option.bind_some]
      congr 1; omega
    · rw [if_neg h2]; simp; omega

theorem call_spec {l : FastList α} (h : l.WF) (c : Call α) :
    (l.call c).1.WF ∧ (l.call c).1.items = (step l.items c).1 ∧ (l.call c).2 = (step l.items c).2 := by
  cases c with
  | append x => exact ⟨wf_append h x, append_items h x, rfl⟩
  | extend xs => exact ⟨wf_extend h xs, extend_items h xs, rfl⟩
  | remove x =>
    refine ⟨wf_remove h x, ?_⟩
    simp only [call, step]
    by_cases hx : x ∈ l.items
    · rw [remove_ok h hx, if_pos hx]; exact ⟨rfl, rfl⟩
    · rw [if_neg hx]; unfold remove; rw [if_neg hx]; exact ⟨rfl, rfl⟩
  | pop i =>
    refine ⟨wf_pop h i, ?_⟩
    simp only [call, step, at?_pyIndex]
    cases hk : pyIndex l.items.length i with
    | none => simp only [Option.bind_none]; unfold pop; simp only [hk]; exact ⟨trivial, rfl⟩
    | some k =>
      have hlt := pyIndex_lt hk
      have hx : l.items[k]? = some l.items[k] := List.getElem?_eq_getElem hlt
      rw [pop_ok h hk hx]
      simp only [Option.bind_some, hx]
      exact ⟨(h.nodup.erase_getElem k hlt).symm, rfl⟩
  | clear => exact ⟨wf_empty, rfl, rfl⟩

theorem calls_spec {l : FastList α} (h : l.WF) (cs : List (Call α)) :
    (l.calls cs).1.WF ∧ (l.calls cs).1.items = (steps l.items cs).1 ∧ (l.calls cs).2 = (steps l.items cs).2 := by
  induction cs generalizing l with
  | nil => exact ⟨h, rfl, rfl⟩
  | cons c cs ih =>
    obtain ⟨h1, h2, h3⟩ := call_spec h c
    obtain ⟨i1, i2, i3⟩ := ih h1
    simp only [calls, steps]
    rw [← h2, ← h3]
    exact ⟨i1, i2, by rw [i3]⟩

theorem insert_sublist (l : List α) (x : α) : (Spec.insert l x).Sublist (l ++ [x]) := by
  unfold Spec.insert; split
  · exact List.sublist_append_left _ _
  · exact List.Sublist.refl _

theorem foldl_insert_sublist (xs l : List α) : (xs.foldl Spec.insert l).Sublist (l ++ xs) := by
  induction xs generalizing l with
  | nil => simp
  | cons x xs ih =>
    refine (ih _).trans ?_
    have := (insert_sublist l x).append (List.Sublist.refl xs)
    simpa using this

theorem steps_sublist (l : List α) (cs : List (Call α)) : (steps l cs).1.Sublist (l ++ offered cs) := by
  induction cs generalizing l with
  | nil => simp [steps, offered]
  | cons c cs ih =>
    simp only [steps]
    refine (ih _).trans ?_
    cases c with
    | append x => simpa [step, offered] using (insert_sublist l x).append (List.Sublist.refl (offered cs))
    | extend xs => simpa [step, offered] using (foldl_insert_sublist xs l).append (List.Sublist.refl (offered cs))
    | remove x =>
      simp only [step, offered]; split
      · exact (List.erase_sublist).append (List.Sublist.refl _)
      · exact List.Sublist.refl _
    | pop i =>
      simp only [step, offered]
      split
      · exact List.Sublist.refl _
      · exact (List.erase_sublist).append (List.Sublist.refl _)
    | clear => simp [step, offered]

end Satis.FastList
