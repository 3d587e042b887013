import Verif.Py
import Mathlib.Data.List.Basic
import Mathlib.Data.List.Nodup
/-!
# Python dictionaries

An insertion-ordered association list.
-/

namespace Satis

/-- A `dict`: keys in insertion order. -/
abbrev Dict (K V : Type) := List (K × V)

namespace Dict
variable {K V : Type} [DecidableEq K]

/-- `d.get(k)`. -/
def get? (d : Dict K V) (k : K) : Option V :=
  match d with
  | [] => none
  | (k', v) :: d => if k' = k then some v else get? d k

/-- `d[k] = v`: an existing key keeps its position, a new one goes last. -/
def set (d : Dict K V) (k : K) (v : V) : Dict K V :=
  match d with
  | [] => [(k, v)]
  | (k', v') :: d => if k' = k then (k', v) :: d else (k', v') :: set d k v

/-- `d.keys()`. -/
def keys (d : Dict K V) : List K := d.map Prod.fst

/-- `d.update(e)`. -/
def update (d e : Dict K V) : Dict K V := e.foldl (fun d kv => d.set kv.1 kv.2) d

/-- `d.pop(k)`: the dictionary without `k` (`none` is the `KeyError`). -/
def erase (d : Dict K V) (k : K) : Option (Dict K V) :=
  match d.get? k with
  | none => none
  | some _ => some (d.filter (fun kv => kv.1 ≠ k))

theorem get?_set (d : Dict K V) (k : K) (v : V) (k' : K) : (d.set k v).get? k' = if k' = k then some v else d.get? k' := by
  induction d with
  | nil =>
    simp only [set, get?]
    by_cases h : k = k'
    · rw [if_pos h, if_pos h.symm]
    · rw [if_neg h, if_neg (Ne.symm h)]
  | cons kv d ih =>
    obtain ⟨a, b⟩ := kv
    simp only [set]
    by_cases h : a = k
    · subst h
      rw [if_pos rfl]
      simp only [get?]
      by_cases h2 : a = k'
      · subst h2; rw [if_pos rfl, if_pos rfl]
      · rw [if_neg h2, if_neg (Ne.symm h2), if_neg h2]
    · rw [if_neg h]
      simp only [get?]
      by_cases h2 : a = k'
      · subst h2; rw [if_pos rfl, if_neg h, if_pos rfl]
      · rw [if_neg h2, ih, if_neg h2]

theorem get?_eq_none (d : Dict K V) (k : K) : d.get? k = none ↔ k ∉ d.keys := by
  induction d with
  | nil => simp [get?, keys]
  | cons kv d ih =>
    obtain ⟨a, b⟩ := kv
    simp only [get?, keys, List.map_cons, List.mem_cons]
    by_cases h : a = k
    · subst h; simp
    · rw [if_neg h, ih]; simp [keys, Ne.symm h]

theorem mem_of_get? (d : Dict K V) (k : K) (v : V) (h : d.get? k = some v) : (k, v) ∈ d := by
  induction d with
  | nil => simp [get?] at h
  | cons kv d ih =>
    obtain ⟨a, b⟩ := kv
    simp only [get?] at h
    by_cases h2 : a = k
    · subst h2; rw [if_pos rfl] at h; simp at h; simp [h]
    · rw [if_neg h2] at h; simp [ih h]

theorem get?_of_mem (d : Dict K V) (hd : d.keys.Nodup) (k : K) (v : V) (h : (k, v) ∈ d) : d.get? k = some v := by
  induction d with
  | nil => simp at h
  | cons kv d ih =>
    obtain ⟨a, b⟩ := kv
    simp only [keys, List.map_cons, List.nodup_cons] at hd
    simp only [get?]
    rcases List.mem_cons.1 h with h | h
    · simp at h; rw [if_pos h.1.symm, h.2]
    · have : a ≠ k := by
        rintro rfl
        exact hd.1 (List.mem_map.2 ⟨(a, v), h, rfl⟩)
      rw [if_neg this]; exact ih hd.2 h

theorem mem_keys_set (d : Dict K V) (k : K) (v : V) (k' : K) : k' ∈ (d.set k v).keys ↔ k' ∈ d.keys ∨ k' = k := by
  have h1 := get?_eq_none (d.set k v) k'
  have h2 := get?_eq_none d k'
  rw [get?_set] at h1
  by_cases h : k' = k
  · subst h
    rw [if_pos rfl] at h1
    simp only [reduceCtorEq, false_iff, not_not] at h1
    simp [h1]
  · rw [if_neg h] at h1
    simp only [h, or_false]
    rw [← not_iff_not, ← h1, h2]

theorem keys_set_of_mem (d : Dict K V) (k : K) (v : V) (h : k ∈ d.keys) : (d.set k v).keys = d.keys := by
  induction d with
  | nil => simp [keys] at h
  | cons kv d ih =>
    obtain ⟨a, b⟩ := kv
    simp only [set]
    by_cases h2 : a = k
    · rw [if_pos h2]; rfl
    · rw [if_neg h2]
      simp only [keys, List.map_cons, List.mem_cons] at h ⊢
      rw [show List.map Prod.fst (set d k v) = List.map Prod.fst d from ih (by
        rcases h with h | h
        · exact absurd h.symm h2
        · exact h)]

theorem set_of_not_mem (d : Dict K V) (k : K) (v : V) (h : k ∉ d.keys) : d.set k v = d ++ [(k, v)] := by
  induction d with
  | nil => rfl
  | cons kv d ih =>
    obtain ⟨a, b⟩ := kv
    simp only [keys, List.map_cons, List.mem_cons, not_or] at h
    simp only [set]
    rw [if_neg (Ne.symm h.1), ih h.2]; rfl

theorem keys_nodup_set (d : Dict K V) (k : K) (v : V) (h : d.keys.Nodup) : (d.set k v).keys.Nodup := by
  by_cases hk : k ∈ d.keys
  · rw [keys_set_of_mem d k v hk]; exact h
  · rw [set_of_not_mem d k v hk]
    simp only [keys, List.map_append, List.map_cons, List.map_nil]
    rw [List.nodup_append]
    refine ⟨h, by simp, ?_⟩
    simp only [List.mem_singleton]
    rintro a ha b rfl rfl
    exact hk ha

end Dict
end Satis
