import Verif.Utils.Model
import Verif.Utils.Spec
import Mathlib.Algebra.BigOperators.Group.List.Basic
import Mathlib.Algebra.BigOperators.Group.Finset.Basic
import Mathlib.Data.List.Count
import Mathlib.Data.List.Sort
import Mathlib.Tactic.Linarith
/-!
# Lemmas about `counter`, `elements` and `remove_pairs`
-/

namespace Satis.Utils
open Satis Spec
variable {α : Type} [DecidableEq α]

theorem counter_concat (l : List α) (x : α) :
    counter (l ++ [x]) = (counter l).set x (((counter l).get? x).getD 0 + 1) := by
  simp [counter]

theorem counter_get (l : List α) (x : α) : ((counter l).get? x).getD 0 = l.count x := by
  induction l using List.reverseRecOn with
  | nil => rfl
  | append_singleton l y ih =>
    rw [counter_concat, Dict.get?_set]
    by_cases h : x = y
    · subst h; rw [if_pos rfl]; simp [ih]
    · rw [if_neg h, ih]; simp [List.count_append, Ne.symm h]

theorem counter_keys_nodup (l : List α) : (counter l).keys.Nodup := by
  induction l using List.reverseRecOn with
  | nil => simp [counter, Dict.keys]
  | append_singleton l y ih => rw [counter_concat]; exact Dict.keys_nodup_set _ _ _ ih

theorem mem_counter_keys (l : List α) (x : α) : x ∈ (counter l).keys ↔ x ∈ l := by
  induction l using List.reverseRecOn with
  | nil => simp [counter, Dict.keys]
  | append_singleton l y ih => rw [counter_concat, Dict.mem_keys_set, ih]; simp

theorem counter_keys_sublist (l : List α) : (counter l).keys.Sublist l := by
  induction l using List.reverseRecOn with
  | nil => simp [counter, Dict.keys]
  | append_singleton l y ih =>
    rw [counter_concat]
    by_cases h : y ∈ (counter l).keys
    · rw [Dict.keys_set_of_mem _ _ _ h]; exact ih.trans (List.sublist_append_left _ _)
    · rw [Dict.set_of_not_mem _ _ _ h]
      simp only [Dict.keys, List.map_append, List.map_cons, List.map_nil]
      exact ih.append (List.Sublist.refl _)

theorem counter_pos (l : List α) : ∀ kv ∈ counter l, 1 ≤ kv.2 := by
  intro kv h
  have := Dict.get?_of_mem _ (counter_keys_nodup l) kv.1 kv.2 h
  have h2 := counter_get l kv.1
  rw [this] at h2
  have h3 : kv.1 ∈ l := (mem_counter_keys l kv.1).1 (List.mem_map.2 ⟨kv, h, rfl⟩)
  have := List.count_pos_iff.2 h3
  simp at h2; omega

theorem elements_count (d : Dict α Nat) (hd : d.keys.Nodup) (x : α) : (elements d).count x = (d.get? x).getD 0 := by
  induction d with
  | nil => rfl
  | cons kv d ih =>
    obtain ⟨k, n⟩ := kv
    simp only [Dict.keys, List.map_cons, List.nodup_cons] at hd
    have hc : elements ((k, n) :: d) = List.replicate n k ++ elements d := rfl
    rw [hc, List.count_append, ih hd.2]
    simp only [Dict.get?]
    by_cases h : k = x
    · subst h
      have : Dict.get? d k = none := (Dict.get?_eq_none d k).2 hd.1
      simp [this]
    · rw [if_neg h, List.count_replicate]; simp [h]

theorem elements_counter_perm (l : List α) : (elements (counter l)).Perm l := by
  rw [List.perm_iff_count]; intro x
  rw [elements_count _ (counter_keys_nodup l), counter_get]

theorem cancel_keys (ks : List α) (s : Dict α Nat × Dict α Nat) (h : ∀ k ∈ ks, k ∈ s.1.keys) :
    (ks.foldl cancelStep s).1.keys = s.1.keys ∧ (ks.foldl cancelStep s).2.keys = s.2.keys := by
  induction ks generalizing s with
  | nil => exact ⟨rfl, rfl⟩
  | cons k ks ih =>
    rw [List.foldl_cons]
    have hk : (cancelStep s k).1.keys = s.1.keys ∧ (cancelStep s k).2.keys = s.2.keys := by
      unfold cancelStep
      cases hb : s.2.get? k with
      | none => exact ⟨rfl, rfl⟩
      | some nb =>
        refine ⟨Dict.keys_set_of_mem _ _ _ (h k (by simp)), Dict.keys_set_of_mem _ _ _ ?_⟩
        by_contra hn
        rw [(Dict.get?_eq_none _ _).2 hn] at hb; simp at hb
    have := ih (cancelStep s k) (by intro k' hk'; rw [hk.1]; exact h k' (by simp [hk']))
    rw [this.1, this.2]; exact hk

theorem cancelStep_get (s : Dict α Nat × Dict α Nat) (k x : α) :
    ((cancelStep s k).1.get? x).getD 0 = (if x = k then (s.1.get? x).getD 0 - min ((s.1.get? x).getD 0) ((s.2.get? x).getD 0)
      else (s.1.get? x).getD 0) ∧
    ((cancelStep s k).2.get? x).getD 0 = (if x = k then (s.2.get? x).getD 0 - min ((s.1.get? x).getD 0) ((s.2.get? x).getD 0)
      else (s.2.get? x).getD 0) := by
  unfold cancelStep
  cases hb : s.2.get? k with
  | none =>
    by_cases hx : x = k
    · subst hx; rw [if_pos rfl, if_pos rfl, hb]; simp
    · rw [if_neg hx, if_neg hx]; exact ⟨rfl, rfl⟩
  | some nb =>
    simp only [Dict.get?_set]
    by_cases hx : x = k
    · subst hx; simp [hb]
    · simp [hx]

theorem cancel_get (ks : List α) (hks : ks.Nodup) (s : Dict α Nat × Dict α Nat) (x : α) :
    ((ks.foldl cancelStep s).1.get? x).getD 0 = (if x ∈ ks then (s.1.get? x).getD 0 - min ((s.1.get? x).getD 0) ((s.2.get? x).getD 0)
      else (s.1.get? x).getD 0) ∧
    ((ks.foldl cancelStep s).2.get? x).getD 0 = (if x ∈ ks then (s.2.get? x).getD 0 - min ((s.1.get? x).getD 0) ((s.2.get? x).getD 0)
      else (s.2.get? x).getD 0) := by
  induction ks generalizing s with
  | nil => simp
  | cons k ks ih =>
    rw [List.nodup_cons] at hks
    rw [List.foldl_cons]
    have h1 := ih hks.2 (cancelStep s k)
    have h2 := cancelStep_get s k x
    rw [h1.1, h1.2, h2.1, h2.2]
    by_cases hx : x = k
    · subst hx; simp [hks.1]
    · simp [hx]

theorem removePairs_count (a b : List α) (x : α) :
    (removePairs a b).1.count x = a.count x - min (a.count x) (b.count x) ∧
    (removePairs a b).2.count x = b.count x - min (a.count x) (b.count x) := by
  unfold removePairs
  have hk := cancel_keys (counter a).keys (counter a, counter b) (fun k hk => hk)
  simp only
  rw [elements_count _ (by rw [hk.1]; exact counter_keys_nodup a), elements_count _ (by rw [hk.2]; exact counter_keys_nodup b)]
  have := cancel_get (counter a).keys (counter_keys_nodup a) (counter a, counter b) x
  rw [this.1, this.2]
  simp only [counter_get]
  by_cases h : x ∈ (counter a).keys
  · rw [if_pos h, if_pos h]; exact ⟨rfl, rfl⟩
  · rw [if_neg h, if_neg h]
    rw [mem_counter_keys] at h
    rw [List.count_eq_zero_of_not_mem h]; simp

omit [DecidableEq α] in
theorem elements_pairwise {r : α → α → Prop} (hr : ∀ x, r x x) (d : Dict α Nat) (h : d.keys.Pairwise r) :
    (elements d).Pairwise r := by
  induction d with
  | nil => exact List.Pairwise.nil
  | cons kv d ih =>
    obtain ⟨k, n⟩ := kv
    simp only [Dict.keys, List.map_cons, List.pairwise_cons] at h
    have hc : elements ((k, n) :: d) = List.replicate n k ++ elements d := rfl
    rw [hc, List.pairwise_append]
    refine ⟨?_, ih h.2, ?_⟩
    · rw [List.pairwise_replicate]; exact Or.inr (hr k)
    · intro x hx y hy
      rw [List.eq_of_mem_replicate hx]
      refine h.1 y ?_
      simp only [elements, List.mem_flatMap] at hy
      obtain ⟨kv, hkv, hy⟩ := hy
      rw [List.eq_of_mem_replicate hy]; exact List.mem_map.2 ⟨kv, hkv, rfl⟩

theorem removePairs_pairwise {r : α → α → Prop} (hr : ∀ x, r x x) (a b : List α) :
    (a.Pairwise r → (removePairs a b).1.Pairwise r) ∧ (b.Pairwise r → (removePairs a b).2.Pairwise r) := by
  have hk := cancel_keys (counter a).keys (counter a, counter b) (fun k hk => hk)
  refine ⟨fun h => elements_pairwise hr _ ?_, fun h => elements_pairwise hr _ ?_⟩
  · rw [hk.1]; exact h.sublist (counter_keys_sublist a)
  · rw [hk.2]; exact h.sublist (counter_keys_sublist b)

/-- The values kept by `remove_pairs` are those of the arguments. -/
theorem removePairs_perm (a b : List α) :
    ∃ c, ((removePairs a b).1 ++ c).Perm a ∧ ((removePairs a b).2 ++ c).Perm b := by
  refine ⟨a.bagInter b, ?_, ?_⟩ <;>
  · rw [List.perm_iff_count]; intro x
    have := removePairs_count a b x
    rw [List.count_append, List.count_bagInter]
    first | rw [this.1] | rw [this.2]
    omega

omit [DecidableEq α] in
theorem adjacent_prefix {l m : List α} (h : Adjacent (l ++ m)) : Adjacent l := by
  intro u v w x hl y hy
  refine h u v (w ++ m) x ?_ y hy
  rw [hl]; simp

theorem elements_counter_adjacent (l : List α) (h : Adjacent l) : elements (counter l) = l := by
  induction l using List.reverseRecOn with
  | nil => rfl
  | append_singleton l x ih =>
    have ih := ih (adjacent_prefix h)
    rw [counter_concat]
    by_cases hx : x ∈ (counter l).keys
    · have hxl := (mem_counter_keys l x).1 hx
      obtain ⟨u, v, hl⟩ := List.append_of_mem hxl
      have hv : ∀ y ∈ v, y = x := h u v [] x (by rw [hl])
      have hlast : l.getLast? = some x := by
        rw [hl]
        rcases List.eq_nil_or_concat v with rfl | ⟨v', z, rfl⟩
        · simp
        · have := hv z (by simp)
          subst this
          rw [show u ++ z :: v'.concat z = (u ++ z :: v') ++ [z] by simp, List.getLast?_concat]
      generalize hd : counter l = d at *
      rcases List.eq_nil_or_concat d with rfl | ⟨d', ⟨k, c⟩, rfl⟩
      · simp [Dict.keys] at hx
      · have hc := counter_pos l (k, c) (by rw [hd]; simp)
        obtain ⟨c, rfl⟩ : ∃ c', c = c' + 1 := ⟨c - 1, by simp at hc; omega⟩
        have he : elements (d'.concat (k, c + 1)) = elements d' ++ List.replicate (c + 1) k := by
          simp [elements]
        have hk : k = x := by
          rw [he, List.replicate_succ', ← List.append_assoc] at ih
          rw [← ih] at hlast; simpa using hlast
        subst hk
        have hn := counter_keys_nodup l
        rw [hd] at hn
        have hnk : k ∉ Dict.keys d' := by
          simp only [Dict.keys, List.concat_eq_append, List.map_append, List.map_cons, List.map_nil] at hn
          rw [List.nodup_append] at hn
          intro hm; exact hn.2.2 k hm k (by simp) rfl
        have hset : ∀ (d' : Dict α Nat), k ∉ d'.keys → ∀ n m, Dict.set (d' ++ [(k, n)]) k m = d' ++ [(k, m)] := by
          intro d'
          induction d' with
          | nil => intro _ n m; simp [Dict.set]
          | cons kv d' ihd =>
            intro hkd n m
            obtain ⟨a, b⟩ := kv
            simp only [Dict.keys, List.map_cons, List.mem_cons, not_or] at hkd
            show Dict.set ((a, b) :: (d' ++ [(k, n)])) k m = _
            simp only [Dict.set]
            rw [if_neg (Ne.symm hkd.1), ihd hkd.2]; rfl
        have hget : Dict.get? (d'.concat (k, c + 1)) k = some (c + 1) :=
          Dict.get?_of_mem _ hn k (c + 1) (by simp)
        rw [hget, List.concat_eq_append, hset d' hnk]
        rw [← ih, he]
        simp only [elements, List.flatMap_append, List.flatMap_cons, List.flatMap_nil, Option.getD_some, List.append_nil,
          List.append_assoc]
        rw [List.replicate_succ' (n := c + 1)]
    · rw [Dict.set_of_not_mem _ _ _ hx, (Dict.get?_eq_none _ _).2 hx]
      have : elements (counter l ++ [(x, 1)]) = elements (counter l) ++ [x] := by simp [elements]
      simp only [Option.getD_none, Nat.zero_add]
      rw [this, ih]

theorem removePairs_disjoint (l : List α) (hl : Adjacent l) (m : List α) (hd : ∀ v ∈ l, v ∉ m) :
    removePairs l m = (l, elements (counter m)) := by
  have hnone : ∀ ks : List α, (∀ k ∈ ks, k ∉ m) → ks.foldl cancelStep (counter l, counter m) = (counter l, counter m) := by
    intro ks
    induction ks with
    | nil => intro _; rfl
    | cons k ks ih =>
      intro h
      rw [List.foldl_cons]
      have : cancelStep (counter l, counter m) k = (counter l, counter m) := by
        unfold cancelStep
        have : (counter m).get? k = none := by
          rw [Dict.get?_eq_none, mem_counter_keys]; exact h k (by simp)
        simp only [this]
      rw [this]; exact ih (fun k hk => h k (by simp [hk]))
  unfold removePairs
  rw [hnone _ (fun k hk => hd k ((mem_counter_keys l k).1 hk))]
  simp only [elements_counter_adjacent l hl]

omit [DecidableEq α] in
theorem adjacent_elements (d : Dict α ℕ) (hd : d.keys.Nodup) : Adjacent (elements d) := by
  induction d with
  | nil => intro u v w x h; simp [elements] at h
  | cons kv d ih =>
    obtain ⟨k, n⟩ := kv
    simp only [Dict.keys, List.map_cons, List.nodup_cons] at hd
    have hk : k ∉ elements d := by
      intro h
      simp only [elements, List.mem_flatMap] at h
      obtain ⟨kv, hkv, hy⟩ := h
      rw [List.eq_of_mem_replicate hy] at hd
      exact hd.1 (List.mem_map.2 ⟨kv, hkv, rfl⟩)
    have he : elements ((k, n) :: d) = List.replicate n k ++ elements d := rfl
    rw [he]
    clear he
    induction n with
    | zero => simpa using ih hd.2
    | succ n ihn =>
      rw [List.replicate_succ, List.cons_append]
      intro u v w x h y hy
      cases u with
      | nil =>
        simp only [List.nil_append, List.cons_append, List.cons.injEq] at h
        obtain ⟨rfl, h⟩ := h
        -- the second copy of `x = k` lies in the replicate block
        have : v.length < n := by
          by_contra hlt
          have h2 := congrArg (fun l => l[v.length]?) h
          simp only [List.getElem?_append_right (show (List.replicate n k).length ≤ v.length by simp; omega),
            List.getElem?_append_right (le_refl v.length), Nat.sub_self, List.getElem?_cons_zero] at h2
          exact hk (List.mem_of_getElem? h2)
        obtain ⟨i, hi, rfl⟩ := List.mem_iff_getElem.1 hy
        have h2 := congrArg (fun l => l[i]?) h
        simp only [List.getElem?_append_left (show i < (List.replicate n k).length by simp; omega),
          List.getElem?_append_left hi, List.getElem?_replicate] at h2
        rw [if_pos (by omega), List.getElem?_eq_getElem hi] at h2
        simpa using h2.symm
      | cons z u =>
        simp only [List.cons_append, List.cons.injEq] at h
        exact ihn u v w x (by simpa using h.2) y hy

end Satis.Utils
