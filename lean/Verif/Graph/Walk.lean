import Verif.Graph.Traverse
import Verif.Graph.Copy
import Mathlib.Algebra.Order.BigOperators.Group.List
/-!
# Recursive traversals visit each reachable node once
-/

namespace Satis.Graph
open Satis

/-- The traversal that only marks. -/
def marking (l : List Addr) (a : Addr) : Py (List Addr) := .ok (l ++ [a])

/-- The traversal that only marks, on a graph that does not change. -/
def markWalk (K : Addr → List Addr) (fuel : Nat) (l : List Addr) (stack : List (Addr × Nat)) : Py (List Addr) :=
  walk marking (fun _ a => K a) (fun l a => decide (a ∈ l)) fuel l stack

/-- The marking traversal only adds marks, and only to nodes of a set that is closed under children. -/
theorem markWalk_ext (K : Addr → List Addr) (N : Addr → Prop) (hN : ∀ a, N a → ∀ c ∈ K a, N c) :
    ∀ fuel l stack l', (∀ f ∈ stack, N f.1) → markWalk K fuel l stack = .ok l' → ∃ o, l' = l ++ o ∧ ∀ a ∈ o, N a := by
  intro fuel
  induction fuel with
  | zero =>
    intro l stack l' hst hw
    cases stack with
    | nil =>
      simp only [markWalk, walk] at hw
      cases hw
      exact ⟨[], by simp, by simp⟩
    | cons f stack => simp [markWalk, walk] at hw
  | succ fuel ih =>
    intro l stack l' hst hw
    cases stack with
    | nil =>
      simp only [markWalk, walk] at hw
      cases hw
      exact ⟨[], by simp, by simp⟩
    | cons f stack =>
      obtain ⟨a, i⟩ := f
      have hNa : N a := hst (a, i) (by simp)
      have hst' : ∀ f ∈ stack, N f.1 := fun f hf => hst f (List.mem_cons_of_mem _ hf)
      have hst1 : ∀ f ∈ (a, i + 1) :: stack, N f.1 := fun f hf => by
        rcases List.mem_cons.1 hf with rfl | hf
        · exact hNa
        · exact hst' f hf
      simp only [markWalk, walk] at hw
      cases hc : (K a)[i]? with
      | none =>
        rw [hc] at hw
        exact ih l stack l' hst' hw
      | some c =>
        rw [hc] at hw
        have hNc : N c := hN a hNa c (List.mem_of_getElem? hc)
        simp only at hw
        by_cases hm : c ∈ l
        · simp only [hm, decide_true, if_true] at hw
          exact ih l _ l' hst1 hw
        · simp only [hm, decide_false, Bool.false_eq_true, if_false, marking] at hw
          obtain ⟨o, e1, e2⟩ := ih (l ++ [c]) ((c, 0) :: (a, i + 1) :: stack) l' (fun f hf => by
            rcases List.mem_cons.1 hf with rfl | hf
            · exact hNc
            · exact hst1 f hf) hw
          refine ⟨c :: o, by rw [e1]; simp, fun x hx => ?_⟩
          rcases List.mem_cons.1 hx with rfl | hx
          · exact hNc
          · exact e2 x hx

/-- Any traversal that does not change the graph visits the same nodes in the same order. -/
theorem walk_sim {S : Type} {visit : S → Addr → Py S} {kids : S → Addr → List Addr} {seen : S → Addr → Bool} (K : Addr → List Addr)
    (N : Addr → Prop) (R : S → List Addr → Prop) (hN : ∀ a, N a → ∀ c ∈ K a, N c)
    (hk : ∀ s l, R s l → ∀ a, N a → kids s a = K a) (hs : ∀ s l, R s l → ∀ a, N a → seen s a = decide (a ∈ l))
    (hv : ∀ s l a s', R s l → N a → a ∉ l → visit s a = .ok s' → R s' (l ++ [a])) :
    ∀ fuel s l stack l', R s l → (∀ f ∈ stack, N f.1) → markWalk K fuel l stack = .ok l' →
      ∃ o, l' = l ++ o ∧ walk visit kids seen fuel s stack = o.foldlM visit s ∧ (∀ a ∈ o, N a) ∧
        ∀ s', o.foldlM visit s = .ok s' → R s' l' := by
  intro fuel
  induction fuel with
  | zero =>
    intro s l stack l' hR hst hw
    cases stack with
    | nil =>
      simp only [markWalk, walk] at hw
      cases hw
      exact ⟨[], by simp, rfl, by simp, fun s' e => by cases e; exact hR⟩
    | cons f stack => simp [markWalk, walk] at hw
  | succ fuel ih =>
    intro s l stack l' hR hst hw
    cases stack with
    | nil =>
      simp only [markWalk, walk] at hw
      cases hw
      exact ⟨[], by simp, rfl, by simp, fun s' e => by cases e; exact hR⟩
    | cons f stack =>
      obtain ⟨a, i⟩ := f
      have hNa : N a := hst (a, i) (by simp)
      have hst' : ∀ f ∈ stack, N f.1 := fun f hf => hst f (List.mem_cons_of_mem _ hf)
      simp only [markWalk, walk] at hw
      rw [walk, hk s l hR a hNa]
      cases hc : (K a)[i]? with
      | none =>
        rw [hc] at hw
        exact ih s l stack l' hR hst' hw
      | some c =>
        rw [hc] at hw
        have hNc : N c := hN a hNa c (List.mem_of_getElem? hc)
        simp only at hw ⊢
        rw [hs s l hR c hNc]
        by_cases hm : c ∈ l
        · simp only [hm, decide_true, if_true] at hw ⊢
          exact ih s l ((a, i + 1) :: stack) l' hR (fun f hf => by
            rcases List.mem_cons.1 hf with rfl | hf
            · exact hNa
            · exact hst' f hf) hw
        · simp only [hm, decide_false, Bool.false_eq_true, if_false, marking] at hw ⊢
          have hst'' : ∀ f ∈ (c, 0) :: (a, i + 1) :: stack, N f.1 := fun f hf => by
            rcases List.mem_cons.1 hf with rfl | hf
            · exact hNc
            · rcases List.mem_cons.1 hf with rfl | hf
              · exact hNa
              · exact hst' f hf
          cases hvis : visit s c with
          | error e =>
            obtain ⟨o, e1, e2⟩ := markWalk_ext K N hN fuel (l ++ [c]) _ l' hst'' hw
            refine ⟨c :: o, by rw [e1]; simp, ?_, ?_, ?_⟩
            · rw [List.foldlM_cons, hvis]
              rfl
            · intro x hx
              rcases List.mem_cons.1 hx with rfl | hx
              · exact hNc
              · exact e2 x hx
            · intro s' hs'
              rw [List.foldlM_cons, hvis] at hs'
              cases hs'
          | ok s1 =>
            obtain ⟨o, e1, e2, e3, e4⟩ := ih s1 (l ++ [c]) _ l' (hv s l c s1 hR hNc hm hvis) hst'' hw
            refine ⟨c :: o, by rw [e1]; simp, ?_, ?_, ?_⟩
            · rw [List.foldlM_cons, hvis]
              exact e2
            · intro x hx
              rcases List.mem_cons.1 hx with rfl | hx
              · exact hNc
              · exact e3 x hx
            · intro s' hs'
              rw [List.foldlM_cons, hvis] at hs'
              exact e4 s' hs'

/-- `a` can be reached from `rs` by following `K`. -/
inductive From (K : Addr → List Addr) (rs : List Addr) : Addr → Prop
  | root {a} : a ∈ rs → From K rs a
  | step {a b} : From K rs a → b ∈ K a → From K rs b

/-- The work for the unmarked nodes among `N`. -/
def unmarkedWork (K : Addr → List Addr) (N l : List Addr) : Nat := ((N.filter fun a => decide (a ∉ l)).map fun a => (K a).length + 1).sum

/-- The work for the loops on the stack. -/
def stackWork (K : Addr → List Addr) (stack : List (Addr × Nat)) : Nat := (stack.map fun f => (K f.1).length - f.2 + 1).sum

theorem unmarkedWork_append (K : Addr → List Addr) (N l : List Addr) (c : Addr) (hc : c ∈ N) (hl : c ∉ l) :
    unmarkedWork K N (l ++ [c]) + (K c).length + 1 ≤ unmarkedWork K N l := by
  induction N with
  | nil => simp at hc
  | cons x N ih =>
    unfold unmarkedWork at ih ⊢
    have mono : ((N.filter fun a => decide (a ∉ l ++ [c])).map fun a => (K a).length + 1).sum ≤
        ((N.filter fun a => decide (a ∉ l)).map fun a => (K a).length + 1).sum := by
      clear ih hc
      induction N with
      | nil => simp
      | cons y N ih =>
        by_cases h1 : y ∈ l
        · have h2 : y ∈ l ++ [c] := List.mem_append_left _ h1
          simpa [List.filter_cons, h1, h2] using ih
        · by_cases h2 : y = c
          · subst h2
            simp only [List.filter_cons, List.mem_append, List.mem_singleton, or_true, not_true, decide_false, h1, not_false_eq_true,
              decide_true, if_true, List.map_cons, List.sum_cons, Bool.false_eq_true, if_false] at ih ⊢
            omega
          · simp only [List.filter_cons, List.mem_append, List.mem_singleton, h1, h2, or_self, not_false_eq_true, decide_true, if_true,
              List.map_cons, List.sum_cons] at ih ⊢
            omega
    by_cases hx : x = c
    · subst hx
      simp only [List.filter_cons, List.mem_append, List.mem_singleton, or_true, not_true, decide_false, hl, not_false_eq_true,
        decide_true, if_true, List.map_cons, List.sum_cons, Bool.false_eq_true, if_false] at mono ⊢
      omega
    · have hc' : c ∈ N := by
        rcases List.mem_cons.1 hc with h | h
        · exact absurd h.symm hx
        · exact h
      have := ih hc'
      by_cases h1 : x ∈ l
      · have h2 : x ∈ l ++ [c] := List.mem_append_left _ h1
        simpa [List.filter_cons, h1, h2] using this
      · simp only [List.filter_cons, List.mem_append, List.mem_singleton, h1, hx, or_self, not_false_eq_true, decide_true, if_true,
          List.map_cons, List.sum_cons] at this ⊢
        omega

/-- The marking traversal ends with a set of marks that is closed under children. -/
theorem markWalk_spec (K : Addr → List Addr) (N : List Addr) (hN : ∀ a ∈ N, ∀ c ∈ K a, c ∈ N) :
    ∀ fuel l stack, (∀ f ∈ stack, f.1 ∈ N) → unmarkedWork K N l + stackWork K stack ≤ fuel → l.Nodup →
      (∀ a ∈ l, ∀ j c, (K a)[j]? = some c → c ∈ l ∨ ∃ i, (a, i) ∈ stack ∧ i ≤ j) →
      ∃ l', markWalk K fuel l stack = .ok l' ∧ l'.Nodup ∧ ∀ a ∈ l', ∀ c ∈ K a, c ∈ l' := by
  intro fuel
  induction fuel with
  | zero =>
    intro l stack hst hf hnd hcl
    cases stack with
    | nil =>
      refine ⟨l, by simp [markWalk, walk], hnd, fun a ha c hc => ?_⟩
      obtain ⟨j, hj⟩ := List.getElem?_of_mem hc
      rcases hcl a ha j c hj with h | ⟨i, h, -⟩
      · exact h
      · simp at h
    | cons f stack => simp [stackWork] at hf
  | succ fuel ih =>
    intro l stack hst hf hnd hcl
    cases stack with
    | nil =>
      refine ⟨l, by simp [markWalk, walk], hnd, fun a ha c hc => ?_⟩
      obtain ⟨j, hj⟩ := List.getElem?_of_mem hc
      rcases hcl a ha j c hj with h | ⟨i, h, -⟩
      · exact h
      · simp at h
    | cons f stack =>
      obtain ⟨a, i⟩ := f
      have hNa : a ∈ N := hst (a, i) (by simp)
      have hst' : ∀ f ∈ stack, f.1 ∈ N := fun f hf => hst f (List.mem_cons_of_mem _ hf)
      have hst1 : ∀ f ∈ (a, i + 1) :: stack, f.1 ∈ N := fun f hf => by
        rcases List.mem_cons.1 hf with rfl | hf
        · exact hNa
        · exact hst' f hf
      simp only [stackWork, List.map_cons, List.sum_cons] at hf
      simp only [markWalk, walk]
      cases hc : (K a)[i]? with
      | none =>
        have hlen := List.getElem?_eq_none_iff.1 hc
        refine ih l stack hst' (by unfold stackWork; omega) hnd ?_
        intro b hb j c hj
        rcases hcl b hb j c hj with h | ⟨k, h, hk⟩
        · exact .inl h
        · rcases List.mem_cons.1 h with h | h
          · cases h
            have := (List.getElem?_eq_some_iff.1 hj).1
            omega
          · exact .inr ⟨k, h, hk⟩
      | some c =>
        have hlen := (List.getElem?_eq_some_iff.1 hc).1
        have hNc : c ∈ N := hN a hNa c (List.mem_of_getElem? hc)
        -- the loop of `a` moves on once `c` is marked
        have move : ∀ l1 : List Addr, c ∈ l1 → (∀ x ∈ l, x ∈ l1) → ∀ b ∈ l, ∀ j x, (K b)[j]? = some x →
            x ∈ l1 ∨ ∃ k, (b, k) ∈ (a, i + 1) :: stack ∧ k ≤ j := by
          intro l1 hcl1 hsub b hb j x hj
          rcases hcl b hb j x hj with h | ⟨k, h, hk⟩
          · exact .inl (hsub x h)
          · rcases List.mem_cons.1 h with h | h
            · cases h
              rcases Nat.lt_or_ge i j with hij | hij
              · exact .inr ⟨i + 1, by simp, hij⟩
              · have : i = j := by omega
                subst this
                rw [hc] at hj
                cases hj
                exact .inl hcl1
            · exact .inr ⟨k, List.mem_cons_of_mem _ h, hk⟩
        simp only
        by_cases hm : c ∈ l
        · simp only [hm, decide_true, if_true]
          exact ih l _ hst1 (by simp only [stackWork, List.map_cons, List.sum_cons]; omega) hnd (move l hm fun _ h => h)
        · simp only [hm, decide_false, Bool.false_eq_true, if_false, marking]
          have hw := unmarkedWork_append K N l c hNc hm
          refine ih (l ++ [c]) ((c, 0) :: (a, i + 1) :: stack) (fun f hf => ?_) ?_ ?_ ?_
          · rcases List.mem_cons.1 hf with rfl | hf
            · exact hNc
            · exact hst1 f hf
          · simp only [stackWork, List.map_cons, List.sum_cons]
            omega
          · exact List.nodup_append.2 ⟨hnd, by simp, fun x hx y hy => by
              rw [List.mem_singleton] at hy
              rintro rfl
              exact hm (hy ▸ hx)⟩
          · intro b hb j x hj
            rcases List.mem_append.1 hb with hb | hb
            · rcases move (l ++ [c]) (by simp) (fun x hx => List.mem_append_left _ hx) b hb j x hj with h | ⟨k, h, hk⟩
              · exact .inl h
              · exact .inr ⟨k, List.mem_cons_of_mem _ h, hk⟩
            · rw [List.mem_singleton] at hb
              subst hb
              exact .inr ⟨0, by simp, by omega⟩

/-- The fuel that is enough for a graph with nodes `N`. -/
def walkFuel (K : Addr → List Addr) (N : List Addr) : Nat := (N.map fun a => (K a).length + 1).sum

theorem unmarkedWork_le (K : Addr → List Addr) (N l : List Addr) : unmarkedWork K N l ≤ walkFuel K N := by
  unfold unmarkedWork walkFuel
  induction N with
  | nil => simp
  | cons x N ih =>
    rw [List.filter_cons]
    split <;> simp only [List.map_cons, List.sum_cons] <;> omega

/-- The marking traversal from several nodes. -/
def markAll (K : Addr → List Addr) (fuel : Nat) (l roots : List Addr) : Py (List Addr) :=
  walkAll marking (fun _ a => K a) (fun l a => decide (a ∈ l)) fuel l roots

theorem markAll_cons (K : Addr → List Addr) (fuel : Nat) (l : List Addr) (r : Addr) (roots : List Addr) :
    markAll K fuel l (r :: roots) =
      if r ∈ l then markAll K fuel l roots else (markWalk K fuel (l ++ [r]) [(r, 0)]) >>= fun l' => markAll K fuel l' roots := by
  unfold markAll walkAll
  rw [List.foldlM_cons, walkFrom]
  by_cases hm : r ∈ l
  · simp only [hm, decide_true, if_true]
    rfl
  · simp only [hm, decide_false, Bool.false_eq_true, if_false, marking]
    rfl

theorem markAll_spec (K : Addr → List Addr) (N : List Addr) (hN : ∀ a ∈ N, ∀ c ∈ K a, c ∈ N) (fuel : Nat) (hf : walkFuel K N ≤ fuel) :
    ∀ (roots l : List Addr), (∀ r ∈ roots, r ∈ N) → l.Nodup → (∀ a ∈ l, ∀ c ∈ K a, c ∈ l) →
      ∃ l', markAll K fuel l roots = .ok l' ∧ l'.Nodup ∧ (∀ a ∈ l', ∀ c ∈ K a, c ∈ l') ∧ (∀ r ∈ roots, r ∈ l') ∧ (∀ a ∈ l, a ∈ l') ∧
        ∀ a ∈ l', a ∈ l ∨ From K roots a := by
  intro roots
  induction roots with
  | nil => exact fun l _ hnd hcl => ⟨l, rfl, hnd, hcl, by simp, fun _ h => h, fun _ h => .inl h⟩
  | cons r roots ih =>
    intro l hr hnd hcl
    have hrN := hr r (by simp)
    have hr' : ∀ r ∈ roots, r ∈ N := fun x hx => hr x (List.mem_cons_of_mem _ hx)
    have lift : ∀ a, From K roots a → From K (r :: roots) a := fun a h => by
      induction h with
      | root h => exact .root (List.mem_cons_of_mem _ h)
      | step _ hb ih => exact ih.step hb
    rw [markAll_cons]
    by_cases hm : r ∈ l
    · obtain ⟨l', h1, h2, h3, h4, h5, h6⟩ := ih l hr' hnd hcl
      refine ⟨l', by simpa [hm] using h1, h2, h3, fun x hx => ?_, h5, fun a ha => (h6 a ha).imp id (lift a)⟩
      rcases List.mem_cons.1 hx with rfl | hx
      · exact h5 x hm
      · exact h4 x hx
    · have hnd1 : (l ++ [r]).Nodup := List.nodup_append.2 ⟨hnd, by simp, fun x hx y hy => by
          rw [List.mem_singleton] at hy
          rintro rfl
          exact hm (hy ▸ hx)⟩
      have hw := unmarkedWork_append K N l r hrN hm
      have hle := unmarkedWork_le K N l
      obtain ⟨l1, w1, w2, w3⟩ := markWalk_spec K N hN fuel (l ++ [r]) [(r, 0)] (by simpa using hrN)
        (by simp only [stackWork, List.map_cons, List.sum_cons, List.map_nil, List.sum_nil]; omega) hnd1 (by
          intro a ha j c hj
          rcases List.mem_append.1 ha with ha | ha
          · exact .inl (List.mem_append_left _ (hcl a ha c (List.mem_of_getElem? hj)))
          · rw [List.mem_singleton] at ha
            subst ha
            exact .inr ⟨0, by simp, by omega⟩)
      obtain ⟨o, e1, e2⟩ := markWalk_ext K (fun a => From K (r :: roots) a) (fun a ha c hc => ha.step hc) fuel (l ++ [r]) [(r, 0)] l1
        (by intro f hf; rw [List.mem_singleton] at hf; subst hf; exact .root (by simp)) w1
      obtain ⟨l', h1, h2, h3, h4, h5, h6⟩ := ih l1 hr' w2 w3
      have hsub : ∀ a ∈ l ++ [r], a ∈ l' := fun a ha => h5 a (by rw [e1]; exact List.mem_append_left _ ha)
      refine ⟨l', by rw [if_neg hm, w1]; exact h1, h2, h3, fun x hx => ?_, fun a ha => hsub a (List.mem_append_left _ ha),
        fun a ha => ?_⟩
      · rcases List.mem_cons.1 hx with rfl | hx
        · exact hsub x (by simp)
        · exact h4 x hx
      · rcases h6 a ha with h | h
        · rw [e1] at h
          rcases List.mem_append.1 h with h | h
          · rcases List.mem_append.1 h with h | h
            · exact .inl h
            · rw [List.mem_singleton] at h
              subst h
              exact .inr (.root (by simp))
          · exact .inr (e2 a h)
        · exact .inr (lift a h)

theorem markAll_ext (K : Addr → List Addr) (N : Addr → Prop) (hN : ∀ a, N a → ∀ c ∈ K a, N c) (fuel : Nat) :
    ∀ (roots l l' : List Addr), (∀ r ∈ roots, N r) → markAll K fuel l roots = .ok l' → ∃ o, l' = l ++ o := by
  intro roots
  induction roots with
  | nil =>
    intro l l' _ h
    cases h
    exact ⟨[], by simp⟩
  | cons r roots ih =>
    intro l l' hr h
    rw [markAll_cons] at h
    have hr' : ∀ r ∈ roots, N r := fun x hx => hr x (List.mem_cons_of_mem _ hx)
    split at h
    · exact ih l l' hr' h
    · cases hw : markWalk K fuel (l ++ [r]) [(r, 0)] with
      | error e =>
        rw [hw] at h
        cases h
      | ok l1 =>
        rw [hw] at h
        obtain ⟨o1, e1, -⟩ := markWalk_ext K N hN fuel _ _ l1 (by
          intro f hf
          rw [List.mem_singleton] at hf
          subst hf
          exact hr r (by simp)) hw
        obtain ⟨o2, e2⟩ := ih l1 l' hr' h
        exact ⟨r :: o1 ++ o2, by rw [e2, e1]; simp⟩

theorem walkAll_sim {S : Type} {visit : S → Addr → Py S} {kids : S → Addr → List Addr} {seen : S → Addr → Bool} (K : Addr → List Addr)
    (N : Addr → Prop) (R : S → List Addr → Prop) (hN : ∀ a, N a → ∀ c ∈ K a, N c)
    (hk : ∀ s l, R s l → ∀ a, N a → kids s a = K a) (hs : ∀ s l, R s l → ∀ a, N a → seen s a = decide (a ∈ l))
    (hv : ∀ s l a s', R s l → N a → a ∉ l → visit s a = .ok s' → R s' (l ++ [a])) (fuel : Nat) :
    ∀ (roots : List Addr) s l l', R s l → (∀ r ∈ roots, N r) → markAll K fuel l roots = .ok l' →
      ∃ o, l' = l ++ o ∧ walkAll visit kids seen fuel s roots = o.foldlM visit s ∧ ∀ s', o.foldlM visit s = .ok s' → R s' l' := by
  intro roots
  induction roots with
  | nil =>
    intro s l l' hR _ h
    cases h
    exact ⟨[], by simp, rfl, fun s' e => by cases e; exact hR⟩
  | cons r roots ih =>
    intro s l l' hR hr h
    have hr' : ∀ r ∈ roots, N r := fun x hx => hr x (List.mem_cons_of_mem _ hx)
    have hNr := hr r (by simp)
    rw [markAll_cons] at h
    rw [walkAll, List.foldlM_cons, walkFrom, hs s l hR r hNr]
    by_cases hm : r ∈ l
    · rw [if_pos hm] at h
      obtain ⟨o, h1, h2, h3⟩ := ih s l l' hR hr' h
      refine ⟨o, h1, ?_, h3⟩
      simp only [hm, decide_true, if_true]
      exact h2
    · rw [if_neg hm] at h
      simp only [hm, decide_false, Bool.false_eq_true, if_false]
      cases hw : markWalk K fuel (l ++ [r]) [(r, 0)] with
      | error e =>
        rw [hw] at h
        cases h
      | ok l1 =>
        rw [hw] at h
        have h : markAll K fuel l1 roots = .ok l' := h
        have hst : ∀ f ∈ [(r, 0)], N f.1 := by
          intro f hf
          rw [List.mem_singleton] at hf
          subst hf
          exact hNr
        cases hvis : visit s r with
        | error e =>
          obtain ⟨o1, e1, -⟩ := markWalk_ext K N hN fuel _ _ l1 hst hw
          obtain ⟨o2, e2⟩ := markAll_ext K N hN fuel roots l1 l' hr' h
          refine ⟨r :: (o1 ++ o2), by rw [e2, e1]; simp, ?_, ?_⟩
          · rw [List.foldlM_cons, hvis]
            rfl
          · intro s' hs'
            rw [List.foldlM_cons, hvis] at hs'
            cases hs'
        | ok s1 =>
          obtain ⟨o1, e1, e2, -, e4⟩ := walk_sim K N R hN hk hs hv fuel s1 (l ++ [r]) [(r, 0)] l1 (hv s l r s1 hR hNr hm hvis) hst hw
          simp only
          cases hfo : o1.foldlM visit s1 with
          | error e =>
            obtain ⟨o2, e5⟩ := markAll_ext K N hN fuel roots l1 l' hr' h
            refine ⟨r :: (o1 ++ o2), by rw [e5, e1]; simp, ?_, ?_⟩
            · rw [e2, hfo, List.foldlM_cons, hvis]
              show _ = List.foldlM visit s1 (o1 ++ o2)
              rw [List.foldlM_append, hfo]
              rfl
            · intro s' hs'
              rw [List.foldlM_cons, hvis] at hs'
              have hs' : List.foldlM visit s1 (o1 ++ o2) = .ok s' := hs'
              rw [List.foldlM_append, hfo] at hs'
              cases hs'
          | ok s2 =>
            obtain ⟨o2, f1, f2, f3⟩ := ih s2 l1 l' (e4 s2 hfo) hr' h
            have hfold : List.foldlM visit s (r :: (o1 ++ o2)) = o2.foldlM visit s2 := by
              rw [List.foldlM_cons, hvis]
              show List.foldlM visit s1 (o1 ++ o2) = _
              rw [List.foldlM_append, hfo]
              rfl
            refine ⟨r :: (o1 ++ o2), by rw [f1, e1]; simp, ?_, ?_⟩
            · rw [hfold, ← f2, e2, hfo]
              rfl
            · intro s' hs'
              rw [hfold] at hs'
              exact f3 s' hs'

/-- **Traversals.** Calling a traversal that does not change the graph on all roots does the visit to each node that can be reached from
the roots, once, in an order that depends on the graph only. -/
theorem walkAll_spec (K : Addr → List Addr) (N : List Addr) (hN : ∀ a ∈ N, ∀ c ∈ K a, c ∈ N) (roots : List Addr)
    (hr : ∀ r ∈ roots, r ∈ N) (fuel : Nat) (hf : walkFuel K N ≤ fuel) :
    ∃ order : List Addr, order.Nodup ∧ (∀ a, a ∈ order ↔ From K roots a) ∧
      ∀ (S : Type) (visit : S → Addr → Py S) (kids : S → Addr → List Addr) (seen : S → Addr → Bool) (R : S → List Addr → Prop),
        (∀ s l, R s l → ∀ a ∈ N, kids s a = K a) → (∀ s l, R s l → ∀ a ∈ N, seen s a = decide (a ∈ l)) →
        (∀ s l a s', R s l → a ∈ N → a ∉ l → visit s a = .ok s' → R s' (l ++ [a])) → ∀ s : S, R s [] →
        walkAll visit kids seen fuel s roots = order.foldlM visit s ∧ ∀ s', order.foldlM visit s = .ok s' → R s' order := by
  obtain ⟨order, h1, h2, h3, h4, -, h6⟩ := markAll_spec K N hN fuel hf roots [] hr List.nodup_nil (by simp)
  refine ⟨order, h2, fun a => ⟨fun ha => (h6 a ha).resolve_left (by simp), fun ha => ?_⟩, ?_⟩
  · induction ha with
    | root h => exact h4 _ h
    | step _ hb ih => exact h3 _ ih _ hb
  · intro S visit kids seen R hk hs hv s hR
    obtain ⟨o, e1, e2, e3⟩ := walkAll_sim K (fun a => a ∈ N) R hN hk hs hv fuel roots s [] order hR hr h1
    rw [List.nil_append] at e1
    subst e1
    exact ⟨e2, e3⟩

end Satis.Graph
