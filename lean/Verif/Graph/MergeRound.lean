import Verif.Graph.Expand
import Verif.Graph.Wire
/-!
# One round of `expand_merge`
-/

namespace Satis.Graph
open Satis

theorem mergeLink_ne (m : Addr) (h : Heap ℚ) (a x : Addr) (ha : a ≠ m) (hx : x ≠ m) :
    (mergeLink m h a).get x = { h.get x with children := (h.get x).children ++ List.replicate ([a].count x) m } := by
  unfold mergeLink link Heap.modify
  by_cases h1 : x = a
  · subst h1
    simp [hx]
  · simp [hx, h1, Ne.symm h1]

theorem mergeLink_self (m : Addr) (h : Heap ℚ) (a : Addr) (ha : a ≠ m) :
    (mergeLink m h a).get m = { h.get m with parents := (h.get m).parents ++ [a], past := ((mergeLink m h a).get m).past } := by
  unfold mergeLink link Heap.modify
  simp [ha.symm]

theorem mergeLinks_ne (m : Addr) : ∀ (as : List Addr) (h : Heap ℚ) (x : Addr), m ∉ as → x ≠ m →
    (as.foldl (mergeLink m) h).get x = { h.get x with children := (h.get x).children ++ List.replicate (as.count x) m } := by
  intro as
  induction as with
  | nil => intro h x _ _; simp
  | cons a as ih =>
    intro h x hm hx
    simp only [List.mem_cons, not_or] at hm
    rw [List.foldl_cons, ih _ _ hm.2 hx, mergeLink_ne m h a x (Ne.symm hm.1) hx]
    simp only [List.append_assoc, List.replicate_append_replicate]
    congr 3
    rw [List.count_cons, List.count_cons]
    simp only [List.count_nil]
    omega

theorem mergeLinks_self (m : Addr) : ∀ (as : List Addr) (h : Heap ℚ), m ∉ as →
    (as.foldl (mergeLink m) h).get m = { h.get m with parents := (h.get m).parents ++ as, past := ((as.foldl (mergeLink m) h).get m).past } := by
  intro as
  induction as with
  | nil => intro h _; simp
  | cons a as ih =>
    intro h hm
    simp only [List.mem_cons, not_or] at hm
    rw [List.foldl_cons]
    conv_lhs => rw [ih _ hm.2, mergeLink_self m h a (Ne.symm hm.1)]
    simp

theorem mergeLinks_next (m : Addr) : ∀ (as : List Addr) (h : Heap ℚ), (as.foldl (mergeLink m) h).next = h.next ∧
    (as.foldl (mergeLink m) h).nextUid = h.nextUid := by
  intro as
  induction as with
  | nil => intro h; exact ⟨rfl, rfl⟩
  | cons a as ih => intro h; exact ⟨(ih _).1.trans rfl, (ih _).2.trans rfl⟩

/-- Dropping all edges to `node`. -/
theorem dropEdges_get (node : Addr) : ∀ (as : List Addr) (h : Heap ℚ) (x : Addr),
    (as.foldl (fun (h : Heap ℚ) x => h.modify x fun o => { o with children := o.children.filter fun y => decide (y ≠ node) }) h).get x =
      { h.get x with children := if x ∈ as then (h.get x).children.filter fun y => decide (y ≠ node) else (h.get x).children } := by
  intro as
  induction as with
  | nil => intro h x; simp
  | cons a as ih =>
    intro h x
    rw [List.foldl_cons, ih]
    unfold Heap.modify
    by_cases h1 : x = a
    · subst h1
      by_cases h2 : x ∈ as <;> simp [h2]
    · by_cases h2 : x ∈ as <;> simp [h1, h2]

theorem dropEdges_next (node : Addr) : ∀ (as : List Addr) (h : Heap ℚ),
    (as.foldl (fun (h : Heap ℚ) x => h.modify x fun o => { o with children := o.children.filter fun y => decide (y ≠ node) }) h).next = h.next ∧
    (as.foldl (fun (h : Heap ℚ) x => h.modify x fun o => { o with children := o.children.filter fun y => decide (y ≠ node) }) h).nextUid =
      h.nextUid := by
  intro as
  induction as with
  | nil => intro h; exact ⟨rfl, rfl⟩
  | cons a as ih => intro h; exact ⟨(ih _).1.trans rfl, (ih _).2.trans rfl⟩

/-- What an edge leaving the node carries. -/
def out (h : Heap ℚ) (a : Addr) : ℚ := sharedValue (fun (v : ℚ) k => v / k) (h.get a)

theorem out_nonneg {h : Heap ℚ} {a : Addr} (ha : 0 ≤ (h.get a).value) : 0 ≤ out h a := by
  unfold out sharedValue
  split
  · exact ha
  · positivity

theorem maxLevel_ok (h : Heap ℚ) (as : List Addr) (hne : as ≠ []) (hl : ∀ a ∈ as, (h.get a).level ≠ none) :
    ∃ l, maxLevelSucc h as = .ok l := by
  have hs : ∀ a ∈ as, ∃ l, levelSucc (h.get a) = .ok l := fun a ha => by
    unfold levelSucc
    cases q : (h.get a).level with
    | none => exact absurd q (hl a ha)
    | some l => exact ⟨_, rfl⟩
  cases as with
  | nil => exact absurd rfl hne
  | cons a as =>
    obtain ⟨l, e⟩ := hs a (by simp)
    unfold maxLevelSucc
    simp only [e, bind, Except.bind]
    have : ∀ (bs : List Addr) (m : Int), (∀ b ∈ bs, ∃ l, levelSucc (h.get b) = .ok l) → ∃ r, bs.foldlM (fun m b => do
        let l ← levelSucc (h.get b)
        return max m l) m = .ok r := by
      intro bs
      induction bs with
      | nil => intro m _; exact ⟨m, rfl⟩
      | cons b bs ih =>
        intro m hb
        obtain ⟨l', e'⟩ := hb b (by simp)
        obtain ⟨r, er⟩ := ih (max m l') fun c hc => hb c (by simp [hc])
        refine ⟨r, ?_⟩
        rw [List.foldlM_cons]
        simp only [e', bind, Except.bind, pure, Except.pure]
        exact er
    exact this as l fun b hb => hs b (by simp [hb])

/-- The state after one round. -/
structure Round (h h' : Heap ℚ) (node a b c : Addr) : Prop where
  next : h'.next = h.next + 1
  uid : h'.nextUid = h.nextUid + 1
  new : h'.get h.next = { value := out h a + out h b + out h c, id := h.nextUid, level := (h.get node).level, past := (h'.get h.next).past
                          parents := [a, b, c], children := [node], expands := [], levelsToAdd := 0 }
  old : ∀ x, x ≠ h.next → h'.get x = { h.get x with children := if x ∈ [a, b, c] then
    ((h.get x).children.filter fun y => decide (y ≠ node)) ++ List.replicate ([a, b, c].count x) h.next else (h.get x).children }

theorem merge_round {h : Heap ℚ} {node a b c : Addr} (hn : node < h.next) (hlt : ∀ x ∈ [a, b, c], x < h.next ∧ (h.get x).level ≠ none ∧
    0 ≤ (h.get x).value) (rest : List Addr) (t fuel : Nat) (hlen : t < (a :: b :: c :: rest).length) :
    ∃ h', Round h h' node a b c ∧
      mergeRounds node t (fuel + 1) h (a :: b :: c :: rest) = mergeRounds node t fuel h' (h.next :: rest) := by
  obtain ⟨l, el⟩ := maxLevel_ok h [a, b, c] (by simp) fun x hx => (hlt x hx).2.1
  have ha := hlt a (by simp)
  have hb := hlt b (by simp)
  have hc := hlt c (by simp)
  have hs : 0 ≤ out h a + out h b + out h c := by
    have := out_nonneg ha.2.2
    have := out_nonneg hb.2.2
    have := out_nonneg hc.2.2
    linarith
  obtain ⟨S, hS⟩ : ∃ S, S = out h a + out h b + out h c := ⟨_, rfl⟩
  obtain ⟨g0, hg0⟩ : ∃ g0 : Heap ℚ, newNode h S [] none (some l) = .ok (g0, h.next) := by
    unfold newNode
    rw [hS, if_neg (not_lt.2 hs)]
    exact ⟨_, rfl⟩
  have hg0' := hg0
  unfold newNode at hg0'
  rw [hS, if_neg (not_lt.2 hs), ← hS] at hg0'
  simp only [Except.ok.injEq, Prod.mk.injEq, Heap.alloc] at hg0'
  have hn1 : g0.next = h.next + 1 := by rw [← hg0'.1]
  have hu1 : g0.nextUid = h.nextUid + 1 := by rw [← hg0'.1]
  have hgo : ∀ x, x ≠ h.next → g0.get x = h.get x := fun x hx => by
    rw [← hg0'.1]
    exact if_neg hx
  have hgn : g0.get h.next = { value := S, id := h.nextUid, level := some l, past := (g0.get h.next).past, parents := [], children := []
                               expands := [], levelsToAdd := 0 } := by
    rw [← hg0'.1]
    simp
  have em : merge (fun (v : ℚ) k => v / k) h [a, b, c] = .ok ([a, b, c].foldl (mergeLink h.next) g0, h.next) := by
    unfold merge
    rw [el]
    have : ([a, b, c].map fun a => sharedValue (fun (v : ℚ) k => v / k) (h.get a)).foldl (· + ·) 0 = S := by
      rw [hS]
      simp [out]
    rw [this]
    simp only [bind, Except.bind, hg0, pure, Except.pure]
    simp
  have hm : h.next ∉ [a, b, c] := fun q => by have := (hlt _ q).1; omega
  obtain ⟨g1, hg1⟩ : ∃ g1, g1 = [a, b, c].foldl (mergeLink h.next) g0 := ⟨_, rfl⟩
  obtain ⟨g2, hg2⟩ : ∃ g2, g2 = [a, b, c].foldl (fun (h : Heap ℚ) x => h.modify x fun o => { o with
    children := o.children.filter fun y => decide (y ≠ node) }) g1 := ⟨_, rfl⟩
  refine ⟨g2.modify h.next fun o => { o with level := (g2.get node).level, children := o.children ++ [node] }, ?_, ?_⟩
  · have hd := dropEdges_get node [a, b, c] g1
    rw [← hg2] at hd
    have hne : node ≠ h.next := by omega
    have hl2 : (g2.get node).level = (h.get node).level := by
      rw [hd, hg1, mergeLinks_ne _ _ _ _ hm hne, hgo _ hne]
    refine ⟨?_, ?_, ?_, ?_⟩
    · show g2.next = _
      rw [hg2, (dropEdges_next node _ _).1, hg1, (mergeLinks_next _ _ _).1, hn1]
    · show g2.nextUid = _
      rw [hg2, (dropEdges_next node _ _).2, hg1, (mergeLinks_next _ _ _).2, hu1]
    · have q : g2.get h.next = { value := S, id := h.nextUid, level := some l, past := (g2.get h.next).past, parents := [a, b, c]
                                 children := [], expands := [], levelsToAdd := 0 } := by
        rw [hd, if_neg hm, hg1, mergeLinks_self _ _ _ hm, hgn]
        simp
      unfold Heap.modify
      simp only [hl2]
      rw [q, hS]
      simp
    · intro x hx
      rw [Heap.get_modify, if_neg hx]
      rw [hd, hg1, mergeLinks_ne _ _ _ _ hm hx, hgo x hx]
      by_cases hxx : x ∈ [a, b, c]
      · rw [if_pos hxx, if_pos hxx]
        simp only [List.filter_append]
        congr 2
        rw [List.filter_eq_self]
        intro y hy
        rw [List.eq_of_mem_replicate hy]
        simp [hne.symm]
      · rw [if_neg hxx, if_neg hxx, List.count_eq_zero.2 hxx]
        simp
  · conv_lhs => rw [mergeRounds.eq_def]
    simp only
    rw [if_neg (by omega)]
    simp only [em, bind, Except.bind]
    rw [← hg1, ← hg2]

end Satis.Graph
