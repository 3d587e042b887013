import Verif.Solver.LoadLemmas
/-!
# The smallest problems, which `load` refuses
-/

namespace Satis.Solver
open Satis Satis.Graph Satis.Utils Satis.Cost

theorem groupBy_const (h : Heap Int) (w : Int) : ∀ (nodes : List Addr), nodes ≠ [] → (∀ a ∈ nodes, (h.get a).value = w) →
    groupBy h nodes = [(w, nodes)] := by
  intro nodes
  induction nodes using List.reverseRecOn with
  | nil => intro hne; exact absurd rfl hne
  | append_singleton l a ih =>
    intro _ hw
    have e : groupBy h (l ++ [a]) =
        (groupBy h l).set (h.get a).value (((groupBy h l).get? (h.get a).value).getD [] ++ [a]) := by simp [groupBy]
    rw [e, hw a (by simp)]
    by_cases hl : l = []
    · subst hl; simp [groupBy, Dict.set, Dict.get?]
    · rw [ih hl (fun x hx => hw x (by simp [hx]))]
      simp [Dict.set, Dict.get?]

theorem groupLoop_single (cfg : Config) (fuel : Nat) (h : Heap Int) (p : Addr) (cost : Int) :
    groupLoop cfg (fuel + 1) h [p] cost = .ok (h, [p], cost) := by
  have e1 : groupBy h [p] = [((h.get p).value, [p])] := groupBy_const h _ [p] (by simp) (by simp)
  have e2 : groupRound cfg h [p] cost = .ok (h, [p], cost) := by
    unfold groupRound
    rw [e1]
    rfl
  unfold groupLoop
  rw [e2]
  simp

/-- Equal values are gathered below one node. -/
theorem groupValues_replicate (cfg : Config) (h : Heap Int) (n : Nat) (w : Int) (hn : 1 ≤ n) (hw : 0 < w)
    {hg : Heap Int} {roots inner : List Addr} {cost : Int}
    (e : groupValues cfg h (List.replicate n w) = .ok (hg, roots, cost))
    (I : GroupInv cfg h (List.replicate n w) hg roots inner cost) : ∃ p, roots = [p] ∧ (hg.get p).value = n * w := by
  have hsort : (List.replicate n w).insertionSort (· ≤ ·) = List.replicate n w := by
    apply List.Pairwise.insertionSort_eq
    rw [List.pairwise_replicate]; exact Or.inr le_rfl
  have hsingle : ∃ p, roots = [p] := by
    unfold groupValues at e
    rw [hsort] at e
    obtain ⟨h1, e1, e2, e3, e4, e5⟩ := newNodes_spec [] none (List.replicate n w) h
      (by intro v hv; rw [(List.mem_replicate.1 hv).2]; exact hw.le)
    rw [e1] at e
    simp only [List.length_replicate] at e e2 e3 e5
    have hval : ∀ a ∈ List.range' h.next n, (h1.get a).value = w := by
      intro a ha
      rw [List.mem_range'] at ha
      obtain ⟨i, hi, rfl⟩ := ha
      rw [one_mul, e5 i hi]
      simp [freshNode]
    by_cases h1n : n = 1
    · subst h1n
      simp only [List.range'_one] at e
      rw [groupLoop_single] at e
      simp only [Except.ok.injEq, Prod.mk.injEq] at e
      exact ⟨_, e.2.1.symm⟩
    · have hne : List.range' h.next n ≠ [] := by
        intro hnil
        have := congrArg List.length hnil
        simp at this; omega
      have hround : groupRound cfg h1 (List.range' h.next n) 0 = groupStep cfg (h1, [], 0) (w, List.range' h.next n) := by
        unfold groupRound
        rw [groupBy_const h1 w _ hne hval, List.foldlM_cons]
        cases groupStep cfg (h1, [], 0) (w, List.range' h.next n) <;> rfl
      have hstep : ∀ h' next c, groupStep cfg (h1, [], 0) (w, List.range' h.next n) = .ok (h', next, c) → ∃ p, next = [p] := by
        intro h' next c hs
        unfold groupStep at hs
        rw [if_pos (by simp; omega)] at hs
        dsimp only at hs
        split at hs
        · simp at hs
        · split at hs
          · simp at hs
          · simp only [Except.ok.injEq, Prod.mk.injEq] at hs
            exact ⟨_, hs.2.1.symm⟩
      unfold groupLoop at e
      rw [hround] at e
      cases hs : groupStep cfg (h1, [], 0) (w, List.range' h.next n) with
      | error x => rw [hs] at e; simp at e
      | ok q =>
        obtain ⟨h', next, c⟩ := q
        obtain ⟨p, rfl⟩ := hstep h' next c hs
        rw [hs] at e
        simp only [List.length_singleton, List.length_range'] at e
        rw [if_neg (by omega)] at e
        obtain ⟨k, rfl⟩ : ∃ k, n = k + 1 := ⟨n - 1, by omega⟩
        rw [groupLoop_single] at e
        simp only [Except.ok.injEq, Prod.mk.injEq] at e
        exact ⟨_, e.2.1.symm⟩
  obtain ⟨p, rfl⟩ := hsingle
  refine ⟨p, rfl, ?_⟩
  have := I.total
  simp only [List.map_cons, List.map_nil, List.sum_cons, List.sum_nil, add_zero, List.sum_replicate] at this
  rw [this]; simp

/-! ### Positive lists with a small sum -/

theorem sum_one {l : List Int} (hp : ∀ v ∈ l, 0 < v) (h : l.sum = 1) : l = [1] := by
  match l, hp, h with
  | [x], hp, h => simp at h; rw [h]
  | x :: y :: l, hp, h =>
    have h1 := hp x (by simp)
    have h2 := hp y (by simp)
    have h3 : 0 ≤ l.sum := List.sum_nonneg (fun v hv => (hp v (by simp [hv])).le)
    simp only [List.sum_cons] at h
    omega

theorem sum_two {l : List Int} (hp : ∀ v ∈ l, 0 < v) (h : l.sum = 2) : l = [2] ∨ l = [1, 1] := by
  cases l with
  | nil => simp at h
  | cons x l =>
    have hx := hp x (by simp)
    have hl : ∀ v ∈ l, 0 < v := fun v hv => hp v (by simp [hv])
    have h3 : 0 ≤ l.sum := List.sum_nonneg (fun v hv => (hl v hv).le)
    simp only [List.sum_cons] at h
    by_cases hnil : l = []
    · subst hnil; simp at h; left; rw [h]
    · right
      have h4 : 0 < l.sum := List.sum_pos _ hl hnil
      have : l = [1] := sum_one hl (by omega)
      rw [this]
      have : x = 1 := by omega
      rw [this]

theorem sum_three {l : List Int} (hp : ∀ v ∈ l, 0 < v) (hs : l.Pairwise (· ≤ ·)) (h : l.sum = 3) :
    l = [3] ∨ l = [1, 2] ∨ l = [1, 1, 1] := by
  cases l with
  | nil => simp at h
  | cons x l =>
    have hx := hp x (by simp)
    have hl : ∀ v ∈ l, 0 < v := fun v hv => hp v (by simp [hv])
    simp only [List.sum_cons] at h
    by_cases hnil : l = []
    · subst hnil; simp at h; left; rw [h]
    · right
      have h4 : 0 < l.sum := List.sum_pos _ hl hnil
      have hs' := (List.pairwise_cons.1 hs).1
      by_cases h1 : x = 1
      · subst h1
        rcases sum_two hl (by omega) with rfl | rfl
        · exact Or.inl rfl
        · exact Or.inr rfl
      · have : l = [1] := sum_one hl (by omega)
        subst this
        have := hs' 1 (by simp)
        omega

/-- The problems whose grouped targets are all at most two. -/
theorem small_cases (cfg : Config) (h : Heap Int) {src vs : List Int} (hsrc : ∀ v ∈ src, 0 < v) (hvs : ∀ v ∈ vs, 0 < v)
    (hs1 : src.Pairwise (· ≤ ·)) (hs2 : vs.Pairwise (· ≤ ·)) (hne : src ≠ []) (hsum : src.sum = vs.sum)
    (hdis : ∀ v ∈ src, v ∉ vs) {hg : Heap Int} {roots inner : List Addr} {cost : Int}
    (ge : groupValues cfg h vs = .ok (hg, roots, cost)) (I : GroupInv cfg h vs hg roots inner cost)
    (hstrict : roots.Pairwise (fun a b => (hg.get a).value < (hg.get b).value)) (hle : ∀ a ∈ roots, (hg.get a).value ≤ 2) :
    (src = [1, 1] ∧ vs = [2]) ∨ (src = [2] ∧ vs = [1, 1]) ∨ (src = [3] ∧ vs = [1, 2]) := by
  have htot := I.total
  have hpos : ∀ a ∈ roots, 0 < (hg.get a).value := fun a ha =>
    I.positive hvs a (I.tops_range a ha).1 (I.tops_range a ha).2
  have hspos : 0 < src.sum := List.sum_pos _ hsrc hne
  match roots, hstrict, hle, hpos, htot, I, ge with
  | [], _, _, _, htot, _, _ => simp at htot; omega
  | [a], _, hle, hpos, htot, _, _ =>
    have h1 := hle a (by simp)
    have h2 := hpos a (by simp)
    simp only [List.map_cons, List.map_nil, List.sum_cons, List.sum_nil, add_zero] at htot
    by_cases hv : (hg.get a).value = 1
    · have e1 := sum_one hsrc (by omega)
      have e2 := sum_one hvs (by omega)
      exact absurd (hdis 1 (by simp [e1])) (by simp [e2])
    · rcases sum_two hsrc (by omega) with e1 | e1 <;> rcases sum_two hvs (by omega) with e2 | e2
      · exact absurd (hdis 2 (by simp [e1])) (by simp [e2])
      · exact Or.inr (Or.inl ⟨e1, e2⟩)
      · exact Or.inl ⟨e1, e2⟩
      · exact absurd (hdis 1 (by simp [e1])) (by simp [e2])
  | [a, b], hst, hle, hpos, htot, I, ge =>
    have h1 := hle a (by simp)
    have h2 := hpos a (by simp)
    have h3 := hle b (by simp)
    have h4 : (hg.get a).value < (hg.get b).value := by
      have := (List.pairwise_cons.1 hst).1 b (by simp); exact this
    simp only [List.map_cons, List.map_nil, List.sum_cons, List.sum_nil, add_zero] at htot
    have hone : ∀ n w, 1 ≤ n → 0 < w → vs ≠ List.replicate n w := by
      intro n w hn hw e
      subst e
      obtain ⟨p, hp, _⟩ := groupValues_replicate cfg h n w hn hw ge I
      simp at hp
    rcases sum_three hvs hs2 (by omega) with e2 | e2 | e2
    · exact absurd e2 (hone 1 3 (by omega) (by omega))
    · rcases sum_three hsrc hs1 (by omega) with e1 | e1 | e1
      · exact Or.inr (Or.inr ⟨e1, e2⟩)
      · exact absurd (hdis 1 (by simp [e1])) (by simp [e2])
      · exact absurd (hdis 1 (by simp [e1])) (by simp [e2])
    · exact absurd e2 (hone 3 1 (by omega) (by omega))
  | a :: b :: c :: l, hst, hle, hpos, _, _, _ =>
    have h1 := hpos a (by simp)
    have h2 : (hg.get a).value < (hg.get b).value := (List.pairwise_cons.1 hst).1 b (by simp)
    have h3 : (hg.get b).value < (hg.get c).value :=
      (List.pairwise_cons.1 (List.pairwise_cons.1 hst).2).1 c (by simp)
    have h4 := hle c (by simp)
    omega

end Satis.Solver
