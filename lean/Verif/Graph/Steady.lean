import Verif.Graph.NetworkFacts
/-!
# The flows of a network are determined
-/

namespace Satis.Graph
open Satis Satis.Cost

theorem joinLoop_keep (h : Heap ℚ) (node loop a : Addr) : ((joinLoop h node loop).get a).value = (h.get a).value ∧
    ((joinLoop h node loop).get a).expands = (h.get a).expands ∧ (joinLoop h node loop).next = h.next := by
  have : ∀ (xs : List Addr) (g : Heap ℚ), ((xs.foldl (fun h c => link h loop c) g).get a).value = (g.get a).value ∧
      ((xs.foldl (fun h c => link h loop c) g).get a).expands = (g.get a).expands ∧ (xs.foldl (fun h c => link h loop c) g).next = g.next := by
    intro xs
    induction xs with
    | nil => intro g; exact ⟨rfl, rfl, rfl⟩
    | cons c xs ih =>
      intro g
      obtain ⟨q1, q2, q3⟩ := ih (link g loop c)
      have w : ((link g loop c).get a).value = (g.get a).value ∧ ((link g loop c).get a).expands = (g.get a).expands := by
        unfold link Heap.modify
        by_cases h1 : a = c <;> by_cases h2 : a = loop <;> by_cases h3 : c = loop <;> simp_all
      exact ⟨q1.trans w.1, q2.trans w.2, q3⟩
  exact this _ h

theorem brings_mul (E : List (Addr × Addr)) (s : Addr → ℚ) (k : ℚ) (x : Addr) : brings E (fun a => k * s a) x = k * brings E s x := by
  induction E with
  | nil => simp [brings]
  | cons e E ih =>
    have h1 : ∀ t : Addr → ℚ, brings (e :: E) t x = (if e.2 = x then t e.1 else 0) + brings E t x := fun t => by simp [brings]
    rw [h1, h1, ih]
    split <;> ring

theorem handed_brings {h h' : Heap ℚ} {node : Addr} {E : List (Addr × Addr)} (hnode : node < h.next)
    (ch : ∀ a ∈ made h h' node, (h'.get a).children = outsOf E a) (starts : ∀ e ∈ E, e.1 ∈ made h h' node) (T : Addr → ℚ) (x : Addr) :
    handed h' (made h h' node) T x = brings E (fun a => T a / (outsOf E a).length) x := by
  rw [brings_eq (made_nodup hnode) starts]
  unfold handed
  congr 1
  apply List.map_congr_left
  intro a ha
  rw [ch a ha]

section
variable {h hb h' : Heap ℚ} {node : Addr} {V : ℚ} {cs ts : List Addr} {E : List (Addr × Addr)} {S : List Addr} {w : ℚ} {f : Addr → ℚ}

/-- If `τ` enters at the node, all flows are `τ / V` times the values. -/
theorem Net.scaled (I : Net hb h' node V ts E S [] w f) (hV : 0 < V) (T : Addr → ℚ) (τ : ℚ)
    (hT : ∀ a, hb.next ≤ a → a < h'.next → T a = brings E (fun a => (if a = node then τ else T a) / (outsOf E a).length) a) :
    (∀ a, hb.next ≤ a → a < h'.next → T a = τ / V * (h'.get a).value) ∧
      ∀ x, brings E (fun a => (if a = node then τ else T a) / (outsOf E a).length) x = τ / V * brings E (share h' node V E) x := by
  have key : ∀ a, hb.next ≤ a → a < h'.next → T a = τ / V * (h'.get a).value := by
    intro a
    induction a using Nat.strong_induction_on with
    | _ a ih =>
      intro h1 h2
      obtain ⟨p, hp, hpa, hs⟩ := I.single a h1 h2
      have hE : (p, a) ∈ E := mem_insOf.1 (by rw [hp]; simp)
      have hpS := I.starts _ hE
      rw [hT a h1 h2, brings_insOf, hp, ← hs]
      unfold share flows
      simp only [List.map_cons, List.map_nil, List.sum_cons, List.sum_nil, add_zero]
      by_cases q : p = node
      · simp only [q, if_true]
        field_simp
      · simp only [q, if_false]
        rcases (I.mem p).1 (by simpa using hpS) with q' | q'
        · exact absurd q' q
        · rw [ih p (by omega) q'.1 q'.2]
          ring
  refine ⟨key, fun x => ?_⟩
  rw [← brings_mul]
  apply brings_congr
  intro e he
  unfold share flows
  by_cases q : e.1 = node
  · simp only [q, if_true]
    field_simp
  · simp only [q, if_false]
    rcases (I.mem e.1).1 (by simpa using I.starts e he) with q' | q'
    · exact absurd q' q
    · rw [key _ q'.1 q'.2]
      ring

/-- Without an extra node for the loop there is only one steady state. -/
theorem Net.unique (I : Net (detach h node cs) h' node V ts E S [] w f) (hnode : node < h.next) (hv : 0 < (h.get node).value) (hV : 0 < V)
    (hloop : (h.get node).value + f node = V) {T : Addr → ℚ} (hT : Steady h h' node T) :
    T node = V ∧ ∀ a, h.next ≤ a → a < h'.next → T a = (h'.get a).value := by
  have hmem : ∀ a, a ∈ S ++ [] ↔ a = node ∨ h.next ≤ a ∧ a < h'.next := I.mem
  have hS : ∀ a, a ∈ S ↔ a = node ∨ h.next ≤ a ∧ a < h'.next := fun a => by simpa using hmem a
  have wc : ∀ a, a < h'.next → (h'.get a).children = (if a < h.next then ((detach h node cs).get a).children else []) ++ outsOf E a :=
    I.wired.children
  have hnext : h.next ≤ h'.next := I.wired.next
  have hmade : ∀ a, a ∈ made h h' node ↔ a ∈ S := fun a => by rw [mem_made hnext, hS]
  have ch : ∀ a ∈ S, (h'.get a).children = outsOf E a := fun a ha => by
    have hlt : a < h'.next := by rcases (hS a).1 ha with q | q <;> omega
    rw [wc a hlt, detach_get]
    split
    · rename_i q
      have : a = node := by rcases (hS a).1 ha with q | q <;> omega
      simp [this]
    · rfl
  have hh : ∀ x, handed h' (made h h' node) T x =
      brings E (fun a => (if a = node then T node else T a) / (outsOf E a).length) x := fun x => by
    rw [handed_brings hnode (fun a ha => ch a ((hmade a).1 ha)) (fun e he => (hmade _).2 (I.starts e he))]
    apply brings_congr
    intro e _
    by_cases q : e.1 = node
    · simp only [q, if_true]
    · simp only [q, if_false]
  obtain ⟨h1, h2⟩ := I.scaled hV T (T node) fun a ha hb => by rw [← hh]; exact hT.fresh a ha hb
  have h3 := hT.root
  rw [hh, h2, I.flow node hnode] at h3
  have h4 : T node = V := by
    have h5 : f node = V - (h.get node).value := by linarith
    rw [h5] at h3
    have h6 : T node / V * (h.get node).value = (h.get node).value := by
      have : T node / V * (V - (h.get node).value) = T node - T node / V * (h.get node).value := by field_simp
      linarith
    have h7 : T node / V = 1 := by
      have := mul_right_cancel₀ hv.ne' (h6.trans (one_mul _).symm)
      exact this
    rwa [div_eq_one_iff_eq hV.ne'] at h7
  refine ⟨h4, fun a ha hb => ?_⟩
  rw [h1 a ha hb, h4, div_self hV.ne', one_mul]

/-- With an extra node that hands what it takes to the nodes below the node: the two act like one. -/
theorem Net.handedOver {h1 : Heap ℚ} {toLoop : ℚ} (hnew : newNode h toLoop [] none none = .ok (h1, h.next))
    (I : Net (detach h1 node cs) h' node V ts E S [] w f) (hnode : node < h.next) (hpos : 0 < toLoop) (T : Addr → ℚ) (x : Addr) :
    handed (joinLoop h' node h.next) (made h (joinLoop h' node h.next) node) T x =
      brings E (fun a => (if a = node then T node + T h.next else T a) / (outsOf E a).length) x := by
  unfold newNode at hnew
  rw [if_neg (not_lt.2 hpos.le)] at hnew
  simp only [Except.ok.injEq, Prod.mk.injEq, Heap.alloc] at hnew
  have hn1 : h1.next = h.next + 1 := by rw [← hnew.1]
  have hgl : (h1.get h.next).children = [] := by
    rw [← hnew.1]
    simp
  have hmem : ∀ a, a ∈ S ++ [] ↔ a = node ∨ h1.next ≤ a ∧ a < h'.next := I.mem
  have hS : ∀ a, a ∈ S ↔ a = node ∨ h.next < a ∧ a < h'.next := fun a => by
    have := hmem a
    rw [List.append_nil, hn1] at this
    rw [this]
    omega
  have hnext1 : h1.next ≤ h'.next := I.wired.next
  have hEout : outsOf E h.next = [] := outsOf_eq_nil fun e he q => by
    have := (hS e.1).1 (I.starts e he)
    omega
  have hch : (h'.get node).children = outsOf E node := by
    have := I.wired.children node (by omega)
    rw [detach_get] at this
    simpa using this
  have hKlt : ∀ x ∈ outsOf E node, x < h'.next := fun x hx => (I.wired.inside (node, x) (mem_outsOf.1 hx)).2
  obtain ⟨h3, hh3⟩ : ∃ h3, joinLoop h' node h.next = h3 := ⟨_, rfl⟩
  have wJ : Wired h' h3 ((outsOf E node).map fun x => (h.next, x)) := by
    rw [← hh3]
    unfold joinLoop
    rw [hch]
    exact Wired.linkAll _ _ (by omega) hKlt
  have hn3 : h3.next = h'.next := by
    rw [← hh3]
    exact (joinLoop_keep h' node h.next 0).2.2
  rw [hh3]
  have W := I.wired.trans wJ
  obtain ⟨E', hE'⟩ : ∃ E', E' = E ++ (outsOf E node).map fun x => (h.next, x) := ⟨_, rfl⟩
  rw [← hE'] at W
  have hout : ∀ a, outsOf E' a = outsOf E a ++ if h.next = a then outsOf E node else [] := fun a => by
    rw [hE', outsOf_append, outsOf_map]
  have houtS : ∀ a, a ≠ h.next → outsOf E' a = outsOf E a := fun a ha => by
    rw [hout, if_neg (Ne.symm ha), List.append_nil]
  have houtL : outsOf E' h.next = outsOf E node := by rw [hout, if_pos rfl, hEout]; rfl
  have hmade : ∀ a, a ∈ made h h3 node ↔ a = h.next ∨ a ∈ S := fun a => by
    rw [mem_made (by omega), hS, hn3]
    omega
  have wc : ∀ a, a < h3.next → (h3.get a).children = (if a < h1.next then ((detach h1 node cs).get a).children else []) ++ outsOf E' a :=
    W.children
  have ch : ∀ a ∈ made h h3 node, (h3.get a).children = outsOf E' a := fun a ha => by
    rcases (hmade a).1 ha with q | q
    · rw [q, wc _ (by omega), if_pos (by omega), detach_get, hgl]
      simp
    · rcases (hS a).1 q with q | q
      · rw [q, wc _ (by omega), if_pos (by omega), detach_get]
        simp
      · rw [wc _ (by omega), if_neg (by omega)]
        rfl
  have starts : ∀ e ∈ E', e.1 ∈ made h h3 node := fun e he => by
    rw [hE'] at he
    rcases List.mem_append.1 he with he | he
    · exact (hmade _).2 (.inr (I.starts e he))
    · simp only [List.mem_map] at he
      obtain ⟨x, -, rfl⟩ := he
      exact (hmade _).2 (.inl rfl)
  rw [handed_brings hnode ch starts]
  obtain ⟨sh, hsh⟩ : ∃ sh : Addr → ℚ, sh = fun a => T a / (outsOf E' a).length := ⟨_, rfl⟩
  obtain ⟨s0, hs0⟩ : ∃ s0 : Addr → ℚ, s0 = fun a => (if a = node then T node + T h.next else T a) / (outsOf E a).length := ⟨_, rfl⟩
  rw [← hsh, ← hs0, hE', brings_append, brings_change (s := s0) (s' := sh) (a := node),
    brings_const (E := (outsOf E node).map fun x => (h.next, x)) (c := T h.next / (outsOf E node).length)]
  · have e1 : sh node = T node / (outsOf E node).length := by
      rw [hsh]
      simp only
      rw [houtS node (by omega)]
    have e2 : s0 node = (T node + T h.next) / (outsOf E node).length := by
      rw [hs0]
      simp only [if_true]
    have e3 : (((outsOf E node).map fun x => (h.next, x)).map Prod.snd) = outsOf E node := by
      rw [List.map_map]
      exact List.map_id _
    rw [e1, e2, e3, count_outsOf]
    ring
  · intro e he
    simp only [List.mem_map] at he
    obtain ⟨y, -, rfl⟩ := he
    rw [hsh]
    simp only
    rw [houtL]
  · intro e he hne
    have h1' := (hS e.1).1 (I.starts e he)
    rw [hsh, hs0]
    simp only [if_neg hne]
    rw [houtS e.1 (by omega)]

/-- With an extra node there is exactly one steady state too. -/
theorem Net.uniqueOver {h1 : Heap ℚ} {toLoop : ℚ} (hnew : newNode h toLoop [] none none = .ok (h1, h.next))
    (I : Net (detach h1 node cs) h' node V ts E S [] w f) (hnode : node < h.next) (hv : 0 < (h.get node).value) (hV : 0 < V)
    (hpos : 0 < toLoop) (hsum : (h.get node).value + (f h.next + f node) = V) {T : Addr → ℚ} :
    Steady h (joinLoop h' node h.next) node T ↔
    (T node = (h.get node).value + f node ∧ T h.next = f h.next ∧
      ∀ a, h.next < a → a < (joinLoop h' node h.next).next → T a = ((joinLoop h' node h.next).get a).value) := by
  have hh := I.handedOver hnew hnode hpos T
  unfold newNode at hnew
  rw [if_neg (not_lt.2 hpos.le)] at hnew
  simp only [Except.ok.injEq, Prod.mk.injEq, Heap.alloc] at hnew
  have hn1 : h1.next = h.next + 1 := by rw [← hnew.1]
  obtain ⟨-, -, hnx⟩ := joinLoop_keep h' node h.next 0
  have hval : ∀ a, ((joinLoop h' node h.next).get a).value = (h'.get a).value := fun a => (joinLoop_keep h' node h.next a).1
  have hnext1 : h1.next ≤ h'.next := I.wired.next
  have hfl : ∀ x, x < h1.next → brings E (share h' node V E) x = f x := I.flow
  constructor
  · intro hT
    obtain ⟨q1, q2⟩ := I.scaled hV T (T node + T h.next) fun a ha hb => by
      rw [← hh]
      exact hT.fresh a (by have : h1.next ≤ a := ha; omega) (by rw [hnx]; exact hb)
    have r1 := hT.root
    have r2 := hT.fresh h.next le_rfl (by omega)
    rw [hh, q2, hfl _ (by omega)] at r1 r2
    have h6 : (T node + T h.next) / V * (h.get node).value = (h.get node).value := by
      have e1 : f node = V - (h.get node).value - f h.next := by linarith
      have e2 : T node + T h.next = (h.get node).value + (T node + T h.next) / V * (f node + f h.next) := by linarith
      have e3 : (T node + T h.next) / V * (f node + f h.next) = T node + T h.next - (T node + T h.next) / V * (h.get node).value := by
        rw [e1]
        field_simp
        ring
      linarith
    have h7 : (T node + T h.next) / V = 1 := mul_right_cancel₀ hv.ne' (h6.trans (one_mul _).symm)
    rw [h7] at r1 r2
    refine ⟨by linarith, by linarith, fun a ha hb => ?_⟩
    rw [q1 a (show h1.next ≤ a by omega) (by omega), h7, one_mul, hval]
  · rintro ⟨t1, t2, t3⟩
    have e0 : ∀ x, handed (joinLoop h' node h.next) (made h (joinLoop h' node h.next) node) T x = brings E (share h' node V E) x := fun x => by
      rw [hh]
      apply brings_congr
      intro e he
      unfold share flows
      by_cases q : e.1 = node
      · simp only [q, if_true]
        rw [t1, t2, ← hsum]
        ring
      · simp only [q, if_false]
        rcases (I.mem e.1).1 (by simpa using I.starts e he) with q' | q'
        · exact absurd q' q
        · have : h1.next ≤ e.1 := q'.1
          rw [t3 _ (by omega) (by omega), hval]
    refine ⟨fun a ha hb => ?_, ?_⟩
    · rw [e0]
      by_cases q : a = h.next
      · rw [q, hfl _ (by omega), t2]
      · obtain ⟨p, hp, -, hs⟩ := I.single a (show h1.next ≤ a by omega) (by omega)
        rw [brings_insOf, hp, t3 a (by omega) hb, hval]
        simpa using hs.symm
    · rw [e0, hfl _ (by omega), t1]

end

theorem joinLoop_level (h : Heap ℚ) (node loop a : Addr) : ((joinLoop h node loop).get a).level = (h.get a).level := by
  have : ∀ (xs : List Addr) (g : Heap ℚ), ((xs.foldl (fun h c => link h loop c) g).get a).level = (g.get a).level := by
    intro xs
    induction xs with
    | nil => intro g; rfl
    | cons c xs ih =>
      intro g
      refine (ih (link g loop c)).trans ?_
      unfold link Heap.modify
      by_cases h1 : a = c <;> by_cases h2 : a = loop <;> by_cases h3 : c = loop <;> simp_all
  exact this _ h

theorem steady_tagMerge (h h' : Heap ℚ) (node a : Addr) (t : Nat) (T : Addr → ℚ) :
    Steady h (tagMerge h' a t) node T ↔ Steady h h' node T := by
  have e : ∀ x, handed (tagMerge h' a t) (made h (tagMerge h' a t) node) T x = handed h' (made h h' node) T x := fun x => by
    unfold handed made
    rw [tagMerge_next]
    congr 1
    apply List.map_congr_left
    intro y _
    rw [tagMerge_children]
  constructor
  · intro H
    exact ⟨fun a h1 h2 => by rw [← e]; exact H.fresh a h1 (by rw [tagMerge_next]; exact h2), by rw [← e]; exact H.root⟩
  · intro H
    exact ⟨fun a h1 h2 => by rw [e]; exact H.fresh a h1 (by rw [tagMerge_next] at h2; exact h2), by rw [e]; exact H.root⟩

/-- The flows of a network are in balance. -/
theorem SplitterNetwork.isSteady {h h' : Heap ℚ} {node : Addr} {V : ℚ} {outs : List Addr} (N : SplitterNetwork h h' node V outs)
    (hn : node < h.next) : Steady h h' node (flows h' node V) where
  fresh a h1 h2 := by
    rw [N.steady a h1 h2]
    unfold flows
    rw [if_neg (by omega)]
  root := by
    rw [N.looped]
    simp [flows]

end Satis.Graph
