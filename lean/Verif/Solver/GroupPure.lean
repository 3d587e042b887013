import Verif.Solver.LoadLemmas
/-!
# What `group_values` computes does not depend on the objects there are
-/

namespace Satis.Graph
open Satis Satis.Cost

/-- The counts of the values, in the order in which they first appear. -/
def countsOf (vs : List Int) : Dict Int Nat := vs.foldl (fun d v => d.set v ((d.get? v).getD 0 + 1)) []

/-- One group, on values only. -/
def groupStepV (cfg : Config) (s : List Int × Int) (kv : Int × Nat) : Py (List Int × Int) :=
  if kv.2 > 1 then
    if kv.1 * (kv.2 : Int) < 0 then .error .valueError
    else
      match divideCost cfg (kv.1 * (kv.2 : Int)) kv.2 with
      | .error e => .error e
      | .ok c => .ok (insort id s.1 (kv.1 * (kv.2 : Int)), s.2 + c)
  else if kv.2 = 0 then .error .indexError
  else .ok (insort id s.1 kv.1, s.2)

/-- The loop, on values only. -/
def groupLoopV (cfg : Config) : Nat → List Int → Int → Py (List Int × Int)
  | 0, _, _ => .error .diverge
  | fuel + 1, vs, cost =>
    match (countsOf vs).foldlM (groupStepV cfg) ([], cost) with
    | .error e => .error e
    | .ok (next, cost') => if next.length = vs.length then .ok (vs, cost') else groupLoopV cfg fuel next cost'

theorem bisectLoop_map {α : Type} (key : α → Int) (l : List α) (x : Int) : ∀ fuel lo hi,
    bisectLoop id (l.map key) x fuel lo hi = bisectLoop key l x fuel lo hi := by
  intro fuel
  induction fuel with
  | zero => intro lo hi; rfl
  | succ n ih =>
    intro lo hi
    unfold bisectLoop
    simp only [ih, List.getElem?_map]
    cases l[(lo + hi) / 2]? <;> rfl

theorem insort_map {α : Type} (key : α → Int) (l : List α) (x : α) : (insort key l x).map key = insort id (l.map key) (key x) := by
  unfold insort bisectRight
  rw [bisectLoop_map, List.map_insertIdx]
  simp

theorem adoptAll_value (p : Addr) : ∀ (cs : List Addr) (h : Heap Int), (cs.foldl (adopt p) h).next = h.next ∧
    ∀ a, ((cs.foldl (adopt p) h).get a).value = (h.get a).value := by
  intro cs
  induction cs with
  | nil => intro h; exact ⟨rfl, fun _ => rfl⟩
  | cons c cs ih =>
    intro h
    obtain ⟨h1, h2⟩ := ih (adopt p h c)
    refine ⟨h1.trans rfl, fun a => (h2 a).trans ?_⟩
    simp only [adopt, Heap.modify, Heap.set]
    split_ifs <;> simp_all

theorem groupStep_value (cfg : Config) {h : Heap Int} {next : List Addr} {cost : Int} {kv : Int × List Addr} (hnext : ∀ a ∈ next, a < h.next)
    (hkv : ∀ a ∈ kv.2, a < h.next ∧ (h.get a).value = kv.1) :
    (groupStep cfg (h, next, cost) kv).map (fun s => (valuesOf s.1 s.2.1, s.2.2)) = groupStepV cfg (valuesOf h next, cost) (kv.1, kv.2.length) ∧
    ∀ s, groupStep cfg (h, next, cost) kv = .ok s →
      h.next ≤ s.1.next ∧ (∀ a, a < h.next → (s.1.get a).value = (h.get a).value) ∧ ∀ a ∈ s.2.1, a < s.1.next := by
  obtain ⟨k, ns⟩ := kv
  unfold groupStep groupStepV
  dsimp only at hkv ⊢
  by_cases hn : ns.length > 1
  · rw [if_pos hn, if_pos hn]
    unfold newNode
    by_cases hneg : k * (ns.length : Int) < 0
    · rw [if_pos hneg, if_pos hneg]
      exact ⟨rfl, fun s e => by cases e⟩
    rw [if_neg hneg, if_neg hneg]
    dsimp only [Heap.alloc]
    generalize hh1 : ({ get := _, next := h.next + 1, nextUid := _ } : Heap Int) = h1
    obtain ⟨hx, hv⟩ := adoptAll_value h.next ns h1
    cases divideCost cfg (k * (ns.length : Int)) ns.length with
    | error e => exact ⟨rfl, fun s e => by cases e⟩
    | ok c =>
      dsimp only
      generalize hh3 : (if ns.length > 3 then tagExpand (List.foldl (adopt h.next) h1 ns) h.next (.divide ns.length)
        else List.foldl (adopt h.next) h1 ns) = h3
      have hx3 : h3.next = h.next + 1 := by
        rw [← hh3]
        split_ifs
        · exact hx.trans (by rw [← hh1])
        · exact hx.trans (by rw [← hh1])
      have hv3 : ∀ a, (h3.get a).value = (h1.get a).value := by
        intro a
        rw [← hh3]
        split_ifs
        · rw [← hv a]
          simp only [tagExpand, Heap.modify, Heap.set]
          split_ifs with e
          · rw [e]
          · rfl
        · exact hv a
      have hold : ∀ a, a < h.next → (h3.get a).value = (h.get a).value := by
        intro a ha
        rw [hv3, ← hh1]
        dsimp only
        rw [if_neg (by omega)]
      have hnew : (h3.get h.next).value = k * (ns.length : Int) := by
        rw [hv3, ← hh1]
        dsimp only
        rw [if_pos rfl]
      refine ⟨?_, ?_⟩
      · show Except.ok _ = Except.ok _
        congr 2
        unfold valuesOf
        dsimp only
        rw [insort_map (fun a => (h3.get a).value), hnew]
        have e : next.map (fun a => (h3.get a).value) = next.map (fun a => (h.get a).value) :=
          List.map_congr_left fun a ha => hold a (hnext a ha)
        rw [e]
      · intro s e
        cases e
        refine ⟨by dsimp only; omega, hold, fun a ha => ?_⟩
        dsimp only at ha ⊢
        rw [(insort_perm _ _ _).mem_iff, List.mem_cons] at ha
        rcases ha with ha | ha
        · omega
        · have := hnext a ha; omega
  · rw [if_neg hn, if_neg hn]
    cases ns with
    | nil => exact ⟨rfl, fun s e => by cases e⟩
    | cons n ns =>
      obtain ⟨h1, h2⟩ := hkv n (by simp)
      refine ⟨?_, ?_⟩
      · rw [if_neg (by simp)]
        show Except.ok _ = Except.ok _
        congr 2
        unfold valuesOf
        dsimp only
        rw [insort_map (fun a => (h.get a).value), h2]
      · intro s e
        cases e
        refine ⟨le_refl _, fun _ _ => rfl, fun a ha => ?_⟩
        dsimp only at ha ⊢
        rw [(insort_perm _ _ _).mem_iff, List.mem_cons] at ha
        rcases ha with ha | ha
        · omega
        · exact hnext a ha

theorem groupFold_value (cfg : Config) : ∀ (d : Dict Int (List Addr)) (h : Heap Int) (next : List Addr) (cost : Int), (∀ a ∈ next, a < h.next) →
    (∀ kv ∈ d, ∀ a ∈ kv.2, a < h.next ∧ (h.get a).value = kv.1) →
    (d.foldlM (groupStep cfg) (h, next, cost)).map (fun s => (valuesOf s.1 s.2.1, s.2.2)) =
      (d.map fun kv => (kv.1, kv.2.length)).foldlM (groupStepV cfg) (valuesOf h next, cost) ∧
    ∀ s, d.foldlM (groupStep cfg) (h, next, cost) = .ok s →
      h.next ≤ s.1.next ∧ (∀ a, a < h.next → (s.1.get a).value = (h.get a).value) ∧ ∀ a ∈ s.2.1, a < s.1.next := by
  intro d
  induction d with
  | nil =>
    intro h next cost hnext _
    refine ⟨rfl, fun s e => ?_⟩
    cases e
    exact ⟨le_refl _, fun _ _ => rfl, hnext⟩
  | cons kv d ih =>
    intro h next cost hnext hd
    obtain ⟨e1, e2⟩ := groupStep_value cfg (cost := cost) hnext (hd kv (by simp))
    rw [List.foldlM_cons, List.map_cons, List.foldlM_cons, ← e1]
    cases hs : groupStep cfg (h, next, cost) kv with
    | error e => exact ⟨rfl, fun s e => by cases e⟩
    | ok s =>
      obtain ⟨h1, next1, cost1⟩ := s
      obtain ⟨f1, f2, f3⟩ := e2 _ hs
      dsimp only at f1 f2 f3
      obtain ⟨g1, g2⟩ := ih h1 next1 cost1 f3 fun kv' hkv' a ha => by
        obtain ⟨i1, i2⟩ := hd kv' (by simp [hkv']) a ha
        exact ⟨by omega, (f2 a i1).trans i2⟩
      refine ⟨g1, fun s e => ?_⟩
      obtain ⟨j1, j2, j3⟩ := g2 s e
      exact ⟨by omega, fun a ha => (j2 a (by omega)).trans (f2 a ha), j3⟩

theorem map_set_length (d : Dict Int (List Addr)) (k : Int) (a : Addr) :
    (d.set k ((d.get? k).getD [] ++ [a])).map (fun kv => (kv.1, kv.2.length)) =
      Dict.set (d.map fun kv => (kv.1, kv.2.length)) k ((Dict.get? (d.map fun kv => (kv.1, kv.2.length)) k).getD 0 + 1) := by
  induction d with
  | nil => rfl
  | cons kv d ih =>
    obtain ⟨k', l⟩ := kv
    simp only [Dict.set, Dict.get?, List.map_cons]
    by_cases e : k' = k
    · simp [e]
    · simp only [if_neg e, List.map_cons]
      rw [ih]

theorem groupBy_counts (h : Heap Int) (nodes : List Addr) : (groupBy h nodes).map (fun kv => (kv.1, kv.2.length)) = countsOf (valuesOf h nodes) := by
  induction nodes using List.reverseRecOn with
  | nil => rfl
  | append_singleton l a ih =>
    unfold groupBy countsOf valuesOf at *
    rw [List.foldl_append, List.map_append, List.foldl_append, ← ih]
    exact map_set_length _ _ _

theorem groupLoop_value (cfg : Config) : ∀ (fuel : Nat) (h : Heap Int) (nodes : List Addr) (cost : Int), (∀ a ∈ nodes, a < h.next) →
    (groupLoop cfg fuel h nodes cost).map (fun s => (valuesOf s.1 s.2.1, s.2.2)) = groupLoopV cfg fuel (valuesOf h nodes) cost := by
  intro fuel
  induction fuel with
  | zero => intro h nodes cost _; rfl
  | succ n ih =>
    intro h nodes cost hn
    have G := groupBy_spec h nodes
    obtain ⟨e1, e2⟩ := groupFold_value cfg (groupBy h nodes) h [] cost (by simp) fun kv hkv a ha =>
      ⟨hn a (G.perm.mem_iff.1 (List.mem_flatMap.2 ⟨kv, hkv, ha⟩)), G.value kv hkv a ha⟩
    rw [groupBy_counts] at e1
    unfold groupLoop groupLoopV
    have e1' : (groupRound cfg h nodes cost).map (fun s => (valuesOf s.1 s.2.1, s.2.2)) =
      (countsOf (valuesOf h nodes)).foldlM (groupStepV cfg) ([], cost) := e1
    rw [← e1']
    cases hs : groupRound cfg h nodes cost with
    | error e => rfl
    | ok s =>
      obtain ⟨h1, next, cost1⟩ := s
      obtain ⟨f1, f2, f3⟩ := e2 _ hs
      dsimp only [Except.map] at f1 f2 f3 ⊢
      have hl : (valuesOf h1 next).length = next.length := by simp [valuesOf]
      have hl' : (valuesOf h nodes).length = nodes.length := by simp [valuesOf]
      rw [hl, hl']
      by_cases hc : next.length = nodes.length
      · rw [if_pos hc, if_pos hc]
        show Except.ok _ = Except.ok _
        congr 2
        exact List.map_congr_left fun a ha => f2 a (hn a ha)
      · rw [if_neg hc, if_neg hc]
        exact ih h1 next cost1 f3

/-- What `group_values` raises, or the values and the cost it returns, are the same whatever objects there are. -/
theorem groupValues_heap (cfg : Config) (h h' : Heap Int) (values : List Int) :
    (groupValues cfg h values).map (fun s => (valuesOf s.1 s.2.1, s.2.2)) = (groupValues cfg h' values).map (fun s => (valuesOf s.1 s.2.1, s.2.2)) := by
  by_cases hneg : ∃ v ∈ values, v < 0
  · rw [groupValues_negative cfg h values hneg, groupValues_negative cfg h' values hneg]
  push Not at hneg
  have key : ∀ h : Heap Int, (groupValues cfg h values).map (fun s => (valuesOf s.1 s.2.1, s.2.2)) =
      groupLoopV cfg (values.length + 1) (values.insertionSort (· ≤ ·)) 0 := by
    intro h
    obtain ⟨h1, e, -⟩ := newNodes_spec [] none (values.insertionSort (· ≤ ·)) h fun v hv => hneg v ((List.perm_insertionSort _ _).mem_iff.1 hv)
    obtain ⟨-, -, g3, -, g5⟩ := Solver.newNodes_ok e
    unfold groupValues
    rw [e]
    dsimp only
    rw [groupLoop_value cfg _ _ _ _ fun a ha => (g5 a ha).2, g3]
  rw [key, key]

end Satis.Graph
