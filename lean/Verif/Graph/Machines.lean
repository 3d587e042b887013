import Verif.Graph.MachineSpec
import Verif.Graph.Steady
import Mathlib.Algebra.BigOperators.Ring.Finset
/-!
# Counting the machines of a finished network
-/

namespace Satis.Graph
open Satis Spec

theorem belts_eq {h' : Heap ℚ} {S : List Addr} {E : List (Addr × Addr)} (hS : S.Nodup) (ch : ∀ a ∈ S, (h'.get a).children = outsOf E a)
    (starts : ∀ e ∈ E, e.1 ∈ S) (x : Addr) : belts h' S x = (insOf E x).length := by
  have h1 := brings_eq hS starts (fun _ => 1) x
  rw [brings_const (c := 1) fun _ _ => rfl, mul_one, ← insOf_length] at h1
  have h2 : ((belts h' S x : ℕ) : ℚ) = (S.map fun a => ((outsOf E a).count x : ℚ) * 1).sum := by
    unfold belts
    rw [Nat.cast_list_sum, List.map_map]
    congr 1
    apply List.map_congr_left
    intro a ha
    simp [ch a ha]
  rw [← h2] at h1
  exact_mod_cast h1.symm

theorem belts_congr {h h' : Heap ℚ} (e : ∀ a, (h'.get a).children = (h.get a).children) (S : List Addr) (x : Addr) :
    belts h' S x = belts h S x := by
  unfold belts
  simp only [e]

theorem toOne_one_add {k : Nat} (hk : k ≤ 1) : toOne (1 + k) = k := by
  unfold toOne
  omega

theorem sum_indicator (r : List Addr) (b : Addr) : (r.map fun z => if b = z then 1 else 0).sum = r.count b := by
  induction r with
  | nil => rfl
  | cons c r ihr =>
    rw [List.map_cons, List.sum_cons, ihr, List.count_cons]
    by_cases q : b = c
    · subst q; simp; omega
    · have : ¬ c = b := fun q' => q q'.symm
      simp [q, this]

theorem sum_count_cons (r : List Addr) (b : Addr) (l : List Addr) :
    (r.map fun z => (b :: l).count z).sum = (r.map fun z => l.count z).sum + r.count b := by
  rw [← sum_indicator, ← List.sum_map_add]
  congr 1
  apply List.map_congr_left
  intro z _
  rw [List.count_cons]
  simp

/-- The belts of a list that lead into a range, counted node by node. -/
theorem sum_count_range (l : List Addr) (a k : Nat) :
    ((List.range' a k).map fun z => l.count z).sum = (l.filter fun z => decide (a ≤ z ∧ z < a + k)).length := by
  induction l with
  | nil => simp
  | cons b l ih =>
    rw [sum_count_cons, ih]
    by_cases q : a ≤ b ∧ b < a + k
    · rw [List.filter_cons_of_pos (by simpa using q), List.count_eq_one_of_mem List.nodup_range' (by rw [List.mem_range'_1]; exact q)]
      rfl
    · rw [List.filter_cons_of_neg (by simpa using q), List.count_eq_zero.2 (by rw [List.mem_range'_1]; exact q), Nat.add_zero]

theorem length_part {l cs : List Addr} {a k : Nat} (hcs : ∀ c ∈ cs, c < a) (hnd : cs.Nodup)
    (hl : ∀ z ∈ l, (a ≤ z ∧ z < a + k) ∨ z ∈ cs) :
    l.length = (l.filter fun z => decide (a ≤ z ∧ z < a + k)).length + (cs.map fun z => l.count z).sum := by
  induction l with
  | nil => simp
  | cons b l ih =>
    have h1 := ih fun z hz => hl z (List.mem_cons_of_mem _ hz)
    rw [List.length_cons, h1, sum_count_cons]
    rcases hl b List.mem_cons_self with q | q
    · rw [List.filter_cons_of_pos (by simpa using q), (List.count_eq_zero (l := cs)).2 fun q' => by have := hcs b q'; omega, List.length_cons]
      omega
    · have := hcs b q
      rw [List.filter_cons_of_neg (by simp; omega), List.count_eq_one_of_mem hnd q]
      omega

section
variable {h h' : Heap ℚ} {node : Addr} {V : ℚ} {cs ts : List Addr} {E : List (Addr × Addr)} {S : List Addr} {w : ℚ} {f : Addr → ℚ}

/-- Belts are edges. -/
theorem Net.belts (I : Net (detach h node cs) h' node V ts E S [] w f) (hnode : node < h.next) (x : Addr) :
    Graph.belts h' (made h h' node) x = (insOf E x).length := by
  have hmem : ∀ a, a ∈ S ++ [] ↔ a = node ∨ h.next ≤ a ∧ a < h'.next := I.mem
  have hS : ∀ a, a ∈ S ↔ a = node ∨ h.next ≤ a ∧ a < h'.next := fun a => by simpa using hmem a
  have wc : ∀ a, a < h'.next → (h'.get a).children = (if a < h.next then ((detach h node cs).get a).children else []) ++ outsOf E a :=
    I.wired.children
  have hnext : h.next ≤ h'.next := I.wired.next
  refine belts_eq (made_nodup hnode) (fun a ha => ?_) (fun e he => (mem_made hnext).2 ((hS _).1 (I.starts e he))) x
  rw [mem_made hnext] at ha
  have hlt : a < h'.next := by rcases ha with q | q <;> omega
  rw [wc a hlt, detach_get]
  split
  · rename_i q
    have : a = node := by omega
    simp [this]
  · rfl

theorem Net.belts_new (I : Net (detach h node cs) h' node V ts E S [] w f) (hnode : node < h.next) {a : Addr} (h1 : h.next ≤ a)
    (h2 : a < h'.next) : Graph.belts h' (made h h' node) a = 1 := by
  obtain ⟨p, hp, -⟩ := I.single a h1 h2
  rw [I.belts hnode, hp]
  rfl

/-- Only edges from the start point of a list of edges lead on. -/
theorem count_outsOf_le (E : List (Addr × Addr)) (a x : Addr) : (outsOf E a).count x ≤ (insOf E x).length := by
  rw [insOf_length]
  unfold outsOf
  exact (List.filter_sublist.map Prod.snd).count_le x

/-- With the extra node that hands its flow to the nodes below `node`: they get one belt more each. -/
theorem Net.beltsOver {h1 : Heap ℚ} {toLoop : ℚ} (hnew : newNode h toLoop [] none none = .ok (h1, h.next))
    (I : Net (detach h1 node cs) h' node V ts E S [] w f) (hnode : node < h.next) (hpos : 0 < toLoop) (x : Addr) :
    Graph.belts (joinLoop h' node h.next) (made h (joinLoop h' node h.next) node) x = (insOf E x).length + (outsOf E node).count x := by
  unfold newNode at hnew
  rw [if_neg (not_lt.2 hpos.le)] at hnew
  simp only [Except.ok.injEq, Prod.mk.injEq, Heap.alloc] at hnew
  have hn1 : h1.next = h.next + 1 := by rw [← hnew.1]
  have hgl : h1.get h.next = { value := toLoop, id := h.nextUid, level := none, past := (FastList.new [toLoop]).extend [], parents := []
                               children := [], expands := [], levelsToAdd := 0 } := by
    rw [← hnew.1]
    exact if_pos rfl
  have hmem : ∀ a, a ∈ S ++ [] ↔ a = node ∨ h1.next ≤ a ∧ a < h'.next := I.mem
  have hS : ∀ a, a ∈ S ↔ a = node ∨ h.next < a ∧ a < h'.next := fun a => by
    have := hmem a
    rw [List.append_nil, hn1] at this
    rw [this]
    omega
  have hnext1 : h1.next ≤ h'.next := I.wired.next
  have hEout : outsOf E h.next = [] := outsOf_eq_nil fun e he q => by
    have := (hS e.1).1 (I.starts e he)
    omega
  have hch : (h'.get node).children = outsOf E node := by
    have := I.wired.children node (by omega)
    rw [detach_get] at this
    simpa using this
  have hKlt : ∀ x ∈ outsOf E node, x < h'.next := fun x hx => (I.wired.inside (node, x) (mem_outsOf.1 hx)).2
  obtain ⟨h3, hh3⟩ : ∃ h3, joinLoop h' node h.next = h3 := ⟨_, rfl⟩
  have wJ : Wired h' h3 ((outsOf E node).map fun x => (h.next, x)) := by
    rw [← hh3]
    unfold joinLoop
    rw [hch]
    exact Wired.linkAll _ _ (by omega) hKlt
  have hn3 : h3.next = h'.next := by rw [← hh3]; exact (joinLoop_keep h' node h.next 0).2.2
  rw [hh3]
  have W := I.wired.trans wJ
  obtain ⟨E', hE'⟩ : ∃ E', E' = E ++ (outsOf E node).map fun x => (h.next, x) := ⟨_, rfl⟩
  rw [← hE'] at W
  have hmade : ∀ a, a ∈ made h h3 node ↔ a = h.next ∨ a ∈ S := fun a => by
    rw [mem_made (by omega), hS, hn3]
    omega
  have wc : ∀ a, a < h3.next → (h3.get a).children = (if a < h1.next then ((detach h1 node cs).get a).children else []) ++ outsOf E' a :=
    W.children
  rw [belts_eq (E := E') (made_nodup hnode) (fun a ha => ?_) (fun e he => ?_), hE', insOf_append, List.length_append]
  · congr 1
    rw [insOf_length, List.map_map]
    congr 1
    exact List.map_id _
  · rcases (hmade a).1 ha with q | q
    · rw [q, wc _ (by omega), if_pos (by omega), detach_get, hgl]
      simp
    · rcases (hS a).1 q with q | q
      · rw [q, wc _ (by omega), if_pos (by omega), detach_get]
        simp
      · rw [wc _ (by omega), if_neg (by omega)]
        rfl
  · rw [hE'] at he
    rcases List.mem_append.1 he with he | he
    · exact (hmade _).2 (.inr (I.starts e he))
    · simp only [List.mem_map] at he
      obtain ⟨x, -, rfl⟩ := he
      exact (hmade _).2 (.inl rfl)

/-- The machines of such a network: a merger more in front of every node below `node`, but not if it is served directly. -/
theorem Net.machinesOver {h1 h3 : Heap ℚ} {toLoop : ℚ} (hnew : newNode h toLoop [] none none = .ok (h1, h.next))
    (I : Net (detach h1 node cs) h' node V ts E S [] w f) (hnode : node < h.next) (hpos : 0 < toLoop)
    (hn3 : h3.next = (joinLoop h' node h.next).next) (hc3 : ∀ a, (h3.get a).children = ((joinLoop h' node h.next).get a).children)
    (hcs : ∀ c ∈ cs, c < h.next) (hnd : cs.Nodup) (hdir : ∀ z, z ≤ h.next → z ∉ cs → (outsOf E node).count z = 0) (hcn : node ∉ cs) :
    (h3.get node).children = outsOf E node ∧
    (∀ z, Graph.belts h3 (made h h3 node) z = (insOf E z).length + (outsOf E node).count z) ∧
    machines h h3 node cs + (cs.map fun z => (outsOf E node).count z).sum = h3.next + 1 - h.next + toOne (1 + (insOf E node).length) +
      toOne (insOf E h.next).length + (outsOf E node).length + (cs.map fun z => toOne (Graph.belts h3 (made h h3 node) z)).sum := by
  have hb3 : ∀ z, Graph.belts h3 (made h h3 node) z = (insOf E z).length + (outsOf E node).count z := fun z => by
    rw [belts_congr (h := joinLoop h' node h.next) hc3]
    unfold made
    rw [hn3]
    exact Net.beltsOver hnew I hnode hpos z
  have hnew' := hnew
  unfold newNode at hnew'
  rw [if_neg (not_lt.2 hpos.le)] at hnew'
  simp only [Except.ok.injEq, Prod.mk.injEq, Heap.alloc] at hnew'
  have hn1 : h1.next = h.next + 1 := by rw [← hnew'.1]
  have hle : h1.next ≤ h'.next := I.wired.next
  have hnx : h3.next = h'.next := by rw [hn3]; exact (joinLoop_keep h' node h.next 0).2.2
  have hch : (h'.get node).children = outsOf E node := by
    have := I.wired.children node (show node < h'.next by omega)
    rw [detach_get] at this
    simpa using this
  have hchn : (h3.get node).children = outsOf E node := by
    rw [hc3, ← hch]
    have wJ : Wired h' (joinLoop h' node h.next) ((outsOf E node).map fun x => (h.next, x)) := by
      unfold joinLoop
      rw [hch]
      exact Wired.linkAll _ _ (by omega) fun x hx => (I.wired.inside (node, x) (mem_outsOf.1 hx)).2
    have := wJ.children node (by rw [(joinLoop_keep h' node h.next 0).2.2]; omega)
    rw [this, if_pos (by omega), outsOf_eq_nil, List.append_nil]
    intro e he q
    simp only [List.mem_map] at he
    obtain ⟨z, -, rfl⟩ := he
    simp only at q
    omega
  refine ⟨hchn, hb3, ?_⟩
  have hone : ∀ a, h.next < a → a < h'.next → toOne (Graph.belts h3 (made h h3 node) a) = (outsOf E node).count a := fun a a1 a2 => by
    obtain ⟨q, hq, -⟩ := I.single a (show h1.next ≤ a by omega) a2
    have := count_outsOf_le E node a
    rw [hb3]
    rw [hq] at this ⊢
    exact toOne_one_add this
  have hsplit := sum_count_range (outsOf E node) (h.next + 1) (h'.next - (h.next + 1))
  have hpart := length_part (l := outsOf E node) (cs := cs) (a := h.next + 1) (k := h'.next - (h.next + 1))
    (fun c hc => by have := hcs c hc; omega) hnd (fun z hz => by
      by_cases q : z ∈ cs
      · exact .inr q
      · left
        have := (I.wired.inside (node, z) (mem_outsOf.1 hz)).2
        have hz1 : ¬ z ≤ h.next := fun q1 => by
          have := hdir z q1 q
          rw [List.count_eq_zero] at this
          exact this hz
        simp only at this
        omega)
  have hmd : (made h h3 node).length = h'.next + 1 - h.next := by
    unfold made
    simp
    omega
  have hr2 : List.range' h.next (h3.next - h.next) = h.next :: List.range' (h.next + 1) (h'.next - (h.next + 1)) := by
    rw [hnx, show h'.next - h.next = (h'.next - (h.next + 1)) + 1 by omega, List.range'_succ]
  have hsum : ((List.range' (h.next + 1) (h'.next - (h.next + 1))).map fun a => toOne (Graph.belts h3 (made h h3 node) a)) =
      (List.range' (h.next + 1) (h'.next - (h.next + 1))).map fun a => (outsOf E node).count a := by
    apply List.map_congr_left
    intro a ha
    rw [List.mem_range'_1] at ha
    exact hone a (by omega) (by omega)
  have e1 := hb3 node
  have e2 := hb3 h.next
  rw [hdir node hnode.le hcn, Nat.add_zero] at e1
  rw [hdir h.next le_rfl fun q => by have := hcs _ q; omega, Nat.add_zero] at e2
  unfold machines
  rw [hr2, List.map_cons, List.sum_cons, hsum, hsplit, e1, e2, hmd, hnx]
  omega

end

/-- One belt to every new splitter. -/
theorem machines_single {h h' : Heap ℚ} {node : Addr} {outs : List Addr} (hnext : h.next ≤ h'.next)
    (hb : ∀ a, h.next ≤ a → a < h'.next → belts h' (made h h' node) a = 1) :
    machines h h' node outs = (h'.next + 1 - h.next) + toOne (1 + belts h' (made h h' node) node) +
      (outs.map fun a => toOne (belts h' (made h h' node) a)).sum := by
  unfold machines
  have h1 : ((List.range' h.next (h'.next - h.next)).map fun a => toOne (belts h' (made h h' node) a)).sum = 0 := by
    rw [List.sum_eq_zero]
    intro y hy
    simp only [List.mem_map] at hy
    obtain ⟨a, ha, rfl⟩ := hy
    rw [List.mem_range'_1] at ha
    rw [hb a ha.1 (by omega)]
    rfl
  rw [h1]
  have : (made h h' node).length = h'.next + 1 - h.next := by
    unfold made
    simp
    omega
  omega

end Satis.Graph
