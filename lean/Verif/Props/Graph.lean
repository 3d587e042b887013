import Verif.Graph.Spec
import Verif.Graph.Moves
import Verif.Solver.Model
/-!
# Properties of nodes and trees (C26, C30, C31)
-/

namespace Satis
open Graph Solver

/-! ## C26 -/

theorem Graph.Grown.turned {h h' : Heap Int} {old : List Addr} {vs : List Int} {tO tN : List (Expand Int)} {lvl : Int}
    (hg : Grown h old vs tO tN lvl h') (hvs : vs.sum = (old.map fun a => (h.get a).value).sum)
    (hpos : ∀ v ∈ vs, 0 ≤ v) (hlvl : ∀ b ∈ old, ∃ m, (h.get b).level = some m ∧ m < lvl) :
    Turned h old (List.range' h.next vs.length) h' := by
  have hmem : ∀ a, a ∈ List.range' h.next vs.length ↔ ∃ i, ∃ _ : i < vs.length, a = h.next + i := by
    intro a
    rw [List.mem_range'_1]
    constructor
    · rintro ⟨h1, h2⟩; exact ⟨a - h.next, by omega, by omega⟩
    · rintro ⟨i, h1, rfl⟩; omega
  refine ⟨?_, ⟨List.nodup_range', ?_⟩, ?_, ?_, ?_, ?_, ?_, ?_, ?_, ?_, hg.frame⟩
  · rw [← hvs]
    congr 1
    apply List.ext_getElem
    · simp
    · intro i h1 h2
      rw [List.getElem_map, List.getElem_range', Nat.one_mul, hg.made i h2]
  · intro a; rw [List.mem_range'_1, hg.next]
  · rw [hg.next]; omega
  · intro a ha
    obtain ⟨i, hi, rfl⟩ := (hmem a).1 ha
    rw [hg.made i hi, hg.nextUid]
    refine ⟨by dsimp only; omega, by dsimp only; omega, ?_⟩
    intro b hb e
    obtain ⟨j, hj, rfl⟩ := (hmem b).1 hb
    rw [hg.made j hj] at e
    dsimp only at e
    omega
  · intro a ha
    obtain ⟨i, hi, rfl⟩ := (hmem a).1 ha
    rw [hg.made i hi]
    exact hpos _ (List.getElem_mem hi)
  · intro a ha
    obtain ⟨i, hi, rfl⟩ := (hmem a).1 ha
    rw [hg.made i hi]; exact ⟨rfl, rfl⟩
  · intro a ha; rw [hg.used a ha]
  · intro a ha; rw [hg.used a ha]; exact ⟨rfl, rfl, rfl, rfl, rfl⟩
  · intro a ha b hb
    obtain ⟨i, hi, rfl⟩ := (hmem a).1 ha
    obtain ⟨m, h1, h2⟩ := hlvl b hb
    rw [hg.made i hi]; exact ⟨lvl, m, rfl, h1, h2⟩
  · intro a ha v
    obtain ⟨i, hi, rfl⟩ := (hmem a).1 ha
    rw [hg.made i hi]
    dsimp only
    have : ∀ (l : List Addr) (p : FastList Int), p.WF →
        (v ∈ (l.foldl (fun p a => p.extend (h.get a).past.items) p).items ↔ v ∈ p.items ∨ ∃ b ∈ l, v ∈ (h.get b).past.items) := by
      intro l
      induction l with
      | nil => intro p _; simp
      | cons x xs ih =>
        intro p hp
        rw [List.foldl_cons, ih _ (FastList.wf_extend hp _), FastList.mem_extend hp]
        simp only [List.mem_cons, exists_eq_or_imp]
        tauto
    rw [this old _ (FastList.wf_new _), FastList.mem_new]
    simp

/-- **C26** (extract). -/
theorem C26_extract_conserves (cfg : Config) (h : Heap Int) (a : Addr) (c l : Int) (ha : a < h.next) (hl : (h.get a).level = some l)
    (hc0 : 0 ≤ c) (hc1 : c ≤ (h.get a).value) : ∃ h' new, extract cfg h a c = .ok (h', new) ∧ Turned h [a] new h' ∧
      (new.map fun n => (h'.get n).value).Perm [c, (h.get a).value - c] := by
  obtain ⟨h', e, hg⟩ := extract_grown cfg h a c l ha hl hc0 hc1
  have hp := List.perm_insertionSort (· ≤ ·) [c, (h.get a).value - c]
  have ht := hg.turned (by rw [hp.sum_eq]; simp)
    (by intro v hv; rw [hp.mem_iff] at hv; simp at hv; omega) (by simp [hl])
  have hlen : ([c, (h.get a).value - c].insertionSort (· ≤ ·)).length = 2 := by rw [List.length_insertionSort]; rfl
  rw [hlen] at ht
  refine ⟨h', _, e, ht, ?_⟩
  have : (List.range' h.next 2).map (fun n => (h'.get n).value) = [c, (h.get a).value - c].insertionSort (· ≤ ·) := by
    apply List.ext_getElem
    · rw [hlen]; simp
    · intro i h1 h2
      rw [List.getElem_map, List.getElem_range', Nat.one_mul, hg.made i h2]
  rw [this]; exact hp

/-- **C26** (divide): for an exact divisor. -/
theorem C26_divide_conserves (h : Heap Int) (a : Addr) (d : Nat) (l : Int) (ha : a < h.next) (hl : (h.get a).level = some l)
    (hd : 0 < d) (hv : 0 ≤ (h.get a).value) (hdvd : (d : Int) ∣ (h.get a).value) :
    ∃ h' new, divide h a d = .ok (h', new) ∧ Turned h [a] new h' ∧ new.length = d ∧
      ∀ n ∈ new, (h'.get n).value * d = (h.get a).value := by
  obtain ⟨h', e, hg⟩ := divide_grown h a d l ha hl hd hv
  have ht := hg.turned (by
      rw [List.sum_replicate]
      simp only [List.map_cons, List.map_nil, List.sum_singleton, nsmul_eq_mul]
      exact Int.mul_ediv_cancel' hdvd)
    (by intro v hv'; rw [List.eq_of_mem_replicate hv']; exact Int.ediv_nonneg hv (by omega)) (by simp [hl])
  rw [List.length_replicate] at ht
  refine ⟨h', _, e, ht, by simp, ?_⟩
  intro n hn
  obtain ⟨i, hi, rfl⟩ : ∃ i, i < d ∧ n = h.next + i := by
    rw [List.mem_range'_1] at hn
    exact ⟨n - h.next, by omega, by omega⟩
  rw [hg.made i (by simpa using hi)]
  simp only [List.getElem_replicate]
  exact Int.ediv_mul_cancel hdvd

/-- **C26** (split). -/
theorem C26_split_conserves (cfg : Config) (h : Heap Int) (a : Addr) (c l : Int) (ha : a < h.next) (hl : (h.get a).level = some l)
    (hs : ∃ s ∈ cfg.speeds, (s : Int) = c) (hc : c / 3 * 2 ≤ (h.get a).value) :
    ∃ h' new, split cfg h a c = .ok (h', new) ∧ Turned h [a] new h' ∧
      (new.map fun n => (h'.get n).value).Perm [c / 3, c / 3, (h.get a).value - c / 3 * 2] := by
  have hc0 : 0 ≤ c / 3 := by obtain ⟨s, _, rfl⟩ := hs; omega
  have hsp : isSpeed cfg c = true := by
    unfold isSpeed
    obtain ⟨s, h1, h2⟩ := hs
    rw [decide_eq_true_eq, List.mem_map]; exact ⟨s, h1, h2⟩
  obtain ⟨h', e, hg⟩ := split_grown cfg h a c l ha hl hsp hc hc0
  have hp := List.perm_insertionSort (· ≤ ·) [c / 3, c / 3, (h.get a).value - c / 3 * 2]
  have ht := hg.turned (by rw [hp.sum_eq]; simp; ring)
    (by intro v hv; rw [hp.mem_iff] at hv; simp at hv; omega) (by simp [hl])
  have hlen : ([c / 3, c / 3, (h.get a).value - c / 3 * 2].insertionSort (· ≤ ·)).length = 3 := by rw [List.length_insertionSort]; rfl
  rw [hlen] at ht
  refine ⟨h', _, e, ht, ?_⟩
  have : (List.range' h.next 3).map (fun n => (h'.get n).value) =
      [c / 3, c / 3, (h.get a).value - c / 3 * 2].insertionSort (· ≤ ·) := by
    apply List.ext_getElem
    · rw [hlen]; simp
    · intro i h1 h2
      rw [List.getElem_map, List.getElem_range', Nat.one_mul, hg.made i h2]
  rw [this]; exact hp

theorem Graph.foldlM_max_lt {h : Heap Int} (as : List Addr) (m : Int) {l : Int}
    (e : as.foldlM (fun m b => do
      let l ← levelSucc (h.get b)
      return max m l) m = .ok l) : m ≤ l ∧ ∀ b ∈ as, ∃ k, (h.get b).level = some k ∧ k < l := by
  induction as generalizing m with
  | nil =>
    simp only [List.foldlM_nil] at e
    injection e with e; subst e
    exact ⟨le_rfl, by simp⟩
  | cons b bs ih =>
    rw [List.foldlM_cons] at e
    unfold levelSucc at e
    cases hb : (h.get b).level with
    | none => rw [hb] at e; cases e
    | some k =>
      rw [hb] at e
      obtain ⟨h1, h2⟩ := ih (max m (k + 1)) e
      refine ⟨le_trans (le_max_left _ _) h1, ?_⟩
      intro x hx
      rcases List.mem_cons.1 hx with rfl | hx
      · exact ⟨k, hb, by have := le_max_right m (k + 1); omega⟩
      · exact h2 x hx

theorem Graph.maxLevelSucc_lt {h : Heap Int} {nodes : List Addr} {l : Int} (e : maxLevelSucc h nodes = .ok l) :
    ∀ b ∈ nodes, ∃ k, (h.get b).level = some k ∧ k < l := by
  cases nodes with
  | nil => simp
  | cons a as =>
    unfold maxLevelSucc at e
    cases ha : (h.get a).level with
    | none => simp only [levelSucc, ha] at e; cases e
    | some k =>
      simp only [levelSucc, ha] at e
      obtain ⟨h1, h2⟩ := Graph.foldlM_max_lt as (k + 1) e
      intro b hb
      rcases List.mem_cons.1 hb with rfl | hb
      · exact ⟨k, ha, by omega⟩
      · exact h2 b hb

/-- **C26** (merge): for distinct inputs that feed nothing else. -/
theorem C26_merge_conserves (share : Int → Nat → Int) (h : Heap Int) (nodes : List Addr) (hlt : ∀ a ∈ nodes, a < h.next)
    (hnd : nodes.Nodup) (h2 : 2 ≤ nodes.length) (hlv : ∀ a ∈ nodes, (h.get a).level.isSome)
    (hch : ∀ a ∈ nodes, (h.get a).children = []) (hv : ∀ a ∈ nodes, 0 ≤ (h.get a).value) :
    ∃ h' m, merge share h nodes = .ok (h', m) ∧ Turned h nodes [m] h' := by
  obtain ⟨h', l, e, hl, hg⟩ := merge_grown share h nodes hlt hnd h2 hlv hch hv
  refine ⟨h', h.next, e, ?_⟩
  have := hg.turned (by simp) (by
      intro v hv'
      simp only [List.mem_singleton] at hv'
      subst hv'
      apply List.sum_nonneg
      intro x hx
      obtain ⟨a, ha, rfl⟩ := List.mem_map.1 hx
      exact hv a ha) (Graph.maxLevelSucc_lt hl)
  simpa using this

/-- **C26** (merge): the division of `src/node.py:177` is not used for inputs that feed nothing else, as the sources of a tree. -/
theorem C26_merge_share (share share' : Int → Nat → Int) (h : Heap Int) (nodes : List Addr)
    (hch : ∀ a ∈ nodes, (h.get a).children = []) : merge share h nodes = merge share' h nodes := by
  have : nodes.map (fun a => sharedValue share (h.get a)) = nodes.map fun a => sharedValue share' (h.get a) := by
    apply List.map_congr_left
    intro a ha
    unfold sharedValue
    rw [if_pos (hch a ha), if_pos (hch a ha)]
  unfold merge
  rw [this]

/-- **C26.** Consistency of parent and child references is preserved. -/
theorem C26_links_preserved {h h' : Heap Int} {old new : List Addr} (ht : Turned h old new h') (hl : Linked h) (hnd : old.Nodup)
    (hold : ∀ a ∈ old, a < h.next) : Linked h' := by
  have hnew : ∀ a, a < h'.next → ¬ a < h.next → a ∈ new := fun a h1 h2 => (ht.fresh.2 a).2 ⟨by omega, h1⟩
  have hnn : ∀ a ∈ new, h.next ≤ a := fun a ha => ((ht.fresh.2 a).1 ha).1
  have hch : ∀ a, a < h.next → (h'.get a).children = if a ∈ old then (h.get a).children ++ new else (h.get a).children := by
    intro a ha
    split
    · exact ht.down a ‹_›
    · rw [ht.frame a ha ‹_›]
  have hpa : ∀ a, a < h.next → (h'.get a).parents = (h.get a).parents := by
    intro a ha
    by_cases h1 : a ∈ old
    · exact (ht.kept a h1).2.2.2.2
    · rw [ht.frame a ha h1]
  refine ⟨?_, ?_, ?_⟩
  · intro a b ha hb
    by_cases ha' : a < h.next
    · rw [hch a ha']
      by_cases hb' : b < h.next
      · rw [hpa b hb', ← hl.count a b ha' hb']
        split
        · rw [List.count_append, List.count_eq_zero.2 (fun hbn => absurd (hnn b hbn) (by omega)), Nat.add_zero]
        · rfl
      · have hbn := hnew b hb hb'
        have h0 : (h.get a).children.count b = 0 :=
          List.count_eq_zero.2 fun hm => absurd (hl.children a ha' b hm) hb'
        rw [(ht.up b hbn).1]
        split
        · rename_i h1
          rw [List.count_append, h0, List.count_eq_one_of_mem ht.fresh.1 hbn, List.count_eq_one_of_mem hnd h1]
        · rename_i h1
          rw [h0, List.count_eq_zero.2 h1]
    · have han := hnew a ha ha'
      rw [(ht.up a han).2]
      by_cases hb' : b < h.next
      · rw [hpa b hb', List.count_nil, List.count_eq_zero.2 fun hm => absurd (hl.parents b hb' a hm) ha']
      · rw [(ht.up b (hnew b hb hb')).1, List.count_nil, List.count_eq_zero.2 fun hm => absurd (hold a hm) ha']
  · intro a ha b hb
    by_cases ha' : a < h.next
    · rw [hch a ha'] at hb
      split at hb
      · rcases List.mem_append.1 hb with hb | hb
        · exact lt_of_lt_of_le (hl.children a ha' b hb) ht.next
        · exact ((ht.fresh.2 b).1 hb).2
      · exact lt_of_lt_of_le (hl.children a ha' b hb) ht.next
    · rw [(ht.up a (hnew a ha ha')).2] at hb; simp at hb
  · intro a ha b hb
    by_cases ha' : a < h.next
    · rw [hpa a ha'] at hb
      exact lt_of_lt_of_le (hl.parents a ha' b hb) ht.next
    · rw [(ht.up a (hnew a ha ha')).1] at hb
      exact lt_of_lt_of_le (hold b hb) ht.next

/-- An example heap: the nodes made by `Tree([Node(v) for v in values])`. -/
def exampleHeap (values : List Int) : Heap Int × TreeObj Int :=
  match newNodes ⟨fun _ => ⟨0, 0, none, FastList.empty, [], [], [], 0⟩, 0, 0⟩ [] none values with
  | .ok (h, roots) => newTree h roots
  | .error _ => newTree ⟨fun _ => ⟨0, 0, none, FastList.empty, [], [], [], 0⟩, 0, 0⟩ []

/-- Values, parents and children of all nodes. -/
def shape (h : Heap Int) : List (Int × List Nat × List Nat) :=
  (List.range h.next).map fun a => ((h.get a).value, (h.get a).parents, (h.get a).children)

/-- The hypotheses are met, and the moves do something: 8 is divided by 2, one half is split into 1 and 3, then everything is merged. -/
example : ((do
    let (h, a) ← divide (exampleHeap [8]).1 0 2
    let (h, b) ← extract config h 1 1
    let (h, m) ← merge (fun v k => v / (k : Int)) h [2, 3, 4]
    return (a ++ b ++ [m], shape h)) : Py _) =
    Except.ok ([1, 2, 3, 4, 5], [(8, [], [1, 2]), (4, [0], [3, 4]), (4, [0], [5]), (1, [1], [5]), (3, [1], [5]), (8, [2, 3, 4], [])]) := by
  decide +kernel

/-- Division by a number that is not a divisor loses flow: the hypothesis is needed (the search only divides by divisors). -/
example : (do
    let (h, a) ← divide (exampleHeap [7]).1 0 2
    return (a.map fun a => (h.get a).value)) = Except.ok [3, 3] := by decide +kernel

example : ((do
    let (h, a) ← split config (exampleHeap [50]).1 0 60
    return (a.map fun a => (h.get a).value)) : Py _) = Except.ok [10, 20, 20] := by decide +kernel

/-! ## C30 -/

/-- **C30** without the levels. `Tree.deepcopy` never raises, changes no existing node, and creates fresh nodes that are a copy. The graph is
arbitrary (shared nodes and cycles allowed) with distinct ids and non-negative values. Levels are kept except for the roots. -/
theorem C30_copy_faithful_partial (h : Heap Int) (t : TreeObj Int)
    (lt : ∀ a, Reach h t.roots a → a < h.next)
    (ids : ∀ a b, Reach h t.roots a → Reach h t.roots b → (h.get a).id = (h.get b).id → a = b)
    (nonneg : ∀ a, Reach h t.roots a → 0 ≤ (h.get a).value)
    (sources : ∀ a ∈ t.sources, Reach h t.roots a) (levels : ∀ l ∈ t.levels, ∀ a ∈ l, Reach h t.roots a) :
    ∃ h' t' φ, t.deepcopy h = .ok (h', t') ∧ Copied h (Reach h t.roots) φ h' ∧
      t'.roots = t.roots.map φ ∧ t'.sources = t.sources.map φ ∧ t'.levels = t.levels.map (List.map φ) ∧
      t'.sourceValues = t.sourceValues ∧ t'.size = t.size ∧ t'.currentLevel = t.currentLevel ∧
      (∀ v, v ∈ t'.past.items ↔ v ∈ t.past.items) ∧
      ∀ a, Reach h t.roots a → a ∉ t.roots → (h'.get (φ a)).level = (h.get a).level := by
  obtain ⟨h', φ, e, hc⟩ := deepcopy_spec h t ⟨fun _ _ h1 h2 => h1.child h2, lt, ids, fun a ha => not_lt.2 (nonneg a ha)⟩ sources levels
  refine ⟨h', _, φ, e, ⟨hc.ext.get, hc.range, hc.onto, hc.inj, hc.value, hc.id, hc.expands, ?_, ?_, fun a ha => (hc.parents a ha).2⟩,
    rfl, rfl, rfl, rfl, rfl, rfl, ?_, ?_⟩
  · intro a ha; rw [hc.children a ha]; exact List.reverse_perm _
  · intro a b ha hb; exact (hc.parents a ha).1 b hb
  · intro v
    show v ∈ ((FastList.empty : FastList (List Int)).extend t.past.items).items ↔ _
    rw [FastList.mem_extend FastList.wf_empty]
    simp [FastList.empty]
  · intro a ha hr; rw [hc.level a ha, if_neg hr]

/-- **C30** fails for the levels of roots: extracting from the second of two sources raises the level of the first one (it is still a
source) to 1, and the copy has level 0 again. -/
theorem C30_copy_levels_false : (do
    let (h, t) := exampleHeap [2, 5]
    let (h, t) ← makeChild config h t (.extract 1 1) 2
    let (h', t') ← t.deepcopy h
    return ((t.roots.map fun a => (h.get a).level), t'.roots.map fun a => (h'.get a).level)) =
    Except.ok ([some 1, some 0], [some 0, some 0]) := by decide +kernel

/-- A copy of a graph with a shared node and a cycle: the hypotheses are met. -/
def cyclicHeap : Heap Int :=
  ⟨fun a => match a with
    | 0 => ⟨6, 10, some 0, FastList.new [6], [2], [1, 2], [.divide 4], 0⟩
    | 1 => ⟨3, 11, some 1, FastList.new [3, 6], [0], [2], [], 0⟩
    | 2 => ⟨6, 12, some 2, FastList.new [6, 3], [0, 1], [0], [], 0⟩
    | _ => ⟨0, 0, none, FastList.empty, [], [], [], 0⟩, 3, 13⟩

example : ((do
    let (h', t') ← (newTree cyclicHeap [0]).2.deepcopy cyclicHeap
    return (t'.roots, shape h')) : Py _) =
    Except.ok ([3], [(6, [2], [1, 2]), (3, [0], [2]), (6, [0, 1], [0]), (6, [4], [4, 5]), (6, [3, 5], [3]), (3, [3], [4])]) := by decide +kernel

/-! ## C31 -/

/-- **C31**, what holds: the copy of a node keeps the past of the first root that leads to it and the node's own value, nothing
else; so if the noted pasts were values of the nodes and their ancestors, they still are, and the root's own value is among them. -/
theorem C31_copy_past_partial (h : Heap Int) (t : TreeObj Int)
    (lt : ∀ a, Reach h t.roots a → a < h.next)
    (ids : ∀ a b, Reach h t.roots a → Reach h t.roots b → (h.get a).id = (h.get b).id → a = b)
    (nonneg : ∀ a, Reach h t.roots a → 0 ≤ (h.get a).value)
    (sources : ∀ a ∈ t.sources, Reach h t.roots a) (levels : ∀ l ∈ t.levels, ∀ a ∈ l, Reach h t.roots a)
    (sound : PastSound h t.roots) :
    ∃ h' t' φ, t.deepcopy h = .ok (h', t') ∧ Copied h (Reach h t.roots) φ h' ∧ PastSound h' t'.roots ∧
      ∀ a, Reach h t.roots a → ∃ l1 r l2, t.roots = l1 ++ r :: l2 ∧ Reach h [r] a ∧ (∀ x ∈ l1, ¬ Reach h [x] a) ∧
        (h.get r).value ∈ (h'.get (φ a)).past.items ∧
        ∀ v, v ∈ (h'.get (φ a)).past.items ↔ v = (h.get a).value ∨ v ∈ (h.get r).past.items := by
  obtain ⟨h', φ, e, hc⟩ := deepcopy_spec h t ⟨fun _ _ h1 h2 => h1.child h2, lt, ids, fun a ha => not_lt.2 (nonneg a ha)⟩ sources levels
  have hcop : Copied h (Reach h t.roots) φ h' :=
    ⟨hc.ext.get, hc.range, hc.onto, hc.inj, hc.value, hc.id, hc.expands, fun a ha => by rw [hc.children a ha]; exact List.reverse_perm _,
      fun a b ha hb => (hc.parents a ha).1 b hb, fun a ha => (hc.parents a ha).2⟩
  have hpast : ∀ a, Reach h t.roots a → ∃ l1 r l2, t.roots = l1 ++ r :: l2 ∧ Reach h [r] a ∧ (∀ x ∈ l1, ¬ Reach h [x] a) ∧
        (h.get r).value ∈ (h'.get (φ a)).past.items ∧
        ∀ v, v ∈ (h'.get (φ a)).past.items ↔ v = (h.get a).value ∨ v ∈ (h.get r).past.items := by
    intro a ha
    obtain ⟨r, ⟨l1, l2, h1, h2, h3⟩, hp⟩ := hc.past a ha
    have hm : ∀ v, v ∈ (h'.get (φ a)).past.items ↔ v = (h.get a).value ∨ v ∈ (h.get r).past.items := by
      intro v
      rw [hp, FastList.mem_extend (FastList.wf_new _), FastList.mem_new]
      simp
    exact ⟨l1, r, l2, h1, h2, h3, (hm _).2 (Or.inr (sound r (.root (by rw [h1]; simp))).1), hm⟩
  refine ⟨h', _, φ, e, hcop, ?_, hpast⟩
  -- reachability in the copy
  have hmap : ∀ b rs, (∀ r ∈ rs, Reach h t.roots r) → Reach h rs b → Reach h' (rs.map φ) (φ b) := by
    intro b rs hrs hb
    induction hb with
    | root hm => exact .root (List.mem_map_of_mem hm)
    | @child c d h1 h2 ih =>
      refine .child ih ?_
      rw [hc.children c (h1.mono hrs)]
      simpa using ⟨d, h2, rfl⟩
  have hback : ∀ x, Reach h' (t.roots.map φ) x → ∃ a, Reach h t.roots a ∧ φ a = x := by
    intro x hx
    induction hx with
    | root hm =>
      obtain ⟨a, ha, rfl⟩ := List.mem_map.1 hm
      exact ⟨a, .root ha, rfl⟩
    | child _ h2 ih =>
      obtain ⟨a, ha, rfl⟩ := ih
      rw [hc.children a ha] at h2
      simp only [List.mem_reverse, List.mem_map] at h2
      obtain ⟨b, hb, rfl⟩ := h2
      exact ⟨b, ha.child hb, rfl⟩
  show PastSound h' (t.roots.map φ)
  intro x hx
  obtain ⟨a, ha, rfl⟩ := hback x hx
  obtain ⟨l1, r, l2, e1, e2, _, _, e4⟩ := hpast a ha
  have hr : r ∈ t.roots := by rw [e1]; simp
  refine ⟨(e4 _).2 (Or.inl (hc.value a ha)), ?_⟩
  intro v hv
  rcases (e4 v).1 hv with rfl | hv
  · exact ⟨φ a, hx, .root (by simp), hc.value a ha⟩
  · obtain ⟨b, hb1, hb2, hb3⟩ := (sound r (.root hr)).2 v hv
    refine ⟨φ b, hmap b t.roots (fun r hr => .root hr) hb1, ?_, by rw [hc.value b hb1, hb3]⟩
    have h3 : Reach h [b] a := by
      refine Reach.mono (rs := [r]) ?_ e2
      intro y hy; simp at hy; subst hy; exact hb2
    have := hmap a [b] (by intro y hy; simp at hy; subst hy; exact hb1) h3
    simpa using this

/-- The tree after dividing 12 by 3, then the first 4 by 2, then taking 1 out of one of the other two. -/
def pastExample : Py (Heap Int × TreeObj Int) := do
  let (h, t) := exampleHeap [12]
  let (h, t) ← makeChild config h t (.divide 0 3) 1
  let (h, t) ← makeChild config h t (.divide 0 2) 1
  makeChild config h t (.extract 2 1) 2

/-- **C31** fails: in the tree `pastExample` both sources of value 2 come from a source of value 4, but after the copy made for the third
move their pasts no longer contain 4, and a merge of the two into 4 is permitted by the code. -/
theorem C31_past_lost_false : (do
    let (h, t) ← pastExample
    let m ← mergeMove ⟨config, [1, 3, 8], 1, [(1, 1), (3, 1), (8, 1)], 1200, 1⟩ t [] 1
      { heap := h, reads := 0, stopped := false, solutions := [], solutionsCount := 0, bestSize := 100, queue := [] } [1, 2] [2, 2]
    return (t.sourceValues, t.sources.map (fun a => (h.get a).past.items),
      (t.sources.map fun a => (h.get a).parents.map fun p => (h.get p).value), m)) =
    Except.ok ([1, 2, 2, 3, 4], [[1, 4, 12], [2, 12], [2, 12], [3, 4, 12], [4, 12]], [[4], [4], [4], [4], [12]],
      some ⟨[1, 3, 4, 4], .merge [1, 2], 1⟩) := by decide +kernel

end Satis
