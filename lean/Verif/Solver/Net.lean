import Verif.Solver.Model
import Verif.Graph.Copy
import Mathlib.Algebra.BigOperators.Group.List.Basic
/-!
# An address-free picture of a search tree

Every tree of the search is described by a `Net`: its nodes numbered in order of creation. This is a proof device: the theorems of
`Verif/Props` speak about heaps and trees.
-/

namespace Satis.Solver
open Satis Satis.Graph

/-- A node; `org` is the first root from which it can be reached. -/
structure NetNode where
  value : Int
  level : Int
  past : FastList Int
  kids : List Nat
  pars : List Nat
  expands : List (Expand Int)
  org : Nat

/-- The nodes `0 … n-1`, the first `nRoots` of which are the roots, and the bookkeeping of `Tree`. -/
structure Net where
  node : Nat → NetNode
  n : Nat
  nRoots : Nat
  srcs : List Nat
  levels : List (List Nat)
  past : FastList (List Int)
  cur : Int
  size : Int

namespace Net

/-- `source_values`. -/
def vals (g : Net) : List Int := g.srcs.map fun i => (g.node i).value

/-- The net of `Tree([Node(v) for v in values])`. -/
def ofValues (values : List Int) : Net :=
  { node := fun i =>
      { value := values.getD i 0, level := 0, past := FastList.new [values.getD i 0], kids := [], pars := [], expands := [], org := i }
    n := values.length
    nRoots := values.length
    srcs := List.range values.length
    levels := [List.range values.length]
    past := FastList.empty
    cur := 0
    size := 0 }

/-- The past of a copied node. -/
def copyPast (g : Net) (i : Nat) : FastList Int :=
  (FastList.new [(g.node i).value]).extend (g.node (g.node i).org).past.items

/-- Values after a move. -/
def newVal (g : Net) (vs : List Int) (i : Nat) : Int := if i < g.n then (g.node i).value else vs.getD (i - g.n) 0

/-- Sources after a move. -/
def newSrcs (g : Net) (old : List Nat) (vs : List Int) : List Nat :=
  insortAll (g.newVal vs) (g.srcs.filter fun i => decide (i ∉ old)) (List.range' g.n vs.length)

/-- The least of a list of numbers. -/
def least : List Nat → Nat
  | [] => 0
  | x :: xs => xs.foldl min x

/-- The net after copying, one move and `Tree.add`: the sources `old` are replaced by new nodes of values `vs`, each of which is
a child of each of `old`. -/
def grow (g : Net) (old : List Nat) (vs : List Int) (tagOld tagNew : List (Expand Int)) (cost : Int) : Net :=
  { node := fun i =>
      if i < g.n then { g.node i with
        level := if i ∈ g.newSrcs old vs then g.cur + 1 else if i < g.nRoots then 0 else (g.node i).level
        past := g.copyPast i
        kids := if i ∈ old then (g.node i).kids ++ List.range' g.n vs.length else (g.node i).kids
        expands := if i ∈ old then (g.node i).expands ++ tagOld else (g.node i).expands }
      else
        { value := vs.getD (i - g.n) 0
          level := g.cur + 1
          past := old.foldl (fun p a => p.extend (g.copyPast a).items) (FastList.new [vs.getD (i - g.n) 0])
          kids := []
          pars := old
          expands := tagNew
          org := least (old.map fun a => (g.node a).org) }
    n := g.n + vs.length
    nRoots := g.nRoots
    srcs := g.newSrcs old vs
    levels := g.levels ++ [g.newSrcs old vs]
    past := ((FastList.empty : FastList (List Int)).extend g.past.items).append g.vals
    cur := g.cur + 1
    size := g.size + cost }

/-- The node behind source number `i`. -/
def src (g : Net) (i : Nat) : Nat := g.srcs.getD i 0

/-- The net after a move of the search. -/
def child (cfg : Config) (g : Net) (op : Op) (cost : Int) : Net :=
  match op with
  | .merge idx =>
    g.grow (idx.map g.src) [(idx.map fun i => (g.node (g.src i)).value).sum] [] (if idx.length > 3 then [.merge 3] else []) cost
  | .extract i c =>
    g.grow [g.src i] ([c, (g.node (g.src i)).value - c].insertionSort (· ≤ ·)) (if isSpeed cfg c then [] else [.extract c]) [] cost
  | .divide i d =>
    g.grow [g.src i] (List.replicate d ((g.node (g.src i)).value / (d : Int))) (if d > 3 then [.divide d] else []) [] cost
  | .split i c =>
    g.grow [g.src i] ([c / 3, c / 3, (g.node (g.src i)).value - c / 3 * 2].insertionSort (· ≤ ·)) [.split c] [] cost

/-- A node whose children have it as only parent and share its flow among them, or whose only child gathers the flow of its
parents, each of which has no other child. -/
def Balanced (g : Net) (i : Nat) : Prop :=
  ((∀ k ∈ (g.node i).kids, (g.node k).pars = [i]) ∧ ((g.node i).kids.map fun k => (g.node k).value).sum = (g.node i).value) ∨
  (∃ m, (g.node i).kids = [m] ∧ (∀ p ∈ (g.node m).pars, (g.node p).kids = [m]) ∧
    ((g.node m).pars.map fun p => (g.node p).value).sum = (g.node m).value)

/-- What every net of the search satisfies. -/
structure WF (g : Net) : Prop where
  rootsPos : 0 < g.nRoots
  rootsLe : g.nRoots ≤ g.n
  kidLt : ∀ i j, i < g.n → j ∈ (g.node i).kids → i < j ∧ j < g.n
  parLt : ∀ i p, i < g.n → p ∈ (g.node i).pars → p < i
  cons : ∀ i j, i < g.n → j < g.n → (g.node i).kids.count j = (g.node j).pars.count i
  root : ∀ i, i < g.nRoots → (g.node i).pars = [] ∧ (g.node i).org = i
  org : ∀ j, g.nRoots ≤ j → j < g.n →
    (∃ p ∈ (g.node j).pars, (g.node j).org = (g.node p).org) ∧ ∀ p ∈ (g.node j).pars, (g.node j).org ≤ (g.node p).org
  srcsNodup : g.srcs.Nodup
  memSrcs : ∀ i, i ∈ g.srcs ↔ i < g.n ∧ (g.node i).kids = []
  sorted : g.srcs.Pairwise fun i j => (g.node i).value ≤ (g.node j).value
  last : g.levels.getLast? = some g.srcs
  levelsLt : ∀ l ∈ g.levels, ∀ i ∈ l, i < g.n
  pos : ∀ i, i < g.n → 0 < (g.node i).value
  flow : ∀ i, i < g.n → (g.node i).kids ≠ [] → g.Balanced i
  levelKid : ∀ i j, i < g.n → j ∈ (g.node i).kids → (g.node i).level < (g.node j).level
  levelSrc : ∀ i ∈ g.srcs, (g.node i).level = g.cur
  levelRange : ∀ i, i < g.n → 0 ≤ (g.node i).level ∧ (g.node i).level ≤ g.cur ∧ (g.nRoots ≤ i → 1 ≤ (g.node i).level)
  pastWF : g.past.WF
  fresh : (g.past.items ++ [g.vals]).Nodup
  total : g.vals.sum = ((List.range g.nRoots).map fun i => (g.node i).value).sum

/-- A move that makes sense. -/
structure CanGrow (g : Net) (old : List Nat) (vs : List Int) : Prop where
  mem : ∀ a ∈ old, a ∈ g.srcs
  nodup : old.Nodup
  shape : old.length = 1 ∨ vs.length = 1
  size : old.length + vs.length ≥ 3
  oldNe : old ≠ []
  vsNe : vs ≠ []
  pos : ∀ v ∈ vs, 0 < v
  sum : vs.sum = (old.map fun a => (g.node a).value).sum

section
variable {g : Net} {old : List Nat} {vs : List Int} {tagOld tagNew : List (Expand Int)} {cost : Int}

theorem grow_value (i : Nat) : ((g.grow old vs tagOld tagNew cost).node i).value = g.newVal vs i := by
  unfold grow newVal; dsimp only; split <;> rfl
theorem grow_kids_old {i : Nat} (h : i < g.n) : ((g.grow old vs tagOld tagNew cost).node i).kids =
    if i ∈ old then (g.node i).kids ++ List.range' g.n vs.length else (g.node i).kids := by
  unfold grow; dsimp only; rw [if_pos h]
theorem grow_kids_new {i : Nat} (h : g.n ≤ i) : ((g.grow old vs tagOld tagNew cost).node i).kids = [] := by
  unfold grow; dsimp only; rw [if_neg (by omega)]
theorem grow_pars_old {i : Nat} (h : i < g.n) : ((g.grow old vs tagOld tagNew cost).node i).pars = (g.node i).pars := by
  unfold grow; dsimp only; rw [if_pos h]
theorem grow_pars_new {i : Nat} (h : g.n ≤ i) : ((g.grow old vs tagOld tagNew cost).node i).pars = old := by
  unfold grow; dsimp only; rw [if_neg (by omega)]
theorem grow_org_old {i : Nat} (h : i < g.n) : ((g.grow old vs tagOld tagNew cost).node i).org = (g.node i).org := by
  unfold grow; dsimp only; rw [if_pos h]
theorem grow_org_new {i : Nat} (h : g.n ≤ i) :
    ((g.grow old vs tagOld tagNew cost).node i).org = least (old.map fun a => (g.node a).org) := by
  unfold grow; dsimp only; rw [if_neg (by omega)]
theorem grow_level_old {i : Nat} (h : i < g.n) : ((g.grow old vs tagOld tagNew cost).node i).level =
    if i ∈ g.newSrcs old vs then g.cur + 1 else if i < g.nRoots then 0 else (g.node i).level := by
  unfold grow; dsimp only; rw [if_pos h]
theorem grow_level_new {i : Nat} (h : g.n ≤ i) : ((g.grow old vs tagOld tagNew cost).node i).level = g.cur + 1 := by
  unfold grow; dsimp only; rw [if_neg (by omega)]
theorem newVal_old {i : Nat} (h : i < g.n) : g.newVal vs i = (g.node i).value := by unfold newVal; rw [if_pos h]

theorem mem_newSrcs (i : Nat) : i ∈ g.newSrcs old vs ↔ (i ∈ g.srcs ∧ i ∉ old) ∨ (g.n ≤ i ∧ i < g.n + vs.length) := by
  unfold newSrcs
  rw [(insortAll_perm _ _ _).mem_iff]
  simp [List.mem_range'_1]
  tauto

theorem foldl_min_mem (x : Nat) (xs : List Nat) : xs.foldl min x ∈ x :: xs := by
  induction xs generalizing x with
  | nil => simp
  | cons y ys ih =>
    rw [List.foldl_cons]
    have := ih (min x y)
    rcases le_total x y with h | h
    · rw [min_eq_left h] at this ⊢
      simp only [List.mem_cons] at this ⊢
      tauto
    · rw [min_eq_right h] at this ⊢
      simp only [List.mem_cons] at this ⊢
      tauto

theorem foldl_min_le (x : Nat) (xs : List Nat) : xs.foldl min x ≤ x ∧ ∀ y ∈ xs, xs.foldl min x ≤ y := by
  induction xs generalizing x with
  | nil => simp
  | cons y ys ih =>
    rw [List.foldl_cons]
    obtain ⟨h1, h2⟩ := ih (min x y)
    refine ⟨by omega, fun z hz => ?_⟩
    rcases List.mem_cons.1 hz with rfl | hz
    · omega
    · exact h2 z hz

theorem least_mem (l : List Nat) (hl : l ≠ []) : least l ∈ l := by
  cases l with
  | nil => exact absurd rfl hl
  | cons x xs => exact foldl_min_mem x xs

theorem least_le (l : List Nat) (y : Nat) (hy : y ∈ l) : least l ≤ y := by
  cases l with
  | nil => simp at hy
  | cons x xs =>
    rcases List.mem_cons.1 hy with rfl | h
    · exact (foldl_min_le _ xs).1
    · exact (foldl_min_le x xs).2 y h

theorem getD_range_map (vs : List Int) (n : Nat) : (List.range' n vs.length).map (fun i => vs.getD (i - n) 0) = vs := by
  rw [List.range'_eq_map_range, List.map_map]
  apply List.ext_getElem
  · simp
  · intro i h1 h2
    simp at h1
    simp [h1]

end

/-- The values of the sources after a move, up to order. -/
theorem grow_vals_perm {g : Net} (hg : g.WF) {old : List Nat} {vs : List Int} {tagOld tagNew cost} :
    (g.grow old vs tagOld tagNew cost).vals.Perm
      (vs ++ (g.srcs.filter fun i => decide (i ∉ old)).map fun i => (g.node i).value) := by
  have h0 : (g.grow old vs tagOld tagNew cost).vals = (g.newSrcs old vs).map (g.newVal vs) := by
    unfold vals
    exact List.map_congr_left fun i _ => grow_value i
  rw [h0]
  refine ((insortAll_perm _ _ _).map _).trans ?_
  rw [List.map_append]
  have h1 : (List.range' g.n vs.length).map (g.newVal vs) = vs := by
    rw [← getD_range_map vs g.n]
    simp only [List.length_map, List.length_range']
    apply List.map_congr_left
    intro i hi
    rw [getD_range_map]
    rw [List.mem_range'_1] at hi
    unfold newVal
    rw [if_neg (by omega)]
  have h2 : (g.srcs.filter fun i => decide (i ∉ old)).map (g.newVal vs) =
      (g.srcs.filter fun i => decide (i ∉ old)).map fun i => (g.node i).value := by
    apply List.map_congr_left
    intro i hi
    exact newVal_old ((hg.memSrcs i).1 (List.mem_filter.1 hi).1).1
  rw [h1, h2]

/-- Sources split into the consumed and the kept ones. -/
theorem srcs_perm {g : Net} (hg : g.WF) {old : List Nat} {vs : List Int} (hc : g.CanGrow old vs) :
    g.srcs.Perm (old ++ g.srcs.filter fun i => decide (i ∉ old)) := by
  have h1 : (g.srcs.filter fun i => decide (i ∈ old)).Perm old := by
    rw [List.perm_ext_iff_of_nodup (hg.srcsNodup.filter _) hc.nodup]
    intro a
    simp only [List.mem_filter, decide_eq_true_eq]
    exact ⟨fun h => h.2, fun h => ⟨hc.mem a h, h⟩⟩
  refine (List.filter_append_perm (fun i => decide (i ∈ old)) g.srcs).symm.trans ?_
  refine (h1.append_right _).trans ?_
  apply List.Perm.of_eq
  congr 1
  apply List.filter_congr
  intro i _
  simp

theorem vals_perm {g : Net} (hg : g.WF) {old : List Nat} {vs : List Int} (hc : g.CanGrow old vs) :
    g.vals.Perm ((old.map fun a => (g.node a).value) ++ (g.srcs.filter fun i => decide (i ∉ old)).map fun i => (g.node i).value) := by
  have := (srcs_perm hg hc).map fun i => (g.node i).value
  rwa [List.map_append] at this

theorem grow_vals_sorted {g : Net} (hg : g.WF) {old : List Nat} {vs : List Int} {tagOld tagNew cost} :
    (g.grow old vs tagOld tagNew cost).vals.Pairwise (· ≤ ·) := by
  have h0 : (g.grow old vs tagOld tagNew cost).vals = (g.newSrcs old vs).map (g.newVal vs) := by
    unfold vals
    exact List.map_congr_left fun i _ => grow_value i
  rw [h0, List.pairwise_map]
  apply insortAll_sorted
  refine (List.Pairwise.filter _ hg.sorted).imp_of_mem ?_
  intro i j hi hj h
  rw [newVal_old ((hg.memSrcs i).1 (List.mem_filter.1 hi).1).1, newVal_old ((hg.memSrcs j).1 (List.mem_filter.1 hj).1).1]
  exact h

/-- A move changes the number of sources. -/
theorem grow_vals_ne {g : Net} (hg : g.WF) {old : List Nat} {vs : List Int} (hc : g.CanGrow old vs) {tagOld tagNew cost} :
    (g.grow old vs tagOld tagNew cost).vals ≠ g.vals := by
  intro h
  have h1 := (grow_vals_perm hg (old := old) (vs := vs) (tagOld := tagOld) (tagNew := tagNew) (cost := cost)).length_eq
  have h2 := (vals_perm hg hc).length_eq
  rw [h, h2] at h1
  simp only [List.length_append, List.length_map] at h1
  have := hc.size
  rcases hc.shape with h | h <;> omega

theorem grow_wf {g : Net} (hg : g.WF) {old : List Nat} {vs : List Int} (hc : g.CanGrow old vs) {tagOld tagNew cost}
    (hp : (g.grow old vs tagOld tagNew cost).vals ∉ g.past.items) : (g.grow old vs tagOld tagNew cost).WF := by
  have hn : (g.grow old vs tagOld tagNew cost).n = g.n + vs.length := rfl
  have hnr : (g.grow old vs tagOld tagNew cost).nRoots = g.nRoots := rfl
  have hsr : (g.grow old vs tagOld tagNew cost).srcs = g.newSrcs old vs := rfl
  have hcur : (g.grow old vs tagOld tagNew cost).cur = g.cur + 1 := rfl
  have holt : ∀ a ∈ old, a < g.n := fun a ha => ((hg.memSrcs a).1 (hc.mem a ha)).1
  have hok : ∀ a ∈ old, (g.node a).kids = [] := fun a ha => ((hg.memSrcs a).1 (hc.mem a ha)).2
  have hkids : ∀ i, i < g.n → ((g.grow old vs tagOld tagNew cost).node i).kids =
      if i ∈ old then List.range' g.n vs.length else (g.node i).kids := by
    intro i hi
    rw [grow_kids_old hi]
    split
    · rename_i h; rw [hok i h]; rfl
    · rfl
  have hcur0 : 0 ≤ g.cur := by
    obtain ⟨a, ha⟩ := List.exists_mem_of_ne_nil _ hc.oldNe
    have := hg.levelRange a (holt a ha)
    omega
  have hlen := List.length_pos_of_ne_nil hc.vsNe
  constructor
  · exact hg.rootsPos
  · have := hg.rootsLe; omega
  · intro i j hi hj
    rw [hn] at hi ⊢
    by_cases h : i < g.n
    · rw [hkids i h] at hj
      split at hj
      · rw [List.mem_range'_1] at hj; omega
      · have := hg.kidLt i j h hj; omega
    · rw [grow_kids_new (by omega)] at hj; simp at hj
  · intro i p hi hpm
    by_cases h : i < g.n
    · rw [grow_pars_old h] at hpm; exact hg.parLt i p h hpm
    · rw [grow_pars_new (by omega)] at hpm; have := holt p hpm; omega
  · intro i j hi hj
    rw [hn] at hi hj
    by_cases h : i < g.n <;> by_cases h' : j < g.n
    · rw [hkids i h, grow_pars_old h', ← hg.cons i j h h']
      split
      · rename_i h2
        rw [hok i h2, List.count_nil, List.count_eq_zero, List.mem_range'_1]; omega
      · rfl
    · rw [hkids i h, grow_pars_new (by omega)]
      split
      · rename_i h2
        rw [List.count_eq_one_of_mem hc.nodup h2, List.count_eq_one_of_mem List.nodup_range']
        rw [List.mem_range'_1]; omega
      · rename_i h2
        rw [List.count_eq_zero_of_not_mem h2, List.count_eq_zero]
        intro hm; exact h' (hg.kidLt i j h hm).2
    · rw [grow_kids_new (by omega), grow_pars_old h', List.count_nil, eq_comm, List.count_eq_zero]
      intro hm; have := hg.parLt j i h' hm; omega
    · rw [grow_kids_new (by omega), grow_pars_new (by omega), List.count_nil, eq_comm, List.count_eq_zero]
      intro hm; exact h (holt i hm)
  · intro i hi
    have hi' : i < g.n := by have := hg.rootsLe; rw [hnr] at hi; omega
    rw [grow_pars_old hi', grow_org_old hi']
    exact hg.root i hi
  · intro j hj1 hj2
    by_cases h : j < g.n
    · rw [grow_pars_old h, grow_org_old h]
      obtain ⟨⟨p, hp1, hp2⟩, h2⟩ := hg.org j hj1 h
      refine ⟨⟨p, hp1, ?_⟩, ?_⟩
      · rw [grow_org_old (by have := hg.parLt j p h hp1; omega)]; exact hp2
      · intro q hq
        rw [grow_org_old (by have := hg.parLt j q h hq; omega)]; exact h2 q hq
    · rw [grow_pars_new (by omega), grow_org_new (by omega)]
      constructor
      · obtain ⟨p, hp1, hp2⟩ := List.mem_map.1 (least_mem (old.map fun a => (g.node a).org) (by simpa using hc.oldNe))
        exact ⟨p, hp1, by rw [grow_org_old (holt p hp1), hp2]⟩
      · intro q hq
        rw [grow_org_old (holt q hq)]
        exact least_le _ _ (List.mem_map_of_mem hq)
  · rw [hsr]
    unfold newSrcs
    rw [(insortAll_perm _ _ _).nodup_iff, List.nodup_append]
    refine ⟨List.nodup_range', hg.srcsNodup.filter _, ?_⟩
    intro a ha b hb
    rw [List.mem_range'_1] at ha
    have := ((hg.memSrcs b).1 (List.mem_filter.1 hb).1).1
    omega
  · intro i
    rw [hsr, hn, mem_newSrcs, hg.memSrcs]
    by_cases h : i < g.n
    · rw [hkids i h]
      by_cases h2 : i ∈ old
      · rw [if_pos h2]
        simp only [List.range'_eq_nil_iff]
        constructor
        · rintro (h3 | h3)
          · exact absurd h2 h3.2
          · omega
        · rintro ⟨_, h3⟩; omega
      · rw [if_neg h2]
        constructor
        · rintro (h3 | h3)
          · exact ⟨by omega, h3.1.2⟩
          · omega
        · rintro ⟨_, h3⟩; exact Or.inl ⟨⟨h, h3⟩, h2⟩
    · rw [grow_kids_new (by omega)]
      constructor
      · rintro (h3 | h3)
        · exact absurd h3.1.1 h
        · exact ⟨h3.2, rfl⟩
      · rintro ⟨h3, _⟩; exact Or.inr ⟨by omega, h3⟩
  · have := grow_vals_sorted hg (old := old) (vs := vs) (tagOld := tagOld) (tagNew := tagNew) (cost := cost)
    unfold vals at this
    rwa [List.pairwise_map] at this
  · show (g.levels ++ [g.newSrcs old vs]).getLast? = _
    simp [hsr]
  · intro l hl i hi
    rw [hn]
    have hl' : l ∈ g.levels ++ [g.newSrcs old vs] := hl
    rcases List.mem_append.1 hl' with h | h
    · have := hg.levelsLt l h i hi; omega
    · simp at h; subst h
      rw [mem_newSrcs] at hi
      rcases hi with h | h
      · have := ((hg.memSrcs i).1 h.1).1; omega
      · omega
  · intro i hi
    rw [hn] at hi
    rw [grow_value]
    unfold newVal
    split
    · rename_i h; exact hg.pos i h
    · apply hc.pos
      rw [List.getD_eq_getElem?_getD, List.getElem?_eq_getElem (by omega), Option.getD_some]
      exact List.getElem_mem _
  · intro i hi hne
    rw [hn] at hi
    by_cases h : i < g.n
    · rw [hkids i h] at hne
      by_cases h2 : i ∈ old
      · rcases hc.shape with hs | hs
        · left
          have hold : old = [i] := by
            obtain ⟨a, rfl⟩ := List.length_eq_one_iff.1 hs
            simp at h2; rw [h2]
          rw [hkids i h, if_pos h2]
          constructor
          · intro k hk
            rw [List.mem_range'_1] at hk
            rw [grow_pars_new (by omega), hold]
          · have : ((List.range' g.n vs.length).map fun k => ((g.grow old vs tagOld tagNew cost).node k).value) = vs := by
              rw [← getD_range_map vs g.n]
              simp only [List.length_map, List.length_range']
              apply List.map_congr_left
              intro k hk
              rw [List.mem_range'_1] at hk
              rw [getD_range_map, grow_value]; unfold newVal; rw [if_neg (by omega)]
            rw [this, hc.sum, hold, grow_value, newVal_old h]; simp
        · right
          refine ⟨g.n, ?_, ?_, ?_⟩
          · rw [hkids i h, if_pos h2, hs]; rfl
          · intro p hp'
            rw [grow_pars_new (le_refl _)] at hp'
            rw [hkids p (holt p hp'), if_pos hp', hs]; rfl
          · rw [grow_pars_new (le_refl _), grow_value]
            obtain ⟨v, rfl⟩ := List.length_eq_one_iff.1 hs
            have : (old.map fun p => ((g.grow old [v] tagOld tagNew cost).node p).value) = old.map fun p => (g.node p).value := by
              apply List.map_congr_left
              intro p hp'
              rw [grow_value, newVal_old (holt p hp')]
            rw [this, ← hc.sum]
            unfold newVal
            simp
      · rw [if_neg h2] at hne
        have hkeep : ∀ x, x < g.n → x ∉ old → ((g.grow old vs tagOld tagNew cost).node x).kids = (g.node x).kids := by
          intro x hx hxo; rw [hkids x hx, if_neg hxo]
        rcases hg.flow i h hne with ⟨b1, b2⟩ | ⟨m, b1, b2, b3⟩
        · left
          rw [hkeep i h h2]
          constructor
          · intro k hk
            rw [grow_pars_old (hg.kidLt i k h hk).2]; exact b1 k hk
          · rw [grow_value, newVal_old h, ← b2]
            congr 1
            apply List.map_congr_left
            intro k hk
            rw [grow_value, newVal_old (hg.kidLt i k h hk).2]
        · right
          have hm : m < g.n := (hg.kidLt i m h (by rw [b1]; simp)).2
          refine ⟨m, by rw [hkeep i h h2, b1], ?_, ?_⟩
          · intro p hp'
            rw [grow_pars_old hm] at hp'
            have hpn : p < g.n := by have := hg.parLt m p hm hp'; omega
            have hpk := b2 p hp'
            rw [hkeep p hpn, hpk]
            intro hpo
            rw [hok p hpo] at hpk; simp at hpk
          · rw [grow_pars_old hm, grow_value, newVal_old hm, ← b3]
            congr 1
            apply List.map_congr_left
            intro p hp'
            rw [grow_value, newVal_old (by have := hg.parLt m p hm hp'; omega)]
    · rw [grow_kids_new (by omega)] at hne; exact absurd rfl hne
  · intro i j hi hj
    rw [hn] at hi
    by_cases h : i < g.n
    · rw [hkids i h] at hj
      by_cases h2 : i ∈ old
      · rw [if_pos h2, List.mem_range'_1] at hj
        rw [grow_level_new (i := j) (by omega), grow_level_old h, if_neg]
        · have := hg.levelRange i h
          split <;> omega
        · rw [mem_newSrcs]; rintro (h3 | h3)
          · exact h3.2 h2
          · omega
      · rw [if_neg h2] at hj
        have hj' := hg.kidLt i j h hj
        have hinot : i ∉ g.newSrcs old vs := by
          rw [mem_newSrcs, hg.memSrcs]
          rintro (h3 | h3)
          · rw [h3.1.2] at hj; simp at hj
          · omega
        rw [grow_level_old h, grow_level_old hj'.2, if_neg hinot]
        have hkl := hg.levelKid i j h hj
        have hir := hg.levelRange i h
        have hjr := hg.levelRange j hj'.2
        have hjroot : ¬ j < g.nRoots := by
          intro hjr'
          have h5 := (hg.root j hjr').1
          have h6 := hg.cons i j h hj'.2
          rw [h5, List.count_nil, List.count_eq_zero] at h6
          exact h6 hj
        have hj1 := hjr.2.2 (by omega)
        rw [if_neg hjroot]
        split <;> split <;> omega
    · rw [grow_kids_new (by omega)] at hj; simp at hj
  · intro i hi
    rw [hsr] at hi
    rw [hcur]
    by_cases h : i < g.n
    · rw [grow_level_old h, if_pos hi]
    · rw [grow_level_new (by omega)]
  · intro i hi
    rw [hcur, hnr]
    by_cases h : i < g.n
    · rw [grow_level_old h]
      have := hg.levelRange i h
      split
      · omega
      · split
        · omega
        · omega
    · rw [grow_level_new (by omega)]
      omega
  · exact FastList.wf_append (FastList.wf_extend FastList.wf_empty _) _
  · have hitems : (g.grow old vs tagOld tagNew cost).past.items = g.past.items ++ [g.vals] := by
      show (((FastList.empty : FastList (List Int)).extend g.past.items).append g.vals).items = _
      rw [FastList.append_items (FastList.wf_extend FastList.wf_empty _), FastList.extend_items FastList.wf_empty]
      have hnd := List.nodup_append.1 hg.fresh
      have h1 : g.past.items.foldl FastList.ref1 (FastList.empty : FastList (List Int)).items = g.past.items := by
        have : ∀ (l acc : List (List Int)), (acc ++ l).Nodup → l.foldl FastList.ref1 acc = acc ++ l := by
          intro l
          induction l with
          | nil => intro acc _; simp
          | cons x l ih =>
            intro acc hnd
            rw [List.foldl_cons]
            have hx : x ∉ acc := by
              intro hx
              have := (List.nodup_append.1 hnd).2.2 x hx x (by simp)
              exact this rfl
            have h1 : FastList.ref1 acc x = acc ++ [x] := by unfold FastList.ref1; rw [if_neg hx]
            rw [h1, ih (acc ++ [x]) (by simpa using hnd)]
            simp
        exact this g.past.items [] (by simpa using hnd.1)
      rw [h1]
      unfold FastList.ref1
      rw [if_neg]
      intro hm
      exact hnd.2.2 _ hm _ (by simp) rfl
    rw [hitems]
    rw [List.nodup_append]
    refine ⟨hg.fresh, by simp, ?_⟩
    intro a ha b hb
    simp only [List.mem_singleton] at hb
    subst hb
    rcases List.mem_append.1 ha with h | h
    · rintro rfl; exact hp h
    · simp at h; subst h; exact (grow_vals_ne hg hc).symm
  · rw [(grow_vals_perm hg).sum_eq, List.sum_append, hc.sum, ← List.sum_append, ← (vals_perm hg hc).sum_eq, hg.total, hnr]
    congr 1
    apply List.map_congr_left
    intro i hi
    rw [grow_value, newVal_old]
    have := hg.rootsLe
    simp at hi; omega

theorem ofValues_wf (values : List Int) (hne : values ≠ []) (hpos : ∀ v ∈ values, 0 < v) (hs : values.Pairwise (· ≤ ·)) :
    (ofValues values).WF := by
  have hvals : (ofValues values).vals = values := by
    unfold vals ofValues
    apply List.ext_getElem
    · simp
    · intro i h1 h2; simp at h1; simp [h1]
  have hnode : ∀ i, i < values.length → ((ofValues values).node i).value = values[i]! := by
    intro i hi; simp [ofValues, hi]
  constructor
  · exact List.length_pos_of_ne_nil hne
  · exact le_rfl
  · intro i j _ hj; simp [ofValues] at hj
  · intro i j _ hj; simp [ofValues] at hj
  · intro i j _ _; simp [ofValues]
  · intro i _; exact ⟨rfl, rfl⟩
  · intro j h1 h2; simp [ofValues] at h1 h2; omega
  · exact List.nodup_range
  · intro i; simp [ofValues]
  · have h : ((ofValues values).srcs.map fun i => ((ofValues values).node i).value).Pairwise (· ≤ ·) := by
      show (ofValues values).vals.Pairwise (· ≤ ·)
      rw [hvals]; exact hs
    rwa [List.pairwise_map] at h
  · rfl
  · intro l hl i hi
    simp [ofValues] at hl; subst hl
    simpa [ofValues] using hi
  · intro i hi
    have hi' : i < values.length := hi
    simp only [ofValues]
    rw [List.getD_eq_getElem?_getD, List.getElem?_eq_getElem hi', Option.getD_some]
    exact hpos _ (List.getElem_mem _)
  · intro i _ h; simp [ofValues] at h
  · intro i j _ h; simp [ofValues] at h
  · intro i _; rfl
  · intro i hi
    refine ⟨le_rfl, le_rfl, fun h => ?_⟩
    have hi' : i < values.length := hi
    have : values.length ≤ i := h
    omega
  · exact FastList.wf_empty
  · simp [ofValues, FastList.empty]
  · rfl

end Net
end Satis.Solver
