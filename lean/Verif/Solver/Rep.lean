import Verif.Solver.Net
import Verif.Graph.Moves
/-!
# Nets describe the heap

`Rep h t g loc`: the tree `t` in the heap `h` looks like the net `g`, node `i` being the object at address `loc i`. Copying a tree,
applying a move and `Tree.add` correspond to `Net.child`.
-/

namespace Satis.Solver
open Satis Satis.Graph

/-- The nodes of `g` are the objects at `loc i`. -/
structure RepN (h : Heap Int) (g : Net) (loc : Nat → Addr) : Prop where
  lt : ∀ i, i < g.n → loc i < h.next
  uid : ∀ i, i < g.n → (h.get (loc i)).id < h.nextUid
  inj : ∀ i j, i < g.n → j < g.n → (h.get (loc i)).id = (h.get (loc j)).id → i = j
  value : ∀ i, i < g.n → (h.get (loc i)).value = (g.node i).value
  level : ∀ i, i < g.n → (h.get (loc i)).level = some (g.node i).level
  past : ∀ i, i < g.n → (h.get (loc i)).past = (g.node i).past
  expands : ∀ i, i < g.n → (h.get (loc i)).expands = (g.node i).expands
  kids : ∀ i, i < g.n → (h.get (loc i)).children.Perm ((g.node i).kids.map loc)
  pars : ∀ i, i < g.n → (h.get (loc i)).parents.Perm ((g.node i).pars.map loc)

/-- The tree `t` looks like `g`. -/
structure Rep (h : Heap Int) (t : TreeObj Int) (g : Net) (loc : Nat → Addr) : Prop where
  nodes : RepN h g loc
  roots : t.roots = (List.range g.nRoots).map loc
  sources : t.sources = g.srcs.map loc
  levels : t.levels = g.levels.map (List.map loc)
  past : t.past = g.past
  cur : t.currentLevel = g.cur
  size : t.size = g.size
  vals : t.sourceValues = g.vals
  nSources : t.nSources = g.srcs.length

theorem RepN.loc_inj {h g loc} (hr : RepN h g loc) {i j : Nat} (hi : i < g.n) (hj : j < g.n) (e : loc i = loc j) : i = j :=
  hr.inj i j hi hj (by rw [e])

theorem RepN.ext {h h' : Heap Int} {g loc} (hr : RepN h g loc) (he : Heap.Ext h h') : RepN h' g loc := by
  have hg : ∀ i, i < g.n → h'.get (loc i) = h.get (loc i) := fun i hi => he.get _ (hr.lt i hi)
  constructor
  · intro i hi; exact lt_of_lt_of_le (hr.lt i hi) he.next
  · intro i hi; rw [hg i hi]; exact lt_of_lt_of_le (hr.uid i hi) he.nextUid
  · intro i j hi hj; rw [hg i hi, hg j hj]; exact hr.inj i j hi hj
  · intro i hi; rw [hg i hi]; exact hr.value i hi
  · intro i hi; rw [hg i hi]; exact hr.level i hi
  · intro i hi; rw [hg i hi]; exact hr.past i hi
  · intro i hi; rw [hg i hi]; exact hr.expands i hi
  · intro i hi; rw [hg i hi]; exact hr.kids i hi
  · intro i hi; rw [hg i hi]; exact hr.pars i hi

theorem Rep.ext {h h' : Heap Int} {t g loc} (hr : Rep h t g loc) (he : Heap.Ext h h') : Rep h' t g loc :=
  { hr with nodes := hr.nodes.ext he }

/-- Something without kids or as kid of something. -/
theorem Net.WF.parent {g : Net} (hg : g.WF) {i : Nat} (hi : i < g.n) (hr : g.nRoots ≤ i) :
    ∃ p ∈ (g.node i).pars, p < i ∧ i ∈ (g.node p).kids ∧ (g.node i).org = (g.node p).org := by
  obtain ⟨⟨p, hp, ho⟩, _⟩ := hg.org i hr hi
  have hpi := hg.parLt i p hi hp
  refine ⟨p, hp, hpi, ?_, ho⟩
  have := hg.cons p i (by omega) hi
  exact List.count_pos_iff.1 (by rw [this]; exact List.count_pos_iff.2 hp)

theorem Net.WF.kid_par {g : Net} (hg : g.WF) {i j : Nat} (hi : i < g.n) (hj : j ∈ (g.node i).kids) : i ∈ (g.node j).pars := by
  have := hg.cons i j hi (hg.kidLt i j hi hj).2
  exact List.count_pos_iff.1 (by rw [← this]; exact List.count_pos_iff.2 hj)

theorem Net.WF.kid_not_root {g : Net} (hg : g.WF) {i j : Nat} (hi : i < g.n) (hj : j ∈ (g.node i).kids) : g.nRoots ≤ j := by
  by_contra hlt
  have := hg.kid_par hi hj
  rw [(hg.root j (by omega)).1] at this
  simp at this

section
variable {h : Heap Int} {t : TreeObj Int} {g : Net} {loc : Nat → Addr}

theorem Rep.mem_children (hr : Rep h t g loc) (hg : g.WF) {i : Nat} (hi : i < g.n) {b : Addr}
    (hb : b ∈ (h.get (loc i)).children) : ∃ j ∈ (g.node i).kids, j < g.n ∧ b = loc j := by
  rw [(hr.nodes.kids i hi).mem_iff] at hb
  obtain ⟨j, hj, e⟩ := List.mem_map.1 hb
  exact ⟨j, hj, (hg.kidLt i j hi hj).2, e.symm⟩

theorem Rep.reach_iff (hr : Rep h t g loc) (hg : g.WF) (a : Addr) : Reach h t.roots a ↔ ∃ i, i < g.n ∧ a = loc i := by
  constructor
  · intro ha
    induction ha with
    | root hm =>
      rw [hr.roots] at hm
      obtain ⟨i, hi, e⟩ := List.mem_map.1 hm
      exact ⟨i, lt_of_lt_of_le (List.mem_range.1 hi) hg.rootsLe, e.symm⟩
    | child _ hc ih =>
      obtain ⟨i, hi, rfl⟩ := ih
      obtain ⟨j, _, hj, e⟩ := hr.mem_children hg hi hc
      exact ⟨j, hj, e⟩
  · rintro ⟨i, hi, rfl⟩
    induction i using Nat.strong_induction_on with
    | _ i ih =>
      by_cases h1 : i < g.nRoots
      · exact .root (by rw [hr.roots]; exact List.mem_map_of_mem (List.mem_range.2 h1))
      · obtain ⟨p, _, hpi, hk, _⟩ := hg.parent hi (by omega)
        exact .child (ih p hpi (by omega)) (by
          rw [(hr.nodes.kids p (by omega)).mem_iff]; exact List.mem_map_of_mem hk)

theorem Rep.good (hr : Rep h t g loc) (hg : g.WF) : Good h (Reach h t.roots) := by
  constructor
  · intro a b ha hb; exact .child ha hb
  · intro a ha
    obtain ⟨i, hi, rfl⟩ := (hr.reach_iff hg a).1 ha
    exact hr.nodes.lt i hi
  · intro a b ha hb e
    obtain ⟨i, hi, rfl⟩ := (hr.reach_iff hg a).1 ha
    obtain ⟨j, hj, rfl⟩ := (hr.reach_iff hg b).1 hb
    rw [hr.nodes.inj i j hi hj e]
  · intro a ha
    obtain ⟨i, hi, rfl⟩ := (hr.reach_iff hg a).1 ha
    rw [hr.nodes.value i hi, not_lt]
    exact le_of_lt (hg.pos i hi)

theorem Net.WF.org_lt (hg : g.WF) : ∀ i, i < g.n → (g.node i).org < g.nRoots := by
  intro i
  induction i using Nat.strong_induction_on with
  | _ i ih =>
    intro hi
    by_cases h1 : i < g.nRoots
    · rw [(hg.root i h1).2]; exact h1
    · obtain ⟨p, _, hpi, _, ho⟩ := hg.parent hi (by omega)
      rw [ho]; exact ih p hpi (by omega)

theorem Rep.reach_org (hr : Rep h t g loc) (hg : g.WF) : ∀ i, i < g.n → Reach h [loc (g.node i).org] (loc i) := by
  intro i
  induction i using Nat.strong_induction_on with
  | _ i ih =>
    intro hi
    by_cases h1 : i < g.nRoots
    · rw [(hg.root i h1).2]; exact .root (by simp)
    · obtain ⟨p, _, hpi, hk, ho⟩ := hg.parent hi (by omega)
      rw [ho]
      exact .child (ih p hpi (by omega)) (by
        rw [(hr.nodes.kids p (by omega)).mem_iff]; exact List.mem_map_of_mem hk)

theorem Rep.org_le (hr : Rep h t g loc) (hg : g.WF) {r : Nat} (hrn : r < g.nRoots) {a : Addr} (ha : Reach h [loc r] a) :
    ∃ i, i < g.n ∧ a = loc i ∧ (g.node i).org ≤ r := by
  induction ha with
  | root hm =>
    refine ⟨r, lt_of_lt_of_le hrn hg.rootsLe, by simpa using hm, ?_⟩
    rw [(hg.root r hrn).2]
  | child _ hc ih =>
    obtain ⟨i, hi, rfl, ho⟩ := ih
    obtain ⟨j, hjk, hj, e⟩ := hr.mem_children hg hi hc
    refine ⟨j, hj, e, ?_⟩
    exact le_trans ((hg.org j (hg.kid_not_root hi hjk) hj).2 i (hg.kid_par hi hjk)) ho

theorem Rep.isFirst (hr : Rep h t g loc) (hg : g.WF) {i : Nat} (hi : i < g.n) {r : Addr} (hf : IsFirst h t.roots (loc i) r) :
    r = loc (g.node i).org := by
  obtain ⟨l1, l2, e, hreach, hno⟩ := hf
  rw [hr.roots] at e
  have hlen := congrArg List.length e
  simp only [List.length_map, List.length_range, List.length_append, List.length_cons] at hlen
  have hk : l1.length < g.nRoots := by omega
  have hr' : r = loc l1.length := by
    have := congrArg (fun l => l[l1.length]?) e
    simpa [hk] using this.symm
  subst hr'
  obtain ⟨j, hj, ej, ho⟩ := hr.org_le hg hk hreach
  have := hr.nodes.loc_inj hi hj ej
  subst this
  rcases Nat.lt_or_ge (g.node i).org l1.length with hlt | hge
  · exfalso
    refine hno (loc (g.node i).org) ?_ (hr.reach_org hg i hi)
    have h1 := congrArg (fun l => l[(g.node i).org]?) e
    have h2 : (g.node i).org < g.nRoots := by omega
    simp only [List.getElem?_map, List.getElem?_range h2, Option.map_some, List.getElem?_append_left hlt] at h1
    exact List.mem_of_getElem? h1.symm
  · rw [show (g.node i).org = l1.length by omega]

end

/-- The net after `Tree.deepcopy`. -/
def Net.copied (g : Net) : Net :=
  { g with
    node := fun i => { g.node i with
      level := if i < g.nRoots then 0 else (g.node i).level
      past := g.copyPast i } }

theorem count_map_inj {f : Nat → Nat} {b : Nat} : ∀ (l : List Nat), (∀ a ∈ l, f a = f b → a = b) →
    (l.map f).count (f b) = l.count b := by
  intro l
  induction l with
  | nil => intro _; rfl
  | cons a l ih =>
    intro hi
    rw [List.map_cons, List.count_cons, List.count_cons, ih (fun x hx => hi x (by simp [hx]))]
    congr 1
    by_cases hab : a = b
    · subst hab; simp
    · have : f a ≠ f b := fun e => hab (hi a (by simp) e)
      simp [hab, this]

theorem Rep.copy {h : Heap Int} {t : TreeObj Int} {g : Net} {loc : Nat → Addr} (hr : Rep h t g loc) (hg : g.WF) :
    ∃ h' φ, t.deepcopy h = .ok (h', copyTree t φ) ∧ Heap.Ext h h' ∧ h'.nextUid = h.nextUid ∧
      (∀ i, i < g.n → h.next ≤ φ (loc i)) ∧ (∀ i, i < g.n → (h'.get (φ (loc i))).id = (h.get (loc i)).id) ∧
      RepN h' g.copied (φ ∘ loc) := by
  have hreach : ∀ i, i < g.n → Reach h t.roots (loc i) := fun i hi => (hr.reach_iff hg _).2 ⟨i, hi, rfl⟩
  obtain ⟨h', φ, e, hc⟩ := deepcopy_spec h t (hr.good hg)
    (by intro a ha
        rw [hr.sources] at ha
        obtain ⟨i, hi, rfl⟩ := List.mem_map.1 ha
        exact hreach i ((hg.memSrcs i).1 hi).1)
    (by intro l hl a ha
        rw [hr.levels] at hl
        obtain ⟨l', hl', rfl⟩ := List.mem_map.1 hl
        obtain ⟨i, hi, rfl⟩ := List.mem_map.1 ha
        exact hreach i (hg.levelsLt l' hl' i hi))
  have hinj : ∀ i j, i < g.n → j < g.n → φ (loc i) = φ (loc j) → i = j := fun i j hi hj e =>
    hr.nodes.loc_inj hi hj (hc.inj _ _ (hreach i hi) (hreach j hj) e)
  refine ⟨h', φ, e, hc.ext, hc.uid, fun i hi => (hc.range _ (hreach i hi)).1, fun i hi => hc.id _ (hreach i hi), ?_⟩
  have hroot : ∀ i, i < g.n → (loc i ∈ t.roots ↔ i < g.nRoots) := by
    intro i hi
    rw [hr.roots]
    constructor
    · intro hm
      obtain ⟨j, hj, ej⟩ := List.mem_map.1 hm
      rw [List.mem_range] at hj
      rw [← hr.nodes.loc_inj (lt_of_lt_of_le hj hg.rootsLe) hi ej]; exact hj
    · intro h1; exact List.mem_map_of_mem (List.mem_range.2 h1)
  constructor
  · intro i hi; exact (hc.range _ (hreach i hi)).2
  · intro i hi
    show (h'.get (φ (loc i))).id < _
    rw [hc.id _ (hreach i hi), hc.uid]; exact hr.nodes.uid i hi
  · intro i j hi hj
    show (h'.get (φ (loc i))).id = (h'.get (φ (loc j))).id → _
    rw [hc.id _ (hreach i hi), hc.id _ (hreach j hj)]; exact hr.nodes.inj i j hi hj
  · intro i hi
    show (h'.get (φ (loc i))).value = _
    rw [hc.value _ (hreach i hi)]; exact hr.nodes.value i hi
  · intro i hi
    show (h'.get (φ (loc i))).level = some (if i < g.nRoots then 0 else (g.node i).level)
    rw [hc.level _ (hreach i hi)]
    by_cases h1 : i < g.nRoots
    · rw [if_pos h1, if_pos ((hroot i hi).2 h1)]
    · rw [if_neg h1, if_neg (fun hm => h1 ((hroot i hi).1 hm))]; exact hr.nodes.level i hi
  · intro i hi
    show (h'.get (φ (loc i))).past = g.copyPast i
    obtain ⟨r, hf, hp⟩ := hc.past _ (hreach i hi)
    rw [hr.isFirst hg hi hf] at hp
    rw [hp, hr.nodes.value i hi, hr.nodes.past _ (lt_of_lt_of_le (hg.org_lt i hi) hg.rootsLe)]
    rfl
  · intro i hi
    show (h'.get (φ (loc i))).expands = _
    rw [hc.expands _ (hreach i hi)]; exact hr.nodes.expands i hi
  · intro i hi
    show (h'.get (φ (loc i))).children.Perm _
    rw [hc.children _ (hreach i hi)]
    refine (List.reverse_perm _).trans ?_
    have := (hr.nodes.kids i hi).map φ
    rwa [List.map_map] at this
  · intro i hi
    replace hi : i < g.n := hi
    show (h'.get (φ (loc i))).parents.Perm ((g.node i).pars.map (φ ∘ loc))
    rw [List.perm_iff_count]
    intro x
    obtain ⟨hc1, hc2⟩ := hc.parents _ (hreach i hi)
    by_cases hx : ∃ j, j < g.n ∧ x = φ (loc j)
    · obtain ⟨j, hj, rfl⟩ := hx
      rw [hc1 _ (hreach j hj), (hr.nodes.kids j hj).count_eq,
        count_map_inj (f := loc) (b := i) _ (fun a ha e => hr.nodes.loc_inj (hg.kidLt j a hj ha).2 hi e),
        hg.cons j i hj hi]
      symm
      exact count_map_inj (f := φ ∘ loc) (b := j) _ (fun a ha e => hinj a j (by have := hg.parLt i a hi ha; omega) hj e)
    · rw [List.count_eq_zero_of_not_mem, List.count_eq_zero_of_not_mem]
      · intro hm
        obtain ⟨j, hj, rfl⟩ := List.mem_map.1 hm
        exact hx ⟨j, by have := hg.parLt i j hi hj; omega, rfl⟩
      · intro hm
        obtain ⟨e, he, rfl⟩ := hc2 x hm
        obtain ⟨j, hj, rfl⟩ := (hr.reach_iff hg e).1 he
        exact hx ⟨j, hj, rfl⟩

/-- `Tree.add` after a move on the copied tree. -/
theorem Rep.add {h : Heap Int} {t : TreeObj Int} {g : Net} {loc : Nat → Addr} (hr : Rep h t g loc) (hg : g.WF)
    {h1 h2 : Heap Int} {φ : Addr → Addr} (he : Heap.Ext h h1) (hfresh : ∀ i, i < g.n → h.next ≤ φ (loc i))
    (hn : RepN h1 g.copied (φ ∘ loc)) {old : List Nat} {vs : List Int} {tagOld tagNew : List (Expand Int)} {lvl cost : Int}
    (hc : g.CanGrow old vs) (hw : Grown h1 (old.map (φ ∘ loc)) vs tagOld tagNew lvl h2) :
    ∃ h3 t3 loc', (copyTree t φ).add h2 (List.range' h1.next vs.length) cost = .ok (h3, t3) ∧ Heap.Ext h h3 ∧
      (∀ i, i < g.n + vs.length → h.next ≤ loc' i ∧ ∀ lo, lo ≤ h1.nextUid → (∀ i, i < g.n → lo ≤ (h1.get (φ (loc i))).id) →
        lo ≤ (h3.get (loc' i)).id) ∧ Rep h3 t3 (g.grow old vs tagOld tagNew cost) loc' := by
  obtain ⟨L, hL⟩ : ∃ L : Nat → Addr, L = fun i => if i < g.n then φ (loc i) else h1.next + (i - g.n) := ⟨_, rfl⟩
  have hLo : ∀ i, i < g.n → L i = φ (loc i) := fun i hi => by rw [hL]; simp [hi]
  have hLn : ∀ i, g.n ≤ i → L i = h1.next + (i - g.n) := fun i hi => by rw [hL]; simp [Nat.not_lt.2 hi]
  have holt : ∀ a ∈ old, a < g.n := fun a ha => ((hg.memSrcs a).1 (hc.mem a ha)).1
  have hlt1 : ∀ i, i < g.n → φ (loc i) < h1.next := fun i hi => hn.lt i hi
  have hinj : ∀ i j, i < g.n → j < g.n → φ (loc i) = φ (loc j) → i = j := fun i j hi hj e => hn.loc_inj hi hj e
  have hmapold : old.map (φ ∘ loc) = old.map L := List.map_congr_left fun a ha => (hLo a (holt a ha)).symm
  rw [hmapold] at hw
  have hmemold : ∀ i, i < g.n → (φ (loc i) ∈ old.map L ↔ i ∈ old) := by
    intro i hi
    constructor
    · intro hm
      obtain ⟨j, hj, e⟩ := List.mem_map.1 hm
      rw [hLo j (holt j hj)] at e
      rw [← hinj j i (holt j hj) hi e]; exact hj
    · intro hm; rw [← hLo i hi]; exact List.mem_map_of_mem hm
  have hlenpos := List.length_pos_of_ne_nil hc.vsNe
  have hrange : List.range' h1.next vs.length = (List.range' g.n vs.length).map L := by
    rw [List.range'_eq_map_range, List.range'_eq_map_range, List.map_map]
    apply List.map_congr_left
    intro i _
    show h1.next + i = L (g.n + i)
    rw [hLn _ (by omega)]; omega
  -- attributes in `h2`
  have hval2 : ∀ i, i < g.n + vs.length → (h2.get (L i)).value = g.newVal vs i := by
    intro i hi
    by_cases h : i < g.n
    · rw [hLo i h, Net.newVal_old h]
      by_cases ho : i ∈ old
      · rw [hw.used _ ((hmemold i h).2 ho)]; exact hn.value i h
      · rw [hw.frame _ (hlt1 i h) (fun hm => ho ((hmemold i h).1 hm))]; exact hn.value i h
    · rw [hLn i (by omega), hw.made (i - g.n) (by omega)]
      unfold Net.newVal
      rw [if_neg h, List.getD_eq_getElem?_getD, List.getElem?_eq_getElem (by omega), Option.getD_some]
  have hid2 : ∀ i, i < g.n → (h2.get (L i)).id = (h1.get (φ (loc i))).id := by
    intro i h
    rw [hLo i h]
    by_cases ho : i ∈ old
    · rw [hw.used _ ((hmemold i h).2 ho)]
    · rw [hw.frame _ (hlt1 i h) (fun hm => ho ((hmemold i h).1 hm))]
  have hid2n : ∀ i, g.n ≤ i → i < g.n + vs.length → (h2.get (L i)).id = h1.nextUid + (i - g.n) := by
    intro i h h'
    rw [hLn i h, hw.made (i - g.n) (by omega)]
  have hLlt : ∀ i, i < g.n + vs.length → L i < h2.next := by
    intro i hi
    rw [hw.next]
    by_cases h : i < g.n
    · rw [hLo i h]; have := hlt1 i h; omega
    · rw [hLn i (by omega)]; omega
  have hLinj : ∀ i j, i < g.n + vs.length → j < g.n + vs.length → L i = L j → i = j := by
    intro i j hi hj e
    by_cases h : i < g.n <;> by_cases h' : j < g.n
    · rw [hLo i h, hLo j h'] at e; exact hinj i j h h' e
    · rw [hLo i h, hLn j (by omega)] at e; have := hlt1 i h; omega
    · rw [hLn i (by omega), hLo j h'] at e; have := hlt1 j h'; omega
    · rw [hLn i (by omega), hLn j (by omega)] at e; omega
  -- the sources
  have hlast : (copyTree t φ).levels.getLast? = some (g.srcs.map L) := by
    show (t.levels.map (List.map φ)).getLast? = _
    rw [hr.levels, List.map_map, List.getLast?_map, hg.last]
    simp only [Option.map_some, Function.comp_apply, List.map_map]
    congr 1
    apply List.map_congr_left
    intro i hi
    exact (hLo i ((hg.memSrcs i).1 hi).1).symm
  have hpar0 : (h2.get h1.next).parents = old.map L := by
    have := hw.made 0 hlenpos
    rw [Nat.add_zero] at this
    rw [this]
  have hkept : (g.srcs.map L).filter (fun s => !h2.mem s (h2.get h1.next).parents) =
      (g.srcs.filter fun i => decide (i ∉ old)).map L := by
    rw [List.filter_map]
    congr 1
    apply List.filter_congr
    intro i hi
    have hi' := ((hg.memSrcs i).1 hi).1
    rw [hpar0]
    simp only [Function.comp_apply, Heap.mem, Heap.same]
    rw [Bool.eq_iff_iff]
    simp only [Bool.not_eq_true', List.any_eq_false, decide_eq_true_eq, List.mem_map, forall_exists_index, and_imp,
      forall_apply_eq_imp_iff₂]
    constructor
    · intro hall hm; exact hall i hm rfl
    · intro hni a ha e
      rw [hid2 a (holt a ha), hid2 i hi'] at e
      have : a = i := hn.inj a i (holt a ha) hi' e
      exact hni (this ▸ ha)
  have hsrc : insortAll (fun a => (h2.get a).value) ((g.srcs.map L).filter (fun s => !h2.mem s (h2.get h1.next).parents))
      (List.range' h1.next vs.length) = (g.newSrcs old vs).map L := by
    rw [hkept, hrange, insortAll_map]
    congr 1
    apply insortAll_congr
    intro y hy
    apply hval2
    rcases hy with hy | hy
    · rw [List.mem_range'_1] at hy; omega
    · have := ((hg.memSrcs y).1 (List.mem_filter.1 hy).1).1; omega
  have hnewlt : ∀ i ∈ g.newSrcs old vs, i < g.n + vs.length := by
    intro i hi
    rw [Net.mem_newSrcs] at hi
    rcases hi with hi | hi
    · have := ((hg.memSrcs i).1 hi.1).1; omega
    · omega
  have hmemnew : ∀ i, i < g.n + vs.length → (L i ∈ (g.newSrcs old vs).map L ↔ i ∈ g.newSrcs old vs) := by
    intro i hi
    constructor
    · intro hm
      obtain ⟨j, hj, e⟩ := List.mem_map.1 hm
      rw [← hLinj j i (hnewlt j hj) hi e]; exact hj
    · exact List.mem_map_of_mem
  obtain ⟨h3, h3eq⟩ : ∃ h3, h3 = setLevels h2 ((g.newSrcs old vs).map L) (g.cur + 1) := ⟨_, rfl⟩
  have hget3 : ∀ i, i < g.n + vs.length → h3.get (L i) =
      if i ∈ g.newSrcs old vs then { h2.get (L i) with level := some (g.cur + 1) } else h2.get (L i) := by
    intro i hi
    rw [h3eq, setLevels_get]
    by_cases hm : i ∈ g.newSrcs old vs
    · rw [if_pos ((hmemnew i hi).2 hm), if_pos hm]
    · rw [if_neg (fun h => hm ((hmemnew i hi).1 h)), if_neg hm]
  have hn3 : h3.next = h2.next := by rw [h3eq]; exact setLevels_next _ _ _
  have hu3 : h3.nextUid = h2.nextUid := by rw [h3eq]; exact setLevels_nextUid _ _ _
  have hLfresh : ∀ i, i < g.n + vs.length → h.next ≤ L i := by
    intro i hi
    by_cases h' : i < g.n
    · rw [hLo i h']; exact hfresh i h'
    · rw [hLn i (by omega)]; have := he.next; omega
  have hLid : ∀ i, i < g.n + vs.length → ∀ lo, lo ≤ h1.nextUid → (∀ i, i < g.n → lo ≤ (h1.get (φ (loc i))).id) →
      lo ≤ (h3.get (L i)).id := by
    intro i hi lo l1 l2
    have e : (h3.get (L i)).id = (h2.get (L i)).id := by
      rw [hget3 i hi]; split <;> rfl
    rw [e]
    by_cases h' : i < g.n
    · rw [hid2 i h']; exact l2 i h'
    · rw [hid2n i (by omega) hi]; omega
  have hvals3 : valuesOf h3 ((g.newSrcs old vs).map L) = (g.grow old vs tagOld tagNew cost).vals := by
    unfold valuesOf Net.vals
    rw [List.map_map]
    apply List.map_congr_left
    intro i hi
    show (h3.get (L i)).value = _
    rw [hget3 i (hnewlt i hi), if_pos hi, Net.grow_value]
    exact hval2 i (hnewlt i hi)
  refine ⟨h3, { copyTree t φ with
      sources := (g.newSrcs old vs).map L
      nSources := ((g.newSrcs old vs).map L).length
      currentLevel := g.cur + 1
      levels := (copyTree t φ).levels ++ [(g.newSrcs old vs).map L]
      size := t.size + cost
      past := (copyTree t φ).past.append t.sourceValues
      sourceValues := valuesOf h3 ((g.newSrcs old vs).map L) }, L, ?_, ?_, fun i hi => ⟨hLfresh i hi, hLid i hi⟩, ?_⟩
  · unfold TreeObj.add
    have hcons : List.range' h1.next vs.length = h1.next :: List.range' (h1.next + 1) (vs.length - 1) := by
      conv_lhs => rw [show vs.length = (vs.length - 1) + 1 by omega]
      rw [List.range'_succ]
    rw [hcons]
    simp only
    rw [hlast, ← hcons]
    simp only
    rw [hsrc]
    have hcur : (copyTree t φ).currentLevel = g.cur := hr.cur
    rw [hcur, ← h3eq]
    rfl
  · constructor
    · intro a ha
      have hnotnew : a ∉ (g.newSrcs old vs).map L := by
        intro hm
        obtain ⟨i, hi, rfl⟩ := List.mem_map.1 hm
        have := hLfresh i (hnewlt i hi); omega
      have hnotold : a ∉ old.map L := by
        intro hm
        obtain ⟨i, hi, rfl⟩ := List.mem_map.1 hm
        have := hLfresh i (by have := holt i hi; omega); omega
      rw [h3eq, setLevels_get, if_neg hnotnew, hw.frame a (lt_of_lt_of_le ha he.next) hnotold, he.get a ha]
    · rw [hn3, hw.next]; have := he.next; omega
    · rw [hu3, hw.nextUid]; have := he.nextUid; omega
  · constructor
    · constructor
      · intro i hi; rw [hn3]; exact hLlt i hi
      · intro i hi
        have hid3 : (h3.get (L i)).id = (h2.get (L i)).id := by rw [hget3 i hi]; split <;> rfl
        rw [hid3, hu3, hw.nextUid]
        by_cases h' : i < g.n
        · rw [hid2 i h']; have := hn.uid i h'; simp only [Function.comp_apply] at this; omega
        · have hi' : i < g.n + vs.length := hi
          rw [hid2n i (by omega) hi]; omega
      · intro i j hi hj e
        have hid3 : ∀ k, k < g.n + vs.length → (h3.get (L k)).id = (h2.get (L k)).id := by
          intro k hk; rw [hget3 k hk]; split <;> rfl
        rw [hid3 i hi, hid3 j hj] at e
        by_cases h' : i < g.n <;> by_cases h'' : j < g.n
        · rw [hid2 i h', hid2 j h''] at e; exact hn.inj i j h' h'' e
        · rw [hid2 i h', hid2n j (by omega) hj] at e
          have := hn.uid i h'; simp only [Function.comp_apply] at this; omega
        · rw [hid2 j h'', hid2n i (by omega) hi] at e
          have := hn.uid j h''; simp only [Function.comp_apply] at this; omega
        · rw [hid2n i (by omega) hi, hid2n j (by omega) hj] at e; omega
      · intro i hi
        rw [Net.grow_value, ← hval2 i hi, hget3 i hi]; split <;> rfl
      · intro i hi
        have hi' : i < g.n + vs.length := hi
        rw [hget3 i hi]
        by_cases h' : i < g.n
        · rw [Net.grow_level_old h']
          by_cases hm : i ∈ g.newSrcs old vs
          · rw [if_pos hm, if_pos hm]
          · rw [if_neg hm, if_neg hm, hLo i h']
            have hl1 := hn.level i h'
            simp only [Function.comp_apply] at hl1
            by_cases ho : i ∈ old
            · rw [hw.used _ ((hmemold i h').2 ho)]; exact hl1
            · rw [hw.frame _ (hlt1 i h') (fun hm => ho ((hmemold i h').1 hm))]; exact hl1
        · rw [Net.grow_level_new (by omega), if_pos]
          rw [Net.mem_newSrcs]; right; omega
      · intro i hi
        have hi' : i < g.n + vs.length := hi
        have hp3 : (h3.get (L i)).past = (h2.get (L i)).past := by rw [hget3 i hi]; split <;> rfl
        rw [hp3]
        by_cases h' : i < g.n
        · have hg1 : ((g.grow old vs tagOld tagNew cost).node i).past = g.copyPast i := by
            unfold Net.grow; dsimp only; rw [if_pos h']
          rw [hg1, hLo i h']
          have hl1 := hn.past i h'
          simp only [Function.comp_apply] at hl1
          by_cases ho : i ∈ old
          · rw [hw.used _ ((hmemold i h').2 ho)]; exact hl1
          · rw [hw.frame _ (hlt1 i h') (fun hm => ho ((hmemold i h').1 hm))]; exact hl1
        · have hg1 : ((g.grow old vs tagOld tagNew cost).node i).past =
              old.foldl (fun p a => p.extend (g.copyPast a).items) (FastList.new [vs.getD (i - g.n) 0]) := by
            unfold Net.grow; dsimp only; rw [if_neg h']
          rw [hg1, hLn i (by omega), hw.made (i - g.n) (by omega)]
          simp only
          rw [List.getD_eq_getElem?_getD, List.getElem?_eq_getElem (by omega), Option.getD_some, List.foldl_map]
          apply List.foldl_ext
          intro p a ha
          have hl1 := hn.past a (holt a ha)
          simp only [Function.comp_apply] at hl1
          rw [hLo a (holt a ha), hl1]
          rfl
      · intro i hi
        have hi' : i < g.n + vs.length := hi
        have hp3 : (h3.get (L i)).expands = (h2.get (L i)).expands := by rw [hget3 i hi]; split <;> rfl
        rw [hp3]
        by_cases h' : i < g.n
        · have hg1 : ((g.grow old vs tagOld tagNew cost).node i).expands =
              if i ∈ old then (g.node i).expands ++ tagOld else (g.node i).expands := by
            unfold Net.grow; dsimp only; rw [if_pos h']
          rw [hg1, hLo i h']
          have hl1 := hn.expands i h'
          simp only [Function.comp_apply] at hl1
          by_cases ho : i ∈ old
          · rw [hw.used _ ((hmemold i h').2 ho), if_pos ho]; simp only; rw [hl1]; rfl
          · rw [hw.frame _ (hlt1 i h') (fun hm => ho ((hmemold i h').1 hm)), if_neg ho]; exact hl1
        · have hg1 : ((g.grow old vs tagOld tagNew cost).node i).expands = tagNew := by
            unfold Net.grow; dsimp only; rw [if_neg h']
          rw [hg1, hLn i (by omega), hw.made (i - g.n) (by omega)]
      · intro i hi
        have hi' : i < g.n + vs.length := hi
        have hp3 : (h3.get (L i)).children = (h2.get (L i)).children := by rw [hget3 i hi]; split <;> rfl
        rw [hp3]
        by_cases h' : i < g.n
        · rw [Net.grow_kids_old h', hLo i h']
          have hl1 := hn.kids i h'
          simp only [Function.comp_apply] at hl1
          have hk : ((g.copied.node i).kids.map (φ ∘ loc)) = (g.node i).kids.map L :=
            List.map_congr_left fun k hk => (hLo k (hg.kidLt i k h' hk).2).symm
          by_cases ho : i ∈ old
          · rw [hw.used _ ((hmemold i h').2 ho), if_pos ho, List.map_append, ← hrange, ← hk]
            exact hl1.append_right _
          · rw [hw.frame _ (hlt1 i h') (fun hm => ho ((hmemold i h').1 hm)), if_neg ho, ← hk]; exact hl1
        · rw [Net.grow_kids_new (by omega), hLn i (by omega), hw.made (i - g.n) (by omega)]
          simp
      · intro i hi
        have hi' : i < g.n + vs.length := hi
        have hp3 : (h3.get (L i)).parents = (h2.get (L i)).parents := by rw [hget3 i hi]; split <;> rfl
        rw [hp3]
        by_cases h' : i < g.n
        · rw [Net.grow_pars_old h', hLo i h']
          have hl1 := hn.pars i h'
          simp only [Function.comp_apply] at hl1
          have hk : ((g.copied.node i).pars.map (φ ∘ loc)) = (g.node i).pars.map L :=
            List.map_congr_left fun k hk => (hLo k (by have := hg.parLt i k h' hk; omega)).symm
          rw [← hk]
          by_cases ho : i ∈ old
          · rw [hw.used _ ((hmemold i h').2 ho)]; exact hl1
          · rw [hw.frame _ (hlt1 i h') (fun hm => ho ((hmemold i h').1 hm))]; exact hl1
        · rw [Net.grow_pars_new (by omega), hLn i (by omega), hw.made (i - g.n) (by omega)]
    · show t.roots.map φ = _
      rw [hr.roots, List.map_map]
      apply List.map_congr_left
      intro i hi
      exact (hLo i (lt_of_lt_of_le (List.mem_range.1 hi) hg.rootsLe)).symm
    · rfl
    · show t.levels.map (List.map φ) ++ _ = (g.levels ++ [g.newSrcs old vs]).map (List.map L)
      rw [hr.levels, List.map_append, List.map_map]
      congr 1
      apply List.map_congr_left
      intro l hl
      simp only [Function.comp_apply, List.map_map]
      apply List.map_congr_left
      intro i hi
      exact (hLo i (hg.levelsLt l hl i hi)).symm
    · show (((FastList.empty : FastList (List Int)).extend t.past.items).append t.sourceValues) = _
      rw [hr.past, hr.vals]; rfl
    · rfl
    · show t.size + cost = g.size + cost
      rw [hr.size]
    · exact hvals3
    · simp [Net.grow]

/-- Moves that can be carried out. -/
def Adm (cfg : Config) (g : Net) : Op → Prop
  | .extract i c => i < g.srcs.length ∧ 0 < c ∧ 2 * c < (g.node (g.src i)).value
  | .divide i d => i < g.srcs.length ∧ 2 ≤ d ∧ (d : Int) ∣ (g.node (g.src i)).value
  | .split i c => i < g.srcs.length ∧ isSpeed cfg c = true ∧ 0 < c / 3 ∧ c / 3 * 2 < (g.node (g.src i)).value
  | .merge idx => idx.Sublist (List.range g.srcs.length) ∧ 2 ≤ idx.length

theorem Net.src_mem {g : Net} {i : Nat} (hi : i < g.srcs.length) : g.src i ∈ g.srcs := by
  unfold Net.src
  rw [List.getD_eq_getElem?_getD, List.getElem?_eq_getElem hi, Option.getD_some]
  exact List.getElem_mem _

theorem Net.src_get {g : Net} {i : Nat} (hi : i < g.srcs.length) : g.srcs[i]? = some (g.src i) := by
  unfold Net.src
  rw [List.getD_eq_getElem?_getD, List.getElem?_eq_getElem hi, Option.getD_some]

theorem Net.src_inj {g : Net} (hg : g.WF) {i j : Nat} (hi : i < g.srcs.length) (hj : j < g.srcs.length)
    (e : g.src i = g.src j) : i = j := by
  have h1 := Net.src_get hi
  have h2 := Net.src_get hj
  rw [e, ← h2] at h1
  exact (List.getElem?_inj hi hg.srcsNodup).1 h1

theorem canGrow_one {g : Net} {i : Nat} (hi : i < g.srcs.length) {vs : List Int} (hl : 2 ≤ vs.length)
    (hp : ∀ v ∈ vs, 0 < v) (hs : vs.sum = (g.node (g.src i)).value) : g.CanGrow [g.src i] vs where
  mem := by intro a ha; simp at ha; subst ha; exact Net.src_mem hi
  nodup := by simp
  shape := Or.inl rfl
  size := by simp; omega
  oldNe := by simp
  vsNe := by rintro rfl; simp at hl
  pos := hp
  sum := by simp [hs]

theorem canGrow_extract {cfg : Config} {g : Net} (hg : g.WF) {i : Nat} {c : Int} (ha : Adm cfg g (.extract i c)) :
    g.CanGrow [g.src i] ([c, (g.node (g.src i)).value - c].insertionSort (· ≤ ·)) := by
  obtain ⟨h1, h2, h3⟩ := ha
  have hp := List.perm_insertionSort (· ≤ ·) [c, (g.node (g.src i)).value - c]
  refine canGrow_one h1 (by rw [hp.length_eq]; simp) ?_ (by rw [hp.sum_eq]; simp)
  intro v hv
  rw [hp.mem_iff] at hv
  simp at hv; omega

theorem canGrow_divide {cfg : Config} {g : Net} (hg : g.WF) {i d : Nat} (ha : Adm cfg g (.divide i d)) :
    g.CanGrow [g.src i] (List.replicate d ((g.node (g.src i)).value / (d : Int))) := by
  obtain ⟨h1, h2, ⟨k, hk⟩⟩ := ha
  have hd : (d : Int) ≠ 0 := by omega
  have hpos := hg.pos _ ((hg.memSrcs _).1 (Net.src_mem h1)).1
  rw [hk, Int.mul_ediv_cancel_left _ hd]
  refine canGrow_one h1 (by simpa using h2) ?_ (by simp [hk])
  intro v hv
  rw [List.eq_of_mem_replicate hv]
  rw [hk] at hpos
  exact (mul_pos_iff_of_pos_left (by omega : (0 : Int) < d)).1 hpos

theorem canGrow_split {cfg : Config} {g : Net} (hg : g.WF) {i : Nat} {c : Int} (ha : Adm cfg g (.split i c)) :
    g.CanGrow [g.src i] ([c / 3, c / 3, (g.node (g.src i)).value - c / 3 * 2].insertionSort (· ≤ ·)) := by
  obtain ⟨h1, _, h2, h3⟩ := ha
  have hp := List.perm_insertionSort (· ≤ ·) [c / 3, c / 3, (g.node (g.src i)).value - c / 3 * 2]
  refine canGrow_one h1 (by rw [hp.length_eq]; simp) ?_ (by rw [hp.sum_eq]; simp; omega)
  intro v hv
  rw [hp.mem_iff] at hv
  simp at hv; omega

theorem sublist_range_lt {n : Nat} {idx : List Nat} (h : idx.Sublist (List.range n)) : ∀ i ∈ idx, i < n :=
  fun _ hi => List.mem_range.1 (h.subset hi)

theorem canGrow_merge {cfg : Config} {g : Net} (hg : g.WF) {idx : List Nat} (ha : Adm cfg g (.merge idx)) :
    g.CanGrow (idx.map g.src) [(idx.map fun i => (g.node (g.src i)).value).sum] := by
  obtain ⟨h1, h2⟩ := ha
  have hlt := sublist_range_lt h1
  have hpos : ∀ i ∈ idx, 0 < (g.node (g.src i)).value := fun i hi => hg.pos _ ((hg.memSrcs _).1 (Net.src_mem (hlt i hi))).1
  have hne : idx ≠ [] := by rintro rfl; simp at h2
  constructor
  · intro a ha
    obtain ⟨i, hi, rfl⟩ := List.mem_map.1 ha
    exact Net.src_mem (hlt i hi)
  · refine List.Nodup.map_on ?_ (h1.nodup List.nodup_range)
    intro x hx y hy e
    exact Net.src_inj hg (hlt x hx) (hlt y hy) e
  · right; rfl
  · simp; omega
  · simpa using hne
  · simp
  · intro v hv
    simp at hv; subst hv
    cases idx with
    | nil => exact absurd rfl hne
    | cons i is =>
      rw [List.map_cons, List.sum_cons]
      have h3 := hpos i (by simp)
      have h4 : 0 ≤ (is.map fun i => (g.node (g.src i)).value).sum := by
        apply List.sum_nonneg
        intro x hx
        obtain ⟨j, hj, rfl⟩ := List.mem_map.1 hx
        exact le_of_lt (hpos j (by simp [hj]))
      omega
  · simp [List.map_map, Function.comp_def]

theorem pick_map {α β : Type} {f : α → β} : ∀ (idx : List Nat) (l : List α) (r : List α), pick l idx = .ok r →
    pick (l.map f) idx = .ok (r.map f) := by
  intro idx
  induction idx with
  | nil => intro l r e; simp [pick] at e; subst e; rfl
  | cons i is ih =>
    intro l r e
    unfold pick at e ⊢
    rw [List.getElem?_map]
    cases hx : l[i]? with
    | none => rw [hx] at e; simp at e
    | some x =>
      rw [hx] at e
      simp only [Option.map_some] at e ⊢
      cases hp : pick l is with
      | error er => rw [hp] at e; simp at e
      | ok xs =>
        rw [hp] at e
        rw [ih l xs hp]
        simp at e; subst e; rfl

theorem pick_srcs {g : Net} : ∀ (idx : List Nat), (∀ i ∈ idx, i < g.srcs.length) → pick g.srcs idx = .ok (idx.map g.src) := by
  intro idx
  induction idx with
  | nil => intro _; rfl
  | cons i is ih =>
    intro hlt
    unfold pick
    rw [Net.src_get (hlt i (by simp)), ih (fun j hj => hlt j (by simp [hj]))]
    rfl

/-- Copying, moving and adding give a tree that looks like `Net.child`; no object of the old heap changes. -/
theorem makeChild_rep {cfg : Config} {h : Heap Int} {t : TreeObj Int} {g : Net} {loc : Nat → Addr} (hr : Rep h t g loc)
    (hg : g.WF) {op : Op} (cost : Int) (ha : Adm cfg g op) :
    ∃ h' t' loc', makeChild cfg h t op cost = .ok (h', t') ∧ Heap.Ext h h' ∧
      (∀ i, i < (g.child cfg op cost).n → h.next ≤ loc' i ∧ ∀ lo, lo ≤ h.nextUid → (∀ i, i < g.n → lo ≤ (h.get (loc i)).id) →
        lo ≤ (h'.get (loc' i)).id) ∧ Rep h' t' (g.child cfg op cost) loc' := by
  obtain ⟨h1, φ, e1, hext, hu, hfresh, hids, hn⟩ := hr.copy hg
  have hsrc1 : (copyTree t φ).sources = g.srcs.map (φ ∘ loc) := by
    show t.sources.map φ = _
    rw [hr.sources, List.map_map]
  have hget : ∀ i, i < g.srcs.length → (copyTree t φ).sources[i]? = some (φ (loc (g.src i))) := by
    intro i hi; rw [hsrc1, List.getElem?_map, Net.src_get hi]; rfl
  have hval : ∀ i, i < g.srcs.length → (h1.get (φ (loc (g.src i)))).value = (g.node (g.src i)).value := by
    intro i hi; exact hn.value _ ((hg.memSrcs _).1 (Net.src_mem hi)).1
  have hsn : ∀ i, i < g.srcs.length → g.src i < g.n := fun i hi => ((hg.memSrcs _).1 (Net.src_mem hi)).1
  unfold makeChild
  rw [e1]
  simp only
  cases op with
  | extract i c =>
    obtain ⟨b1, b2, b3⟩ := ha
    obtain ⟨h2, e2, hw⟩ := extract_grown cfg h1 (φ (loc (g.src i))) c _ (hn.lt _ (hsn i b1)) (hn.level _ (hsn i b1)) (by omega)
      (by rw [hval i b1]; omega)
    rw [hval i b1] at hw
    have hc := canGrow_extract (cfg := cfg) hg (i := i) (c := c) ⟨b1, b2, b3⟩
    obtain ⟨h3, t3, loc', e3, x1, x2, x3⟩ := hr.add hg hext hfresh hn (cost := cost) hc hw
    refine ⟨h3, t3, loc', ?_, x1, fun i hi => ⟨(x2 i hi).1, fun lo l1 l2 =>
      (x2 i hi).2 lo (by rw [hu]; exact l1) (fun j hj => by rw [hids j hj]; exact l2 j hj)⟩, x3⟩
    unfold applyOp
    simp only [hget i b1, e2]
    rw [← e3, List.length_insertionSort]; rfl
  | divide i d =>
    obtain ⟨b1, b2, b3⟩ := ha
    obtain ⟨h2, e2, hw⟩ := divide_grown h1 (φ (loc (g.src i))) d _ (hn.lt _ (hsn i b1)) (hn.level _ (hsn i b1)) (by omega)
      (by rw [hval i b1]; exact le_of_lt (hg.pos _ (hsn i b1)))
    rw [hval i b1] at hw
    have hc := canGrow_divide (cfg := cfg) hg (i := i) (d := d) ⟨b1, b2, b3⟩
    obtain ⟨h3, t3, loc', e3, x1, x2, x3⟩ := hr.add hg hext hfresh hn (cost := cost) hc hw
    refine ⟨h3, t3, loc', ?_, x1, fun i hi => ⟨(x2 i hi).1, fun lo l1 l2 =>
      (x2 i hi).2 lo (by rw [hu]; exact l1) (fun j hj => by rw [hids j hj]; exact l2 j hj)⟩, x3⟩
    unfold applyOp
    simp only [hget i b1, e2]
    rw [← e3, List.length_replicate]
  | split i c =>
    obtain ⟨b1, b2, b3, b4⟩ := ha
    obtain ⟨h2, e2, hw⟩ := split_grown cfg h1 (φ (loc (g.src i))) c _ (hn.lt _ (hsn i b1)) (hn.level _ (hsn i b1)) b2
      (by rw [hval i b1]; omega) (by omega)
    rw [hval i b1] at hw
    have hc := canGrow_split (cfg := cfg) hg (i := i) (c := c) ⟨b1, b2, b3, b4⟩
    obtain ⟨h3, t3, loc', e3, x1, x2, x3⟩ := hr.add hg hext hfresh hn (cost := cost) hc hw
    refine ⟨h3, t3, loc', ?_, x1, fun i hi => ⟨(x2 i hi).1, fun lo l1 l2 =>
      (x2 i hi).2 lo (by rw [hu]; exact l1) (fun j hj => by rw [hids j hj]; exact l2 j hj)⟩, x3⟩
    unfold applyOp
    simp only [hget i b1, e2]
    rw [← e3, List.length_insertionSort]; rfl
  | merge idx =>
    have hc := canGrow_merge (cfg := cfg) hg ha
    obtain ⟨b1, b2⟩ := ha
    have hlt := sublist_range_lt b1
    have hpick : pick (copyTree t φ).sources idx = .ok ((idx.map g.src).map (φ ∘ loc)) := by
      rw [hsrc1]; exact pick_map idx g.srcs _ (pick_srcs idx hlt)
    have hmem : ∀ a ∈ (idx.map g.src).map (φ ∘ loc), ∃ i ∈ idx, a = φ (loc (g.src i)) := by
      intro a ha
      obtain ⟨x, hx, rfl⟩ := List.mem_map.1 ha
      obtain ⟨i, hi, rfl⟩ := List.mem_map.1 hx
      exact ⟨i, hi, rfl⟩
    obtain ⟨h2, l, e2, _, hw⟩ := merge_grown (fun v k => v / (k : Int)) h1 ((idx.map g.src).map (φ ∘ loc))
      (by intro a ha
          obtain ⟨i, hi, rfl⟩ := hmem a ha
          exact hn.lt _ (hsn i (hlt i hi)))
      (by refine List.Nodup.map_on ?_ hc.nodup
          intro x hx y hy e
          have hx' := ((hg.memSrcs _).1 (hc.mem x hx)).1
          have hy' := ((hg.memSrcs _).1 (hc.mem y hy)).1
          exact hn.loc_inj hx' hy' e)
      (by simpa using b2)
      (by intro a ha
          obtain ⟨i, hi, rfl⟩ := hmem a ha
          have := hn.level _ (hsn i (hlt i hi))
          simp only [Function.comp_apply] at this
          rw [this]; rfl)
      (by intro a ha
          obtain ⟨i, hi, rfl⟩ := hmem a ha
          have := hn.kids _ (hsn i (hlt i hi))
          have hk : (g.copied.node (g.src i)).kids = [] := ((hg.memSrcs _).1 (Net.src_mem (hlt i hi))).2
          rw [hk] at this
          simpa using this)
      (by intro a ha
          obtain ⟨i, hi, rfl⟩ := hmem a ha
          rw [hval i (hlt i hi)]
          exact le_of_lt (hg.pos _ (hsn i (hlt i hi))))
    have hsum : (((idx.map g.src).map (φ ∘ loc)).map fun a => (h1.get a).value) = idx.map fun i => (g.node (g.src i)).value := by
      rw [List.map_map, List.map_map]
      apply List.map_congr_left
      intro i hi
      exact hval i (hlt i hi)
    rw [hsum] at hw
    have hlen : ((idx.map g.src).map (φ ∘ loc)).length = idx.length := by simp
    rw [hlen] at hw
    obtain ⟨h3, t3, loc', e3, x1, x2, x3⟩ := hr.add hg hext hfresh hn (cost := cost) hc hw
    refine ⟨h3, t3, loc', ?_, x1, fun i hi => ⟨(x2 i hi).1, fun lo l1 l2 =>
      (x2 i hi).2 lo (by rw [hu]; exact l1) (fun j hj => by rw [hids j hj]; exact l2 j hj)⟩, x3⟩
    unfold applyOp
    simp only [hpick, e2]
    rw [← e3]; rfl

end Satis.Solver
