import Verif.Solver.Rep
import Verif.Solver.Spec
import Verif.Cost.Costs
import Mathlib.Algebra.Order.BigOperators.Group.List
/-!
# Permitted moves on nets
-/

namespace Satis.Solver
open Satis Satis.Graph Satis.Cost

/-- The past of a source of a net. -/
def Net.pastOf (g : Net) (i : Nat) (v : Int) : Prop := i < g.srcs.length ∧ (g.node (g.src i)).past.contains v = true

theorem Net.vals_get {g : Net} {i : Nat} (hi : i < g.srcs.length) : g.vals[i]? = some (g.node (g.src i)).value := by
  unfold Net.vals
  rw [List.getElem?_map, Net.src_get hi]; rfl

theorem Net.vals_length (g : Net) : g.vals.length = g.srcs.length := by unfold Net.vals; simp

theorem Net.lt_of_vals {g : Net} {i : Nat} {v : Int} (h : g.vals[i]? = some v) :
    i < g.srcs.length ∧ (g.node (g.src i)).value = v := by
  have hi : i < g.srcs.length := by
    rw [← g.vals_length]
    by_contra hge
    rw [List.getElem?_eq_none (by omega)] at h
    simp at h
  rw [Net.vals_get hi] at h
  exact ⟨hi, Option.some.inj h⟩

theorem Net.vals_sorted {g : Net} (hg : g.WF) : g.vals.Pairwise (· ≤ ·) := by
  unfold Net.vals; rw [List.pairwise_map]; exact hg.sorted

theorem Net.vals_pos {g : Net} (hg : g.WF) : ∀ v ∈ g.vals, 0 < v := by
  intro v hv
  obtain ⟨i, hi, rfl⟩ := List.mem_map.1 hv
  exact hg.pos i ((hg.memSrcs i).1 hi).1

theorem Net.vals_ne {g : Net} (hg : g.WF) : g.vals ≠ [] := by
  intro h
  have h1 := hg.total
  rw [h] at h1
  have h2 : 0 < ((List.range g.nRoots).map fun i => (g.node i).value).sum := by
    obtain ⟨k, hk⟩ : ∃ k, g.nRoots = k + 1 := ⟨g.nRoots - 1, by have := hg.rootsPos; omega⟩
    rw [hk, List.range_succ_eq_map, List.map_cons, List.sum_cons]
    have h3 := hg.pos 0 (by have := hg.rootsPos; have := hg.rootsLe; omega)
    have h4 : 0 ≤ (((List.range k).map Nat.succ).map fun i => (g.node i).value).sum := by
      apply List.sum_nonneg
      intro x hx
      rw [List.map_map] at hx
      obtain ⟨j, hj, rfl⟩ := List.mem_map.1 hx
      rw [List.mem_range] at hj
      exact le_of_lt (hg.pos _ (by have := hg.rootsLe; simp; omega))
    omega
  simp at h1
  omega

theorem isSpeed_iff (cfg : Config) (c : Int) : isSpeed cfg c = true ↔ ∃ s ∈ cfg.speeds, (s : Int) = c := by
  unfold isSpeed
  simp

/-- Sublists of an initial segment are the increasing lists below its bound. -/
theorem sublist_range_iff {n : Nat} {idx : List Nat} : idx.Sublist (List.range n) ↔ idx.Pairwise (· < ·) ∧ ∀ i ∈ idx, i < n := by
  constructor
  · intro h
    exact ⟨List.Pairwise.sublist h List.pairwise_lt_range, sublist_range_lt h⟩
  · rintro ⟨h1, h2⟩
    induction n generalizing idx with
    | zero =>
      cases idx with
      | nil => simp
      | cons a l => exact absurd (h2 a (by simp)) (by omega)
    | succ n ih =>
      rw [List.range_succ]
      by_cases hm : n ∈ idx
      · obtain ⟨l1, l2, rfl⟩ := List.append_of_mem hm
        have hl2 : l2 = [] := by
          rw [List.eq_nil_iff_forall_not_mem]
          intro x hx
          have h3 := (List.pairwise_cons.1 (List.pairwise_append.1 h1).2.1).1 x hx
          have h4 := h2 x (by simp [hx])
          omega
        subst hl2
        refine List.Sublist.append (ih (List.pairwise_append.1 h1).1 ?_) (List.Sublist.refl _)
        intro i hi
        have := (List.pairwise_append.1 h1).2.2 i hi n (by simp)
        omega
      · refine (ih h1 ?_).trans (List.sublist_append_left _ _)
        intro i hi
        have := h2 i hi
        have : i ≠ n := fun e => hm (e ▸ hi)
        omega

/-- The index list of a permitted merge. -/
theorem merge_values {g : Net} {idx : List Nat} {vs : List Int} (h : idx.map (fun i => g.vals[i]?) = vs.map some) :
    (∀ i ∈ idx, i < g.srcs.length) ∧ vs = idx.map fun i => (g.node (g.src i)).value := by
  induction idx generalizing vs with
  | nil =>
    cases vs with
    | nil => simp
    | cons a l => simp at h
  | cons i is ih =>
    cases vs with
    | nil => simp at h
    | cons v vs =>
      rw [List.map_cons, List.map_cons, List.cons.injEq] at h
      obtain ⟨h1, h2⟩ := ih h.2
      obtain ⟨h3, h4⟩ := Net.lt_of_vals h.1
      refine ⟨?_, ?_⟩
      · intro j hj
        rcases List.mem_cons.1 hj with rfl | hj
        · exact h3
        · exact h1 j hj
      · rw [List.map_cons, h4, ← h2]

theorem merge_values' {g : Net} {idx : List Nat} (h : ∀ i ∈ idx, i < g.srcs.length) :
    idx.map (fun i => g.vals[i]?) = (idx.map fun i => (g.node (g.src i)).value).map some := by
  rw [List.map_map]
  apply List.map_congr_left
  intro i hi
  exact Net.vals_get (h i hi)

/-- Permitted moves can be carried out, and cost something. -/
theorem Permitted.adm {P : Problem} (hP : P.WF) {g : Net} (hg : g.WF) {op : Op} {cost : Int}
    (hp : Permitted P g.vals g.pastOf op cost) : Adm P.cfg g op ∧ 1 ≤ cost := by
  cases op with
  | extract i c =>
    obtain ⟨v, ⟨h1, _⟩, _, _, h2, h3, _, _, _, h4⟩ := hp
    obtain ⟨h5, h6⟩ := Net.lt_of_vals h1
    refine ⟨⟨h5, h2, by rw [h6]; omega⟩, ?_⟩
    obtain ⟨r, hr1, hr2⟩ := extractCost_pos P.cfg v c (by omega) h2 (by omega)
    rw [hr1] at h4; injection h4 with h4; omega
  | divide i d =>
    obtain ⟨v, ⟨h1, _⟩, _, _, h2, h3, _, _, h4⟩ := hp
    obtain ⟨h5, h6⟩ := Net.lt_of_vals h1
    refine ⟨⟨h5, h2, by rw [h6]; exact h3⟩, ?_⟩
    have hv : 0 < v := Net.vals_pos hg v (List.mem_of_getElem? h1)
    have hdv := Int.le_of_dvd hv h3
    obtain ⟨n, m, r, -, -, -, -, hr1, hr2, -⟩ := divideCost_core P.cfg v d (by omega) h2 hdv
    rw [hr1] at h4; injection h4 with h4; omega
  | split i c =>
    obtain ⟨v, ⟨h1, _⟩, _, _, ⟨h2, _, _⟩, h3, h4, _, _, _, h7⟩ := hp
    obtain ⟨h5, h6⟩ := Net.lt_of_vals h1
    have := hP.gcd
    exact ⟨⟨h5, (isSpeed_iff _ _).2 h2, by omega, by rw [h6]; omega⟩, by omega⟩
  | merge idx =>
    obtain ⟨vs, h1, h2, h3, _, _, _, _, _, h4⟩ := hp
    refine ⟨⟨sublist_range_iff.2 ⟨h2, (merge_values h1).1⟩, h3⟩, ?_⟩
    have : 1 ≤ idx.length / 2 := by omega
    omega

/-- One permitted move within the bound, without returning to an earlier state. -/
def NStep (P : Problem) (B : Int) (g g' : Net) : Prop :=
  ∃ op cost, Permitted P g.vals g.pastOf op cost ∧ g.size + cost ≤ B ∧ g' = g.child P.cfg op cost ∧ g'.vals ∉ g.past.items

/-- Nets reached by permitted moves. -/
inductive NPlay (P : Problem) (B : Int) (g0 : Net) : Net → Prop
  | start : NPlay P B g0 g0
  | move {g g'} : NPlay P B g0 g → NStep P B g g' → NPlay P B g0 g'

/-- What `child` consumes and produces. -/
theorem Adm.grow {cfg : Config} {g : Net} (hg : g.WF) {op : Op} (ha : Adm cfg g op) (cost : Int) :
    ∃ old vs tagOld tagNew, g.CanGrow old vs ∧ g.child cfg op cost = g.grow old vs tagOld tagNew cost := by
  cases op with
  | extract i c => exact ⟨_, _, _, _, canGrow_extract hg ha, rfl⟩
  | divide i d => exact ⟨_, _, _, _, canGrow_divide hg ha, rfl⟩
  | split i c => exact ⟨_, _, _, _, canGrow_split hg ha, rfl⟩
  | merge idx => exact ⟨_, _, _, _, canGrow_merge hg ha, rfl⟩

theorem child_size {cfg : Config} {g : Net} (op : Op) (cost : Int) : (g.child cfg op cost).size = g.size + cost := by
  cases op <;> rfl

theorem child_nRoots {cfg : Config} {g : Net} (op : Op) (cost : Int) : (g.child cfg op cost).nRoots = g.nRoots := by
  cases op <;> rfl

theorem child_past {cfg : Config} {g : Net} (op : Op) (cost : Int) :
    (g.child cfg op cost).past = ((FastList.empty : FastList (List Int)).extend g.past.items).append g.vals := by
  cases op <;> rfl

theorem NStep.wf {P : Problem} (hP : P.WF) {B : Int} {g g' : Net} (hg : g.WF) (hs : NStep P B g g') : g'.WF := by
  obtain ⟨op, cost, h1, _, rfl, h2⟩ := hs
  obtain ⟨old, vs, tO, tN, hc, e⟩ := Adm.grow hg (h1.adm hP hg).1 cost
  rw [e] at h2 ⊢
  exact Net.grow_wf hg hc h2

theorem NStep.size {P : Problem} (hP : P.WF) {B : Int} {g g' : Net} (hg : g.WF) (hs : NStep P B g g') :
    g.size < g'.size ∧ g'.size ≤ B := by
  obtain ⟨op, cost, h1, h3, rfl, h2⟩ := hs
  rw [child_size]
  have := (h1.adm hP hg).2
  omega

theorem NPlay.wf {P : Problem} (hP : P.WF) {B : Int} {g0 g : Net} (hg : g0.WF) (hs : NPlay P B g0 g) : g.WF := by
  induction hs with
  | start => exact hg
  | move _ h ih => exact h.wf hP ih

/-- The past and the source values after a move. -/
theorem Rep.pastOf_iff {h : Heap Int} {t : TreeObj Int} {g : Net} {loc : Nat → Addr} (hr : Rep h t g loc) (hg : g.WF) (i : Nat)
    (v : Int) : pastOf h t i v ↔ g.pastOf i v := by
  unfold pastOf Net.pastOf
  rw [hr.sources]
  constructor
  · rintro ⟨a, h1, h2⟩
    rw [List.getElem?_map] at h1
    by_cases hi : i < g.srcs.length
    · rw [Net.src_get hi] at h1
      simp at h1; subst h1
      rw [hr.nodes.past _ ((hg.memSrcs _).1 (Net.src_mem hi)).1] at h2
      exact ⟨hi, h2⟩
    · rw [List.getElem?_eq_none (by omega)] at h1; simp at h1
  · rintro ⟨hi, h2⟩
    refine ⟨loc (g.src i), by rw [List.getElem?_map, Net.src_get hi]; rfl, ?_⟩
    rw [hr.nodes.past _ ((hg.memSrcs _).1 (Net.src_mem hi)).1]; exact h2

theorem Permitted.congr {P : Problem} {vals : List Int} {p q : Nat → Int → Prop} (hpq : ∀ i v, p i v ↔ q i v) {op : Op} {cost : Int} :
    Permitted P vals p op cost ↔ Permitted P vals q op cost := by
  have : p = q := by funext i v; exact propext (hpq i v)
  rw [this]

/-- One step of a play, on nets. -/
theorem Rep.step {P : Problem} (hP : P.WF) {B : Int} {h : Heap Int} {t : TreeObj Int} {g : Net} {loc : Nat → Addr}
    (hr : Rep h t g loc) (hg : g.WF) {op : Op} {cost : Int} (hp : Permitted P t.sourceValues (pastOf h t) op cost)
    (hb : t.size + cost ≤ B) {h' : Heap Int} {t' : TreeObj Int} (hm : makeChild P.cfg h t op cost = .ok (h', t'))
    (hn : t'.sourceValues ∉ t.past.items) :
    ∃ loc', NStep P B g (g.child P.cfg op cost) ∧ Rep h' t' (g.child P.cfg op cost) loc' := by
  rw [hr.vals, Permitted.congr (fun i v => hr.pastOf_iff hg i v)] at hp
  obtain ⟨h'', t'', loc', e, _, _, hr'⟩ := makeChild_rep hr hg (cfg := P.cfg) cost (hp.adm hP hg).1
  rw [hm] at e; injection e with e; injection e with e1 e2; subst e1; subst e2
  refine ⟨loc', ⟨op, cost, hp, by rw [← hr.size]; exact hb, rfl, ?_⟩, hr'⟩
  rw [← hr'.vals, ← hr.past]; exact hn

/-! ### The start -/

theorem Source.wf {h : Heap Int} {t : TreeObj Int} {values : List Int} (hs : Source h t values) : (Net.ofValues values).WF :=
  Net.ofValues_wf values hs.nonempty hs.pos hs.sorted

theorem Source.rep {h : Heap Int} {t : TreeObj Int} {values : List Int} (hs : Source h t values) :
    ∃ loc, Rep h t (Net.ofValues values) loc := by
  obtain ⟨h0, h1, roots, e1, e2⟩ := hs.made
  obtain ⟨h', e, en, eu, _, enew⟩ := newNodes_spec [] none values h0 (fun v hv => le_of_lt (hs.pos v hv))
  rw [e1] at e
  injection e with e; injection e with e3 e4
  subst e3; subst e4
  unfold newTree at e2
  injection e2 with e3 e4
  subst e3; subst e4
  have hmem : ∀ i, i < values.length → h0.next + i ∈ List.range' h0.next values.length := by
    intro i hi; rw [List.mem_range'_1]; omega
  have hget : ∀ i (hi : i < values.length), (setLevels h1 (List.range' h0.next values.length) 0).get (h0.next + i) =
      { freshNode values[i] (h0.nextUid + i) [] none with level := some 0 } := by
    intro i hi
    rw [setLevels_get, if_pos (hmem i hi), enew i hi]
  have hroots : List.range' h0.next values.length = (List.range values.length).map fun i => h0.next + i := by
    rw [List.range_eq_range', List.map_add_range']; rfl
  have hvals : valuesOf h1 (List.range' h0.next values.length) = values := by
    unfold valuesOf
    rw [hroots, List.map_map]
    apply List.ext_getElem
    · simp
    · intro i h1' h2
      simp at h1'
      simp [enew i h2, freshNode]
  refine ⟨fun i => h0.next + i, ⟨?_, ?_, ?_, ?_, ?_, ?_, ?_, ?_, ?_⟩, hroots, hroots, ?_, rfl, rfl, rfl, ?_, ?_⟩
  · intro i hi
    replace hi : i < values.length := hi
    rw [setLevels_next, en]; omega
  · intro i hi
    replace hi : i < values.length := hi
    rw [hget i hi, setLevels_nextUid, eu]
    show h0.nextUid + i < _
    omega
  · intro i j hi hj
    replace hi : i < values.length := hi
    replace hj : j < values.length := hj
    rw [hget i hi, hget j hj]
    show h0.nextUid + i = h0.nextUid + j → _
    omega
  · intro i hi
    replace hi : i < values.length := hi
    rw [hget i hi]
    show values[i] = values.getD i 0
    rw [List.getD_eq_getElem?_getD, List.getElem?_eq_getElem hi, Option.getD_some]
  · intro i hi
    replace hi : i < values.length := hi
    rw [hget i hi]; rfl
  · intro i hi
    replace hi : i < values.length := hi
    rw [hget i hi]
    show (FastList.new [values[i]]).extend [] = FastList.new [values.getD i 0]
    rw [List.getD_eq_getElem?_getD, List.getElem?_eq_getElem hi, Option.getD_some]
    rfl
  · intro i hi
    replace hi : i < values.length := hi
    rw [hget i hi]; rfl
  · intro i hi
    replace hi : i < values.length := hi
    rw [hget i hi]; exact List.Perm.refl _
  · intro i hi
    replace hi : i < values.length := hi
    rw [hget i hi]; exact List.Perm.refl _
  · show [List.range' h0.next values.length] = [(List.range values.length).map _]
    rw [hroots]
  · show valuesOf h1 _ = (Net.ofValues values).vals
    rw [hvals]
    unfold Net.vals Net.ofValues
    apply List.ext_getElem
    · simp
    · intro i h1' h2
      simp at h2
      simp [List.getD_eq_getElem?_getD, List.getElem?_eq_getElem h2]
  · show (List.range' h0.next values.length).length = (List.range values.length).length
    simp

/-- Every play is a net play. -/
theorem Play.net {P : Problem} (hP : P.WF) {B : Int} {values : List Int} {h : Heap Int} {t : TreeObj Int} {hist : List (List Int)}
    {costs : List Int} (hp : Play P B values h t hist costs) :
    ∃ g loc, NPlay P B (Net.ofValues values) g ∧ Rep h t g loc ∧ (Net.ofValues values).WF := by
  induction hp with
  | start hs =>
    obtain ⟨loc, hr⟩ := hs.rep
    exact ⟨_, loc, .start, hr, hs.wf⟩
  | move _ h1 h2 h3 h4 ih =>
    obtain ⟨g, loc, i1, i2, hg⟩ := ih
    obtain ⟨loc', s1, s2⟩ := i2.step hP (i1.wf hP hg) h1 h2 h3 h4
    exact ⟨_, loc', .move i1 s1, s2, hg⟩
  | other _ he ih =>
    obtain ⟨g, loc, i1, i2, hg⟩ := ih
    exact ⟨g, loc, i1, i2.ext he, hg⟩

/-- Every net play is a play. -/
theorem NPlay.play {P : Problem} (hP : P.WF) {B : Int} {values : List Int} {h0 : Heap Int} {t0 : TreeObj Int}
    (hs : Source h0 t0 values) {g : Net} (hp : NPlay P B (Net.ofValues values) g) :
    ∃ h t loc hist costs, Play P B values h t hist costs ∧ Rep h t g loc := by
  have hg := hs.wf
  induction hp with
  | start =>
    obtain ⟨loc, hr⟩ := hs.rep
    exact ⟨h0, t0, loc, _, _, .start hs, hr⟩
  | move hpl hs ih =>
    obtain ⟨h, t, loc, hist, costs, i1, i2⟩ := ih
    have hgw := hpl.wf hP hg
    obtain ⟨op, cost, h1, h2, rfl, h3⟩ := hs
    obtain ⟨h', t', loc', e, _, _, hr'⟩ := makeChild_rep i2 hgw (cfg := P.cfg) cost (h1.adm hP hgw).1
    refine ⟨h', t', loc', _, _, .move i1 ?_ (by rw [i2.size]; exact h2) e (by rw [hr'.vals, i2.past]; exact h3), hr'⟩
    rw [i2.vals, Permitted.congr (fun i v => i2.pastOf_iff hgw i v)]
    exact h1

/-! ### Predicted states -/

theorem sorted_eq {a b : List Int} (h : a.Perm b) (ha : a.Pairwise (· ≤ ·)) (hb : b.Pairwise (· ≤ ·)) : a = b :=
  h.eq_of_pairwise (fun _ _ _ _ h1 h2 => le_antisymm h1 h2) ha hb

theorem removeAll_perm : ∀ (vs sim r : List Int), sim.Perm (vs ++ r) → ∃ r', removeAll sim vs = .ok r' ∧ r'.Perm r ∧ r'.Sublist sim := by
  intro vs
  induction vs with
  | nil => intro sim r h; exact ⟨sim, rfl, h, List.Sublist.refl _⟩
  | cons v vs ih =>
    intro sim r h
    have hv : v ∈ sim := h.mem_iff.2 (by simp)
    have h2 : (sim.erase v).Perm (vs ++ r) := by
      have := h.erase v
      simpa using this
    obtain ⟨r', e, p, s⟩ := ih (sim.erase v) r h2
    exact ⟨r', by unfold removeAll; rw [if_pos hv]; exact e, p, s.trans List.erase_sublist⟩

theorem simWithout_perm {v : Int} {sim r : List Int} (h : sim.Perm (v :: r)) :
    ∃ r', Utils.simWithout v sim = .ok r' ∧ r'.Perm r ∧ r'.Sublist sim := by
  have hv : v ∈ sim := h.mem_iff.2 (by simp)
  refine ⟨sim.erase v, by unfold Utils.simWithout; rw [if_pos hv], ?_, List.erase_sublist⟩
  have := h.erase v
  simpa using this

/-- Inserting what a move makes into what it leaves gives the values of the next net. -/
theorem predicted {g : Net} (hg : g.WF) {old : List Nat} {vs vs' : List Int} (hv : vs'.Perm vs)
    {tagOld tagNew cost} {r' : List Int}
    (hr : r'.Perm ((g.srcs.filter fun i => decide (i ∉ old)).map fun i => (g.node i).value)) (hs : r'.Sublist g.vals) :
    insortAll id r' vs' = (g.grow old vs tagOld tagNew cost).vals := by
  apply sorted_eq
  · refine (insortAll_perm _ _ _).trans ?_
    refine (hv.append hr).trans ?_
    exact (Net.grow_vals_perm hg).symm
  · have h1 := (Net.vals_sorted hg).sublist hs
    have := insortAll_sorted (id : Int → Int) r' vs' h1
    simpa using this
  · exact Net.grow_vals_sorted hg

theorem predicted_one {g : Net} (hg : g.WF) {i : Nat} {vs vs' : List Int} (hc : g.CanGrow [g.src i] vs)
    (hv : vs'.Perm vs) {tagOld tagNew cost} :
    ∃ r, Utils.simWithout (g.node (g.src i)).value g.vals = .ok r ∧
      insortAll id r vs' = (g.grow [g.src i] vs tagOld tagNew cost).vals := by
  have hp := Net.vals_perm hg hc
  simp only [List.map_cons, List.map_nil, List.singleton_append] at hp
  obtain ⟨r, e, p, s⟩ := simWithout_perm hp
  exact ⟨r, e, predicted hg hv p s⟩

theorem predicted_merge {g : Net} (hg : g.WF) {cfg : Config} {idx : List Nat} (ha : Adm cfg g (.merge idx)) {cost : Int} :
    ∃ r, removeAll g.vals (idx.map fun i => (g.node (g.src i)).value) = .ok r ∧
      insort id r ((idx.map fun i => (g.node (g.src i)).value).sum) = (g.child cfg (.merge idx) cost).vals := by
  have hc := canGrow_merge (cfg := cfg) hg ha
  have hp := Net.vals_perm hg hc
  rw [List.map_map] at hp
  obtain ⟨r, e, p, s⟩ := removeAll_perm _ _ _ hp
  exact ⟨r, e, predicted hg (List.Perm.refl [(idx.map fun i => (g.node (g.src i)).value).sum]) p s⟩

end Satis.Solver
