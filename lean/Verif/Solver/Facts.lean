import Verif.Solver.Loop
import Mathlib.Algebra.BigOperators.Group.List.Basic
/-!
# What a play builds
-/

namespace Satis.Solver
open Satis Satis.Graph Satis.Utils

section
variable {P : Problem} {B : Int} {h : Heap Int} {t : TreeObj Int} {g : Net} {loc : Nat → Addr}

theorem NPlay.nRoots {g0 : Net} (hp : NPlay P B g0 g) : g.nRoots = g0.nRoots := by
  induction hp with
  | start => rfl
  | move _ hs ih =>
    obtain ⟨op, cost, _, _, rfl, _⟩ := hs
    rw [child_nRoots, ih]

theorem NPlay.rootValue (hP : P.WF) {g0 : Net} (hg0 : g0.WF) (hp : NPlay P B g0 g) {i : Nat} (hi : i < g0.nRoots) :
    (g.node i).value = (g0.node i).value := by
  induction hp with
  | start => rfl
  | move hpl hs ih =>
    have hg := hpl.wf hP hg0
    have hn : i < _ := lt_of_lt_of_le (by rw [hpl.nRoots]; exact hi) hg.rootsLe
    obtain ⟨op, cost, h1, _, rfl, _⟩ := hs
    obtain ⟨old, vs, tO, tN, _, e⟩ := Adm.grow hg (h1.adm hP hg).1 cost
    rw [e, Net.grow_value, Net.newVal_old hn, ih]

theorem ofValues_vals (values : List Int) : (Net.ofValues values).vals = values := by
  unfold Net.vals Net.ofValues
  apply List.ext_getElem
  · simp
  · intro i h1 h2
    simp [List.getD_eq_getElem?_getD, List.getElem?_eq_getElem h2]

theorem Rep.wellFormed (hr : Rep h t g loc) (hg : g.WF) {total : Int} (ht : g.vals.sum = total) : WellFormed h t total := by
  have hv := hr.values hg
  refine ⟨?_, ?_, hv.symm, ?_, ?_, ?_, ?_, ?_⟩
  · rw [hv, hr.vals]; exact Net.vals_sorted hg
  · intro a ha
    obtain ⟨i, hi, rfl⟩ := (hr.reach_iff hg a).1 ha
    rw [hr.nodes.value i hi]; exact hg.pos i hi
  · rw [hr.nSources, hr.sources]; simp
  · rw [hr.levels, hr.sources, List.getLast?_map, hg.last]; rfl
  · rw [hr.sources]
    refine List.Nodup.map_on ?_ hg.srcsNodup
    intro i hi j hj e
    exact hr.nodes.loc_inj ((hg.memSrcs i).1 hi).1 ((hg.memSrcs j).1 hj).1 e
  · intro a
    rw [hr.sources, hr.reach_iff hg]
    constructor
    · intro ha
      obtain ⟨i, hi, rfl⟩ := List.mem_map.1 ha
      obtain ⟨h1, h2⟩ := (hg.memSrcs i).1 hi
      refine ⟨⟨i, h1, rfl⟩, ?_⟩
      have := hr.nodes.kids i h1
      rw [h2] at this
      exact List.perm_nil.1 this
    · rintro ⟨⟨i, hi, rfl⟩, h2⟩
      have := hr.nodes.kids i hi
      rw [h2] at this
      exact List.mem_map_of_mem ((hg.memSrcs i).2 ⟨hi, by simpa using (List.nil_perm.1 this)⟩)
  · rw [hv, hr.vals]; exact ht

theorem Rep.reach_above (hr : Rep h t g loc) (hg : g.WF) {j : Nat} (hj : j < g.n) {a : Addr} (ha : Reach h [loc j] a) :
    ∃ i, i < g.n ∧ j ≤ i ∧ a = loc i := by
  induction ha with
  | root hm => simp at hm; exact ⟨j, hj, le_rfl, hm⟩
  | child _ hb ih =>
    obtain ⟨i, hi, hji, rfl⟩ := ih
    obtain ⟨k, hk, hkn, rfl⟩ := hr.mem_children hg hi hb
    exact ⟨k, hkn, le_trans hji (le_of_lt (hg.kidLt i k hi hk).1), rfl⟩

theorem Rep.layered (hr : Rep h t g loc) (hg : g.WF) : Layered h t := by
  refine ⟨?_, ?_, ?_, ?_⟩
  · intro a b ha hb
    obtain ⟨i, hi, rfl⟩ := (hr.reach_iff hg a).1 ha
    obtain ⟨j, hj, hjn, rfl⟩ := hr.mem_children hg hi hb
    exact ⟨_, _, hr.nodes.level i hi, hr.nodes.level j hjn, hg.levelKid i j hi hj⟩
  · intro a ha
    rw [hr.sources] at ha
    obtain ⟨i, hi, rfl⟩ := List.mem_map.1 ha
    rw [hr.nodes.level i ((hg.memSrcs i).1 hi).1, hr.cur, hg.levelSrc i hi]
  · intro a ha
    obtain ⟨i, hi, rfl⟩ := (hr.reach_iff hg a).1 ha
    have := hg.levelRange i hi
    exact ⟨_, hr.nodes.level i hi, this.1, by rw [hr.cur]; exact this.2.1⟩
  · intro a b ha hb hba
    obtain ⟨i, hi, rfl⟩ := (hr.reach_iff hg a).1 ha
    obtain ⟨j, hj, hjn, rfl⟩ := hr.mem_children hg hi hb
    obtain ⟨k, hk, hjk, e⟩ := hr.reach_above hg hjn hba
    have := hr.nodes.loc_inj hi hk e
    have := (hg.kidLt i j hi hj).1
    omega

theorem Rep.mem_parents (hr : Rep h t g loc) (hg : g.WF) {i : Nat} (hi : i < g.n) {b : Addr}
    (hb : b ∈ (h.get (loc i)).parents) : ∃ j ∈ (g.node i).pars, j < g.n ∧ b = loc j := by
  rw [(hr.nodes.pars i hi).mem_iff] at hb
  obtain ⟨j, hj, e⟩ := List.mem_map.1 hb
  exact ⟨j, hj, by have := hg.parLt i j hi hj; omega, e.symm⟩

theorem Rep.flow (hr : Rep h t g loc) (hg : g.WF) : ∃ f : Addr → Addr → Int, ∀ a, Reach h t.roots a →
    (∀ b ∈ (h.get a).children, 0 < f a b) ∧
    ((h.get a).children ≠ [] → ((h.get a).children.map (f a)).sum = (h.get a).value) ∧
    ((h.get a).parents ≠ [] → ((h.get a).parents.map fun p => f p a).sum = (h.get a).value) := by
  refine ⟨fun a b => if (h.get a).children = [b] then (h.get a).value else (h.get b).value, ?_⟩
  have hval := hr.nodes.value
  -- an only child
  have hone : ∀ i m, i < g.n → ((h.get (loc i)).children = [loc m] ↔ (g.node i).kids.map loc = [loc m]) := by
    intro i m hi
    have hk := hr.nodes.kids i hi
    constructor
    · intro e; rw [e] at hk; exact List.singleton_perm.1 hk |>.symm
    · intro e; rw [e] at hk; exact List.perm_singleton.1 hk
  -- the flow towards a child
  have hf : ∀ i k, i < g.n → k ∈ (g.node i).kids →
      (if (h.get (loc i)).children = [loc k] then (h.get (loc i)).value else (h.get (loc k)).value) =
      if (g.node i).kids = [k] then (g.node i).value else (g.node k).value := by
    intro i k hi hk
    have hkn := (hg.kidLt i k hi hk).2
    rw [hval i hi, hval k hkn]
    have : (h.get (loc i)).children = [loc k] ↔ (g.node i).kids = [k] := by
      rw [hone i k hi]
      constructor
      · intro e
        have hlen := congrArg List.length e
        simp at hlen
        obtain ⟨m, hm⟩ := List.length_eq_one_iff.1 hlen
        rw [hm] at hk ⊢
        simp at hk; rw [hk]
      · intro e; rw [e]; rfl
    simp only [this]
  intro a ha
  obtain ⟨i, hi, rfl⟩ := (hr.reach_iff hg a).1 ha
  refine ⟨?_, ?_, ?_⟩
  · intro b hb
    obtain ⟨k, hk, hkn, rfl⟩ := hr.mem_children hg hi hb
    show 0 < ite _ _ _
    rw [hf i k hi hk]
    split
    · exact hg.pos i hi
    · exact hg.pos k hkn
  · intro hne
    have hperm := hr.nodes.kids i hi
    have hkne : (g.node i).kids ≠ [] := by
      intro e; rw [e] at hperm; exact hne (List.perm_nil.1 hperm)
    rw [(hperm.map _).sum_eq, List.map_map, hval i hi]
    have hcongr : (g.node i).kids.map ((fun b => if (h.get (loc i)).children = [b] then (h.get (loc i)).value else (h.get b).value) ∘ loc) =
        (g.node i).kids.map fun k => if (g.node i).kids = [k] then (g.node i).value else (g.node k).value := by
      apply List.map_congr_left
      intro k hk
      exact hf i k hi hk
    rw [hcongr]
    by_cases hlen : ∃ m, (g.node i).kids = [m]
    · obtain ⟨m, hm⟩ := hlen
      rw [hm]; simp
    · have h2 : ∀ k, ¬ (g.node i).kids = [k] := fun k e => hlen ⟨k, e⟩
      simp only [if_neg (h2 _)]
      rcases hg.flow i hi hkne with hb | ⟨m, hm, _⟩
      · exact hb.2
      · exact absurd hm (h2 m)
  · intro hne
    have hperm := hr.nodes.pars i hi
    have hpne : (g.node i).pars ≠ [] := by
      intro e; rw [e] at hperm; exact hne (List.perm_nil.1 hperm)
    rw [(hperm.map _).sum_eq, List.map_map, hval i hi]
    have hcongr : (g.node i).pars.map ((fun p => if (h.get p).children = [loc i] then (h.get p).value else (h.get (loc i)).value) ∘ loc) =
        (g.node i).pars.map fun p => if (g.node p).kids = [i] then (g.node p).value else (g.node i).value := by
      apply List.map_congr_left
      intro p hp
      have hpi := hg.parLt i p hi hp
      have hik : i ∈ (g.node p).kids :=
        List.count_pos_iff.1 (by rw [hg.cons p i (by omega) hi]; exact List.count_pos_iff.2 hp)
      exact hf p i (by omega) hik
    rw [hcongr]
    obtain ⟨p, hp⟩ := List.exists_mem_of_ne_nil _ hpne
    have hpi := hg.parLt i p hi hp
    have hik : i ∈ (g.node p).kids :=
      List.count_pos_iff.1 (by rw [hg.cons p i (by omega) hi]; exact List.count_pos_iff.2 hp)
    rcases hg.flow p (by omega) (List.ne_nil_of_mem hik) with ⟨hb1, hb2⟩ | ⟨m, hm, hm1, hm2⟩
    · rw [hb1 i hik]
      simp only [List.map_cons, List.map_nil, List.sum_cons, List.sum_nil, add_zero]
      split
      · rename_i e
        rw [e] at hb2
        simpa using hb2.symm
      · rfl
    · rw [hm] at hik
      simp at hik
      subst hik
      rw [← hm2]
      congr 1
      apply List.map_congr_left
      intro p' hp'
      rw [if_pos (hm1 p' hp')]

theorem Rep.flowGraph (hr : Rep h t g loc) (hg : g.WF) {values : List Int}
    (hv : (List.range g.nRoots).map (fun i => (g.node i).value) = values) : FlowGraph h t values := by
  refine ⟨?_, ?_, ?_, ?_, hr.flow hg⟩
  · rw [← hv, hr.roots, List.map_map]
    apply List.map_congr_left
    intro i hi
    exact hr.nodes.value i (lt_of_lt_of_le (List.mem_range.1 hi) hg.rootsLe)
  · intro a ha
    obtain ⟨i, hi, rfl⟩ := (hr.reach_iff hg a).1 ha
    have hperm := hr.nodes.pars i hi
    have hmem : loc i ∈ t.roots ↔ i < g.nRoots := by
      rw [hr.roots]
      constructor
      · intro hm
        obtain ⟨j, hj, e⟩ := List.mem_map.1 hm
        have hj' := List.mem_range.1 hj
        rw [← hr.nodes.loc_inj (lt_of_lt_of_le hj' hg.rootsLe) hi e]; exact hj'
      · intro hlt; exact List.mem_map_of_mem (List.mem_range.2 hlt)
    rw [hmem]
    constructor
    · intro e
      rw [e] at hperm
      have hnil : (g.node i).pars = [] := by simpa using List.nil_perm.1 hperm
      by_contra hlt
      obtain ⟨p, hp, _⟩ := hg.parent hi (by omega)
      rw [hnil] at hp; simp at hp
    · intro hlt
      rw [(hg.root i hlt).1] at hperm
      exact List.perm_nil.1 hperm
  · intro a b ha hb
    obtain ⟨i, hi, rfl⟩ := (hr.reach_iff hg a).1 ha
    obtain ⟨j, hj, rfl⟩ := (hr.reach_iff hg b).1 hb
    rw [(hr.nodes.kids i hi).count_eq, (hr.nodes.pars j hj).count_eq]
    rw [count_map_inj _ (fun a hm e => hr.nodes.loc_inj (hg.kidLt i a hi hm).2 hj e),
      count_map_inj _ (fun a hm e => hr.nodes.loc_inj (by have := hg.parLt j a hj hm; omega) hi e), hg.cons i j hi hj]
  · intro a ha p hp
    obtain ⟨i, hi, rfl⟩ := (hr.reach_iff hg a).1 ha
    obtain ⟨j, hj, hjn, rfl⟩ := hr.mem_parents hg hi hp
    exact (hr.reach_iff hg _).2 ⟨j, hjn, rfl⟩

/-! ### The facts about a play -/

variable {values : List Int} {hist : List (List Int)} {costs : List Int}

theorem Play.roots (hP : P.WF) (hg0 : (Net.ofValues values).WF) (hn : NPlay P B (Net.ofValues values) g) :
    (List.range g.nRoots).map (fun i => (g.node i).value) = values := by
  have h1 : g.nRoots = values.length := hn.nRoots
  rw [h1]
  apply List.ext_getElem
  · simp
  · intro i h2 h3
    rw [List.getElem_map, List.getElem_range, hn.rootValue hP hg0 h3]
    show values.getD i 0 = _
    rw [List.getD_eq_getElem?_getD, List.getElem?_eq_getElem h3, Option.getD_some]

theorem Play.facts (hP : P.WF) (hp : Play P B values h t hist costs) :
    WellFormed h t values.sum ∧ Layered h t ∧ FlowGraph h t values := by
  obtain ⟨g, loc, hn, hr, hg0⟩ := hp.net hP
  have hg := hn.wf hP hg0
  have hroots := Play.roots hP hg0 hn
  exact ⟨hr.wellFormed hg (by rw [hg.total, hroots]), hr.layered hg, hr.flowGraph hg hroots⟩

theorem child_past_items {cfg : Config} (hg : g.WF) (op : Op) (cost : Int) :
    (g.child cfg op cost).past.items = g.past.items ++ [g.vals] := by
  rw [child_past]
  have h1 : ((FastList.empty : FastList (List Int)).extend g.past.items).items = g.past.items := by
    rw [FastList.extend_items FastList.wf_empty]
    have : ∀ (l acc : List (List Int)), (acc ++ l).Nodup → l.foldl FastList.ref1 acc = acc ++ l := by
      intro l
      induction l with
      | nil => intro acc _; simp
      | cons x xs ih =>
        intro acc hnd
        rw [List.foldl_cons]
        have hx : x ∉ acc := by
          intro hm
          have := List.disjoint_of_nodup_append hnd hm
          simp at this
        have hr1 : FastList.ref1 acc x = acc ++ [x] := by
          unfold FastList.ref1; rw [if_neg hx]
        rw [hr1, ih _ (by simpa using hnd)]
        simp
    have h2 := this g.past.items [] (by simpa using (List.nodup_append.1 hg.fresh).1)
    exact h2
  rw [FastList.append_items (FastList.wf_extend FastList.wf_empty _), h1]
  unfold FastList.ref1
  rw [if_neg]
  intro hm
  have := List.disjoint_of_nodup_append hg.fresh hm
  simp at this

theorem Play.history (hP : P.WF) (hp : Play P B values h t hist costs) :
    hist = t.past.items ++ [t.sourceValues] ∧ hist.Nodup ∧ t.size = costs.sum ∧ hist.length = costs.length + 1 := by
  have hnd : (t.past.items ++ [t.sourceValues]).Nodup := by
    obtain ⟨g, loc, hn, hr, hg0⟩ := hp.net hP
    rw [hr.past, hr.vals]
    exact (hn.wf hP hg0).fresh
  have : hist = t.past.items ++ [t.sourceValues] ∧ t.size = costs.sum ∧ hist.length = costs.length + 1 := by
    clear hnd
    induction hp with
    | start hs =>
      obtain ⟨loc, hr⟩ := hs.rep
      refine ⟨?_, by rw [hr.size]; rfl, rfl⟩
      rw [hr.past, hr.vals, ofValues_vals]; rfl
    | move hp h1 h2 h3 h4 ih =>
      obtain ⟨i1, i2, i3⟩ := ih
      obtain ⟨g, loc, hn, hr, hg0⟩ := hp.net hP
      have hg := hn.wf hP hg0
      obtain ⟨loc', _, s2⟩ := hr.step hP hg h1 h2 h3 h4
      refine ⟨?_, ?_, by simp [i3]⟩
      · rw [s2.past, child_past_items hg, i1, hr.past, hr.vals]
      · rw [s2.size, child_size, ← hr.size, i2]; simp
    | other _ he ih => exact ih
  exact ⟨this.1, by rw [this.1]; exact hnd, this.2⟩

theorem Play.bound (hP : P.WF) (hp : Play P B values h t hist costs) (hB : 0 ≤ B) : t.size ≤ B := by
  obtain ⟨g, loc, hn, hr, hg0⟩ := hp.net hP
  rw [hr.size]
  cases hn with
  | start => exact hB
  | move hpl hs => exact (hs.size hP (hpl.wf hP hg0)).2

/-! ### Values stay below the limit -/

theorem div3_le {c v : Int} (h0 : 0 ≤ v - 2 * (c / 3)) (hc : v < c) (hv : 0 < v) : c / 3 ≤ v ∧ v - 2 * (c / 3) ≤ v := by
  constructor <;> omega

theorem NPlay.values_le (hP : P.WF) {M : Int} {g0 : Net} (hg0 : g0.WF) (hM : P.limit ≤ M) (h0 : ∀ i, i < g0.n → (g0.node i).value ≤ M)
    (hn : NPlay P B g0 g) : ∀ i, i < g.n → (g.node i).value ≤ M := by
  induction hn with
  | start => exact h0
  | @move g1 g2 hpl hs ih =>
    have hg := hpl.wf hP hg0
    obtain ⟨op, cost, h1, _, rfl, _⟩ := hs
    have key : ∀ old vs tO tN, g1.child P.cfg op cost = g1.grow old vs tO tN cost → (∀ v ∈ vs, v ≤ M) →
        ∀ i, i < (g1.child P.cfg op cost).n → ((g1.child P.cfg op cost).node i).value ≤ M := by
      intro old vs tO tN e hvs i hi
      rw [e, Net.grow_value]
      rw [e] at hi
      replace hi : i < g1.n + vs.length := hi
      by_cases hin : i < g1.n
      · rw [Net.newVal_old hin]; exact ih i hin
      · unfold Net.newVal
        rw [if_neg hin]
        apply hvs
        rw [List.getD_eq_getElem?_getD, List.getElem?_eq_getElem (by omega), Option.getD_some]
        exact List.getElem_mem _
    have hsrc : ∀ (i : Nat) (v : Int), g1.vals[i]? = some v → v ≤ M ∧ 0 < v := by
      intro i v hv
      obtain ⟨q1, q2⟩ := Net.lt_of_vals hv
      have hin := ((hg.memSrcs _).1 (Net.src_mem q1)).1
      rw [← q2]
      exact ⟨ih _ hin, hg.pos _ hin⟩
    cases op with
    | extract i c =>
      obtain ⟨v, ⟨hf, _⟩, _, _, n1, n2, _⟩ := h1
      have hv := hsrc i v hf
      obtain ⟨q1, q2⟩ := Net.lt_of_vals hf
      refine key _ _ _ _ rfl ?_
      intro w hw
      rw [(List.perm_insertionSort (· ≤ ·) _).mem_iff] at hw
      simp only [List.mem_cons, List.not_mem_nil, or_false] at hw
      rcases hw with rfl | rfl
      · omega
      · rw [q2]; omega
    | divide i d =>
      obtain ⟨v, ⟨hf, _⟩, _, _, n1, n2, _⟩ := h1
      have hv := hsrc i v hf
      obtain ⟨q1, q2⟩ := Net.lt_of_vals hf
      refine key _ _ _ _ rfl ?_
      intro w hw
      have := List.eq_of_mem_replicate hw
      rw [this, q2]
      have hle : v / (d : Int) ≤ v := Int.ediv_le_self _ (by omega)
      omega
    | split i c =>
      obtain ⟨v, ⟨hf, _⟩, _, _, ⟨_, hlt, _⟩, _, _, n2, _⟩ := h1
      have hv := hsrc i v hf
      obtain ⟨q1, q2⟩ := Net.lt_of_vals hf
      refine key _ _ _ _ rfl ?_
      intro w hw
      rw [(List.perm_insertionSort (· ≤ ·) _).mem_iff] at hw
      simp only [List.mem_cons, List.not_mem_nil, or_false] at hw
      have h3 := div3_le n2 hlt hv.2
      rcases hw with rfl | rfl | rfl
      · omega
      · omega
      · rw [q2]; omega
    | merge idx =>
      obtain ⟨vs, e1, _, _, _, _, _, n2, _⟩ := h1
      obtain ⟨_, q2⟩ := merge_values e1
      refine key _ _ _ _ rfl ?_
      intro w hw
      rw [List.mem_singleton] at hw
      rw [hw, ← q2]
      omega

/-- No node has more than all sources together. -/
theorem NPlay.values_le_sum (hP : P.WF) {g0 : Net} (hg0 : g0.WF) (h0 : g0.nRoots = g0.n) (hn : NPlay P B g0 g) :
    ∀ i, i < g.n → (g.node i).value ≤ ((List.range g.nRoots).map fun i => (g.node i).value).sum := by
  have last : ∀ g : Net, g.WF → ∀ i, i < g.n → (g.node i).kids = [] → (g.node i).value ≤ ((List.range g.nRoots).map fun i => (g.node i).value).sum := by
    intro g hg i hi hk
    rw [← hg.total]
    unfold Net.vals
    refine List.single_le_sum (fun x hx => ?_) _ (List.mem_map_of_mem ((hg.memSrcs i).2 ⟨hi, hk⟩))
    obtain ⟨j, hj, rfl⟩ := List.mem_map.1 hx
    exact (hg.pos j ((hg.memSrcs j).1 hj).1).le
  induction hn with
  | start =>
    intro i hi
    refine List.single_le_sum (fun x hx => ?_) _ (List.mem_map.2 ⟨i, List.mem_range.2 (by omega), rfl⟩)
    obtain ⟨j, hj, rfl⟩ := List.mem_map.1 hx
    exact (hg0.pos j (by have := List.mem_range.1 hj; omega)).le
  | @move g1 g2 hpl hs ih =>
    have hg := hpl.wf hP hg0
    have hg2 := (NPlay.move hpl hs).wf hP hg0
    obtain ⟨op, cost, h1, _, rfl, _⟩ := hs
    obtain ⟨old, vs, tO, tN, _, e⟩ := Adm.grow hg (h1.adm hP hg).1 cost
    intro i hi
    by_cases hin : i < g1.n
    · have hv : ∀ j, j < g1.n → ((g1.child P.cfg op cost).node j).value = (g1.node j).value := fun j hj => by
        rw [e, Net.grow_value, Net.newVal_old hj]
      rw [hv i hin]
      refine (ih i hin).trans (le_of_eq ?_)
      have hr : (g1.child P.cfg op cost).nRoots = g1.nRoots := by rw [e]; rfl
      rw [hr]
      congr 1
      refine List.map_congr_left fun j hj => (hv j ?_).symm
      have := List.mem_range.1 hj
      have := hg.rootsLe
      omega
    · refine last _ hg2 i hi ?_
      rw [e, Net.grow_kids_new (by omega)]

theorem Play.values_le (hP : P.WF) (hp : Play P B values h t hist costs) {M : Int} (hM : P.limit ≤ M) (hv : ∀ v ∈ values, v ≤ M)
    {a : Addr} (ha : Reach h t.roots a) : (h.get a).value ≤ M := by
  obtain ⟨g, loc, hn, hr, hg0⟩ := hp.net hP
  have hg := hn.wf hP hg0
  obtain ⟨i, hi, rfl⟩ := (hr.reach_iff hg a).1 ha
  rw [hr.nodes.value i hi]
  refine hn.values_le hP hg0 hM ?_ i hi
  intro j hj
  replace hj : j < values.length := hj
  show values.getD j 0 ≤ M
  rw [List.getD_eq_getElem?_getD, List.getElem?_eq_getElem hj, Option.getD_some]
  exact hv _ (List.getElem_mem _)

theorem Play.values_le_sum (hP : P.WF) (hp : Play P B values h t hist costs) {a : Addr} (ha : Reach h t.roots a) :
    (h.get a).value ≤ (t.roots.map fun r => (h.get r).value).sum := by
  obtain ⟨g, loc, hn, hr, hg0⟩ := hp.net hP
  have hg := hn.wf hP hg0
  obtain ⟨i, hi, rfl⟩ := (hr.reach_iff hg a).1 ha
  rw [hr.nodes.value i hi]
  refine (hn.values_le_sum hP hg0 rfl i hi).trans (le_of_eq ?_)
  rw [hr.roots, List.map_map]
  congr 1
  refine List.map_congr_left fun j hj => (hr.nodes.value j ?_).symm
  have := List.mem_range.1 hj
  have := hg.rootsLe
  omega

end

end Satis.Solver
