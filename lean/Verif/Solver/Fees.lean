import Mathlib.Algebra.BigOperators.Intervals
import Verif.Solver.SoundFacts
/-!
# What the nodes of a solution cost
-/

namespace Satis.Solver
open Satis Satis.Graph Satis.Cost

/-- What a node of value `v` with `k` children costs. -/
def fee (cfg : Config) (v : Int) (k : Nat) : List (Expand Int) → Int
  | [] => if 2 ≤ k then 1 else 0
  | .merge _ :: es => fee cfg v k es
  | .divide d :: _ => (divideCost cfg v d).toOption.getD 0
  | .extract c :: _ => (extractCost cfg v c).toOption.getD 0
  | .split _ :: _ => 3

theorem fee_tag (cfg : Config) (v : Int) (k j : Nat) (es : List (Expand Int)) : fee cfg v k (mergeTag j ++ es) = fee cfg v k es := by
  unfold mergeTag
  split <;> rfl

/-- A division costs what it costs. -/
theorem fee_divide {cfg : Config} {v c : Int} {d : Nat} (hd : 2 ≤ d) (h : divideCost cfg v d = .ok c) :
    fee cfg v d (if d > 3 then [.divide d] else []) = c := by
  by_cases h3 : d > 3
  · rw [if_pos h3]
    unfold fee
    rw [h]
    rfl
  · rw [if_neg h3]
    unfold fee
    rw [if_pos hd]
    unfold divideCost at h
    split at h
    · simp at h
    · rw [if_neg (by omega), if_neg (by omega), if_pos (by omega)] at h
      simpa using h

theorem fee_extract {cfg : Config} {v x c : Int} (h0 : 0 < c) (hc : 2 * c < v) (h : extractCost cfg v c = .ok x) :
    fee cfg v 2 (if isSpeed cfg c then [] else [.extract c]) = x := by
  by_cases hs : isSpeed cfg c = true
  · rw [if_pos hs]
    obtain ⟨s, h1, h2⟩ := (isSpeed_iff cfg c).1 hs
    unfold extractCost at h
    rw [if_neg (by omega), if_neg (by omega), if_pos (List.mem_map.2 ⟨s, h1, h2⟩)] at h
    unfold fee
    simpa using h
  · rw [if_neg hs]
    unfold fee
    rw [h]
    rfl

/-- The fee of a node of a net, and the mergers in front of it. -/
def Net.due (cfg : Config) (g : Net) (i : Nat) : Int :=
  fee cfg (g.node i).value (g.node i).kids.length (g.node i).expands + ((g.node i).pars.length / 2 : Nat)

/-- The size is what the nodes cost. -/
def Net.Billed (cfg : Config) (g : Net) : Prop := g.size = ∑ i ∈ Finset.range g.n, g.due cfg i

theorem Net.ofValues_billed (cfg : Config) (values : List Int) : (Net.ofValues values).Billed cfg := by
  unfold Net.Billed
  rw [Finset.sum_eq_zero]
  · rfl
  · intro i _
    simp [due, ofValues, fee]

theorem Net.grow_billed {cfg : Config} {g : Net} (hg : g.WF) (ht : g.Typed cfg) (hb : g.Billed cfg) {old : List Nat} {vs : List Int}
    {tagOld tagNew : List (Expand Int)} {cost : Int} (hc : g.CanGrow old vs) (hn : tagNew = mergeTag old.length)
    (hcost : cost = (old.map fun a => fee cfg (g.node a).value vs.length tagOld).sum + vs.length * (old.length / 2 : Nat)) :
    (g.grow old vs tagOld tagNew cost).Billed cfg := by
  have hold : ∀ i ∈ Finset.range g.n, (g.grow old vs tagOld tagNew cost).due cfg i =
      g.due cfg i + if i ∈ old then fee cfg (g.node i).value vs.length tagOld else 0 := by
    intro i hi
    have hi := Finset.mem_range.1 hi
    unfold due
    rw [grow_kids_old hi, grow_pars_old hi, grow_value, newVal_old hi]
    have hx : ((g.grow old vs tagOld tagNew cost).node i).expands =
        if i ∈ old then (g.node i).expands ++ tagOld else (g.node i).expands := by
      unfold grow; dsimp only; rw [if_pos hi]
    rw [hx]
    by_cases hm : i ∈ old
    · have hk : (g.node i).kids = [] := ((hg.memSrcs i).1 (hc.mem i hm)).2
      obtain ⟨-, es, h2, h3⟩ := ht i hi
      rw [hk] at h2
      rw [if_pos hm, if_pos hm, if_pos hm, hk, h3, h2.nil, List.append_nil, fee_tag, List.nil_append, List.length_range']
      have : fee cfg (g.node i).value ([] : List Nat).length (mergeTag (g.node i).pars.length) = 0 := by
        have := fee_tag cfg (g.node i).value 0 (g.node i).pars.length []
        rw [List.append_nil] at this
        exact this
      rw [this]
      ring
    · rw [if_neg hm, if_neg hm, if_neg hm, add_zero]
  have hnew : ∀ i ∈ Finset.Ico g.n (g.n + vs.length), (g.grow old vs tagOld tagNew cost).due cfg i = ((old.length / 2 : Nat) : Int) := by
    intro i hi
    have hi := (Finset.mem_Ico.1 hi).1
    unfold due
    rw [grow_kids_new hi, grow_pars_new hi]
    have hx : ((g.grow old vs tagOld tagNew cost).node i).expands = tagNew := by
      unfold grow; dsimp only; rw [if_neg (by omega)]
    rw [hx, hn]
    have := fee_tag cfg ((g.grow old vs tagOld (mergeTag old.length) cost).node i).value 0 old.length []
    rw [List.append_nil] at this
    rw [List.length_nil, this]
    exact zero_add _
  have hsum : ∑ i ∈ Finset.range g.n, (if i ∈ old then fee cfg (g.node i).value vs.length tagOld else 0) =
      (old.map fun a => fee cfg (g.node a).value vs.length tagOld).sum := by
    rw [← List.sum_toFinset _ hc.nodup, ← Finset.sum_filter]
    refine Finset.sum_congr ?_ fun _ _ => rfl
    ext i
    rw [Finset.mem_filter, Finset.mem_range, List.mem_toFinset]
    exact ⟨fun w => w.2, fun w => ⟨((hg.memSrcs i).1 (hc.mem i w)).1, w⟩⟩
  unfold Billed at hb ⊢
  show g.size + cost = ∑ i ∈ Finset.range (g.n + vs.length), _
  rw [← Finset.sum_range_add_sum_Ico _ (Nat.le_add_right g.n vs.length), Finset.sum_congr rfl hold, Finset.sum_congr rfl hnew,
    Finset.sum_add_distrib, hsum, ← hb, hcost, Finset.sum_const, Nat.card_Ico, Nat.add_sub_cancel_left, nsmul_eq_mul]
  ring

theorem NPlay.billed {P : Problem} (hP : P.WF) {B : Int} {values : List Int} {g : Net} (hg : (Net.ofValues values).WF)
    (hs : NPlay P B (Net.ofValues values) g) : g.Billed P.cfg := by
  induction hs with
  | start => exact Net.ofValues_billed _ _
  | @move g _ h hm ih =>
    have hw := h.wf hP hg
    have ht := h.typed hP hg
    obtain ⟨op, cost, h1, _, rfl, h2⟩ := hm
    have ha := (h1.adm hP hw).1
    cases op with
    | extract i c =>
      refine Net.grow_billed hw ht ih (canGrow_extract hw ha) rfl ?_
      obtain ⟨v, ⟨q1, -⟩, -, -, q2, q3, -, -, -, q4⟩ := h1
      obtain ⟨-, q5⟩ := Net.lt_of_vals q1
      have hl : ([c, (g.node (g.src i)).value - c].insertionSort (· ≤ ·)).length = 2 := by
        rw [List.length_insertionSort]
        rfl
      rw [hl, List.map_cons, List.map_nil, List.sum_cons, List.sum_nil, q5, fee_extract q2 q3 q4]
      simp
    | divide i d =>
      refine Net.grow_billed hw ht ih (canGrow_divide hw ha) rfl ?_
      obtain ⟨v, ⟨q1, -⟩, -, -, q2, q3, -, -, q4⟩ := h1
      obtain ⟨-, q5⟩ := Net.lt_of_vals q1
      rw [List.length_replicate, List.map_cons, List.map_nil, List.sum_cons, List.sum_nil, q5, fee_divide q2 q4]
      simp
    | split i c =>
      refine Net.grow_billed hw ht ih (canGrow_split hw ha) rfl ?_
      obtain ⟨v, -, -, -, -, -, -, -, -, -, q⟩ := h1
      rw [q]
      simp [fee]
    | merge idx =>
      refine Net.grow_billed hw ht ih (canGrow_merge hw ha) (by unfold mergeTag; rw [List.length_map]) ?_
      obtain ⟨vs, -, -, -, -, -, -, -, -, q⟩ := h1
      rw [q, List.sum_eq_zero, List.length_map]
      · simp
      · intro x hx
        obtain ⟨y, -, rfl⟩ := List.mem_map.1 hx
        rfl

/-- The fee of a node, and the mergers in front of it. -/
def due (cfg : Config) (h : Heap Int) (a : Addr) : Int :=
  fee cfg (h.get a).value (h.get a).children.length (h.get a).expands + ((h.get a).parents.length / 2 : Nat)

open Classical in
/-- What a network costs. -/
noncomputable def dues (cfg : Config) (h : Heap Int) (roots : List Addr) : Int := ∑ a ∈ Finset.range h.next with Reach h roots a, due cfg h a

section
variable {cfg : Config} {h h1 : Heap Int} {t : TreeObj Int} {g : Net} {loc : Nat → Addr}

open Classical in
theorem Rep.billed (hr : Rep h t g loc) (hg : g.WF) (hb : g.Billed cfg) : t.size = dues cfg h t.roots := by
  rw [hr.size, hb]
  unfold dues
  refine Finset.sum_nbij loc (fun i hi => ?_) (fun i hi j hj e => ?_) (fun a ha => ?_) (fun i hi => ?_)
  · have hi := Finset.mem_range.1 hi
    rw [Finset.mem_filter, Finset.mem_range]
    exact ⟨hr.nodes.lt i hi, (hr.reach_iff hg _).2 ⟨i, hi, rfl⟩⟩
  · exact hr.nodes.loc_inj (Finset.mem_range.1 hi) (Finset.mem_range.1 hj) e
  · obtain ⟨i, hi, rfl⟩ := (hr.reach_iff hg a).1 (Finset.mem_filter.1 ha).2
    exact ⟨i, Finset.mem_coe.2 (Finset.mem_range.2 hi), rfl⟩
  · have hi := Finset.mem_range.1 hi
    unfold Net.due due
    rw [hr.nodes.value i hi, hr.nodes.expands i hi, (hr.nodes.kids i hi).length_eq, (hr.nodes.pars i hi).length_eq, List.length_map, List.length_map]

/-- The nodes that are hung below the sources. -/
theorem Joint.hangs {roots inner leaves : List Addr} {total : Int} (J : Joint h t roots inner leaves h1) (S : Separate h t roots inner leaves)
    (W : WellFormed h t total) {a : Addr} (ha : a ∈ inner ++ leaves) (hr : a ∉ roots) :
    (h1.get a).expands = (h.get a).expands ∧ (h1.get a).parents.length = 1 := by
  have : Reach h roots a := (S.forest.nodes a).2 ha
  cases this with
  | root hm => exact absurd hm hr
  | @child p _ hpr hm =>
    have hp := (S.forest.nodes p).1 hpr
    by_cases hpt : p ∈ roots
    · obtain ⟨x, hx⟩ := (S.pair_of W).2 p hpt
      rw [J.hung x p a hx hm]
      exact ⟨rfl, rfl⟩
    · obtain ⟨-, k1, k2, k3⟩ := S.kid hp hm
      rw [J.inside a k1 k3, k2]
      · exact ⟨rfl, rfl⟩
      · intro r hr' hm'
        have := (S.kid (S.root_mem hr') hm').2.2.1
        rw [k2] at this
        simp at this
        exact hpt (this ▸ hr')

open Classical in
/-- What the network costs with the targets attached. -/
theorem Joint.dues {roots inner leaves : List Addr} {total cost : Int} (J : Joint h t roots inner leaves h1) (S : Separate h t roots inner leaves)
    (W : WellFormed h t total) (hL : Layered h t) (hT : Tagged h inner leaves) (H : TypedH cfg h (Reach h t.roots)) (D : DivideCosts cfg h inner cost) :
    dues cfg h1 t.roots = dues cfg h t.roots + cost := by
  have hlen := S.lengths W
  have hfst : (t.sources.zip roots).map Prod.fst = t.sources := List.map_fst_zip hlen.le
  have hsnd : (t.sources.zip roots).map Prod.snd = roots := List.map_snd_zip hlen.ge
  have hset : (Finset.range h1.next).filter (Reach h1 t.roots) =
      (Finset.range h.next).filter (Reach h t.roots) ∪ ((inner ++ leaves).toFinset \ roots.toFinset) := by
    ext a
    rw [Finset.mem_union, Finset.mem_filter, Finset.mem_filter, Finset.mem_range, Finset.mem_range, Finset.mem_sdiff, List.mem_toFinset,
      List.mem_toFinset, J.reach_iff S W a, J.next]
    constructor
    · rintro ⟨w, q | q⟩
      · exact .inl ⟨w, q⟩
      · exact .inr q
    · rintro (q | q)
      · exact ⟨q.1, .inl q.2⟩
      · exact ⟨S.lt a q.1, .inr q⟩
  have hdis : Disjoint ((Finset.range h.next).filter (Reach h t.roots)) ((inner ++ leaves).toFinset \ roots.toFinset) := by
    rw [Finset.disjoint_left]
    intro a w q
    rw [Finset.mem_sdiff, List.mem_toFinset] at q
    exact S.disjoint hL (Finset.mem_filter.1 w).2 q.1
  let F : Addr → Int := fun a => fee cfg (h.get a).value (h.get a).children.length (h.get a).expands
  have hleaf : ∀ a ∈ leaves, F a = 0 := fun a ha => by
    show fee _ _ _ _ = 0
    rw [S.forest.leaf a ha, hT.2 a ha]
    rfl
  have hinner : (inner.map F).sum = cost := by
    obtain ⟨cs, h1, h2⟩ := D
    rw [← h2]
    congr 1
    have hfan : ∀ a ∈ inner, 2 ≤ (h.get a).children.length ∧ (h.get a).expands =
        if (h.get a).children.length > 3 then [.divide (h.get a).children.length] else [] := fun a ha => ⟨(S.forest.fan a ha).1, hT.1 a ha⟩
    clear * - h1 hfan
    induction inner generalizing cs with
    | nil => cases cs with
      | nil => rfl
      | cons c cs => simp at h1
    | cons a l ih => cases cs with
      | nil => simp at h1
      | cons c cs =>
        rw [List.map_cons, List.map_cons, List.cons.injEq] at h1
        rw [List.map_cons, ih cs h1.2 fun b hb => hfan b (by simp [hb])]
        congr 1
        show fee _ _ _ _ = c
        rw [(hfan a (by simp)).2]
        exact fee_divide (hfan a (by simp)).1 h1.1
  have hsrc : ∀ p ∈ t.sources.zip roots, due cfg h1 p.1 - due cfg h p.1 = F p.2 := fun p hp => by
    obtain ⟨p1, p2, p3⟩ := S.pair W hp
    have h2 := (W.leaves p.1).1 p1
    obtain ⟨-, es, e1, e2⟩ := H p.1 h2.1
    rw [h2.2] at e1
    have hes := e1.nil
    subst hes
    have q : (h1.get p.1).expands = mergeTag (h.get p.1).parents.length ++ if 3 < (h.get p.2).children.length then [.divide (h.get p.2).children.length] else [] := by
      rw [J.source p.1 p.2 hp]
      show (h.get p.1).expands ++ (if 3 < ((h.get p.1).children ++ (h.get p.2).children).length then _ else _) = _
      rw [e2, h2.2, List.append_nil, List.nil_append]
    unfold due
    rw [J.treeUp p.1 h2.1, J.value, J.sourceKids p.1 p.2 hp, q, fee_tag, e2, fee_tag, h2.2, p3]
    have h0 : fee cfg (h.get p.2).value ([] : List Addr).length [] = 0 := rfl
    rw [h0, zero_add, add_sub_cancel_right]
    show _ = fee _ _ _ _
    rcases List.mem_append.1 (S.root_mem p2) with hi | hl
    · rw [hT.1 p.2 hi]
    · rw [hT.2 p.2 hl, S.forest.leaf p.2 hl]
      rfl
  have hold : ∀ a ∈ (Finset.range h.next).filter (Reach h t.roots), due cfg h1 a =
      due cfg h a + if a ∈ t.sources then due cfg h1 a - due cfg h a else 0 := fun a ha => by
    by_cases hs : a ∈ t.sources
    · rw [if_pos hs]
      ring
    · rw [if_neg hs, add_zero]
      unfold due
      rw [J.tree a (Finset.mem_filter.1 ha).2 hs]
  have hsum : ∑ a ∈ (Finset.range h.next).filter (Reach h t.roots), (if a ∈ t.sources then due cfg h1 a - due cfg h a else 0) = (roots.map F).sum := by
    rw [← Finset.sum_filter]
    have : ((Finset.range h.next).filter (Reach h t.roots)).filter (· ∈ t.sources) = t.sources.toFinset := by
      ext a
      rw [Finset.mem_filter, Finset.mem_filter, Finset.mem_range, List.mem_toFinset]
      exact ⟨fun w => w.2, fun w => ⟨⟨S.good.lt a ((W.leaves a).1 w).1, ((W.leaves a).1 w).1⟩, w⟩⟩
    rw [this, List.sum_toFinset _ W.distinct]
    conv_lhs => rw [← hfst, List.map_map]
    conv_rhs => rw [← hsnd, List.map_map]
    congr 1
    exact List.map_congr_left hsrc
  have hnew : ∀ a ∈ (inner ++ leaves).toFinset \ roots.toFinset, due cfg h1 a = F a := fun a ha => by
    rw [Finset.mem_sdiff, List.mem_toFinset, List.mem_toFinset] at ha
    obtain ⟨w1, w2⟩ := J.hangs S W ha.1 ha.2
    unfold due
    rw [w1, w2, J.value, J.forestKids a ha.1]
    exact add_zero _
  have hrest : ∑ a ∈ (inner ++ leaves).toFinset \ roots.toFinset, F a + (roots.map F).sum = cost := by
    rw [← List.sum_toFinset _ S.rootsNodup, Finset.sum_sdiff, List.sum_toFinset _ S.forest.distinct, List.map_append, List.sum_append, hinner,
      List.sum_eq_zero, add_zero]
    · intro x hx
      obtain ⟨a, ha, rfl⟩ := List.mem_map.1 hx
      exact hleaf a ha
    · intro a ha
      rw [List.mem_toFinset] at ha ⊢
      exact S.root_mem ha
  unfold Solver.dues
  rw [hset, Finset.sum_union hdis, Finset.sum_congr rfl hold, Finset.sum_add_distrib, hsum, Finset.sum_congr rfl hnew, ← hrest]
  ring

open Classical in
theorem dues_relevel {h' : Heap Int} {rs : List Addr} (hn : h'.next = h.next) (hsame : ∀ a, h'.get a = { h.get a with level := (h'.get a).level }) :
    dues cfg h' rs = dues cfg h rs := by
  have hc : ∀ a, (h'.get a).children = (h.get a).children := fun a => by rw [hsame a]
  unfold dues
  rw [hn, funext fun a => propext (reach_of_children hc (rs := rs) (a := a))]
  refine Finset.sum_congr rfl fun a _ => ?_
  unfold due
  rw [hsame a]

end

end Satis.Solver
