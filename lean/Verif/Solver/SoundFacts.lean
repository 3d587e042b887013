import Verif.Graph.PlainSpec
import Verif.Solver.AttachFacts
import Verif.Solver.Facts
import Verif.Solver.Jobs
/-!
# Solutions, also with the grouped targets attached, are sound networks
-/

namespace Satis.Solver
open Satis Satis.Graph

/-- Trees and merges. -/
structure Shaped (h : Heap Int) (roots : List Addr) : Prop where
  tree : ∀ a, Reach h roots a → 2 ≤ (h.get a).children.length → ∀ c ∈ (h.get a).children, (h.get c).parents = [a]
  merge : ∀ a, Reach h roots a → a ∉ roots → (∃ p, (h.get a).parents = [p] ∧ 2 ≤ (h.get p).children.length) ∨
    (h.get a).parents.Nodup ∧ (∀ p ∈ (h.get a).parents, (h.get p).children = [a]) ∧
      (h.get a).value = ((h.get a).parents.map fun p => (h.get p).value).sum

/-- Every node has its job. -/
def TypedH (cfg : Config) (h : Heap Int) (U : Addr → Prop) : Prop :=
  ∀ a, U a → (h.get a).children.Nodup ∧ ∃ es, NJob cfg (h.get a).value ((h.get a).children.map fun c => (h.get c).value) es ∧
    (h.get a).expands = mergeTag (h.get a).parents.length ++ es

section
variable {cfg : Config} {h : Heap Int} {t : TreeObj Int} {g : Net} {loc : Nat → Addr}

theorem Rep.typed (hr : Rep h t g loc) (hg : g.WF) (ht : g.Typed cfg) : TypedH cfg h (Reach h t.roots) := by
  intro a ha
  obtain ⟨i, hi, rfl⟩ := (hr.reach_iff hg a).1 ha
  obtain ⟨h1, es, h2, h3⟩ := ht i hi
  have hk := hr.nodes.kids i hi
  refine ⟨hk.nodup_iff.2 (h1.map_on fun x hx y hy e => hr.nodes.loc_inj (hg.kidLt i x hi hx).2 (hg.kidLt i y hi hy).2 e), es, ?_, ?_⟩
  · rw [hr.nodes.value i hi]
    refine h2.perm ((hk.map _).trans (List.Perm.of_eq ?_))
    rw [List.map_map]
    exact List.map_congr_left fun k hk => hr.nodes.value k (hg.kidLt i k hi hk).2
  · rw [hr.nodes.expands i hi, h3, (hr.nodes.pars i hi).length_eq, List.length_map]

theorem Net.WF.pars_nodup (hg : g.WF) {m : Nat} (hm : m < g.n) (hk : ∀ p ∈ (g.node m).pars, (g.node p).kids = [m]) :
    (g.node m).pars.Nodup := by
  rw [List.nodup_iff_count_le_one]
  intro p
  by_cases hp : p ∈ (g.node m).pars
  · have := hg.parLt m p hm hp
    rw [← hg.cons p m (by omega) hm, hk p hp]
    simp
  · rw [List.count_eq_zero_of_not_mem hp]
    omega

theorem Rep.shaped (hr : Rep h t g loc) (hg : g.WF) : Shaped h t.roots := by
  constructor
  · intro a ha hl c hc
    obtain ⟨i, hi, rfl⟩ := (hr.reach_iff hg a).1 ha
    obtain ⟨j, hj, hjn, rfl⟩ := hr.mem_children hg hi hc
    have hlen := (hr.nodes.kids i hi).length_eq
    rw [List.length_map] at hlen
    have hp := hr.nodes.pars j hjn
    rcases hg.flow i hi (fun e => by rw [e] at hj; simp at hj) with h1 | ⟨m, h1, -⟩
    · rw [h1.1 j hj] at hp
      exact List.perm_singleton.1 hp
    · rw [h1] at hlen
      simp at hlen
      omega
  · intro a ha har
    obtain ⟨j, hj, rfl⟩ := (hr.reach_iff hg a).1 ha
    have hjr : g.nRoots ≤ j := by
      by_contra hlt
      exact har (by rw [hr.roots]; exact List.mem_map_of_mem (List.mem_range.2 (by omega)))
    obtain ⟨p, hp, hpj, hk, -⟩ := hg.parent hj hjr
    have hpn : p < g.n := by omega
    have hpp := hr.nodes.pars j hj
    have right : (∀ q ∈ (g.node j).pars, (g.node q).kids = [j]) → ((g.node j).pars.map fun q => (g.node q).value).sum = (g.node j).value →
        (h.get (loc j)).parents.Nodup ∧ (∀ p ∈ (h.get (loc j)).parents, (h.get p).children = [loc j]) ∧
          (h.get (loc j)).value = ((h.get (loc j)).parents.map fun p => (h.get p).value).sum := by
      intro q1 q2
      have hlt : ∀ x ∈ (g.node j).pars, x < g.n := fun x hx => by
        have := hg.parLt j x hj hx
        omega
      refine ⟨hpp.nodup_iff.2 ((hg.pars_nodup hj q1).map_on fun x hx y hy e => hr.nodes.loc_inj (hlt x hx) (hlt y hy) e), ?_, ?_⟩
      · intro q hq
        rw [hpp.mem_iff] at hq
        obtain ⟨x, hx, rfl⟩ := List.mem_map.1 hq
        have := hr.nodes.kids x (hlt x hx)
        rw [q1 x hx] at this
        exact List.perm_singleton.1 this
      · rw [(hpp.map _).sum_eq, List.map_map, hr.nodes.value j hj, ← q2]
        congr 1
        exact (List.map_congr_left fun x hx => hr.nodes.value x (hlt x hx)).symm
    rcases hg.flow p hpn (fun e => by rw [e] at hk; simp at hk) with ⟨h1, h2⟩ | ⟨m, h1, h2, h3⟩
    · rw [h1 j hk] at hpp
      by_cases hl : 2 ≤ (g.node p).kids.length
      · left
        refine ⟨loc p, List.perm_singleton.1 hpp, ?_⟩
        rw [(hr.nodes.kids p hpn).length_eq, List.length_map]
        exact hl
      · right
        have hone : (g.node p).kids = [j] := by
          obtain ⟨x, hx⟩ : ∃ x, (g.node p).kids = [x] := by
            apply List.length_eq_one_iff.1
            have := List.length_pos_of_mem hk
            omega
          rw [hx] at hk
          rw [hx, List.mem_singleton.1 hk]
        refine right (fun q hq => ?_) ?_
        · rw [h1 j hk] at hq
          rw [List.mem_singleton.1 hq, hone]
        · rw [hone] at h2
          rw [h1 j hk]
          simpa using h2.symm
    · right
      have : j = m := by
        rw [h1] at hk
        exact List.mem_singleton.1 hk
      subst this
      exact right h2 h3

end

theorem reach_toRat {h : Heap Int} {roots : List Addr} {a : Addr} : Reach h.toRat roots a ↔ Reach h roots a := by
  constructor
  · intro H
    induction H with
    | root hm => exact .root hm
    | child _ hc ih => exact ih.child hc
  · intro H
    induction H with
    | root hm => exact .root hm
    | child _ hc ih => exact .child ih hc

/-- A pending expansion, read as rational. -/
def ratExpand : Expand Int → Expand ℚ
  | .extract c => .extract c
  | .divide d => .divide d
  | .merge t => .merge t
  | .split c => .split c

theorem toRat_expands (o : NodeObj Int) : o.toRat.expands = o.expands.map ratExpand := by
  unfold NodeObj.toRat
  apply List.map_congr_left
  intro e _
  cases e <;> rfl

theorem perm_two {α : Type} {l : List α} {a b : α} (h : l.Perm [a, b]) : l = [a, b] ∨ l = [b, a] := by
  obtain ⟨x, y, rfl⟩ := List.length_eq_two.1 h.length_eq
  have hx : x = a ∨ x = b := by simpa using h.subset (by simp : x ∈ [x, y])
  rcases hx with rfl | rfl
  · have := (List.perm_cons x).1 h
    rw [List.singleton_perm_singleton] at this
    exact .inl (by rw [this])
  · have := h.trans (List.Perm.swap x a [])
    have := (List.perm_cons x).1 this
    rw [List.singleton_perm_singleton] at this
    exact .inr (by rw [this])

/-- A job in the heap of the search, read as rational. -/
theorem NJob.job {cfg : Config} {h : Heap Int} {a : Addr} {es : List (Expand Int)}
    (H : NJob cfg (h.get a).value ((h.get a).children.map fun c => (h.get c).value) es) (hpos : 0 < (h.get a).value) (hnd : (h.get a).children.Nodup)
    (ha : a < h.next) (hlt : ∀ c ∈ (h.get a).children, c < h.next) (hne : ∀ c ∈ (h.get a).children, c ≠ a) :
    Job cfg.speeds h.toRat a (es.map ratExpand) ∨ ∃ c : Int, es.map ratExpand = [.split (c : ℚ)] ∧ (h.toRat.get a).children.Nodup ∧
      ((h.toRat.get a).children.map fun x => (h.toRat.get x).value).Perm
        [((c / 3 : Int) : ℚ), ((c / 3 : Int) : ℚ), (h.toRat.get a).value - 2 * ((c / 3 : Int) : ℚ)] := by
  have hv : ∀ x, (h.toRat.get x).value = (((h.get x).value : Int) : ℚ) := fun _ => rfl
  have hc : (h.toRat.get a).children = (h.get a).children := rfl
  generalize e : ((h.get a).children.map fun c => (h.get c).value) = vs at H
  cases H with
  | leaf =>
    left
    exact .leaf (by rw [hc]; simpa using e)
  | pass w =>
    left
    obtain ⟨x, hx⟩ : ∃ x, (h.get a).children = [x] := by
      apply List.length_eq_one_iff.1
      simpa using congrArg List.length e
    exact .pass x (by rw [hc, hx])
  | share d q h2 hq =>
    left
    have hlen : (h.get a).children.length = d := by simpa using congrArg List.length e
    have hall : ∀ c ∈ (h.get a).children, (h.get c).value = q := fun c hm => by
      have : (h.get c).value ∈ List.replicate d q := by
        rw [← e]
        exact List.mem_map_of_mem hm
      exact List.eq_of_mem_replicate this
    have hsh : ∀ c ∈ (h.toRat.get a).children, (h.toRat.get c).value = (h.toRat.get a).value / (d : ℚ) := fun c hm => by
      have hd : (d : ℚ) ≠ 0 := by
        have : d ≠ 0 := by omega
        exact_mod_cast this
      rw [hv, hv, eq_div_iff hd, hall c hm, ← hq]
      push_cast
      ring
    by_cases h3 : d > 3
    · rw [if_pos h3]
      exact .divide d ⟨ha, by rw [hv]; exact_mod_cast hpos.le, h2, hlen, hnd, hlt, hne, hsh⟩
    · rw [if_neg h3]
      refine .few (by rw [hc, hlen]; omega) ?_
      rw [hc, hlen]
      exact hsh
  | cut c _ hp h0 h1 =>
    left
    have h2 := perm_two hp
    obtain ⟨x, y, hxy⟩ : ∃ x y, (h.get a).children = [x, y] := by
      apply List.length_eq_two.1
      rw [← List.length_map (f := fun c => (h.get c).value), e, hp.length_eq]
      rfl
    rw [← e, hxy] at h2
    simp only [List.map_cons, List.map_nil, List.cons.injEq, and_true] at h2
    rw [hxy] at hnd hlt hne
    by_cases hs : isSpeed cfg c = true
    · rw [if_pos hs]
      have hs' : ∃ s ∈ cfg.speeds, (s : Int) = c := by
        unfold isSpeed at hs
        simpa using hs
      obtain ⟨s, hs1, hs2⟩ := hs'
      refine .belt x y (by rw [hc, hxy]) ?_ ⟨s, hs1, ?_⟩
      · rw [hv, hv, hv, ← Int.cast_add]
        congr 1
        omega
      · rw [hv, hv]
        rcases h2 with ⟨h2, -⟩ | ⟨-, h2⟩
        · left
          rw [h2, ← hs2]
          norm_cast
        · right
          rw [h2, ← hs2]
          norm_cast
    · rw [if_neg hs]
      obtain ⟨v, hv'⟩ := Int.eq_ofNat_of_zero_le hpos.le
      obtain ⟨k, hk⟩ := Int.eq_ofNat_of_zero_le h0.le
      have : ([Expand.extract c].map ratExpand : List (Expand ℚ)) = [.extract (k : ℚ)] := by
        show [Expand.extract (c : ℚ)] = _
        rw [hk]
        norm_cast
      rw [this]
      refine .extract v k x y ⟨ha, ?_, ?_, ?_, ?_, ⟨hlt x (by simp), hne x (by simp)⟩, ⟨hlt y (by simp), hne y (by simp)⟩, ?_, ?_⟩
      · rw [hv, hv']
        norm_cast
      · omega
      · omega
      · rw [hc, hxy]
      · simp at hnd
        exact hnd
      · rw [hv, hv]
        rcases h2 with ⟨h2, h3⟩ | ⟨h2, h3⟩
        · left
          rw [h2, h3, hv', hk]
          push_cast
          exact ⟨rfl, rfl⟩
        · right
          rw [h2, h3, hv', hk]
          push_cast
          exact ⟨rfl, rfl⟩
  | split c _ hp =>
    right
    refine ⟨c, rfl, hnd, ?_⟩
    have := (hp.map fun z : Int => (z : ℚ))
    rw [← e, List.map_map] at this
    refine List.Perm.trans (List.Perm.of_eq ?_) (this.trans (List.Perm.of_eq ?_))
    · rfl
    · simp only [List.map_cons, List.map_nil, hv]
      push_cast
      rw [mul_comm]

/-- The facts that make a network of the search sound. -/
theorem sound_of {cfg : Config} {h : Heap Int} {t : TreeObj Int} {values : List Int} {total : Int} (hR : Region h.toRat (Reach h t.roots))
    (F : FlowGraph h t values) (L : Layered h t) (W : WellFormed h t total) (S : Shaped h t.roots) (T : TypedH cfg h (Reach h t.roots)) :
    Sound cfg.speeds h.toRat t.roots := by
  have hre : Reach h.toRat t.roots = Reach h t.roots := by
    funext a
    exact propext reach_toRat
  have hnot : ∀ a, Reach h t.roots a → a ∉ (h.get a).children := fun a ha hm => L.acyclic a a ha hm (.root (by simp))
  have hv : ∀ x, (h.toRat.get x).value = (((h.get x).value : Int) : ℚ) := fun _ => rfl
  constructor
  · rw [hre]
    exact hR
  · intro a ha
    obtain ⟨l, h1, -⟩ := L.range a (reach_toRat.1 ha)
    show (h.get a).level ≠ none
    rw [h1]
    simp
  · intro a ha
    rw [hv]
    exact_mod_cast W.positive a (reach_toRat.1 ha)
  · exact fun a ha c hc => L.edge a c (reach_toRat.1 ha) hc
  · intro r hr
    exact (F.inputs r (.root hr)).2 hr
  · intro a b ha hb
    exact F.links a b (reach_toRat.1 ha) (reach_toRat.1 hb)
  · intro a ha
    exact S.tree a (reach_toRat.1 ha)
  · intro a ha hr
    have ha := reach_toRat.1 ha
    rcases S.merge a ha hr with h1 | ⟨h1, h2, h3⟩
    · exact .inl h1
    · refine .inr ⟨h1, fun p hp => ?_, ?_⟩
      · have hp : p ∈ (h.get a).parents := hp
        have hpr := F.closed a ha p hp
        refine ⟨?_, h2 p hp, ?_⟩
        · rintro rfl
          exact hnot p ha (by rw [h2 p hp]; simp)
        · rw [hv]
          exact_mod_cast W.positive p hpr
      · rw [hv, h3]
        have : ((h.toRat.get a).parents.map fun p => (h.toRat.get p).value) = ((h.get a).parents.map fun p => (h.get p).value).map fun z : Int => (z : ℚ) := by
          rw [List.map_map]
          rfl
        rw [this]
        exact map_list_sum (Int.castRingHom ℚ) _
  · intro a ha
    have ha := reach_toRat.1 ha
    obtain ⟨h1, es, h2, h3⟩ := T a ha
    refine ⟨es.map ratExpand, h2.job (W.positive a ha) h1 (hR.inside a ha) (fun c hc => hR.inside c (ha.child hc)) (fun c hc => ?_), ?_⟩
    · rintro rfl
      exact hnot c ha hc
    · show (h.get a).toRat.expands = _
      rw [toRat_expands, h3, List.map_append]
      congr 1
      unfold mergeTag
      show _ = if 3 < (h.get a).parents.length then _ else _
      split <;> rfl

section
variable {cfg : Config} {h h1 : Heap Int} {t : TreeObj Int} {roots inner leaves : List Addr} {total : Int} {values : List Int}

/-- Trees and merges after the targets are attached. -/
theorem Joint.shaped (J : Joint h t roots inner leaves h1) (S : Separate h t roots inner leaves) (W : WellFormed h t total)
    (F : FlowGraph h t values) (H : Shaped h t.roots) : Shaped h1 t.roots := by
  have hpo := S.pair_of W
  have hU := J.spreads S W
  have hdown : ∀ a, Reach h t.roots a → ∀ p ∈ (h.get a).parents, h1.get p = h.get p ∧ Reach h t.roots p := by
    intro a ha p hp
    have hpr := F.closed a ha p hp
    refine ⟨J.tree p hpr fun hs => ?_, hpr⟩
    have := F.links p a hpr ha
    rw [((W.leaves p).1 hs).2] at this
    have q := List.count_pos_iff.2 hp
    rw [← this] at q
    simp at q
  constructor
  · intro a ha hl c hc
    rcases (J.reach_iff S W a).1 ha with h2 | h2
    · by_cases hs : a ∈ t.sources
      · exact hU.parent a (.inl hs) c hc
      · rw [J.tree a h2 hs] at hl hc
        rw [J.treeUp c (h2.child hc)]
        exact H.tree a h2 hl c hc
    · exact hU.parent a (.inr h2) c hc
  · intro a ha hr
    rcases (J.reach_iff S W a).1 ha with h2 | ⟨h2, h3⟩
    · rw [J.treeUp a h2, J.value]
      have hd := hdown a h2
      rcases H.merge a h2 hr with ⟨p, h4, h5⟩ | ⟨h4, h5, h6⟩
      · left
        refine ⟨p, h4, ?_⟩
        rw [(hd p (by rw [h4]; simp)).1]
        exact h5
      · right
        refine ⟨h4, fun p hp => ?_, ?_⟩
        · rw [(hd p hp).1]
          exact h5 p hp
        · rw [h6]
          congr 1
          exact List.map_congr_left fun p _ => (J.value p).symm
    · left
      have : Reach h roots a := (S.forest.nodes a).2 h2
      cases this with
      | root hm => exact absurd hm h3
      | @child p _ hpr hm =>
        have hp := (S.forest.nodes p).1 hpr
        have hi := (S.kid hp hm).1
        by_cases hpt : p ∈ roots
        · obtain ⟨x, hx⟩ := hpo.2 p hpt
          refine ⟨x, by rw [J.hung x p a hx hm], ?_⟩
          rw [J.sourceKids x p hx]
          exact (S.forest.fan p hi).1
        · refine ⟨p, hU.parent p (.inr ⟨hp, hpt⟩) a (by rw [J.forestKids p hp]; exact hm), ?_⟩
          rw [J.forestKids p hp]
          exact (S.forest.fan p hi).1

/-- The values of the children of an inner node of the forest. -/
theorem Separate.kidValues (S : Separate h t roots inner leaves) {r : Addr} (hi : r ∈ inner) :
    ∃ q, ((h.get r).children.map fun c => (h.get c).value) = List.replicate (h.get r).children.length q ∧
      ((h.get r).children.length : Int) * q = (h.get r).value := by
  obtain ⟨c0, hc0⟩ := List.exists_mem_of_length_pos (by have := (S.forest.fan r hi).1; omega : 0 < (h.get r).children.length)
  refine ⟨(h.get c0).value, ?_, (S.forest.equal r hi c0 hc0).symm⟩
  rw [List.eq_replicate_iff]
  refine ⟨by simp, fun b hb => ?_⟩
  obtain ⟨c, hc, rfl⟩ := List.mem_map.1 hb
  have e := S.forest.equal r hi c hc
  rw [S.forest.equal r hi c0 hc0] at e
  have : ((h.get r).children.length : Int) ≠ 0 := by
    have := (S.forest.fan r hi).1
    omega
  exact (mul_left_cancel₀ this e).symm

/-- The jobs after the targets are attached. -/
theorem Joint.typed (J : Joint h t roots inner leaves h1) (S : Separate h t roots inner leaves) (W : WellFormed h t total)
    (hL : Layered h t) (hT : Tagged h inner leaves) (H : TypedH cfg h (Reach h t.roots)) : TypedH cfg h1 (Reach h1 t.roots) := by
  have hpo := S.pair_of W
  have hU := J.spreads S W
  have hmap : ∀ l : List Addr, (l.map fun c => (h1.get c).value) = l.map fun c => (h.get c).value :=
    fun l => List.map_congr_left (fun c _ => J.value c)
  have hx : ∀ a, a ∈ inner ++ leaves → a ∉ roots → (h1.get a).expands = (h.get a).expands ∧ (h1.get a).parents.length = 1 := by
    intro a ha hr
    have : Reach h roots a := (S.forest.nodes a).2 ha
    cases this with
    | root hm => exact absurd hm hr
    | @child p _ hpr hm =>
      have hp := (S.forest.nodes p).1 hpr
      by_cases hpt : p ∈ roots
      · obtain ⟨x, hx⟩ := hpo.2 p hpt
        rw [J.hung x p a hx hm]
        exact ⟨rfl, rfl⟩
      · obtain ⟨-, k1, k2, k3⟩ := S.kid hp hm
        rw [J.inside a k1 k3, k2]
        · exact ⟨rfl, rfl⟩
        · intro r hr' hm'
          have := (S.kid (S.root_mem hr') hm').2.2.1
          rw [k2] at this
          simp at this
          exact hpt (this ▸ hr')
  intro a ha
  rcases (J.reach_iff S W a).1 ha with h2 | ⟨h2, h3⟩
  · by_cases hs : a ∈ t.sources
    · obtain ⟨r, hr⟩ := hpo.1 a hs
      obtain ⟨p1, p2, p3⟩ := S.pair W hr
      obtain ⟨-, es, e1, e2⟩ := H a h2
      have hk0 := ((W.leaves a).1 hs).2
      rw [hk0] at e1
      have hes := e1.nil
      subst hes
      refine ⟨hU.nodup a (.inl hs), if 3 < (h.get r).children.length then [.divide (h.get r).children.length] else [], ?_, ?_⟩
      · rw [J.sourceKids a r hr, hmap, J.value, p3]
        rcases List.mem_append.1 (S.root_mem p2) with hi | hl
        · obtain ⟨q, q1, q2⟩ := S.kidValues hi
          rw [q1]
          exact .share _ q (S.forest.fan r hi).1 q2
        · rw [S.forest.leaf r hl]
          exact .leaf
      · rw [J.source a r hr]
        show (h.get a).expands ++ (if 3 < ((h.get a).children ++ (h.get r).children).length then _ else _) = mergeTag (h.get a).parents.length ++ _
        rw [e2, hk0, List.append_nil, List.nil_append]
    · rw [J.tree a h2 hs]
      obtain ⟨e0, es, e1, e2⟩ := H a h2
      refine ⟨e0, es, ?_, e2⟩
      rw [hmap]
      exact e1
  · obtain ⟨w1, w2⟩ := hx a h2 h3
    refine ⟨hU.nodup a (.inr ⟨h2, h3⟩), (h.get a).expands, ?_, by rw [w1, w2]; rfl⟩
    rw [J.forestKids a h2, hmap, J.value]
    rcases List.mem_append.1 h2 with hi | hl
    · obtain ⟨q, q1, q2⟩ := S.kidValues hi
      rw [q1, hT.1 a hi]
      exact .share _ q (S.forest.fan a hi).1 q2
    · rw [S.forest.leaf a hl, hT.2 a hl]
      exact .leaf

theorem Shaped.relevel {h' : Heap Int} {rs : List Addr} (H : Shaped h rs) (hsame : ∀ a, h'.get a = { h.get a with level := (h'.get a).level }) :
    Shaped h' rs := by
  have hc : ∀ a, (h'.get a).children = (h.get a).children := fun a => by rw [hsame a]
  have hp : ∀ a, (h'.get a).parents = (h.get a).parents := fun a => by rw [hsame a]
  have hv : ∀ a, (h'.get a).value = (h.get a).value := fun a => by rw [hsame a]
  constructor
  · intro a ha
    rw [reach_of_children hc] at ha
    simp only [hc, hp]
    exact H.tree a ha
  · intro a ha
    rw [reach_of_children hc] at ha
    simp only [hc, hp, hv]
    exact H.merge a ha

theorem TypedH.relevel {h' : Heap Int} {rs : List Addr} (H : TypedH cfg h (Reach h rs))
    (hsame : ∀ a, h'.get a = { h.get a with level := (h'.get a).level }) : TypedH cfg h' (Reach h' rs) := by
  have hc : ∀ a, (h'.get a).children = (h.get a).children := fun a => by rw [hsame a]
  have hp : ∀ a, (h'.get a).parents = (h.get a).parents := fun a => by rw [hsame a]
  have hv : ∀ a, (h'.get a).value = (h.get a).value := fun a => by rw [hsame a]
  have he : ∀ a, (h'.get a).expands = (h.get a).expands := fun a => by rw [hsame a]
  intro a ha
  rw [reach_of_children hc] at ha
  simp only [hc, hp, hv, he]
  exact H a ha

end

end Satis.Solver
