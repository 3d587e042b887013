import Verif.Graph.Rename
import Verif.Graph.SaveSpec
/-!
# Saving a network at another place in memory
-/

namespace Satis.Graph
open Satis Satis.Cost

section walks
variable {r : Ren} {S : Type} {visit visit' : S → Addr → Py S} {kids : S → Addr → List Addr} {seen : S → Addr → Bool}
  {R : S → S → Prop} {D : S → Addr → Prop}

/-- The steps of the two traversals do the same. -/
structure WalkSim (r : Ren) (visit : S → Addr → Py S) (kids : S → Addr → List Addr) (seen : S → Addr → Bool)
    (R : S → S → Prop) (D : S → Addr → Prop) : Prop where
  kids : ∀ s t a, R s t → D s a → kids t (r.addr a) = (kids s a).map r.addr ∧ ∀ c ∈ kids s a, D s c
  seen : ∀ s t a, R s t → D s a → seen t (r.addr a) = seen s a
  visit : ∀ s t a, R s t → D s a → Rel (fun s' t' => R s' t' ∧ ∀ b, D s b → D s' b) (visit s a) (visit t (r.addr a))

theorem WalkSim.walk (W : WalkSim r visit kids seen R D) : ∀ (fuel : Nat) (s t : S) (stack : List (Addr × Nat)), R s t → (∀ x ∈ stack, D s x.1) →
    Rel (fun s' t' => R s' t' ∧ ∀ b, D s b → D s' b) (walk visit kids seen fuel s stack)
      (walk visit kids seen fuel t (stack.map fun x => (r.addr x.1, x.2))) := by
  intro fuel
  induction fuel with
  | zero =>
    intro s t stack hR hs
    cases stack with
    | nil => exact ⟨hR, fun _ h => h⟩
    | cons x stack => rfl
  | succ fuel ih =>
    intro s t stack hR hs
    cases stack with
    | nil => exact ⟨hR, fun _ h => h⟩
    | cons x stack =>
      obtain ⟨a, i⟩ := x
      have ha : D s a := hs (a, i) (by simp)
      have hs' : ∀ x ∈ stack, D s x.1 := fun x hx => hs x (List.mem_cons_of_mem _ hx)
      obtain ⟨k1, k2⟩ := W.kids s t a hR ha
      rw [List.map_cons, Graph.walk, Graph.walk]
      simp only [k1, List.getElem?_map]
      cases hc : (kids s a)[i]? with
      | none => exact ih s t stack hR hs'
      | some c =>
        have hcD : D s c := k2 c (List.mem_of_getElem? hc)
        simp only [Option.map_some, W.seen s t c hR hcD]
        split
        · refine ih s t ((a, i + 1) :: stack) hR fun x hx => ?_
          rcases List.mem_cons.1 hx with rfl | hx
          · exact ha
          · exact hs' x hx
        · have hv := W.visit s t c hR hcD
          cases h1 : visit s c with
          | error e =>
            rw [h1] at hv
            cases h2 : visit t (r.addr c) with
            | error e' => rw [h2] at hv; exact hv
            | ok t' => rw [h2] at hv; exact hv.elim
          | ok s' =>
            rw [h1] at hv
            cases h2 : visit t (r.addr c) with
            | error e' => rw [h2] at hv; exact hv.elim
            | ok t' =>
              rw [h2] at hv
              obtain ⟨v1, v2⟩ := hv
              refine (ih s' t' ((c, 0) :: (a, i + 1) :: stack) v1 fun x hx => ?_).mono fun u u' hu => ⟨hu.1, fun b hb => hu.2 b (v2 b hb)⟩
              simp only [List.mem_cons] at hx
              rcases hx with rfl | rfl | hx
              · exact v2 _ hcD
              · exact v2 _ ha
              · exact v2 _ (hs' x hx)

theorem WalkSim.walkFrom (W : WalkSim r visit kids seen R D) (fuel : Nat) {s t : S} {a : Addr} (hR : R s t) (ha : D s a) :
    Rel (fun s' t' => R s' t' ∧ ∀ b, D s b → D s' b) (walkFrom visit kids seen fuel s a) (walkFrom visit kids seen fuel t (r.addr a)) := by
  unfold Graph.walkFrom
  rw [W.seen s t a hR ha]
  split
  · exact ⟨hR, fun _ h => h⟩
  · have hv := W.visit s t a hR ha
    cases h1 : visit s a with
    | error e =>
      rw [h1] at hv
      cases h2 : visit t (r.addr a) with
      | error e' => rw [h2] at hv; exact hv
      | ok t' => rw [h2] at hv; exact hv.elim
    | ok s' =>
      rw [h1] at hv
      cases h2 : visit t (r.addr a) with
      | error e' => rw [h2] at hv; exact hv.elim
      | ok t' =>
        rw [h2] at hv
        obtain ⟨v1, v2⟩ := hv
        refine (W.walk fuel s' t' [(a, 0)] v1 fun x hx => ?_).mono fun u u' hu => ⟨hu.1, fun b hb => hu.2 b (v2 b hb)⟩
        rw [List.mem_singleton.1 hx]
        exact v2 a ha

theorem WalkSim.walkAll (W : WalkSim r visit kids seen R D) (fuel : Nat) {s t : S} {roots : List Addr} (hR : R s t) (hr : ∀ a ∈ roots, D s a) :
    Rel (fun s' t' => R s' t' ∧ ∀ b, D s b → D s' b) (walkAll visit kids seen fuel s roots)
      (walkAll visit kids seen fuel t (roots.map r.addr)) := by
  unfold Graph.walkAll
  refine Rel.foldlM (R := fun s' t' => R s' t' ∧ ∀ b, D s b → D s' b) (forall₂_map r.addr (D s) roots hr) ?_ s t ⟨hR, fun _ h => h⟩
  rintro s' t' x _ ⟨h1, h2⟩ ⟨rfl, hx⟩
  exact (W.walkFrom fuel h1 (h2 x hx)).mono fun u u' hu => ⟨hu.1, fun b hb => hu.2 b (h2 b hb)⟩

end walks

section
variable {r : Ren} {h g : Heap ℚ}

/-- The heaps and the sets of nodes seen. -/
def MarkSim (r : Ren) (s t : Marked ℚ) : Prop := Sim r s.1 t.1 ∧ t.2 = s.2.map r.uid

theorem MarkSim.seen {s t : Marked ℚ} (M : MarkSim r s t) {a : Addr} (ha : r.Dom s.1 a) : t.seen (r.addr a) = s.seen a := by
  unfold Marked.seen
  rw [M.1.get a ha, M.2, decide_eq_decide]
  show r.uid (s.1.get a).id ∈ _ ↔ _
  rw [List.mem_map]
  exact ⟨fun ⟨x, hx, e⟩ => r.uid_inj e ▸ hx, fun hx => ⟨_, hx, rfl⟩⟩

theorem MarkSim.kids {s t : Marked ℚ} (M : MarkSim r s t) {a : Addr} (ha : r.Dom s.1 a) :
    t.kids (r.addr a) = (s.kids a).map r.addr ∧ ∀ c ∈ s.kids a, r.Dom s.1 c := by
  unfold Marked.kids
  rw [M.1.get a ha]
  exact ⟨rfl, M.1.children a ha⟩

theorem MarkSim.add {s t : Marked ℚ} (M : MarkSim r s t) {a : Addr} (ha : r.Dom s.1 a) : MarkSim r (s.add a) (t.add (r.addr a)) := by
  refine ⟨M.1, ?_⟩
  unfold Marked.add
  rw [M.1.get a ha, M.2]
  simp [Ren.obj]

theorem MarkSim.modify {s t : Marked ℚ} (M : MarkSim r s t) {a : Addr} (ha : r.Dom s.1 a) {f : NodeObj ℚ → NodeObj ℚ}
    (hf : f (r.obj (s.1.get a)) = r.obj (f (s.1.get a))) (hc : (f (s.1.get a)).children = (s.1.get a).children)
    (hp : (f (s.1.get a)).parents = (s.1.get a).parents) :
    MarkSim r (s.1.modify a f, s.2 ++ [(s.1.get a).id]) (t.1.modify (r.addr a) f, t.2 ++ [(t.1.get (r.addr a)).id]) := by
  refine ⟨M.1.modify ha hf (by rw [hc]; exact M.1.children a ha) (by rw [hp]; exact M.1.parents a ha), ?_⟩
  rw [M.1.get a ha, M.2]
  simp [Ren.obj]

theorem min_walk : WalkSim r minLevelVisit (fun s a => (s.2.1.get a).children) (fun s a => s.2.seen a)
    (fun s t => t.1 = s.1 ∧ MarkSim r s.2 t.2) (fun s : Int × Marked ℚ => r.Dom s.2.1) where
  kids s t a hR ha := hR.2.kids ha
  seen s t a hR ha := hR.2.seen ha
  visit s t a hR ha := by
    have hl : (t.2.1.get (r.addr a)).level = (s.2.1.get a).level := by rw [hR.2.1.get a ha]; rfl
    unfold minLevelVisit
    rw [hl, hR.1]
    cases (s.2.1.get a).level with
    | none => rfl
    | some l => exact ⟨⟨rfl, hR.2.add ha⟩, fun _ h => h⟩

theorem Sim.minLevelAfterZero (S : Sim r h g) (fuel : Nat) {roots : List Addr} (hr : ∀ a ∈ roots, r.Dom h a) :
    Rel (fun a b => a = b) (minLevelAfterZero fuel h roots) (minLevelAfterZero fuel g (roots.map r.addr)) := by
  unfold Graph.minLevelAfterZero
  have e : ((roots.map r.addr).flatMap fun a => (g.get a).children) = (roots.flatMap fun a => (h.get a).children).map r.addr := by
    rw [List.flatMap_map, List.map_flatMap]
    exact List.flatMap_congr fun a ha => by rw [S.get a (hr a ha)]; rfl
  rw [e]
  refine ((min_walk (r := r)).walkAll fuel (s := ((2 : Int) ^ 32, (h, []))) (t := ((2 : Int) ^ 32, (g, []))) ⟨rfl, S, rfl⟩ ?_).bind ?_
  · intro a ha
    obtain ⟨x, hx, ha⟩ := List.mem_flatMap.1 ha
    exact S.children x (hr x hx) a ha
  · rintro s t ⟨⟨q, -⟩, -⟩
    exact q.symm

theorem expand_walk (cfg : Config) (fuel : Nat) : WalkSim r (expandVisit cfg fuel) (fun s a => s.1.kids a) (fun s a => s.1.seen a)
    (fun s t => MarkSim r s.1 t.1 ∧ t.2 = s.2) (fun s : Marked ℚ × List (Int × Int) => r.Dom s.1.1) where
  kids s t a hR ha := hR.1.kids ha
  seen s t a hR ha := hR.1.seen ha
  visit s t a hR ha := by
    unfold expandVisit
    refine (Sim.runExpands cfg fuel _ _ hR.1.1 ha).bind ?_
    rintro ⟨h₁, us⟩ ⟨g₁, _⟩ ⟨S1, n1, e1⟩
    simp only at S1 n1 e1
    subst e1
    refine ⟨⟨⟨S1, ?_⟩, ?_⟩, fun b hb => hb.mono n1⟩
    · simp only [hR.1.2, hR.1.1.get a ha, List.map_append, List.map_cons, List.map_nil]
      rfl
    · simp only [hR.2]

theorem Sim.expandAll (cfg : Config) (S : Sim r h g) (fuel : Nat) {roots : List Addr} (hr : ∀ a ∈ roots, r.Dom h a) (us : List (Int × Int)) :
    Rel (fun x y => Sim r x.1 y.1 ∧ (∀ b, r.Dom h b → r.Dom x.1 b) ∧ y.2 = x.2) (expandAll cfg fuel h roots us)
      (expandAll cfg fuel g (roots.map r.addr) us) := by
  unfold Graph.expandAll
  refine ((expand_walk cfg fuel (r := r)).walkAll fuel (s := ((h, []), us)) (t := ((g, []), us)) ⟨⟨S, rfl⟩, rfl⟩ hr).bind ?_
  rintro s t ⟨⟨q1, q2⟩, q3⟩
  exact ⟨q1.1, q3, q2⟩

theorem tag_walk (th am : Int) : WalkSim r (tagVisit th am) Marked.kids Marked.seen (MarkSim r) (fun s : Marked ℚ => r.Dom s.1) where
  kids s t a hR ha := hR.kids ha
  seen s t a hR ha := hR.seen ha
  visit s t a hR ha := by
    have hl : (t.1.get (r.addr a)).level = (s.1.get a).level := by rw [hR.1.get a ha]; rfl
    unfold tagVisit
    rw [hl]
    cases (s.1.get a).level with
    | none => rfl
    | some l =>
      by_cases hq : l ≥ th
      · simp only [hq, if_true]
        exact ⟨hR.modify ha rfl rfl rfl, fun b hb => hb⟩
      · simp only [hq, if_false]
        exact ⟨hR.add ha, fun b hb => hb⟩

theorem apply_walk : WalkSim r applyVisit Marked.kids Marked.seen (MarkSim r) (fun s : Marked ℚ => r.Dom s.1) where
  kids s t a hR ha := hR.kids ha
  seen s t a hR ha := hR.seen ha
  visit s t a hR ha := by
    have hl : (t.1.get (r.addr a)).level = (s.1.get a).level := by rw [hR.1.get a ha]; rfl
    unfold applyVisit
    rw [hl]
    cases (s.1.get a).level with
    | none => rfl
    | some l => exact ⟨hR.modify ha rfl rfl rfl, fun b hb => hb⟩

theorem Sim.expandRoots (cfg : Config) (S : Sim r h g) (fuel : Nat) {roots : List Addr} (hr : ∀ a ∈ roots, r.Dom h a) :
    Rel (fun x y => Sim r x y ∧ ∀ b, r.Dom h b → r.Dom x b) (expandRoots cfg fuel h roots) (expandRoots cfg fuel g (roots.map r.addr)) := by
  unfold Graph.expandRoots
  refine (S.minLevelAfterZero fuel hr).bind ?_
  rintro low _ rfl
  refine (S.expandAll cfg fuel hr _).bind ?_
  rintro ⟨h₁, us⟩ ⟨g₁, _⟩ ⟨S1, d1, e1⟩
  simp only at S1 d1 e1
  subst e1
  refine (Rel.foldlM (R := fun x y => Sim r x y ∧ ∀ b, r.Dom h b → r.Dom x b) (forall₂_self _) ?_ h₁ g₁ ⟨S1, d1⟩).bind ?_
  · rintro x y u _ ⟨S2, d2⟩ rfl
    unfold Graph.tagLevels
    refine ((tag_walk u.1 u.2 (r := r)).walkAll fuel (s := (x, [])) (t := (y, [])) ⟨S2, rfl⟩ fun a ha => d2 a (hr a ha)).bind ?_
    rintro s t ⟨q1, q2⟩
    exact ⟨q1.1, fun b hb => q2 b (d2 b hb)⟩
  · rintro x y ⟨S2, d2⟩
    unfold Graph.applyLevels
    refine ((apply_walk (r := r)).walkAll fuel (s := (x, [])) (t := (y, [])) ⟨S2, rfl⟩ fun a ha => d2 a (hr a ha)).bind ?_
    rintro s t ⟨q1, q2⟩
    exact ⟨q1.1, fun b hb => q2 b (d2 b hb)⟩

theorem Sim.setLevels (lvl : Int) : ∀ (l : List Addr) (h g : Heap ℚ), Sim r h g → (∀ a ∈ l, r.Dom h a) →
    Sim r (setLevels h l lvl) (setLevels g (l.map r.addr) lvl) := by
  intro l
  unfold Graph.setLevels
  induction l with
  | nil => exact fun _ _ S _ => S
  | cons x l ih =>
    intro h g S hl
    have hx := hl x (by simp)
    exact ih _ _ (S.modify hx rfl (S.children x hx) (S.parents x hx)) fun a ha => hl a (List.mem_cons_of_mem _ ha)

/-- The nodes collected by a traversal that changes nothing. -/
def CollectSim (r : Ren) (h g : Heap ℚ) (s t : Marked ℚ × List Addr) : Prop :=
  s.1.1 = h ∧ t.1.1 = g ∧ MarkSim r s.1 t.1 ∧ t.2 = s.2.map r.addr ∧ ∀ a ∈ s.2, r.Dom h a

theorem populate_visit {s t : Marked ℚ × List Addr} {a : Addr} (hR : CollectSim r h g s t) (ha : r.Dom s.1.1 a) :
    Rel (fun s' t' => CollectSim r h g s' t' ∧ ∀ b, r.Dom s.1.1 b → r.Dom s'.1.1 b) (populateVisit s a) (populateVisit t (r.addr a)) := by
  obtain ⟨e1, e2, M, e3, w⟩ := hR
  refine ⟨⟨e1, e2, M.add ha, ?_, ?_⟩, fun b hb => hb⟩
  · show t.2 ++ [r.addr a] = (s.2 ++ [a]).map r.addr
    simp [e3]
  · intro b hb
    rcases List.mem_append.1 hb with hb | hb
    · exact w b hb
    · rw [List.mem_singleton.1 hb, ← e1]
      exact ha

theorem populate_walk : WalkSim r populateVisit (fun s a => s.1.kids a) (fun s a => s.1.seen a) (CollectSim r h g)
    (fun s : Marked ℚ × List Addr => r.Dom s.1.1) where
  kids s t a hR ha := hR.2.2.1.kids ha
  seen s t a hR ha := hR.2.2.1.seen ha
  visit s t a hR ha := populate_visit hR ha

theorem wrap_walk : WalkSim r populateVisit (fun s a => s.1.kids a ++ (s.1.1.get a).parents) (fun s a => s.1.seen a) (CollectSim r h g)
    (fun s : Marked ℚ × List Addr => r.Dom s.1.1) where
  kids s t a hR ha := by
    obtain ⟨k1, k2⟩ := hR.2.2.1.kids ha
    simp only [k1, hR.2.2.1.1.get a ha, List.map_append]
    refine ⟨rfl, fun c hc => ?_⟩
    rcases List.mem_append.1 hc with hc | hc
    · exact k2 c hc
    · exact hR.2.2.1.1.parents a ha c hc
  seen s t a hR ha := hR.2.2.1.seen ha
  visit s t a hR ha := populate_visit hR ha

theorem Sim.id (S : Sim r h g) {a : Addr} (ha : r.Dom h a) : (g.get (r.addr a)).id = r.uid (h.get a).id := by
  rw [S.get a ha]
  rfl

theorem Sim.nodeData (S : Sim r h g) {a : Addr} (ha : r.Dom h a) : nodeData g (r.addr a) = (nodeData h a).rename r.uid := by
  unfold Graph.nodeData NodeData.rename
  rw [S.get a ha]
  simp only [Ren.obj, List.map_map]
  congr 1
  · exact List.map_congr_left fun p hp => S.id (S.parents a ha p hp)
  · exact List.map_congr_left fun p hp => S.id (S.children a ha p hp)

theorem Sim.saveNodes (S : Sim r h g) (fuel : Nat) {roots : List Addr} (hr : ∀ a ∈ roots, r.Dom h a) :
    Rel (fun x y => Sim r x.1 y.1 ∧ (∀ b, r.Dom h b → r.Dom x.1 b) ∧ y.2 = Saved.rename r.uid x.2) (saveNodes fuel h roots)
      (saveNodes fuel g (roots.map r.addr)) := by
  unfold Graph.saveNodes
  have S1 := Sim.setLevels 0 roots h g S hr
  have hd : ∀ b, r.Dom h b → r.Dom (Graph.setLevels h roots 0) b := fun b hb => hb.mono (setLevels_same h roots 0).next.ge
  generalize Graph.setLevels h roots 0 = h₁ at S1 hd
  generalize Graph.setLevels g (roots.map r.addr) 0 = g₁ at S1
  cases roots with
  | nil => rfl
  | cons root roots =>
    have hroots : ∀ a ∈ root :: roots, r.Dom h₁ a := fun a ha => hd a (hr a ha)
    have h0 : CollectSim r h₁ g₁ ((h₁, []), []) ((g₁, []), []) := ⟨rfl, rfl, ⟨S1, rfl⟩, rfl, by simp⟩
    have pop : Rel (fun x y => y = (⟨x.nodes.map fun x => (r.uid x.1, x.2), x.edges.map fun e => (r.uid e.1, r.uid e.2)⟩ : Drawing ℚ))
        (populate fuel h₁ (root :: roots)) (populate fuel g₁ ((root :: roots).map r.addr)) := by
      unfold Graph.populate Graph.populateOrder
      refine Rel.bind (R := fun as bs => bs = as.map r.addr ∧ ∀ a ∈ as, r.Dom h₁ a)
        (((populate_walk (r := r) (h := h₁) (g := g₁)).walkAll fuel h0 hroots).bind ?_) ?_
      · rintro s t ⟨⟨-, -, -, e, w⟩, -⟩
        exact ⟨e, w⟩
      · rintro as _ ⟨rfl, w⟩
        show Drawing.mk _ _ = Drawing.mk _ _
        congr 1
        · simp only [List.map_map]
          exact List.map_congr_left fun a ha => by
            simp only [Function.comp, S1.get a (w a ha)]
            rfl
        · simp only [List.flatMap_map, List.map_flatMap, List.map_map]
          refine List.flatMap_congr fun a ha => ?_
          simp only [S1.get a (w a ha)]
          show ((h₁.get a).children.map r.addr).map _ = _
          rw [List.map_map]
          exact List.map_congr_left fun c hc => by
            simp only [Function.comp, S1.id (S1.children a (w a ha) c hc)]
            rfl
    have wr : Rel (fun x y => y = x.map (NodeData.rename r.uid))
        (wrap fuel h₁ root) (wrap fuel g₁ (r.addr root)) := by
      unfold Graph.wrap
      refine ((wrap_walk (r := r) (h := h₁) (g := g₁)).walkFrom fuel h0 (hroots root (by simp))).bind ?_
      rintro s t ⟨⟨-, -, -, e, w⟩, -⟩
      show t.2.map _ = (s.2.map _).map _
      rw [e, List.map_map, List.map_map]
      exact List.map_congr_left fun a ha => S1.nodeData (w a ha)
    rw [List.map_cons]
    refine pop.bind ?_
    rintro d _ rfl
    refine wr.bind ?_
    rintro l _ rfl
    exact ⟨S1, hd, rfl⟩

/-- Saving a network at another place. -/
theorem Sim.saveTree (cfg : Config) (S : Sim r h g) (fuel : Nat) {roots : List Addr} (hr : ∀ a ∈ roots, r.Dom h a) :
    Rel (fun x y => y.2.1 = Saved.rename r.uid x.2.1 ∧ y.2.2 = Saved.rename r.uid x.2.2) (saveTree cfg fuel h roots)
      (saveTree cfg fuel g (roots.map r.addr)) := by
  unfold Graph.saveTree
  refine (S.saveNodes fuel hr).bind ?_
  rintro ⟨h₁, a₁⟩ ⟨g₁, b₁⟩ ⟨S1, d1, e1⟩
  refine (S1.expandRoots cfg fuel fun a ha => d1 a (hr a ha)).bind ?_
  rintro h₂ g₂ ⟨S2, d2⟩
  refine (S2.saveNodes fuel fun a ha => d2 a (d1 a (hr a ha))).bind ?_
  rintro ⟨h₃, a₃⟩ ⟨g₃, b₃⟩ ⟨S3, d3, e3⟩
  exact ⟨e1, e3⟩

end

/-- A heap in which the part `U` is as it was, and the other one. -/
theorem Region.sim {h g : Heap ℚ} {U : Addr → Prop} (H : Region h U) (hn : h.next ≤ g.next) (hu : h.nextUid ≤ g.nextUid)
    (hg : ∀ a, U a → g.get a = h.get a) : Sim ⟨U, h.next, g.next - h.next, h.nextUid, g.nextUid - h.nextUid⟩ h g := by
  have hU : ∀ a, Ren.Dom ⟨U, h.next, g.next - h.next, h.nextUid, g.nextUid - h.nextUid⟩ h a → U a := by
    rintro a (q | ⟨q1, q2⟩)
    · exact q
    · simp only at q1
      omega
  refine ⟨H.inside, le_rfl, by simp only; omega, le_rfl, by simp only; omega, ?_, fun a ha c hc => .inl (H.children a (hU a ha) c hc),
    fun a ha c hc => .inl (H.parents a (hU a ha) c hc)⟩
  intro a ha
  have ha := hU a ha
  have fix : ∀ l : List Addr, (∀ x ∈ l, U x) → l.map (Ren.addr ⟨U, h.next, g.next - h.next, h.nextUid, g.nextUid - h.nextUid⟩) = l := by
    intro l hl
    conv_rhs => rw [← List.map_id l]
    exact List.map_congr_left fun x hx => by
      unfold Ren.addr
      rw [if_pos (H.inside x (hl x hx))]
      rfl
  have e : Ren.addr ⟨U, h.next, g.next - h.next, h.nextUid, g.nextUid - h.nextUid⟩ a = a := by
    unfold Ren.addr
    rw [if_pos (H.inside a ha)]
  rw [e, hg a ha]
  unfold Ren.obj Ren.uid
  rw [fix _ (H.parents a ha), fix _ (H.children a ha), if_pos (H.fresh a ha)]

end Satis.Graph
