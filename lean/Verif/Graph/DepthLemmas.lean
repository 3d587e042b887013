import Verif.Graph.Depth
import Verif.Graph.ExpandWalk
import Verif.Graph.CalmLevels
import Verif.Graph.DeliverVisit
/-!
# When the depth of the calls matters
-/

namespace Satis.Graph
open Satis

/-- Distinct elements of a list are no more than the list is long. -/
theorem Nodup.length_le {α : Type} {l N : List α} (hl : l.Nodup) (h : ∀ a ∈ l, a ∈ N) : l.length ≤ N.length :=
  (List.subperm_of_subset hl h).length_le

theorem populateVisit_step {V : Type} {h : Heap V} (s : Marked V × List Addr) (a : Addr) (s' : Marked V × List Addr) (hI : s.1.1 = h) (hs : populateVisit s a = .ok s') :
    s'.1.1 = h ∧ s'.1.seen a = true ∧ ∀ b, s.1.seen b = true → s'.1.seen b = true := by
  cases hs
  refine ⟨hI, by simp [Marked.seen, Marked.add], fun b hb => ?_⟩
  have hb : (s.1.1.get b).id ∈ s.1.2 := by simpa [Marked.seen] using hb
  exact decide_eq_true (List.mem_append_left _ hb)

theorem andThen_map {α β : Type} (t : Py α) (f : α → β) : (andThen (t.map some) fun x => .ok (some (f x))) = (t >>= fun x => .ok (f x)).map some := by
  cases t <;> rfl

theorem populateOrderIn_paths {V : Type} {limit : Nat} {h : Heap V} {roots : List Addr}
    (hp : ∀ p, Simple (fun a => (h.get a).children) roots p → p.length ≤ limit) (fuel : Nat) :
    populateOrderIn limit fuel h roots = (populateOrder fuel h roots).map some := by
  unfold populateOrderIn populateOrder
  rw [walkAllIn_paths (fun a => (h.get a).children) roots (fun s => s.1.1 = h) (fun s a c hI hc => by rw [← hI]; exact hc)
    (fun s a s' hI hs => populateVisit_step s a s' hI hs) hp fuel roots _ rfl fun _ h => h]
  exact andThen_map _ (fun s : Marked V × List Addr => s.2)

theorem wrapIn_paths {V : Type} {limit : Nat} {h : Heap V} {root : Addr}
    (hp : ∀ p, Simple (fun a => (h.get a).children ++ (h.get a).parents) [root] p → p.length ≤ limit) (fuel : Nat) :
    wrapIn limit fuel h root = (wrap fuel h root).map some := by
  unfold wrapIn wrap
  rw [(walkFromIn_paths (fun a => (h.get a).children ++ (h.get a).parents) [root] (fun s => s.1.1 = h) (fun s a c hI hc => by rw [← hI]; exact hc)
    (fun s a s' hI hs => populateVisit_step s a s' hI hs) hp fuel _ root rfl (by simp)).1]
  exact andThen_map _ (fun s : Marked V × List Addr => s.2.map (nodeData h))

/-- Fewer nodes are marked than the region has. -/
theorem region_count {h : Heap ℚ} {U : Addr → Prop} (H : Region h U) (roots : List Addr) (hr : ∀ r ∈ roots, U r) (fuel : Nat)
    (hf : childFuel h U ≤ fuel) {S : Type} (visit : S → Addr → Py S) (π : S → Marked ℚ) (s : S)
    (hv : ∀ s a s', visit s a = .ok s' → SameGraph (π s).1 (π s').1 ∧ (π s').2 = (π s).2 ++ [((π s).1.get a).id]) (hs : π s = (h, []))
    (N : List Addr) (hN : ∀ a, U a → a ∈ N) (s' : S)
    (e : walkAll visit (fun s a => (π s).kids a) (fun s a => (π s).seen a) fuel s roots = .ok s') :
    (π s').2.length ≤ N.length ∧ SameGraph h (π s').1 := by
  obtain ⟨order, h1, h2, h3⟩ := region_walk H roots hr fuel hf
  rw [h3 S visit π s hv hs] at e
  have hU : ∀ a, Reach h roots a → U a := by
    intro a ha
    induction ha with
    | root hm => exact hr _ hm
    | child _ hb ih => exact H.children _ ih _ hb
  have key : ∀ (l : List Addr) (s : S), l.foldlM visit s = .ok s' → (π s').2.length = (π s).2.length + l.length ∧ SameGraph (π s).1 (π s').1 := by
    intro l
    induction l with
    | nil =>
      intro s e
      cases e
      exact ⟨by simp, SameGraph.refl _⟩
    | cons a l ih =>
      intro s e
      rw [List.foldlM_cons] at e
      cases hx : visit s a with
      | error x => rw [hx] at e; cases e
      | ok s₁ =>
        rw [hx] at e
        obtain ⟨q1, q2⟩ := ih s₁ e
        obtain ⟨p1, p2⟩ := hv s a s₁ hx
        refine ⟨?_, p1.trans q2⟩
        rw [q1, p2]
        simp only [List.length_append, List.length_cons, List.length_nil]
        omega
  obtain ⟨k1, k2⟩ := key order s e
  rw [hs] at k1 k2
  refine ⟨?_, k2⟩
  rw [k1]
  have := Nodup.length_le h1 fun a ha => hN a (hU a ((h2 a).1 ha))
  simpa using this

theorem minLevelVisit_step (s : Int × Marked ℚ) (a : Addr) (s' : Int × Marked ℚ) (hs : minLevelVisit s a = .ok s') :
    SameGraph s.2.1 s'.2.1 ∧ s'.2.2 = s.2.2 ++ [(s.2.1.get a).id] := by
  unfold minLevelVisit at hs
  split at hs
  · cases hs
  · cases hs
    exact ⟨SameGraph.refl _, rfl⟩

theorem tagVisit_step (t m : Int) (s : Marked ℚ) (a : Addr) (s' : Marked ℚ) (hs : tagVisit t m s a = .ok s') :
    SameGraph s.1 s'.1 ∧ s'.2 = s.2 ++ [(s.1.get a).id] := by
  have hn : (s.1.get a).level ≠ none := fun h0 => by
    unfold tagVisit at hs
    rw [h0] at hs
    cases hs
  rw [tagVisit_eq _ _ _ _ hn] at hs
  cases hs
  exact ⟨sameGraph_modify _ _ _ (fun o => (tagged_facts _ _ o).1) (fun o => (tagged_facts _ _ o).2.1) (fun o => (tagged_facts _ _ o).2.2.1), rfl⟩

theorem applyVisit_step (s : Marked ℚ) (a : Addr) (s' : Marked ℚ) (hs : applyVisit s a = .ok s') :
    SameGraph s.1 s'.1 ∧ s'.2 = s.2 ++ [(s.1.get a).id] := by
  have hn : (s.1.get a).level ≠ none := fun h0 => by
    unfold applyVisit at hs
    rw [h0] at hs
    cases hs
  rw [applyVisit_eq _ _ hn] at hs
  cases hs
  exact ⟨sameGraph_modify _ _ _ (fun o => (applied_facts o).1) (fun o => (applied_facts o).2.1) (fun o => (applied_facts o).2.2.1), rfl⟩

section
variable {limit fuel : Nat} {h : Heap ℚ} {U : Addr → Prop} {N : List Addr}

theorem minLevelIn_enough (H : Region h U) (roots : List Addr) (hr : ∀ r ∈ roots, U r) (hf : childFuel h U ≤ fuel) (hN : ∀ a, U a → a ∈ N)
    (hl : N.length ≤ limit) (h1 : 1 ≤ limit) {low : Int} (e : minLevelAfterZero fuel h roots = .ok low) : minLevelIn limit fuel h roots = .ok (some low) := by
  have hr' : ∀ c ∈ roots.flatMap fun r => (h.get r).children, U c := by
    intro c hc
    obtain ⟨r, h1, h2⟩ := List.mem_flatMap.1 hc
    exact H.children r (hr r h1) c h2
  unfold minLevelAfterZero at e
  cases hw : walkAll minLevelVisit (fun s a => (s.2.1.get a).children) (fun s a => s.2.seen a) fuel ((2 : Int) ^ 32, (h, []))
    (roots.flatMap fun r => (h.get r).children) with
  | error x => rw [hw] at e; cases e
  | ok s =>
    rw [hw] at e
    cases e
    have hc := (region_count H _ hr' fuel hf minLevelVisit Prod.snd ((2 : Int) ^ 32, (h, [])) minLevelVisit_step rfl N hN s hw).1
    unfold minLevelIn
    rw [(walkAllIn_enough (fun s => s.2.2.length) (fun s a s' hs => by rw [(minLevelVisit_step s a s' hs).2]; simp) fuel _ _ s hw).2 (by omega) h1]
    rfl

theorem applyLevelsIn_enough (H : Region h U) (roots : List Addr) (hr : ∀ r ∈ roots, U r) (hf : childFuel h U ≤ fuel) (hN : ∀ a, U a → a ∈ N)
    (hl : N.length ≤ limit) (h1 : 1 ≤ limit) {h' : Heap ℚ} (e : applyLevels fuel roots h = .ok h') :
    applyLevelsIn limit fuel roots h = .ok (some h') ∧ SameGraph h h' := by
  unfold applyLevels at e
  cases hw : walkAll applyVisit Marked.kids Marked.seen fuel (h, []) roots with
  | error x => rw [hw] at e; cases e
  | ok s =>
    rw [hw] at e
    cases e
    obtain ⟨hc, hS⟩ := region_count H _ hr fuel hf applyVisit id (h, []) applyVisit_step rfl N hN s hw
    unfold applyLevelsIn
    rw [(walkAllIn_enough (fun s => s.2.length) (fun s a s' hs => by rw [(applyVisit_step s a s' hs).2]; simp) fuel _ _ s hw).2
      (le_trans hc hl) h1]
    exact ⟨rfl, hS⟩

theorem levelsIn_enough (roots : List Addr) (hr : ∀ r ∈ roots, U r) (hN : ∀ a, U a → a ∈ N) (hl : N.length ≤ limit) (h1 : 1 ≤ limit) {h' : Heap ℚ} :
    ∀ (us : List (Int × Int)) (h : Heap ℚ), Region h U → childFuel h U ≤ fuel →
      (us.foldlM (tagLevels fuel roots) h >>= applyLevels fuel roots) = .ok h' →
      andThen (tagLevelsIn limit fuel roots h us) (fun h => applyLevelsIn limit fuel roots h) = .ok (some h') ∧ SameGraph h h' := by
  intro us
  induction us with
  | nil => exact fun h H hf e => applyLevelsIn_enough H roots hr hf hN hl h1 e
  | cons u us ih =>
    intro h H hf e
    rw [List.foldlM_cons, bind_assoc, tagLevels, bind_assoc] at e
    rw [tagLevelsIn]
    cases hw : walkAll (tagVisit u.1 u.2) Marked.kids Marked.seen fuel (h, []) roots with
    | error x => rw [hw] at e; cases e
    | ok s =>
      rw [hw] at e
      obtain ⟨hc, hS⟩ := region_count H _ hr fuel hf (tagVisit u.1 u.2) id (h, []) (tagVisit_step u.1 u.2) rfl N hN s hw
      have hS : SameGraph h s.1 := hS
      rw [(walkAllIn_enough (fun s => s.2.length) (fun s a s' hs => by rw [(tagVisit_step _ _ s a s' hs).2]; simp) fuel _ _ s hw).2
        (le_trans hc hl) h1]
      obtain ⟨q1, q2⟩ := ih s.1 (hS.region H) (by rw [hS.childFuel]; exact hf) e
      exact ⟨q1, hS.trans q2⟩

/-- **`expand_roots`** with room for as many calls as there are nodes in the end. -/
theorem expandRootsIn_enough (cfg : Config) (H : Region h U) (roots : List Addr) (hr : ∀ r ∈ roots, U r) {h' : Heap ℚ}
    (w : Settles (fun fuel => expandRoots cfg fuel h roots) (.ok h')) (hN : ∀ a, Within h U h' a → a ∈ N) (hl : N.length ≤ limit) (h1 : 1 ≤ limit) :
    Settles (fun fuel => expandRootsIn limit cfg fuel h roots) (.ok (some h')) := by
  obtain ⟨F, hF⟩ := w
  obtain ⟨rl, -, F1, hF1⟩ := minLevel_settles H roots hr
  have split : ∀ G, F ≤ G → ∃ low s, minLevelAfterZero G h roots = .ok low ∧
      walkAll (expandVisit cfg G) (fun s a => s.1.kids a) (fun s a => s.1.seen a) G ((h, []), [(1, 1 - low)]) roots = .ok s ∧
      (s.2.foldlM (tagLevels G roots) s.1.1 >>= applyLevels G roots) = .ok h' := by
    intro G hG
    have e := hF G hG
    simp only at e
    unfold expandRoots at e
    cases e1 : minLevelAfterZero G h roots with
    | error x => rw [e1] at e; cases e
    | ok low =>
      rw [e1] at e
      simp only [bind, Except.bind] at e
      unfold expandAll at e
      cases e2 : walkAll (expandVisit cfg G) (fun s a => s.1.kids a) (fun s a => s.1.seen a) G ((h, []), [(1, 1 - low)]) roots with
      | error x => rw [e2] at e; cases e
      | ok s =>
        rw [e2] at e
        exact ⟨low, s, rfl, e2, e⟩
  -- the heap after the expansions
  obtain ⟨low0, s0, a1, -, -⟩ := split (max F F1) (le_max_left _ _)
  have hrl : rl = .ok low0 := (hF1 _ (le_max_right _ _)).symm.trans a1
  obtain ⟨B, r, q1, q2⟩ := expandRootsWalk_ends (strict := False) cfg roots h U [] [(1, 1 - low0)] H False.elim hr
  obtain ⟨G, hG⟩ : ∃ G, G = max (max F F1) (max B (pendingWeight h)) := ⟨_, rfl⟩
  obtain ⟨low1, s1, b1, b2, -⟩ := split G (by omega)
  have hlow : ∀ G, F1 ≤ G → minLevelAfterZero G h roots = .ok low0 := fun G hG => (hF1 G hG).trans hrl
  have : low1 = low0 := Except.ok.inj (b1.symm.trans (hlow G (by omega)))
  subst this
  have hr1 : r = .ok s1 := (q2 G (by omega) G (by omega)).symm.trans b2
  obtain ⟨X, -⟩ := (Ends.iff.1 q1).2 s1 hr1
  have hr' : ∀ r ∈ roots, Within h U s1.1.1 r := fun r hm => .inl (hr r hm)
  refine ⟨max G (max (childFuel h U) (childFuel s1.1.1 (Within h U s1.1.1))), fun fuel hfuel => ?_⟩
  obtain ⟨low2, s2, c1, c2, c3⟩ := split fuel (by omega)
  have : low2 = low1 := Except.ok.inj (c1.symm.trans (hlow fuel (by omega)))
  subst this
  have : s2 = s1 := Except.ok.inj (c2.symm.trans ((q2 fuel (by omega) fuel (by omega)).trans hr1))
  subst this
  have hsame : SameGraph s2.1.1 h' := by
    obtain ⟨r', p1, p2⟩ := levels_settles roots hr' s2.2 s2.1.1 X.evolved.region
    obtain ⟨F2, hF2⟩ := p2
    obtain ⟨low3, s3, d1, d2, d3⟩ := split (max F2 (max fuel G)) (by omega)
    have : low3 = low2 := Except.ok.inj (d1.symm.trans (hlow _ (by omega)))
    subst this
    have : s3 = s2 := Except.ok.inj (d2.symm.trans ((q2 _ (by omega) _ (by omega)).trans hr1))
    subst this
    have := (hF2 (max F2 (max fuel G)) (le_max_left _ _)).symm.trans d3
    exact ((Ends.iff.1 p1).2 h' this).1
  have hin : ∀ a, Within h U s2.1.1 a → a ∈ N := fun a ha => hN a (by
    unfold Within at ha ⊢
    rwa [hsame.next])
  have hU : ∀ a, U a → a ∈ N := fun a ha => hin a (.inl ha)
  have hseen : s2.1.2.length ≤ N.length := by
    have := Nodup.length_le (N := N.map fun a => (s2.1.1.get a).id) (X.once List.nodup_nil) (fun i hi => by
      rcases X.ids i hi with w | ⟨a, w, e⟩
      · simp at w
      · exact List.mem_map.2 ⟨a, hin a w, e⟩)
    simpa using this
  have hvis : ∀ (s : Marked ℚ × List (Int × Int)) a s', expandVisit cfg fuel s a = .ok s' → s'.1.2.length = s.1.2.length + 1 := by
    intro s a s' hs
    unfold expandVisit at hs
    cases hx : runExpands cfg fuel s.1.1 a with
    | error x => rw [hx] at hs; cases hs
    | ok x =>
      rw [hx] at hs
      cases hs
      simp
  show expandRootsIn limit cfg fuel h roots = _
  unfold expandRootsIn expandAllIn
  rw [minLevelIn_enough H roots hr (by omega) hU hl h1 c1]
  simp only [andThen]
  rw [(walkAllIn_enough (fun s => s.1.2.length) hvis fuel roots _ s2 c2).2 (le_trans hseen hl) h1]
  exact (levelsIn_enough roots hr' hin hl h1 s2.2 s2.1.1 X.evolved.region (by omega) c3).1

end

/-! ## Too deep -/

theorem populateOrderIn_near {V : Type} {limit fuel : Nat} {h : Heap V} {roots order : List Addr}
    (e : populateOrderIn limit fuel h roots = .ok (some order)) : ∀ a ∈ order, ∃ n < limit, Hops (fun a => (h.get a).children) roots n a := by
  unfold populateOrderIn at e
  cases hw : walkAllIn limit populateVisit (fun s a => s.1.kids a) (fun s a => s.1.seen a) fuel ((h, []), []) roots with
  | error x => rw [hw] at e; cases e
  | ok o =>
    rw [hw] at e
    cases o with
    | none => cases e
    | some s =>
      cases e
      refine (walkAllIn_near (fun s : Marked V × List Addr => s.1.1 = h ∧ ∀ a ∈ s.2, ∃ n < limit, Hops (fun a => (h.get a).children) roots n a)
        (Hops (fun a => (h.get a).children) roots) ?_ ?_ fuel roots _ s ⟨rfl, by simp⟩ (fun a ha => .root ha) hw).2
      · rintro s n a c ⟨rfl, -⟩ hD hc
        exact .step hD hc
      · rintro s n a s' ⟨rfl, hI⟩ hD hn hs
        cases hs
        refine ⟨rfl, fun b hb => ?_⟩
        rcases List.mem_append.1 hb with hb | hb
        · exact hI b hb
        · rw [List.mem_singleton.1 hb]
          exact ⟨n, hn, hD⟩

theorem wrapIn_near {V : Type} {limit fuel : Nat} {h : Heap V} {root : Addr} {data : List (NodeData V)}
    (e : wrapIn limit fuel h root = .ok (some data)) :
    ∀ d ∈ data, ∃ a, d = nodeData h a ∧ ∃ n < limit, Hops (fun a => (h.get a).children ++ (h.get a).parents) [root] n a := by
  unfold wrapIn at e
  cases hw : walkFromIn limit populateVisit (fun s a => s.1.kids a ++ (s.1.1.get a).parents) (fun s a => s.1.seen a) fuel ((h, []), []) root with
  | error x => rw [hw] at e; cases e
  | ok o =>
    rw [hw] at e
    cases o with
    | none => cases e
    | some s =>
      cases e
      have := (walkFromIn_near (fun s : Marked V × List Addr => s.1.1 = h ∧ ∀ a ∈ s.2, ∃ n < limit, Hops (fun a => (h.get a).children ++ (h.get a).parents) [root] n a)
        (Hops (fun a => (h.get a).children ++ (h.get a).parents) [root]) ?_ ?_ fuel _ root s ⟨rfl, by simp⟩ (.root (by simp)) hw).2
      · intro d hd
        obtain ⟨a, ha, rfl⟩ := List.mem_map.1 hd
        exact ⟨a, rfl, this a ha⟩
      · rintro s n a c ⟨rfl, -⟩ hD hc
        exact .step hD hc
      · rintro s n a s' ⟨rfl, hI⟩ hD hn hs
        cases hs
        refine ⟨rfl, fun b hb => ?_⟩
        rcases List.mem_append.1 hb with hb | hb
        · exact hI b hb
        · rw [List.mem_singleton.1 hb]
          exact ⟨n, hn, hD⟩

/-- If a traversal gets to the end then every node that can be reached is near. -/
theorem region_near {limit fuel : Nat} {h : Heap ℚ} {U : Addr → Prop} (H : Region h U) (rs : List Addr) (hr : ∀ r ∈ rs, U r)
    (hf : childFuel h U ≤ fuel) {S : Type} (visit : S → Addr → Py S) (π : S → Marked ℚ) (s : S)
    (hv : ∀ s a s', visit s a = .ok s' → SameGraph (π s).1 (π s').1 ∧ (π s').2 = (π s).2 ++ [((π s).1.get a).id]) (hs : π s = (h, [])) (s' : S)
    (e : walkAllIn limit visit (fun s a => (π s).kids a) (fun s a => (π s).seen a) fuel s rs = .ok (some s')) :
    SameGraph h (π s').1 ∧ ∀ b, Reach h rs b → ∃ n < limit, Hops (fun a => (h.get a).children) rs n b := by
  have key := walkAllIn_near (fun s : S => SameGraph h (π s).1 ∧ ∀ i ∈ (π s).2, ∃ a, U a ∧ (h.get a).id = i ∧ ∃ n < limit, Hops (fun a => (h.get a).children) rs n a)
    (fun n a => U a ∧ Hops (fun a => (h.get a).children) rs n a) ?_ ?_ fuel rs s s' ⟨by rw [hs]; exact SameGraph.refl _, by rw [hs]; simp⟩
    (fun a ha => ⟨hr a ha, .root ha⟩) e
  · refine ⟨key.1, ?_⟩
    have hag := walkAllIn_agrees (limit := limit) (visit := visit) (kids := fun s a => (π s).kids a) (seen := fun s a => (π s).seen a) fuel rs s
    rw [e] at hag
    have hwalk : walkAll visit (fun s a => (π s).kids a) (fun s a => (π s).seen a) fuel s rs = .ok s' := by
      rcases hag with c | c
      · cases c
      · cases hx : walkAll visit (fun s a => (π s).kids a) (fun s a => (π s).seen a) fuel s rs with
        | error x => rw [hx] at c; cases c
        | ok y => rw [hx] at c; cases c; rfl
    obtain ⟨order, -, h2, h3⟩ := region_walk H rs hr fuel hf
    have h5 : order.foldlM visit s = .ok s' := (h3 S visit π s hv hs).symm.trans hwalk
    have marks : ∀ (l : List Addr) (t : S), SameGraph h (π t).1 → l.foldlM visit t = .ok s' →
        (∀ i ∈ (π t).2, i ∈ (π s').2) ∧ ∀ a ∈ l, (h.get a).id ∈ (π s').2 := by
      intro l
      induction l with
      | nil =>
        intro t _ e
        cases e
        exact ⟨fun _ h => h, by simp⟩
      | cons x l ih =>
        intro t ht e
        rw [List.foldlM_cons] at e
        cases hx : visit t x with
        | error y => rw [hx] at e; cases e
        | ok t' =>
          rw [hx] at e
          obtain ⟨v1, v2⟩ := hv t x t' hx
          obtain ⟨p1, p2⟩ := ih t' (ht.trans v1) e
          refine ⟨fun i hi => p1 i (by rw [v2]; exact List.mem_append_left _ hi), fun a ha => ?_⟩
          rcases List.mem_cons.1 ha with rfl | ha
          · exact p1 _ (by rw [v2, ht.id]; simp)
          · exact p2 a ha
    intro b hb
    obtain ⟨a, u1, u2, u3⟩ := key.2 _ ((marks order s (by rw [hs]; exact SameGraph.refl _) h5).2 b ((h2 b).2 hb))
    have hUb : U b := by
      clear u1 u2 u3
      induction hb with
      | root hm => exact hr _ hm
      | child _ hc ih => exact H.children _ ih _ hc
    rwa [H.ids a b u1 hUb u2] at u3
  · rintro s n a c ⟨S1, -⟩ ⟨hU, hD⟩ hc
    unfold Marked.kids at hc
    rw [S1.children] at hc
    exact ⟨H.children a hU c hc, .step hD hc⟩
  · rintro s n a s' ⟨S1, hI⟩ ⟨hU, hD⟩ hn hs
    obtain ⟨v1, v2⟩ := hv s a s' hs
    refine ⟨S1.trans v1, fun i hi => ?_⟩
    rw [v2] at hi
    rcases List.mem_append.1 hi with hi | hi
    · exact hI i hi
    · rw [List.mem_singleton.1 hi]
      exact ⟨a, hU, (S1.id a).symm, n, hn, hD⟩

theorem andThen_some {α β : Type} {r : Py (Option α)} {f : α → Py (Option β)} {y : β} (h : andThen r f = .ok (some y)) :
    ∃ x, r = .ok (some x) ∧ f x = .ok (some y) := by
  match r with
  | .error e => cases h
  | .ok none => cases h
  | .ok (some x) => exact ⟨x, rfl, h⟩

theorem Agrees.of_some {α : Type} {r : Py (Option α)} {t : Py α} (h : Agrees r t) {x : α} (e : r = .ok (some x)) : t = .ok x := by
  rcases h with h | h
  · rw [h] at e; cases e
  · rw [h] at e
    cases t with
    | error y => cases e
    | ok y => cases e; rfl

/-- With a bound that makes a difference to a result the bound raises. -/
theorem Agrees.raises {α : Type} {r : Py (Option α)} {t : Py α} (h : Agrees r t) {x : α} (e : t = .ok x) (hne : r ≠ .ok (some x)) : r = .ok none := by
  rcases h with h | h
  · exact h
  · rw [e] at h
    exact absurd h hne

/-- If `min_level` gets to the end then every node below the roots is near. -/
theorem minLevelIn_near {limit fuel : Nat} {h : Heap ℚ} {U : Addr → Prop} (H : Region h U) (roots : List Addr) (hr : ∀ r ∈ roots, U r)
    (hf : childFuel h U ≤ fuel) {low : Int} (e : minLevelIn limit fuel h roots = .ok (some low)) :
    ∀ b, Reach h (roots.flatMap fun r => (h.get r).children) b →
      ∃ n < limit, Hops (fun a => (h.get a).children) (roots.flatMap fun r => (h.get r).children) n b := by
  obtain ⟨s, e, -⟩ := andThen_some e
  exact (region_near H _ (fun c hc => by
    obtain ⟨r, h1, h2⟩ := List.mem_flatMap.1 hc
    exact H.children r (hr r h1) c h2) hf minLevelVisit Prod.snd _ minLevelVisit_step rfl s e).2

/-- If the levels get to the end then every node below the roots is near. -/
theorem levelsIn_near {limit fuel : Nat} {U : Addr → Prop} (roots : List Addr) (hr : ∀ r ∈ roots, U r) {h' : Heap ℚ} :
    ∀ (us : List (Int × Int)) (h : Heap ℚ), Region h U → childFuel h U ≤ fuel →
    andThen (tagLevelsIn limit fuel roots h us) (fun h => applyLevelsIn limit fuel roots h) = .ok (some h') →
    SameGraph h h' ∧ ∀ b, Reach h roots b → ∃ n < limit, Hops (fun a => (h.get a).children) roots n b := by
  intro us
  induction us with
  | nil =>
    intro h H hf e
    have e : applyLevelsIn limit fuel roots h = .ok (some h') := e
    obtain ⟨s, ew, e'⟩ := andThen_some e
    cases e'
    exact region_near H roots hr hf applyVisit id (h, []) applyVisit_step rfl s ew
  | cons u us ih =>
    intro h H hf e
    obtain ⟨h₂, e, e'⟩ := andThen_some e
    rw [tagLevelsIn] at e
    obtain ⟨s, e, e2⟩ := andThen_some e
    obtain ⟨S1, q⟩ := region_near H roots hr hf (tagVisit u.1 u.2) id (h, []) (tagVisit_step u.1 u.2) rfl s e
    have S1 : SameGraph h s.1 := S1
    refine ⟨S1.trans (ih s.1 (S1.region H) (by rw [S1.childFuel]; exact hf) ?_).1, q⟩
    rw [e2]
    exact e'

/-- If **`expand_roots`** gets to the end then every node of the expanded network is near. -/
theorem expandRootsIn_near {limit : Nat} (cfg : Config) {h : Heap ℚ} {U : Addr → Prop} (H : Region h U) (roots : List Addr) (hr : ∀ r ∈ roots, U r)
    {h' : Heap ℚ} : ∃ F, ∀ fuel, F ≤ fuel → expandRootsIn limit cfg fuel h roots = .ok (some h') →
    (∀ b, Reach h (roots.flatMap fun r => (h.get r).children) b →
      ∃ n < limit, Hops (fun a => (h.get a).children) (roots.flatMap fun r => (h.get r).children) n b) ∧
    ∀ b, Reach h' roots b → ∃ n < limit, Hops (fun a => (h'.get a).children) roots n b := by
  obtain ⟨rl, -, F1, hF1⟩ := minLevel_settles H roots hr
  obtain ⟨low, hlow⟩ : ∃ low, ∀ l, rl = .ok l → l = low := by
    cases rl with
    | error x => exact ⟨0, fun l hl => by cases hl⟩
    | ok y => exact ⟨y, fun l hl => by cases hl; rfl⟩
  obtain ⟨B, r, q1, q2⟩ := expandAll_ends (strict := False) cfg h U roots [(1, 1 - low)] H False.elim hr
  obtain ⟨G, hG⟩ : ∃ G, ∀ x, r = .ok x → childFuel x.1 (Within h U x.1) ≤ G := by
    cases r with
    | error x => exact ⟨0, fun l hl => by cases hl⟩
    | ok y => exact ⟨_, fun l hl => by cases hl; exact le_rfl⟩
  refine ⟨max (max F1 B) (max G (childFuel h U)), fun fuel hfuel e => ?_⟩
  obtain ⟨l, e1, e⟩ := andThen_some e
  obtain ⟨x, e2, e⟩ := andThen_some e
  have hm := (minLevelIn_agrees limit fuel h roots).of_some e1
  have hl : l = low := hlow l ((hF1 fuel (by omega)).symm.trans hm)
  subst hl
  have hx : expandAll cfg fuel h roots [(1, 1 - l)] = .ok x := (expandAllIn_agrees limit cfg fuel h roots [(1, 1 - l)]).of_some e2
  have hrx : r = .ok x := (q2 fuel (by omega)).symm.trans hx
  have E := (Ends.iff.1 q1).2 x hrx
  obtain ⟨S1, near⟩ := levelsIn_near roots (fun r hm => .inl (hr r hm)) x.2 x.1 E.region (le_trans (hG x hrx) (by omega)) e
  refine ⟨minLevelIn_near H roots hr (by omega) e1, fun b hb => ?_⟩
  have hK : (fun a => (h'.get a).children) = fun a => (x.1.get a).children := funext S1.children
  rw [hK]
  refine near b ?_
  clear near
  induction hb with
  | root hm => exact .root hm
  | child _ hc ih =>
    rw [S1.children] at hc
    exact ih.child hc

/-- Without pending expansions `expand` changes nothing. -/
theorem quiet_expandAll (cfg : Config) {h : Heap ℚ} {U : Addr → Prop} (H : Region h U) (quiet : ∀ a, U a → (h.get a).expands = []) (roots : List Addr)
    (hr : ∀ r ∈ roots, U r) (us : List (Int × Int)) (fuel : Nat) (hf : childFuel h U ≤ fuel) : expandAll cfg fuel h roots us = .ok (h, us) := by
  have step : ∀ (s : Marked ℚ × List (Int × Int)) a, s.1.1 = h → U a → expandVisit cfg fuel s a = .ok (s.1.add a, s.2) := by
    rintro ⟨⟨h₁, seen⟩, vs⟩ a e hU
    have e : h₁ = h := e
    subst e
    unfold expandVisit
    rw [runExpands_nil cfg fuel (quiet a hU)]
    simp [bind, Except.bind, pure, Except.pure, Marked.add]
  obtain ⟨order, h1, h2, h3⟩ := walkAll_spec (fun a => (h.get a).children) (Region.nodes h U) (fun a ha c hc =>
    H.mem_nodes.2 (H.children a (H.mem_nodes.1 ha) c hc)) roots (fun r hr' => H.mem_nodes.2 (hr r hr')) fuel hf
  obtain ⟨k1, k2⟩ := h3 (Marked ℚ × List (Int × Int)) (expandVisit cfg fuel) (fun s a => s.1.kids a) (fun s a => s.1.seen a)
    (fun s l => s.1.1 = h ∧ s.1.2 = l.map (fun a => (h.get a).id) ∧ s.2 = us ∧ ∀ a ∈ l, U a)
    (by
      rintro s l ⟨e, -⟩ a -
      unfold Marked.kids
      rw [e])
    (by
      rintro s l ⟨e, e2, -, hl⟩ a ha
      unfold Marked.seen
      rw [e2, e, decide_eq_decide, List.mem_map]
      exact ⟨fun ⟨b, hb, e⟩ => H.ids b a (hl b hb) (H.mem_nodes.1 ha) e ▸ hb, fun h => ⟨a, h, rfl⟩⟩)
    (by
      rintro s l a s' ⟨e, e2, e3, hl⟩ ha _ hvis
      rw [step s a e (H.mem_nodes.1 ha)] at hvis
      cases hvis
      refine ⟨e, ?_, e3, fun b hb => ?_⟩
      · show s.1.2 ++ [(s.1.1.get a).id] = _
        rw [e2, e]
        simp
      · rcases List.mem_append.1 hb with hb | hb
        · exact hl b hb
        · rw [List.mem_singleton.1 hb]
          exact H.mem_nodes.1 ha)
    ((h, []), us) ⟨rfl, rfl, rfl, by simp⟩
  have hU : ∀ a ∈ order, U a := fun a ha => by
    have := (h2 a).1 ha
    clear ha
    induction this with
    | root hm => exact hr _ hm
    | step _ hb ih => exact H.children _ ih _ hb
  have key : ∀ (l : List Addr) (s : Marked ℚ × List (Int × Int)), s.1.1 = h → (∀ a ∈ l, U a) → ∃ s', l.foldlM (expandVisit cfg fuel) s = .ok s' := by
    intro l
    induction l with
    | nil => exact fun s _ _ => ⟨s, rfl⟩
    | cons y l ih =>
      intro s e hl
      rw [List.foldlM_cons, step s y e (hl y (by simp))]
      exact ih (s.1.add y, s.2) e fun a ha => hl a (by simp [ha])
  obtain ⟨s', hs'⟩ := key order ((h, []), us) rfl hU
  obtain ⟨r1, -, r3, -⟩ := k2 s' hs'
  unfold expandAll
  rw [k1, hs']
  show Except.ok (s'.1.1, s'.2) = _
  rw [r1, r3]

end Satis.Graph
