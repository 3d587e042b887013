import Verif.Graph.DepthLemmas
import Verif.Graph.DeliverVisit
import Verif.Props.Traverse
/-!
# How deep the calls of the traversals are nested
-/

namespace Satis
open Satis.Graph Satis.Graph.Example Satis.Solver.Example

/-! ## C105 — the bound on nested calls -/

/-- C105, in between: a bound on the number of nested calls changes nothing, except that `RecursionError` may be raised. -/
theorem C105_same_or_raised (limit fuel : Nat) (cfg : Config) (h : Heap ℚ) (roots : List Addr) (root : Addr) :
    (populateOrderIn limit fuel h roots = .ok none ∨ populateOrderIn limit fuel h roots = (populateOrder fuel h roots).map some) ∧
    (wrapIn limit fuel h root = .ok none ∨ wrapIn limit fuel h root = (wrap fuel h root).map some) ∧
    (expandRootsIn limit cfg fuel h roots = .ok none ∨ expandRootsIn limit cfg fuel h roots = (expandRoots cfg fuel h roots).map some) :=
  ⟨populateOrderIn_agrees _ _ _ _, wrapIn_agrees _ _ _ _, expandRootsIn_agrees _ _ _ _ _⟩

/-- C105 for `populate`: as many nested calls as the longest path of different nodes from a root has nodes are enough. If a node below the roots can only be
reached by `limit` links or more then `limit` nested calls are not enough. -/
theorem C105_populate (h : Heap ℚ) (U : Addr → Prop) (H : Region h U) (roots : List Addr) (hr : ∀ r ∈ roots, U r) (limit : Nat) :
    ((∀ p, Simple (fun a => (h.get a).children) roots p → p.length ≤ limit) →
      ∃ order, Settles (fun fuel => populateOrder fuel h roots) (.ok order) ∧ Settles (fun fuel => populateOrderIn limit fuel h roots) (.ok (some order))) ∧
    ((∃ b, Reach h roots b ∧ ∀ n, Hops (fun a => (h.get a).children) roots n b → limit ≤ n) →
      Settles (fun fuel => populateOrderIn limit fuel h roots) (.ok none)) := by
  obtain ⟨order, ⟨F, hF⟩, hnd, hmem⟩ := populateOrder_settles H roots hr
  refine ⟨fun hp => ⟨order, ⟨F, hF⟩, F, fun fuel hf => ?_⟩, ?_⟩
  · simp only [populateOrderIn_paths hp, hF fuel hf]
    rfl
  · rintro ⟨b, hb, far⟩
    refine ⟨F, fun fuel hf => (populateOrderIn_agrees limit fuel h roots).raises (hF fuel hf) fun e => ?_⟩
    obtain ⟨n, hn, hh⟩ := populateOrderIn_near e b ((hmem b).2 hb)
    exact absurd (far n hh) (by omega)

/-- C105 for `wrap`: as many nested calls as the longest path of different nodes from the root has nodes are enough, where links lead to children and
parents. If a linked node can only be reached by `limit` links or more then `limit` nested calls are not enough. -/
theorem C105_wrap (h : Heap ℚ) (U : Addr → Prop) (H : Region h U) (root : Addr) (hr : U root) (limit : Nat) :
    ((∀ p, Simple (fun a => (h.get a).children ++ (h.get a).parents) [root] p → p.length ≤ limit) →
      ∃ data, Settles (fun fuel => wrap fuel h root) (.ok data) ∧ Settles (fun fuel => wrapIn limit fuel h root) (.ok (some data))) ∧
    ((∃ b, Connected h root b ∧ ∀ n, Hops (fun a => (h.get a).children ++ (h.get a).parents) [root] n b → limit ≤ n) →
      Settles (fun fuel => wrapIn limit fuel h root) (.ok none)) := by
  obtain ⟨order, hnd, hmem, F, hF⟩ := wrap_settles H root hr
  refine ⟨fun hp => ⟨_, ⟨F, hF⟩, F, fun fuel hf => ?_⟩, ?_⟩
  · simp only [wrapIn_paths hp, hF fuel hf]
    rfl
  · rintro ⟨b, hb, far⟩
    refine ⟨F, fun fuel hf => (wrapIn_agrees limit fuel h root).raises (hF fuel hf) fun e => ?_⟩
    obtain ⟨a, ea, n, hn, hh⟩ := wrapIn_near e _ (List.mem_map_of_mem ((hmem b).2 hb))
    have ha : Connected h root a := (from_iff_linked h root a).1 (by
      clear hn ea
      induction hh with
      | root h => exact .root h
      | step _ hb ih => exact .step ih hb)
    have hab : b = a := H.ids b a (hb.inside H hr) (ha.inside H hr) (congrArg NodeData.id ea)
    subst hab
    exact absurd (far n hh) (by omega)

/-- C105 for `expand_roots`, if it gets through without a bound: as many nested calls as there are nodes in the end are enough, counting the nodes that
no longer belong to the network. If a node below the roots can only be reached by `limit` links or more, from the children of the roots before or from the
roots afterwards, then `limit` nested calls are not enough. -/
theorem C105_expand (cfg : Config) (h : Heap ℚ) (U : Addr → Prop) (H : Region h U) (roots : List Addr) (hr : ∀ r ∈ roots, U r) (limit : Nat) (h' : Heap ℚ)
    (w : Settles (fun fuel => expandRoots cfg fuel h roots) (.ok h')) :
    (∀ N : List Addr, (∀ a, U a ∨ h.next ≤ a ∧ a < h'.next → a ∈ N) → N.length ≤ limit → 1 ≤ limit →
      Settles (fun fuel => expandRootsIn limit cfg fuel h roots) (.ok (some h'))) ∧
    ((∃ b, Reach h (roots.flatMap fun r => (h.get r).children) b ∧
        ∀ n, Hops (fun a => (h.get a).children) (roots.flatMap fun r => (h.get r).children) n b → limit ≤ n) →
      Settles (fun fuel => expandRootsIn limit cfg fuel h roots) (.ok none)) ∧
    ((∃ b, Reach h' roots b ∧ ∀ n, Hops (fun a => (h'.get a).children) roots n b → limit ≤ n) →
      Settles (fun fuel => expandRootsIn limit cfg fuel h roots) (.ok none)) := by
  refine ⟨fun N hN hl h1 => expandRootsIn_enough cfg H roots hr w hN hl h1, ?_⟩
  obtain ⟨F, hF⟩ := w
  obtain ⟨G, hG⟩ := expandRootsIn_near (limit := limit) cfg H roots hr (h' := h')
  have key : (∀ fuel, max F G ≤ fuel → expandRootsIn limit cfg fuel h roots ≠ .ok (some h')) →
      Settles (fun fuel => expandRootsIn limit cfg fuel h roots) (.ok none) := fun hne =>
    ⟨max F G, fun fuel hf => (expandRootsIn_agrees limit cfg fuel h roots).raises (hF fuel (by omega)) (hne fuel hf)⟩
  constructor
  · rintro ⟨b, hb, far⟩
    refine key fun fuel hf e => ?_
    obtain ⟨n, hn, hh⟩ := (hG fuel (by omega) e).1 b hb
    exact absurd (far n hh) (by omega)
  · rintro ⟨b, hb, far⟩
    refine key fun fuel hf e => ?_
    obtain ⟨n, hn, hh⟩ := (hG fuel (by omega) e).2 b hb
    exact absurd (far n hh) (by omega)

/-- Expanding the extraction of `5` from `8` takes three nested calls (and makes four nodes of three); saving it takes two. -/
example : Region (extracted 8 5) (· < (extracted 8 5).next) ∧
    (List.range 5).map (fun limit => (expandRootsIn limit config 100 (extracted 8 5) [0]).toOption.map fun r => r.map fun h => h.next) =
      [some none, some none, some none, some (some 4), some (some 4)] ∧
    (List.range 5).map (fun limit => (wrapIn limit 100 (extracted 8 5) 0).toOption.map fun r => r.map fun d => d.length) =
      [some none, some none, some (some 3), some (some 3), some (some 3)] ∧
    (List.range 5).map (fun limit => (populateOrderIn limit 100 (extracted 8 5) [0]).toOption) =
      [some none, some none, some (some [0, 1, 2]), some (some [0, 1, 2]), some (some [0, 1, 2])] :=
  ⟨region_all (by decide +kernel), by decide +kernel, by decide +kernel, by decide +kernel⟩

/-- A chain of `n` nodes without pending expansions. -/
def chain (n : Nat) : Heap ℚ where
  get a := ⟨1, a, some a, ⟨[], []⟩, if a = 0 then [] else [a - 1], if a + 1 < n then [a + 1] else [], [], 0⟩
  next := n
  nextUid := n

theorem chain_region (n : Nat) : Region (chain n) (· < n) where
  inside _ h := h
  children a ha c hc := by
    simp only [chain] at hc
    split at hc
    · rw [List.mem_singleton.1 hc]; assumption
    · cases hc
  parents a ha p hp := by
    simp only [chain] at hp
    split at hp
    · cases hp
    · have := List.mem_singleton.1 hp
      omega
  ids _ _ _ _ e := e
  fresh _ h := h

theorem chain_reach (n : Nat) : ∀ a, a < n → Reach (chain n) [0] a := by
  intro a
  induction a with
  | zero => exact fun _ => .root (by simp)
  | succ a ih =>
    intro h
    refine (ih (by omega)).child ?_
    simp [chain, h]

theorem chain_hops (n : Nat) {k a : Nat} (h : Hops (fun a => ((chain n).get a).children ++ ((chain n).get a).parents) [0] k a) : a ≤ k := by
  induction h with
  | root h => rw [List.mem_singleton.1 h]
  | step _ hb ih =>
    rcases List.mem_append.1 hb with hb | hb
    · simp only [chain] at hb
      split at hb
      · have := List.mem_singleton.1 hb
        omega
      · cases hb
    · simp only [chain] at hb
      split at hb
      · cases hb
      · have := List.mem_singleton.1 hb
        omega

theorem chain_hops_down (n : Nat) {k a : Nat} (h : Hops (fun a => ((chain n).get a).children) [0] k a) : a ≤ k := by
  refine chain_hops n (k := k) (a := a) ?_
  induction h with
  | root h => exact .root h
  | step _ hb ih => exact .step ih (List.mem_append_left _ hb)

/-- C105, both bounds are met: for a chain of `n` nodes, `n` nested calls are enough for each of the traversals, and fewer are not. So no bound is enough for
all graphs. -/
theorem C105_chain (cfg : Config) (n : Nat) (hn : 0 < n) (limit : Nat) :
    (∃ order, Settles (fun fuel => populateOrderIn limit fuel (chain n) [0]) (.ok (if limit < n then none else some order))) ∧
    (∃ data, Settles (fun fuel => wrapIn limit fuel (chain n) 0) (.ok (if limit < n then none else some data))) ∧
    ∃ h', Settles (fun fuel => expandRootsIn limit cfg fuel (chain n) [0]) (.ok (if limit < n then none else some h')) := by
  have H := chain_region n
  have hr : ∀ r ∈ [0], r < n := fun r hr => by rw [List.mem_singleton.1 hr]; exact hn
  have reach := chain_reach n
  have inside : ∀ a, Reach (chain n) [0] a → a < n := by
    intro a ha
    induction ha with
    | root hm => exact hr _ hm
    | child _ hb ih => exact H.children _ ih _ hb
  have conn : ∀ a, Connected (chain n) 0 a → a < n := fun a ha => ha.inside H hn
  have conn' : ∀ a, Reach (chain n) [0] a → Connected (chain n) 0 a := by
    intro a ha
    induction ha with
    | root h => rw [List.mem_singleton.1 h]; exact .root
    | child _ hb ih => exact ih.child hb
  refine ⟨?_, ?_, ?_⟩
  · obtain ⟨h1, h2⟩ := C105_populate (chain n) (· < n) H [0] hr limit
    split
    · exact ⟨[], h2 ⟨n - 1, reach _ (by omega), fun k hk => by have := chain_hops_down n hk; omega⟩⟩
    · obtain ⟨order, -, h⟩ := h1 fun p hp => by
        have := Nodup.length_le (N := List.range n) hp.nodup fun a ha => List.mem_range.2 (inside a ((from_iff_reach _ _ _).1 (hp.from a ha)))
        rw [List.length_range] at this
        omega
      exact ⟨order, h⟩
  · obtain ⟨h1, h2⟩ := C105_wrap (chain n) (· < n) H 0 hn limit
    split
    · exact ⟨[], h2 ⟨n - 1, conn' _ (reach _ (by omega)), fun k hk => by have := chain_hops n hk; omega⟩⟩
    · obtain ⟨data, -, h⟩ := h1 fun p hp => by
        have := Nodup.length_le (N := List.range n) hp.nodup fun a ha => List.mem_range.2 (conn a ((from_iff_linked _ _ _).1 (hp.from a ha)))
        rw [List.length_range] at this
        omega
      exact ⟨data, h⟩
  · have hl : ∀ a, Reach (chain n) [0] a → ((chain n).get a).level ≠ none := fun a _ => by simp [chain]
    obtain ⟨low, hlow, -⟩ := C57_min_level (chain n) (· < n) H [0] hr hl
    obtain ⟨h', e, S, -⟩ := levels_spec [0] hr _ [(1, 1 - low)] (chain n) H hl le_rfl
    have w : Settles (fun fuel => expandRoots cfg fuel (chain n) [0]) (.ok h') := by
      refine hlow.bind (k := fun _ => .ok h') fun x hx => ?_
      cases hx
      refine Settles.bind (r := .ok (chain n, [(1, 1 - low)])) (k := fun _ => .ok h')
        ⟨_, fun fuel hf => quiet_expandAll cfg H (fun _ _ => rfl) [0] hr _ fuel hf⟩ fun x hx => ?_
      cases hx
      exact (levels_stable [(1, 1 - low)] (chain n) [0]).settles (by simp) e
    obtain ⟨h1, -, h2⟩ := C105_expand cfg (chain n) (· < n) H [0] hr limit h' w
    refine ⟨h', ?_⟩
    split
    · refine h2 ⟨n - 1, S.reach.2 (reach _ (by omega)), fun k hk => ?_⟩
      have hK : (fun a => (h'.get a).children) = fun a => ((chain n).get a).children := funext S.children
      rw [hK] at hk
      have := chain_hops_down n hk
      omega
    · refine h1 (List.range n) (fun a ha => List.mem_range.2 ?_) (by rw [List.length_range]; omega) (by omega)
      have hnext : h'.next = n := S.next
      have hnext' : (chain n).next = n := rfl
      rcases ha with ha | ha
      · exact ha
      · omega

/-- `n` nodes, the even ones sources, each of which leads to the nodes before and behind it. -/
def zigzag (n : Nat) : Heap ℚ where
  get a := ⟨1, a, some ((a % 2 : Nat) : Int), ⟨[], []⟩, if a % 2 = 0 then [] else (a - 1) :: if a + 1 < n then [a + 1] else [],
    if a % 2 = 0 then (if a = 0 then [] else [a - 1]) ++ if a + 1 < n then [a + 1] else [] else [], [], 0⟩
  next := n
  nextUid := n

/-- The sources of the zigzag. -/
def zigzagRoots (n : Nat) : List Addr := (List.range n).filter fun a => a % 2 = 0

theorem zigzag_children (n : Nat) {a c : Addr} (h : c ∈ ((zigzag n).get a).children) : a % 2 = 0 ∧ (c + 1 = a ∨ c = a + 1 ∧ c < n) := by
  simp only [zigzag] at h
  split at h
  · refine ⟨by assumption, ?_⟩
    rcases List.mem_append.1 h with h | h
    · split at h
      · cases h
      · have := List.mem_singleton.1 h
        omega
    · split at h
      · have := List.mem_singleton.1 h
        omega
      · cases h
  · cases h

theorem zigzag_parents (n : Nat) {a c : Addr} (h : c ∈ ((zigzag n).get a).parents) : a % 2 = 1 ∧ (c + 1 = a ∨ c = a + 1 ∧ c < n) := by
  simp only [zigzag] at h
  split at h
  · cases h
  · refine ⟨by omega, ?_⟩
    rcases List.mem_cons.1 h with h | h
    · omega
    · split at h
      · have := List.mem_singleton.1 h
        omega
      · cases h

theorem zigzag_region (n : Nat) : Region (zigzag n) (· < n) where
  inside _ h := h
  children a ha c hc := by
    have := zigzag_children n hc
    have ha : a < n := ha
    show c < n
    omega
  parents a ha p hp := by
    have := zigzag_parents n hp
    have ha : a < n := ha
    show p < n
    omega
  ids _ _ _ _ e := e
  fresh _ h := h

theorem zigzag_connected (n : Nat) : ∀ a, a < n → Connected (zigzag n) 0 a := by
  intro a
  induction a with
  | zero => exact fun _ => .root
  | succ a ih =>
    intro h
    by_cases e : a % 2 = 0
    · exact (ih (by omega)).child (by simp [zigzag, e, h])
    · exact (ih (by omega)).parent (by simp [zigzag, e, h])

/-- C105, a picture without data: there are networks, with all levels 0 and 1, for which two nested calls are enough to draw the picture, but gathering the data
takes as many as there are nodes, because `wrap` also goes from children to parents. In between `save` writes the picture and no data. -/
theorem C105_picture_without_data (n limit : Nat) (h2 : 2 ≤ limit) (hn : limit < n) :
    ∃ h g d, Settles (fun fuel => saveNodes fuel (zigzag n) (zigzagRoots n)) (.ok (h, g, d)) ∧
      Settles (fun fuel => saveNodesIn limit fuel (zigzag n) (zigzagRoots n)) (.ok (h, some g, none)) := by
  obtain ⟨rs, hrs⟩ : ∃ rs, zigzagRoots n = 0 :: rs := by
    obtain ⟨k, rfl⟩ : ∃ k, n = k + 1 := ⟨n - 1, by omega⟩
    unfold zigzagRoots
    rw [List.range_succ_eq_map]
    exact ⟨_, rfl⟩
  have S := setLevels_same (zigzag n) (zigzagRoots n) 0
  have H := S.region (zigzag_region n)
  have hr : ∀ r ∈ zigzagRoots n, r < n ∧ r % 2 = 0 := fun r hr => by
    have := List.mem_filter.1 hr
    exact ⟨List.mem_range.1 this.1, by simpa using this.2⟩
  obtain ⟨g0, hg⟩ : ∃ g0, g0 = setLevels (zigzag n) (zigzagRoots n) 0 := ⟨_, rfl⟩
  rw [← hg] at S H
  have hK : ∀ a, (g0.get a).children = ((zigzag n).get a).children := S.children
  have hP : ∀ a, (g0.get a).parents = ((zigzag n).get a).parents := S.parents
  have same : ∀ {a}, Connected (zigzag n) 0 a → Connected g0 0 a := by
    intro a ha
    induction ha with
    | root => exact .root
    | child _ hb ih => exact ih.child (by rw [hK]; exact hb)
    | parent _ hb ih => exact ih.parent (by rw [hP]; exact hb)
  obtain ⟨p1, -⟩ := C105_populate g0 (· < n) H (zigzagRoots n) (fun r h => (hr r h).1) limit
  obtain ⟨order, ⟨F1, e1⟩, ⟨F2, e2⟩⟩ := p1 (by
    intro p hp
    have key : ∀ p, Simple (fun a => (g0.get a).children) (zigzagRoots n) p →
        (∃ a, p = [a] ∧ a % 2 = 0) ∨ ∃ a b, p = [b, a] ∧ b % 2 = 1 := by
      intro p hp
      induction hp with
      | root h => exact .inl ⟨_, rfl, (hr _ h).2⟩
      | step _ hb _ ih =>
        rename_i a b p _ _
        rw [hK] at hb
        have hb := zigzag_children n hb
        rcases ih with ⟨x, e, hx⟩ | ⟨x, y, e, hy⟩
        · cases e
          exact .inr ⟨_, _, rfl, by omega⟩
        · cases e
          omega
    rcases key p hp with ⟨a, rfl, -⟩ | ⟨a, b, rfl, -⟩
    · simp only [List.length_cons, List.length_nil]; omega
    · simpa using h2)
  obtain ⟨data, -, -, F3, e3⟩ := wrap_settles H 0 (by show 0 < n; omega)
  obtain ⟨-, w2⟩ := C105_wrap g0 (· < n) H 0 (by show 0 < n; omega) limit
  obtain ⟨F4, e4⟩ := w2 ⟨n - 1, by
    have := zigzag_connected n (n - 1) (by omega)
    exact same this, fun k hk => by
    have key : ∀ k a, Hops (fun a => (g0.get a).children ++ (g0.get a).parents) [0] k a → a ≤ k := by
      intro k a h
      induction h with
      | root h => rw [List.mem_singleton.1 h]
      | step _ hb ih =>
        rw [hK, hP] at hb
        rcases List.mem_append.1 hb with hb | hb
        · have := zigzag_children n hb
          omega
        · have := zigzag_parents n hb
          omega
    have := key k _ hk
    omega⟩
  refine ⟨g0, drawing g0 order, data.map (nodeData g0), ⟨max F1 F3, fun fuel hf => ?_⟩,
    ⟨max F2 F4, fun fuel hf => ?_⟩⟩
  · have q1 : populateOrder fuel g0 (zigzagRoots n) = .ok order := e1 fuel (by omega)
    have q3 := e3 fuel (by omega)
    show saveNodes fuel (zigzag n) (zigzagRoots n) = _
    rw [hrs] at hg q1 ⊢
    unfold saveNodes populate
    dsimp only
    rw [← hg, q1]
    dsimp only [bind, Except.bind, pure, Except.pure]
    rw [show wrap fuel g0 0 = _ from q3]
    rfl
  · have q2 : populateOrderIn limit fuel g0 (zigzagRoots n) = .ok (some order) := e2 fuel (by omega)
    have q4 : wrapIn limit fuel g0 0 = .ok none := e4 fuel (by omega)
    show saveNodesIn limit fuel (zigzag n) (zigzagRoots n) = _
    rw [hrs] at hg q2 ⊢
    unfold saveNodesIn
    dsimp only
    rw [← hg, q2]
    dsimp only [bind, Except.bind, pure, Except.pure]
    rw [q4]

/-- For instance five nodes, of which three are sources. -/
example : (zigzagRoots 5, (List.range 5).map fun a => (((zigzag 5).get a).children, ((zigzag 5).get a).parents)) =
    ([0, 2, 4], [([1], []), ([], [0, 2]), ([1, 3], []), ([], [2, 4]), ([3], [])]) := by decide +kernel

end Satis
