import Verif.Graph.LaneLevels
import Verif.Graph.WrapLemmas
/-!
# Transcription of what is drawn: `populate` and the grouping by levels (`src/node.py:142-151,543-558`)

`G.add_node(self, …)` and `G.add_edge(self, child)` hand the node itself to `pygraphviz`, which identifies nodes by their text: it calls `str` on them,
adds a node if there is none with this text, and otherwise sets the attributes of the one there is. The text of a node (`src/node.py:28-39,45-61`, with
`short_repr`, as in `config.py:37`) shows its value, the last three digits of its `node_id`, the kinds of the expansions pending and its level.
-/

namespace Satis.Graph
open Satis

variable {V : Type}

/-- What the text of a node tells (`src/node.py:30-33,45-61`). -/
structure Tag (V : Type) where
  value : V
  tail : Nat
  kinds : List Nat
  level : Option Int
  deriving DecidableEq, Repr

/-- `src/node.py:54-60` `expand_code_to_str`: the names of the kinds differ, so the codes stand for them. -/
def kind : Expand V → Nat
  | .extract _ => 0
  | .divide _ => 1
  | .merge _ => 2
  | .split _ => 3

/-- `str(node)`. `tail` gives the last three digits of an id (`src/node.py:48-49`); these are random (`uuid4`). -/
def tagOf (tail : Uid → Nat) (h : Heap V) (a : Addr) : Tag V :=
  ⟨(h.get a).value, tail (h.get a).id, (h.get a).expands.map kind, (h.get a).level⟩

/-- An `AGraph`, made with `strict=False`: nodes with the attributes `label` (here the value, before the division by `unit_flow_ratio`) and `level`, if
they were set, and edges, the same one as often as it was added. -/
structure Canvas (V : Type) where
  nodes : Dict (Tag V) (Option (V × Option Int))
  edges : List (Tag V × Tag V)
  deriving DecidableEq, Repr

section drawing
variable [DecidableEq V]

/-- `G.add_node(k, label=…, level=…)`. -/
def Canvas.addNode (c : Canvas V) (k : Tag V) (value : V) (level : Option Int) : Canvas V := { c with nodes := c.nodes.set k (some (value, level)) }

/-- The part of `G.add_edge` that adds a node that is missing, without attributes. -/
def Canvas.ensure (c : Canvas V) (k : Tag V) : Canvas V := if k ∈ c.nodes.keys then c else { c with nodes := c.nodes.set k none }

/-- `G.add_edge(k, k')`. -/
def Canvas.addEdge (c : Canvas V) (k k' : Tag V) : Canvas V :=
  let c := (c.ensure k).ensure k'
  { c with edges := c.edges ++ [(k, k')] }

/-- `src/node.py:145-151`, for one node: it is added, and an edge for each of its children. (The code goes into a child right after adding the edge to it;
here all edges of a node are added when it is entered. This changes the order of the nodes and edges only.) -/
def paintNode (tail : Uid → Nat) (h : Heap V) (c : Canvas V) (a : Addr) : Canvas V :=
  (h.get a).children.foldl (fun c b => c.addEdge (tagOf tail h a) (tagOf tail h b)) (c.addNode (tagOf tail h a) (h.get a).value (h.get a).level)

/-- `src/node.py:543-549`: the graph that is drawn for the network below the roots (whose levels were set to 0). -/
def paint (tail : Uid → Nat) (fuel : Nat) (h : Heap V) (roots : List Addr) : Py (Canvas V) := do
  let as ← populateOrder fuel h roots
  return as.foldl (paintNode tail h) ⟨[], []⟩

/-- `src/node.py:553-555`, for one node. `int("None")` raises `ValueError` (which is caught, `src/node.py:582-583`, so that nothing is written). A node
without attributes does not occur, see `paint_settles`. -/
def rankStep (d : Dict Int (List (Tag V))) (kv : Tag V × Option (V × Option Int)) : Py (Dict Int (List (Tag V))) :=
  match kv.2 with
  | some (_, some l) => .ok (d.set l ((d.get? l).getD [] ++ [kv.1]))
  | _ => .error .valueError

/-- `src/node.py:551-555`: the nodes by level. -/
def ranks (c : Canvas V) : Py (Dict Int (List (Tag V))) := c.nodes.foldlM rankStep []

end drawing

/-! ## Facts -/

section facts
variable [DecidableEq V]

theorem Canvas.ensure_keys (c : Canvas V) (k k' : Tag V) : k' ∈ (c.ensure k).nodes.keys ↔ k' ∈ c.nodes.keys ∨ k' = k := by
  unfold ensure
  split
  · next h =>
    constructor
    · exact .inl
    · rintro (w | rfl)
      · exact w
      · exact h
  · exact Dict.mem_keys_set _ _ _ _

theorem Canvas.ensure_get (c : Canvas V) (k k' : Tag V) (x) (h : c.nodes.get? k' = some x) : (c.ensure k).nodes.get? k' = some x := by
  unfold ensure
  split
  · exact h
  · next hk =>
    show (c.nodes.set k none).get? k' = _
    rw [Dict.get?_set, if_neg, h]
    rintro rfl
    rw [(Dict.get?_eq_none _ _).2 hk] at h
    cases h

theorem Canvas.ensure_nodup (c : Canvas V) (k : Tag V) (h : c.nodes.keys.Nodup) : (c.ensure k).nodes.keys.Nodup := by
  unfold ensure
  split
  · exact h
  · exact Dict.keys_nodup_set _ _ _ h

theorem Canvas.ensure_edges (c : Canvas V) (k : Tag V) : (c.ensure k).edges = c.edges := by
  unfold ensure
  split <;> rfl

theorem addEdges_spec (k : Tag V) (f : Addr → Tag V) : ∀ (l : List Addr) (c : Canvas V), c.nodes.keys.Nodup → k ∈ c.nodes.keys →
    (l.foldl (fun c b => c.addEdge k (f b)) c).nodes.keys.Nodup ∧
    (∀ k', k' ∈ (l.foldl (fun c b => c.addEdge k (f b)) c).nodes.keys ↔ k' ∈ c.nodes.keys ∨ ∃ b ∈ l, f b = k') ∧
    (∀ k' x, c.nodes.get? k' = some x → (l.foldl (fun c b => c.addEdge k (f b)) c).nodes.get? k' = some x) ∧
    (l.foldl (fun c b => c.addEdge k (f b)) c).edges = c.edges ++ l.map fun b => (k, f b) := by
  intro l
  induction l with
  | nil => intro c hc hk; simp [hc]
  | cons b l ih =>
    intro c hc hk
    have h1 : (c.addEdge k (f b)).nodes.keys.Nodup := ((c.ensure k).ensure_nodup _ (c.ensure_nodup k hc))
    have h2 : ∀ k', k' ∈ (c.addEdge k (f b)).nodes.keys ↔ k' ∈ c.nodes.keys ∨ k' = f b := by
      intro k'
      show k' ∈ ((c.ensure k).ensure (f b)).nodes.keys ↔ _
      rw [Canvas.ensure_keys, Canvas.ensure_keys]
      constructor
      · rintro ((w | rfl) | w)
        · exact .inl w
        · exact .inl hk
        · exact .inr w
      · rintro (w | w)
        · exact .inl (.inl w)
        · exact .inr w
    obtain ⟨q1, q2, q3, q4⟩ := ih (c.addEdge k (f b)) h1 ((h2 k).2 (.inl hk))
    rw [List.foldl_cons]
    refine ⟨q1, fun k' => ?_, fun k' x w => q3 k' x (Canvas.ensure_get _ _ _ _ (Canvas.ensure_get _ _ _ _ w)), ?_⟩
    · rw [q2, h2]
      simp only [List.mem_cons, exists_eq_or_imp]
      constructor
      · rintro ((w | w) | w)
        · exact .inl w
        · exact .inr (.inl w.symm)
        · exact .inr (.inr w)
      · rintro (w | w | w)
        · exact .inl (.inl w)
        · exact .inl (.inr w.symm)
        · exact .inr w
    · rw [q4]
      show ((c.ensure k).ensure (f b)).edges ++ [_] ++ _ = _
      rw [Canvas.ensure_edges, Canvas.ensure_edges]
      simp

theorem paintNode_spec (tail : Uid → Nat) (h : Heap V) (c : Canvas V) (a : Addr) (hc : c.nodes.keys.Nodup) :
    (paintNode tail h c a).nodes.keys.Nodup ∧
    (∀ k, k ∈ (paintNode tail h c a).nodes.keys ↔ k ∈ c.nodes.keys ∨ k = tagOf tail h a ∨ ∃ b ∈ (h.get a).children, tagOf tail h b = k) ∧
    (∀ k x, c.nodes.get? k = some (some x) → k ≠ tagOf tail h a → (paintNode tail h c a).nodes.get? k = some (some x)) ∧
    (paintNode tail h c a).nodes.get? (tagOf tail h a) = some (some ((h.get a).value, (h.get a).level)) ∧
    (paintNode tail h c a).edges = c.edges ++ (h.get a).children.map fun b => (tagOf tail h a, tagOf tail h b) := by
  have h1 : (c.addNode (tagOf tail h a) (h.get a).value (h.get a).level).nodes.keys.Nodup := Dict.keys_nodup_set _ _ _ hc
  have h2 : ∀ k, k ∈ (c.addNode (tagOf tail h a) (h.get a).value (h.get a).level).nodes.keys ↔ k ∈ c.nodes.keys ∨ k = tagOf tail h a :=
    fun k => Dict.mem_keys_set _ _ _ _
  obtain ⟨q1, q2, q3, q4⟩ := addEdges_spec (tagOf tail h a) (tagOf tail h) (h.get a).children _ h1 ((h2 _).2 (.inr rfl))
  refine ⟨q1, fun k => ?_, fun k x w hk => q3 k _ ?_, q3 _ _ ?_, q4⟩
  · refine (q2 k).trans ?_
    rw [h2, or_assoc]
  · show (c.nodes.set _ _).get? k = _
    rw [Dict.get?_set, if_neg hk, w]
  · show (c.nodes.set _ _).get? _ = _
    rw [Dict.get?_set, if_pos rfl]

/-- What is on the canvas when the nodes of the list have been entered. -/
theorem paintNodes_spec (tail : Uid → Nat) (h : Heap V) : ∀ (l : List Addr) (c : Canvas V), c.nodes.keys.Nodup →
    (l.foldl (paintNode tail h) c).nodes.keys.Nodup ∧
    (∀ k, k ∈ (l.foldl (paintNode tail h) c).nodes.keys ↔ k ∈ c.nodes.keys ∨ ∃ a ∈ l, k = tagOf tail h a ∨ ∃ b ∈ (h.get a).children, tagOf tail h b = k) ∧
    (∀ k, c.nodes.get? k = some (some (k.value, k.level)) ∨ (∃ a ∈ l, k = tagOf tail h a) →
      (l.foldl (paintNode tail h) c).nodes.get? k = some (some (k.value, k.level))) ∧
    (l.foldl (paintNode tail h) c).edges = c.edges ++ l.flatMap fun a => (h.get a).children.map fun b => (tagOf tail h a, tagOf tail h b) := by
  intro l
  induction l with
  | nil => intro c hc; simp [hc]
  | cons a l ih =>
    intro c hc
    obtain ⟨p1, p2, p3, p4, p5⟩ := paintNode_spec tail h c a hc
    obtain ⟨q1, q2, q3, q4⟩ := ih _ p1
    rw [List.foldl_cons]
    refine ⟨q1, fun k => ?_, fun k w => q3 k ?_, ?_⟩
    · rw [q2, p2]
      simp only [List.mem_cons, exists_eq_or_imp, or_assoc]
    · by_cases hk : k = tagOf tail h a
      · left
        rw [hk]
        exact p4
      · rcases w with w | ⟨b, hb, e⟩
        · exact .inl (p3 k _ w hk)
        · rcases List.mem_cons.1 hb with rfl | hb
          · exact absurd e hk
          · exact .inr ⟨b, hb, e⟩
    · rw [q4, p5]
      simp

theorem paint_settles {h : Heap ℚ} {U : Addr → Prop} (H : Region h U) (roots : List Addr) (hr : ∀ r ∈ roots, U r) (tail : Uid → Nat) :
    ∃ (order : List Addr) (c : Canvas ℚ), Settles (fun fuel => paint tail fuel h roots) (.ok c) ∧ order.Nodup ∧ (∀ a, a ∈ order ↔ Reach h roots a) ∧
      c.nodes.keys.Nodup ∧ (∀ k, k ∈ c.nodes.keys ↔ ∃ a, Reach h roots a ∧ tagOf tail h a = k) ∧
      (∀ k ∈ c.nodes.keys, c.nodes.get? k = some (some (k.value, k.level))) ∧
      c.edges = order.flatMap fun a => (h.get a).children.map fun b => (tagOf tail h a, tagOf tail h b) := by
  obtain ⟨order, ⟨F, hF⟩, h1, h2⟩ := populateOrder_settles H roots hr
  obtain ⟨q1, q2, q3, q4⟩ := paintNodes_spec tail h order ⟨[], []⟩ (by simp [Dict.keys])
  have hk : ∀ k, k ∈ (order.foldl (paintNode tail h) ⟨[], []⟩).nodes.keys ↔ ∃ a, Reach h roots a ∧ tagOf tail h a = k := by
    intro k
    rw [q2]
    constructor
    · rintro (w | ⟨a, ha, rfl | ⟨b, hb, rfl⟩⟩)
      · simp [Dict.keys] at w
      · exact ⟨a, (h2 a).1 ha, rfl⟩
      · exact ⟨b, ((h2 a).1 ha).child hb, rfl⟩
    · rintro ⟨a, ha, rfl⟩
      exact .inr ⟨a, (h2 a).2 ha, .inl rfl⟩
  refine ⟨order, _, ⟨F, fun fuel hf => ?_⟩, h1, h2, q1, hk, fun k hm => q3 k ?_, by rw [q4]; simp⟩
  · have := hF fuel hf
    simp only at this
    simp only [paint, this, bind, Except.bind, pure, Except.pure]
  · obtain ⟨a, ha, rfl⟩ := (hk k).1 hm
    exact .inr ⟨a, (h2 a).2 ha, rfl⟩

end facts

end Satis.Graph
