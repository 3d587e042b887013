import Verif.Graph.Save
/-!
# When two saved networks are the same
-/

namespace Satis.Graph
open Satis

/-- A tuple of the data, with other ids. -/
def NodeData.rename (f : Uid → Uid) (d : NodeData ℚ) : NodeData ℚ :=
  { d with id := f d.id, parents := d.parents.map f, children := d.children.map f }

/-- What was written, with other ids. -/
def Saved.rename (f : Uid → Uid) (s : Saved ℚ) : Saved ℚ :=
  (⟨s.1.nodes.map fun x => (f x.1, x.2), s.1.edges.map fun e => (f e.1, f e.2)⟩,
    s.2.map (NodeData.rename f))

/-- The same was written, except that nodes whose ids are not below `n` (those made while expanding) may have other ids: ids go to ids one
to one. -/
def SameUpTo (n : Nat) (s s' : Saved ℚ) : Prop := ∃ f : Uid → Uid, Function.Injective f ∧ (∀ i < n, f i = i) ∧ s' = s.rename f

end Satis.Graph
