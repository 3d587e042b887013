import Verif.Graph.PictureSpec
/-!
# Reading the picture of a solution before expansion

Nothing here mentions the code that makes the picture.
-/

namespace Satis.Graph
open Satis

/-- The picture `d` shows how the flows `S` are divided and merged to the flows `T`: the labels, in units of `1/k`, tell what passes, arrows lead to greater
levels, and every machine either divides what it gets among machines that get nothing else, or hands all of it to one, which gets the sum of what is handed
to it. -/
structure Outline (d : Drawing ℚ) (k : Nat) (S T : List ℚ) (flow : Uid → ℚ) : Prop where
  distinct : d.names.Nodup
  label : ∀ i v l, (i, v, l) ∈ d.nodes → flow i = v / k
  positive : ∀ i ∈ d.names, 0 < flow i
  arrows : ∀ e ∈ d.edges, ∃ v l w m, (e.1, v, some l) ∈ d.nodes ∧ (e.2, w, some m) ∈ d.nodes ∧ l < m
  supply : ((d.names.filter fun i => decide (d.ins i = [])).map flow).Perm S
  demand : ((d.names.filter fun i => decide (d.outs i = [])).map flow).Perm T
  balance : ∀ i ∈ d.names, d.outs i ≠ [] → ((∀ j ∈ d.outs i, d.ins j = [i]) ∧ ((d.outs i).map flow).sum = flow i) ∨
    ∃ j, d.outs i = [j] ∧ (d.ins j).Nodup ∧ (∀ p ∈ d.ins j, d.outs p = [j]) ∧ ((d.ins j).map flow).sum = flow j

end Satis.Graph
