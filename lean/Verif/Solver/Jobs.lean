import Verif.Solver.Step
/-!
# What the nodes of a net do with their value, and what is tagged for that
-/

namespace Satis.Solver
open Satis Satis.Graph

/-- What a node of value `v` with children of the values `vs` does, and what is pending for that. -/
inductive NJob (cfg : Config) (v : Int) : List Int → List (Expand Int) → Prop
  | leaf : NJob cfg v [] []
  | pass (w : Int) : NJob cfg v [w] []
  | share (d : Nat) (q : Int) : 2 ≤ d → (d : Int) * q = v → NJob cfg v (List.replicate d q) (if d > 3 then [.divide d] else [])
  | cut (c : Int) (vs : List Int) : vs.Perm [c, v - c] → 0 < c → 2 * c < v → NJob cfg v vs (if isSpeed cfg c then [] else [.extract c])
  | split (c : Int) (vs : List Int) : vs.Perm [c / 3, c / 3, v - c / 3 * 2] → isSpeed cfg c = true → NJob cfg v vs [.split c]

theorem NJob.perm {cfg : Config} {v : Int} {vs vs' : List Int} {es} (h : NJob cfg v vs es) (hp : vs'.Perm vs) : NJob cfg v vs' es := by
  cases h with
  | leaf => rw [hp.eq_nil]; exact .leaf
  | pass w => rw [List.perm_singleton.1 hp]; exact .pass w
  | share d q h1 h2 => rw [List.perm_replicate.1 hp]; exact .share d q h1 h2
  | cut c _ h1 h2 h3 => exact .cut c _ (hp.trans h1) h2 h3
  | split c _ h1 h2 => exact .split c _ (hp.trans h1) h2

theorem NJob.nil {cfg : Config} {v : Int} {es} (h : NJob cfg v [] es) : es = [] := by
  generalize e : ([] : List Int) = vs at h
  cases h with
  | leaf => rfl
  | pass w => rfl
  | share d q h1 h2 => 
    have := congrArg List.length e
    simp at this
    omega
  | cut c _ h1 h2 h3 => 
    subst e
    simpa using h1.length_eq
  | split c _ h1 =>
    subst e
    simpa using h1.length_eq

/-- A merge of more than three belts is tagged. -/
def mergeTag (k : Nat) : List (Expand Int) := if k > 3 then [.merge 3] else []

/-- The entries `_expands` of the nodes. -/
def Net.Typed (cfg : Config) (g : Net) : Prop :=
  ∀ i, i < g.n → (g.node i).kids.Nodup ∧ ∃ es, NJob cfg (g.node i).value ((g.node i).kids.map fun k => (g.node k).value) es ∧
    (g.node i).expands = mergeTag (g.node i).pars.length ++ es

theorem Net.ofValues_typed (cfg : Config) (values : List Int) : (Net.ofValues values).Typed cfg := by
  intro i _
  exact ⟨List.nodup_nil, [], .leaf, rfl⟩

theorem Net.grow_typed {cfg : Config} {g : Net} (hg : g.WF) (ht : g.Typed cfg) {old : List Nat} {vs : List Int}
    {tagOld tagNew : List (Expand Int)} {cost : Int} (hc : g.CanGrow old vs) (hn : tagNew = mergeTag old.length)
    (ho : ∀ a ∈ old, NJob cfg (g.node a).value vs tagOld) : (g.grow old vs tagOld tagNew cost).Typed cfg := by
  have hv : ∀ i, i < g.n → ((g.grow old vs tagOld tagNew cost).node i).value = (g.node i).value := fun i hi => by
    rw [grow_value, newVal_old hi]
  intro i hi
  rcases Nat.lt_or_ge i g.n with h | h
  · obtain ⟨h1, es, h2, h3⟩ := ht i h
    rw [grow_kids_old h, grow_pars_old h, hv i h]
    have hx : ((g.grow old vs tagOld tagNew cost).node i).expands =
        if i ∈ old then (g.node i).expands ++ tagOld else (g.node i).expands := by
      unfold grow; dsimp only; rw [if_pos h]
    rw [hx]
    by_cases hm : i ∈ old
    · have hk : (g.node i).kids = [] := ((hg.memSrcs i).1 (hc.mem i hm)).2
      rw [if_pos hm, if_pos hm, hk, List.nil_append]
      rw [hk] at h2
      refine ⟨List.nodup_range', tagOld, ?_, by rw [h3, h2.nil, List.append_nil]⟩
      have : (List.range' g.n vs.length).map (fun k => ((g.grow old vs tagOld tagNew cost).node k).value) = vs := by
        rw [← getD_range_map vs g.n]
        simp only [List.length_map, List.length_range']
        apply List.map_congr_left
        intro k hk
        rw [getD_range_map, grow_value]
        rw [List.mem_range'_1] at hk
        unfold newVal
        rw [if_neg (by omega)]
      rw [this]
      exact ho i hm
    · rw [if_neg hm, if_neg hm]
      refine ⟨h1, es, ?_, h3⟩
      rw [List.map_congr_left (g := fun k => (g.node k).value)]
      · exact h2
      · intro k hk
        exact hv k (hg.kidLt i k h hk).2
  · rw [grow_kids_new h, grow_pars_new h]
    refine ⟨List.nodup_nil, [], .leaf, ?_⟩
    rw [List.append_nil, ← hn]
    unfold grow; dsimp only; rw [if_neg (by omega)]

theorem Net.child_typed {cfg : Config} {g : Net} (hg : g.WF) (ht : g.Typed cfg) {op : Op} (ha : Adm cfg g op) (cost : Int) :
    (g.child cfg op cost).Typed cfg := by
  cases op with
  | extract i c =>
    refine grow_typed hg ht (canGrow_extract hg ha) rfl fun a h => ?_
    rw [List.mem_singleton.1 h]
    exact .cut c _ (List.perm_insertionSort _ _) ha.2.1 ha.2.2
  | divide i d =>
    refine grow_typed hg ht (canGrow_divide hg ha) rfl fun a h => ?_
    rw [List.mem_singleton.1 h]
    exact .share d _ ha.2.1 (Int.mul_ediv_cancel' ha.2.2)
  | split i c =>
    refine grow_typed hg ht (canGrow_split hg ha) rfl fun a h => ?_
    rw [List.mem_singleton.1 h]
    exact .split c _ (List.perm_insertionSort _ _) ha.2.1
  | merge idx =>
    refine grow_typed hg ht (canGrow_merge hg ha) (by unfold mergeTag; rw [List.length_map]) fun a h => ?_
    exact .pass _

theorem NPlay.typed {P : Problem} (hP : P.WF) {B : Int} {values : List Int} {g : Net} (hg : (Net.ofValues values).WF)
    (hs : NPlay P B (Net.ofValues values) g) : g.Typed P.cfg := by
  induction hs with
  | start => exact Net.ofValues_typed _ _
  | move h hm ih =>
    have hw := h.wf hP hg
    obtain ⟨op, cost, h1, _, rfl, h2⟩ := hm
    exact Net.child_typed hw ih (h1.adm hP hw).1 cost

end Satis.Solver
