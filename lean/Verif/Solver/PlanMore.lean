import Verif.Solver.Plan
/-!
# More plans within the initial bound

The past of a belt forgets all but the value of the belt it was made of and of the first source that leads to it
(`C31_copy_past_partial`). So the plan of merging everything and extracting the targets one by one is permitted for more
requests than those of `PlanFits`; and where what remains after the first extraction is itself a source, merging the others
gives the first target.
-/

namespace Satis.Solver
open Satis Satis.Graph Satis.Utils Satis.Cost
variable {P : Problem} {B : Int} {values : List Int}

/-- The state of the plan: the belts `done` have been made, the targets `ts` are still to be extracted from the last belt. Its past
has only values of `A` and values that are not less than its own; the first source that leads to it has the value `b`. -/
structure PlanAt (P : Problem) (B : Int) (values A : List Int) (b : Int) (done ts : List Int) (g : Net) (total : Int) : Prop where
  play : NPlay P B (Net.ofValues values) g
  wf : g.WF
  vals : g.vals = done ++ [ts.sum]
  last : AllIn (fun v => v ∈ A ∨ ts.sum ≤ v) (g.node (g.src done.length)).past
  root : AllIn (fun v => v = b) (g.node (g.node (g.src done.length)).org).past
  rootValue : (g.node (g.node (g.src done.length)).org).value = b
  past : ∀ m ∈ g.past.items, m = values ∨ m.length ≤ done.length
  cost : ∃ r, extractAll P.cfg ts.sum ts = .ok r ∧ g.size + r = total

/-- One extraction. -/
theorem PlanAt.step (hP : P.WF) {A : List Int} {b : Int} {done ts : List Int} {t : Int} {g : Net} {total : Int}
    (I : PlanAt P B values A b done (t :: ts) g total) (hne : ts ≠ []) (hB : total ≤ B) (hsorted : (t :: ts).Pairwise (· < ·))
    (hpos : ∀ v ∈ t :: ts, 0 < v) (hdone : ∀ v ∈ done, v < t) (hmin : P.minTarget ≤ t) (hgcd : P.gcd ≤ t)
    (hmax : ∀ v ∈ P.targetValues, v ∈ done ∨ v ∈ t :: ts)
    (hv1 : t ∉ values) (hA1 : t ∉ A) (hA2 : ts.sum ∉ A) : ∃ g', PlanAt P B values [b] b (done ++ [t]) ts g' total := by
  obtain ⟨r, hr, htotal⟩ := I.cost
  have hs' := List.pairwise_cons.1 hsorted
  have ht := hpos t (by simp)
  have hpos' : ∀ v ∈ ts, 0 < v := fun v hv => hpos v (by simp [hv])
  have hgt : t < ts.sum := sum_gt_of_lt hne hs'.1 hpos'
  have hsum : (t :: ts).sum = t + ts.sum := List.sum_cons
  have hstep : extractAll P.cfg (t :: ts).sum (t :: ts) = match extractCost P.cfg (t :: ts).sum t with
      | .error e => .error e
      | .ok c => match extractAll P.cfg ((t :: ts).sum - t) ts with
        | .error e => .error e
        | .ok r => .ok (c + r) := rfl
  rw [hstep] at hr
  have hrest : (t :: ts).sum - t = ts.sum := by rw [hsum]; omega
  obtain ⟨k, hk, hk0⟩ := extractCost_pos P.cfg (t :: ts).sum t (by omega) ht (by omega)
  rw [hk] at hr
  dsimp only at hr
  rw [hrest] at hr
  rcases extractAll_spec P.cfg ts hne (hs'.2.imp le_of_lt) (fun v hv => (hpos' v hv).le) with ⟨r', hr', hr0, _⟩ | ⟨hbad, _⟩
  swap
  · rw [hbad] at hr; simp at hr
  rw [hr'] at hr
  simp only [Except.ok.injEq] at hr
  have hat : g.vals[done.length]? = some (t :: ts).sum := by rw [I.vals]; simp
  have hlast := Net.lt_of_vals hat
  have hmaxlt : ∀ v ∈ P.targetValues, v < (t :: ts).sum := by
    intro v hv
    rcases hmax v hv with h | h
    · have := hdone v h; omega
    · rcases List.mem_cons.1 h with rfl | h
      · omega
      · have := mem_le_sum (fun v hv => (hpos' v hv).le) h; omega
  have hnotpast : ∀ v, v ∉ A → v < (t :: ts).sum → ¬ g.pastOf done.length v := by
    rintro v h1 h3 ⟨_, hp⟩
    rcases I.last.2 v (by simpa [FastList.contains] using hp) with h | h
    · exact h1 h
    · omega
  have hperm : Permitted P g.vals g.pastOf (.extract done.length t) k := by
    refine ⟨(t :: ts).sum, ⟨hat, ?_⟩, ?_, ⟨(t :: ts).sum, ?_, by omega⟩, ht, by omega, hgcd, ?_, ?_, hk⟩
    · intro j hj he
      rw [I.vals, List.getElem?_append_left hj, List.getElem?_eq_getElem hj, Option.some.injEq] at he
      have := hdone _ (List.getElem_mem hj)
      omega
    · rintro ⟨_, hcount⟩
      have h1 : (t :: ts).sum ∈ g.vals := by rw [I.vals]; simp
      have h2 : P.targetValues.count (t :: ts).sum = 0 := List.count_eq_zero.2 fun hm => by
        have := hmaxlt _ hm; omega
      have h3 := List.count_pos_iff.2 h1
      omega
    · rw [I.vals]; simp
    · exact hnotpast t hA1 (by omega)
    · rw [hrest]
      exact hnotpast _ hA2 (by omega)
  have hadm := (hperm.adm hP I.wf).1
  have hcg := canGrow_extract (cfg := P.cfg) I.wf hadm
  have hchild : g.child P.cfg (.extract done.length t) k = g.grow [g.src done.length]
      ([t, (g.node (g.src done.length)).value - t].insertionSort (· ≤ ·)) (if isSpeed P.cfg t then [] else [.extract t]) [] k := rfl
  have hvs : [t, (g.node (g.src done.length)).value - t].insertionSort (· ≤ ·) = [t, ts.sum] := by
    rw [hlast.2, hrest]
    apply List.Pairwise.insertionSort_eq
    simp; omega
  have hvals : (g.child P.cfg (.extract done.length t) k).vals = (done ++ [t]) ++ [ts.sum] := by
    apply sorted_eq
    · rw [hchild, hvs]
      refine (Net.grow_vals_perm I.wf).trans ?_
      have hp := Net.vals_perm I.wf hcg
      rw [I.vals] at hp
      simp only [List.map_cons, List.map_nil, hlast.2] at hp
      have hp2 : ((t :: ts).sum :: done).Perm ([(t :: ts).sum] ++
          (g.srcs.filter fun i => decide (i ∉ [g.src done.length])).map fun i => (g.node i).value) :=
        (List.perm_append_singleton _ _).symm.trans hp
      have hp3 := (List.perm_cons _).1 (by simpa using hp2 : ((t :: ts).sum :: done).Perm ((t :: ts).sum ::
          (g.srcs.filter fun i => decide (i ∉ [g.src done.length])).map fun i => (g.node i).value))
      have hp4 : ([t, ts.sum] ++ (g.srcs.filter fun i => decide (i ∉ [g.src done.length])).map fun i => (g.node i).value).Perm
          ([t, ts.sum] ++ done) := hp3.symm.append_left _
      refine hp4.trans ?_
      rw [List.append_assoc]
      exact List.perm_append_comm
    · rw [hchild]; exact Net.grow_vals_sorted I.wf
    · rw [List.append_assoc, List.pairwise_append]
      refine ⟨?_, by simp; omega, ?_⟩
      · have := Net.vals_sorted I.wf
        rw [I.vals, List.pairwise_append] at this
        exact this.1
      · intro a ha b hb
        have := hdone a ha
        simp only [List.singleton_append, List.mem_cons, List.not_mem_nil, or_false] at hb
        rcases hb with rfl | rfl
        · omega
        · omega
  have hnew : (g.child P.cfg (.extract done.length t) k).vals ∉ g.past.items := by
    intro hm
    rcases I.past _ hm with h | h
    · apply hv1
      rw [← h, hvals]; simp
    · rw [hvals] at h; simp at h
  have hstepN : NStep P B g (g.child P.cfg (.extract done.length t) k) :=
    ⟨_, _, hperm, by omega, rfl, hnew⟩
  have hwf' := hstepN.wf hP I.wf
  -- the belt that remains
  have hsrc : (g.child P.cfg (.extract done.length t) k).src (done ++ [t]).length = g.n + 1 := by
    have hat' : (g.child P.cfg (.extract done.length t) k).vals[(done ++ [t]).length]? = some ts.sum := by rw [hvals]; simp
    obtain ⟨q1, q2⟩ := Net.lt_of_vals hat'
    have q3 := Net.src_mem q1
    generalize (g.child P.cfg (.extract done.length t) k).src (done ++ [t]).length = j at q2 q3
    rw [hchild, hvs] at q2 q3
    rcases (Net.mem_newSrcs j).1 q3 with ⟨q4, q5⟩ | ⟨q4, q5⟩
    · exfalso
      have q6 := ((I.wf.memSrcs j).1 q4).1
      rw [Net.grow_value, Net.newVal_old q6] at q2
      obtain ⟨i, hi, e⟩ := List.getElem_of_mem q4
      have e' : g.src i = j := by
        unfold Net.src
        rw [List.getD_eq_getElem?_getD, List.getElem?_eq_getElem hi, Option.getD_some, e]
      have hv := Net.vals_get hi
      rw [e', q2, I.vals] at hv
      by_cases hid : i < done.length
      · rw [List.getElem?_append_left hid, List.getElem?_eq_getElem hid, Option.some.injEq] at hv
        have := hdone _ (List.getElem_mem hid)
        omega
      · have hl : g.srcs.length = done.length + 1 := by rw [← Net.vals_length, I.vals]; simp
        have : i = done.length := by omega
        subst this
        exact q5 (by simp [e'])
    · simp only [List.length_cons, List.length_nil] at q5
      rcases Nat.lt_or_ge j (g.n + 1) with h | h
      · exfalso
        have : j = g.n := by omega
        subst this
        rw [Net.grow_value] at q2
        unfold Net.newVal at q2
        rw [if_neg (by omega)] at q2
        simp at q2
        omega
      · omega
  have ha := (I.wf.memSrcs _).1 (Net.src_mem hlast.1)
  have hno := I.wf.org_lt _ ha.1
  have hon : (g.node (g.src done.length)).org < g.n := lt_of_lt_of_le hno I.wf.rootsLe
  have horg : ((g.child P.cfg (.extract done.length t) k).node (g.n + 1)).org = (g.node (g.src done.length)).org := by
    rw [hchild, Net.grow_org_new (by omega)]; rfl
  have hcopy : AllIn (fun v => v ∈ [b] ∨ ts.sum ≤ v) (g.copyPast (g.src done.length)) := by
    unfold Net.copyPast
    refine AllIn.extend (AllIn.new _ ?_) _ ?_
    · intro v hv
      rw [List.mem_singleton.1 hv, hlast.2]
      exact Or.inr (by omega)
    · intro v hv
      left
      rw [I.root.1 v hv]; simp
  refine ⟨g.child P.cfg (.extract done.length t) k, .move I.play hstepN, hwf', hvals, ?_, ?_, ?_, ?_, r', hr', ?_⟩
  · rw [hsrc, hchild, hvs]
    have : ((g.grow [g.src done.length] [t, ts.sum] (if isSpeed P.cfg t then [] else [.extract t]) [] k).node (g.n + 1)).past =
        (FastList.new [ts.sum]).extend (g.copyPast (g.src done.length)).items := by
      unfold Net.grow; dsimp only; rw [if_neg (by omega)]; simp
    rw [this]
    exact AllIn.extend (AllIn.new _ (by simp)) _ hcopy.1
  · rw [hsrc, horg, hchild]
    have : ((g.grow [g.src done.length] ([t, (g.node (g.src done.length)).value - t].insertionSort (· ≤ ·))
        (if isSpeed P.cfg t then [] else [.extract t]) [] k).node (g.node (g.src done.length)).org).past =
        g.copyPast (g.node (g.src done.length)).org := by
      unfold Net.grow; dsimp only; rw [if_pos hon]
    rw [this]
    unfold Net.copyPast
    rw [(I.wf.root _ hno).2]
    exact AllIn.extend (AllIn.new _ (by simpa using I.rootValue)) _ I.root.1
  · rw [hsrc, horg, hchild, Net.grow_value, Net.newVal_old hon]
    exact I.rootValue
  · intro m hm
    rw [child_past] at hm
    have hm' : m ∈ g.past.items ∨ m = g.vals := by
      rw [FastList.append_items (FastList.wf_extend FastList.wf_empty _), FastList.mem_ref1,
        FastList.mem_extend FastList.wf_empty] at hm
      simpa [FastList.empty] using hm
    rcases hm' with h | rfl
    · rcases I.past m h with h | h
      · exact Or.inl h
      · right; simp; omega
    · right; rw [I.vals]; simp
  · rw [child_size]; omega

/-- All extractions. -/
theorem PlanAt.run (hP : P.WF) : ∀ (ts : List Int) {A : List Int} {b : Int} {done : List Int} {g : Net} {total : Int},
    PlanAt P B values A b done ts g total → ts ≠ [] → total ≤ B → ts.Pairwise (· < ·) →
    (∀ v ∈ ts, 0 < v) → (∀ v ∈ done, ∀ w ∈ ts, v < w) → (∀ v ∈ ts, P.minTarget ≤ v) → (∀ v ∈ ts, P.gcd ≤ v) →
    P.targetValues = done ++ ts → (∀ v ∈ values, v ∉ ts) → (∀ v ∈ A, v ∈ values ∧ v ≠ ts.tail.sum) → b ∈ values →
    b ∉ remainders ts.tail →
    ∃ g', NPlay P B (Net.ofValues values) g' ∧ g'.vals = P.targetValues ∧ g'.size = total := by
  intro ts
  induction ts with
  | nil => intro _ _ _ _ _ _ h; exact absurd rfl h
  | cons t ts ih =>
    intro A b done g total I _ hB hs hpos hdone hmin hgcd htv hval hA hb hbr
    by_cases hnil : ts = []
    · subst hnil
      refine ⟨g, I.play, ?_, ?_⟩
      · rw [I.vals, htv]; simp
      · obtain ⟨r, hr, hsz⟩ := I.cost
        simp only [extractAll, List.sum_cons, List.sum_nil, add_zero] at hr
        unfold extractCost at hr
        split at hr
        · simp at hr
        · rename_i h
          split at h
          · simp at h
          · rw [if_pos (Or.inr rfl)] at h
            simp at h hr
            omega
    · obtain ⟨g', I'⟩ := I.step hP hnil hB hs hpos (fun v hv => hdone v hv t (by simp)) (hmin t (by simp)) (hgcd t (by simp))
        (fun v hv => by rw [htv] at hv; exact List.mem_append.1 hv)
        (fun h => hval t h (by simp)) (fun h => hval t (hA t h).1 (by simp)) (fun h => (hA _ h).2 rfl)
      have hrm : ts.tail ≠ [] → remainders ts = ts.tail.sum :: remainders ts.tail := by
        intro h
        obtain ⟨x, xs, rfl⟩ := List.exists_cons_of_ne_nil hnil
        show (if xs = [] then [] else xs.sum :: remainders xs) = _
        rw [if_neg (show ¬ xs = [] from h)]; rfl
      have hbt : b ≠ ts.tail.sum ∧ b ∉ remainders ts.tail := by
        by_cases h : ts.tail = []
        · rw [h]
          refine ⟨?_, by simp [remainders]⟩
          rw [List.sum_nil]
          intro hb0
          rw [hb0] at hb
          -- a source of value zero
          have := I.wf
          have hbp : 0 < b := by
            have h1 := I.wf.pos _ (lt_of_lt_of_le (I.wf.org_lt _ ((I.wf.memSrcs _).1 (Net.src_mem
              (Net.lt_of_vals (show g.vals[done.length]? = some (t :: ts).sum by rw [I.vals]; simp)).1)).1) I.wf.rootsLe)
            rw [I.rootValue] at h1
            exact h1
          omega
        · have h2 := hrm h
          have hbr' : b ∉ remainders ts := hbr
          rw [h2] at hbr'
          simp only [List.mem_cons, not_or] at hbr'
          exact hbr'
      refine ih I' hnil hB (List.pairwise_cons.1 hs).2 (fun v hv => hpos v (by simp [hv])) ?_ (fun v hv => hmin v (by simp [hv]))
        (fun v hv => hgcd v (by simp [hv])) (by rw [htv]; simp) (fun v hv h => hval v hv (by simp [h])) ?_ hb hbt.2
      · intro v hv w hw
        rcases List.mem_append.1 hv with h | h
        · exact hdone v h w (by simp [hw])
        · rw [List.mem_singleton.1 h]; exact (List.pairwise_cons.1 hs).1 w hw
      · intro v hv
        rw [List.mem_singleton.1 hv]
        exact ⟨hb, hbt.1⟩

/-- Merging the first sources. -/
theorem merge_first (hP : P.WF) {W R : List Int} (hv : values = W ++ R) (h2 : 2 ≤ W.length) (hwf : (Net.ofValues values).WF)
    (hpv : ∀ v ∈ values, 0 < v) (hR : ∀ v ∈ R, v ∉ W) (hlim : W.sum ≤ P.limit) (hgcd : P.gcd ≤ W.sum)
    (hneed : ∀ v ∈ W, v ∉ P.targetValues) (hB : ((W.length / 2 : Nat) : Int) ≤ B) :
    NStep P B (Net.ofValues values) ((Net.ofValues values).child P.cfg (.merge (List.range W.length)) (W.length / 2 : Nat)) ∧
    (Net.ofValues values).child P.cfg (.merge (List.range W.length)) (W.length / 2 : Nat) =
      (Net.ofValues values).grow (List.range W.length) [W.sum] [] (if W.length > 3 then [.merge 3] else []) (W.length / 2 : Nat) ∧
    ((Net.ofValues values).child P.cfg (.merge (List.range W.length)) (W.length / 2 : Nat)).vals.Perm (W.sum :: R) := by
  set g0 := Net.ofValues values with hg0
  have hv0 : g0.vals = values := ofValues_vals values
  have hlen0 : g0.srcs.length = values.length := by rw [← Net.vals_length, hv0]
  have hWv : W.length ≤ values.length := by rw [hv]; simp
  have hsrc : ∀ i, i < values.length → g0.src i = i := by
    intro i hi
    show (List.range values.length).getD i 0 = i
    rw [List.getD_eq_getElem?_getD, List.getElem?_eq_getElem (by simpa using hi), Option.getD_some, List.getElem_range]
  have hidx : (List.range W.length).map (fun i => (g0.node (g0.src i)).value) = W := by
    apply List.ext_getElem
    · simp
    · intro i h1 h2
      have := Net.vals_get (g := g0) (i := i) (by rw [hlen0]; omega)
      rw [hv0, hv, List.getElem?_append_left h2, List.getElem?_eq_getElem h2, Option.some.injEq] at this
      rw [List.getElem_map, List.getElem_range, this]
  have hold : (List.range W.length).map g0.src = List.range W.length := by
    apply List.ext_getElem
    · simp
    · intro i h1 h2
      rw [List.getElem_map, List.getElem_range]
      exact hsrc i (by simp at h1; omega)
  have hsumlt : ∀ v ∈ W, v < W.sum := by
    intro v hvW
    obtain ⟨l1, l2, e⟩ := List.append_of_mem hvW
    have hne' : l1 ++ l2 ≠ [] := by
      intro h
      rw [List.append_eq_nil_iff] at h
      rw [e, h.1, h.2] at h2
      simp at h2
    have h1 : 0 < (l1 ++ l2).sum := List.sum_pos _ (fun w hw => hpv w (by rw [hv, e]; simp at hw ⊢; tauto)) hne'
    rw [e]
    simp only [List.sum_append, List.sum_cons] at h1 ⊢
    omega
  have hperm : Permitted P g0.vals g0.pastOf (.merge (List.range W.length)) (W.length / 2 : Nat) := by
    refine ⟨W, ?_, List.pairwise_lt_range, by simpa using h2, ?_, ?_, hgcd, hlim, ?_, by simp⟩
    · rw [hv0, hv]
      apply List.ext_getElem
      · simp
      · intro i h1 h2
        rw [List.length_map, List.length_range] at h1
        rw [List.getElem_map, List.getElem_range, List.getElem?_append_left h1, List.getElem?_eq_getElem h1, List.getElem_map]
    · intro idx' h1 h3 hlt
      have hl : idx'.length = W.length := by
        have := congrArg List.length h3
        simpa using this
      have hbound : ∀ i ∈ idx', i < W.length := by
        intro i hi
        have hm : (fun i => g0.vals[i]?) i ∈ W.map some := by rw [← h3]; exact List.mem_map.2 ⟨i, hi, rfl⟩
        obtain ⟨v, hvW, hvi⟩ := List.mem_map.1 hm
        by_contra hge
        dsimp only at hvi
        rw [hv0, hv, List.getElem?_append_right (by omega)] at hvi
        exact hR v (List.mem_of_getElem? hvi.symm) hvW
      have hsub := sublist_range_iff.2 ⟨h1, hbound⟩
      have : idx' = List.range W.length := hsub.eq_of_length (by simpa using hl)
      rw [this] at hlt
      exact lt_irrefl _ hlt
    · rintro v hvW ⟨h1, h3⟩
      rw [List.count_eq_zero.2 (hneed v hvW)] at h3
      have := List.count_pos_iff.2 h1
      omega
    · rintro i hi ⟨h3, h4⟩
      have hi' : i < W.length := List.mem_range.1 hi
      have h5 : g0.src i = i := hsrc i (by omega)
      rw [h5] at h4
      have h6 : (g0.node i).past = FastList.new [W[i]] := by
        show FastList.new [values.getD i 0] = _
        rw [hv, List.getD_eq_getElem?_getD, List.getElem?_append_left hi', List.getElem?_eq_getElem hi', Option.getD_some]
      rw [h6] at h4
      have h7 : W.sum = W[i] := by
        have : AllIn (fun v => v = W[i]) (FastList.new [W[i]]) := AllIn.new _ (by simp)
        exact this.2 _ (by simpa [FastList.contains] using h4)
      have := hsumlt _ (List.getElem_mem hi')
      omega
  have hadm := (hperm.adm hP hwf).1
  have hcg := canGrow_merge (cfg := P.cfg) hwf hadm
  have hchild : g0.child P.cfg (.merge (List.range W.length)) (W.length / 2 : Nat) =
      g0.grow (List.range W.length) [W.sum] [] (if W.length > 3 then [.merge 3] else []) (W.length / 2 : Nat) := by
    show g0.grow ((List.range W.length).map g0.src) [((List.range W.length).map fun i => (g0.node (g0.src i)).value).sum] []
      (if (List.range W.length).length > 3 then [.merge 3] else []) _ = _
    rw [hold, hidx, List.length_range]
  have hvals : (g0.child P.cfg (.merge (List.range W.length)) (W.length / 2 : Nat)).vals.Perm (W.sum :: R) := by
    obtain ⟨rest, h1, h3⟩ := predicted_merge hwf hadm (cost := (W.length / 2 : Nat))
    rw [hidx] at h1 h3
    obtain ⟨r', e1, e2, _⟩ := removeAll_perm W g0.vals R (by rw [hv0, hv])
    rw [h1] at e1
    simp only [Except.ok.injEq] at e1
    subst e1
    rw [← h3]
    exact (insort_perm _ _ _).trans ((List.perm_cons _).2 e2)
  refine ⟨⟨_, _, hperm, ?_, rfl, ?_⟩, hchild, hvals⟩
  · have : g0.size = 0 := rfl
    omega
  · have : g0.past.items = [] := rfl
    rw [this]; simp

/-- With several sources: merging all of them is possible within the belt limit, no source has the value of a target, and the
smallest source is not what remains after extracting two or more of the targets. -/
def PlanOpen (limit : Int) (sources targets : List Int) : Prop :=
  2 ≤ sources.length → sources.sum ≤ limit ∧ (∀ v ∈ sources, v ∉ targets) ∧ ∀ v ∈ sources.head?, v ∉ remainders targets.tail

/-- A play within the bound. -/
theorem plan_play_more (hP : P.WF) (hne : values ≠ []) (hpv : ∀ v ∈ values, 0 < v) (hsv : values.Pairwise (· ≤ ·))
    (hts : P.targetValues ≠ []) (hs : P.targetValues.Pairwise (· < ·)) (hpos : ∀ v ∈ P.targetValues, 0 < v)
    (hmin : ∀ v ∈ P.targetValues, P.minTarget ≤ v) (hgcd : ∀ v ∈ values ++ P.targetValues, P.gcd ∣ v)
    (hsum : P.targetValues.sum = values.sum) (hfit : PlanOpen P.limit values P.targetValues) {r : Int}
    (hr : extractAll P.cfg values.sum P.targetValues = .ok r) (hr0 : 0 ≤ r)
    (hB : ((mergeCost values.length 1 : Nat) : Int) + r ≤ B) :
    ∃ g, NPlay P B (Net.ofValues values) g ∧ g.vals = P.targetValues ∧ g.size ≤ ((mergeCost values.length 1 : Nat) : Int) + r := by
  by_cases hlen : 2 ≤ values.length
  swap
  · obtain ⟨g, h1, h2, h3⟩ := plan_play hP hne hpv hsv hts hs hpos hmin hgcd hsum (fun h => absurd h hlen) hr hr0 hB
    exact ⟨g, h1, h2, h3.le⟩
  obtain ⟨hlim, hdis, hhead⟩ := hfit hlen
  have hwf := Net.ofValues_wf values hne hpv hsv
  have hgle : ∀ v ∈ P.targetValues, P.gcd ≤ v := fun v hv => Int.le_of_dvd (hpos v hv) (hgcd v (by simp [hv]))
  have hmc : mergeCost (values.length : Int) 1 = values.length / 2 := by rw [mergeCost_eq]; omega
  rw [hmc] at hB ⊢
  obtain ⟨t, ts, htt⟩ := List.exists_cons_of_ne_nil hts
  have hsrcs0 : (Net.ofValues values).srcs = List.range values.length := rfl
  have hn0 : (Net.ofValues values).n = values.length := rfl
  have hnode0 : ∀ i (hi : i < values.length), ((Net.ofValues values).node i).value = values[i] ∧
      ((Net.ofValues values).node i).past = FastList.new [values[i]] ∧ ((Net.ofValues values).node i).org = i := by
    intro i hi
    have : values.getD i 0 = values[i] := by
      rw [List.getD_eq_getElem?_getD, List.getElem?_eq_getElem hi, Option.getD_some]
    refine ⟨this, ?_, rfl⟩
    show FastList.new [values.getD i 0] = _
    rw [this]
  have hcopy0 : ∀ i (hi : i < values.length), AllIn (fun v => v = values[i]) ((Net.ofValues values).copyPast i) := by
    intro i hi
    unfold Net.copyPast
    rw [(hnode0 i hi).2.2, (hnode0 i hi).1, (hnode0 i hi).2.1]
    exact AllIn.extend (AllIn.new _ (by simp)) _ (AllIn.new [values[i]] (by simp)).1
  have hpast0 : ∀ m ∈ (((FastList.empty : FastList (List Int)).extend (Net.ofValues values).past.items).append
      (Net.ofValues values).vals).items, m = values := by
    intro m hm
    have : (Net.ofValues values).past.items = [] := rfl
    rw [FastList.append_items (FastList.wf_extend FastList.wf_empty _), FastList.mem_ref1,
      FastList.mem_extend FastList.wf_empty, this, ofValues_vals] at hm
    simpa [FastList.empty] using hm
  have hspos := List.pairwise_cons.1 (htt ▸ hs)
  have hrem : remainders P.targetValues.tail = remainders ts := by rw [htt]; rfl
  rw [hrem] at hhead
  by_cases hmem : ts.sum ∈ values
  · -- what remains after the first extraction is a source
    have htsne : ts ≠ [] := by
      rintro rfl
      exact absurd (hpv _ hmem) (by simp)
    have htspos : ∀ v ∈ ts, 0 < v := fun v hv => hpos v (by rw [htt]; simp [hv])
    have hgt : t < ts.sum := sum_gt_of_lt htsne hspos.1 htspos
    have ht0 := hpos t (by rw [htt]; simp)
    obtain ⟨W, l2, hval⟩ := List.append_of_mem hmem
    have hWsum : W.sum + l2.sum = t := by
      rw [htt, hval, List.sum_cons, List.sum_append, List.sum_cons] at hsum
      omega
    have hWpos : ∀ v ∈ W, 0 < v := fun v hv => hpv v (by rw [hval]; simp [hv])
    have hW0 : 0 ≤ W.sum := List.sum_nonneg fun v hv => (hWpos v hv).le
    have hl2 : l2 = [] := by
      rcases l2 with - | ⟨x, l⟩
      · rfl
      · exfalso
        have h1 : ts.sum ≤ x := by
          rw [hval] at hsv
          exact (List.pairwise_cons.1 (List.pairwise_append.1 hsv).2.1).1 x (by simp)
        have h2 := mem_le_sum (l := x :: l) (fun v hv => (hpv v (by rw [hval]; simp at hv ⊢; tauto)).le) (show x ∈ x :: l by simp)
        omega
    subst hl2
    rw [List.sum_nil, add_zero] at hWsum
    have hWt : ∀ v ∈ W, v ≤ t := fun v hv => by
      have := mem_le_sum (fun v hv => (hWpos v hv).le) hv; omega
    have hW2 : 2 ≤ W.length := by
      match W, hWsum, hval with
      | [], h, _ => simp at h; omega
      | [x], h, e =>
        exfalso
        simp at h
        exact hdis x (by rw [e]; simp) (by rw [htt, h]; simp)
      | _ :: _ :: _, _, _ => simp
    have hvl : values.length = W.length + 1 := by rw [hval]; simp
    have hsum' : values.sum = t + ts.sum := by rw [← hsum, htt, List.sum_cons]
    -- the cost of the rest
    have hstep : extractAll P.cfg (t :: ts).sum (t :: ts) = match extractCost P.cfg (t :: ts).sum t with
      | .error e => .error e
      | .ok c => match extractAll P.cfg ((t :: ts).sum - t) ts with
        | .error e => .error e
        | .ok r => .ok (c + r) := rfl
    rw [← hsum, htt, hstep] at hr
    have hsc : (t :: ts).sum = t + ts.sum := List.sum_cons
    obtain ⟨k, hk, hk0⟩ := extractCost_pos P.cfg (t :: ts).sum t (by omega) ht0 (by omega)
    rw [hk] at hr
    dsimp only at hr
    rw [show (t :: ts).sum - t = ts.sum by omega] at hr
    rcases extractAll_spec P.cfg ts htsne (hspos.2.imp le_of_lt) (fun v hv => (htspos v hv).le) with ⟨r', hr', hr0', _⟩ | ⟨hbad, _⟩
    swap
    · rw [hbad] at hr; simp at hr
    rw [hr'] at hr
    simp only [Except.ok.injEq] at hr
    obtain ⟨m1, m2, m3⟩ := merge_first (B := B) hP hval hW2 hwf hpv (by
        intro v hv hvW
        rw [List.mem_singleton.1 hv] at hvW
        have := hWt _ hvW
        omega)
      (by rw [hWsum]; omega) (by rw [hWsum]; exact hgle t (by rw [htt]; simp))
      (fun v hv => hdis v (by rw [hval]; simp [hv])) (by omega)
    rw [hWsum] at m2 m3
    generalize hg : (Net.ofValues values).child P.cfg (.merge (List.range W.length)) ((W.length / 2 : Nat) : Int) = g at m1 m2 m3
    have hgwf := m1.wf hP hwf
    have hvals : g.vals = [t] ++ [ts.sum] := sorted_eq m3 (Net.vals_sorted hgwf) (by simp; omega)
    have hsrc : g.src [t].length = W.length := by
      obtain ⟨q1, q2⟩ := Net.lt_of_vals (show g.vals[[t].length]? = some ts.sum by rw [hvals]; rfl)
      have q3 := Net.src_mem q1
      generalize g.src [t].length = j at q2 q3
      rw [m2] at q2 q3
      rcases (Net.mem_newSrcs j).1 q3 with ⟨q4, q5⟩ | ⟨q4, q5⟩
      · rw [hsrcs0, List.mem_range] at q4
        rw [List.mem_range] at q5
        omega
      · exfalso
        rw [hn0] at q4
        simp only [List.length_cons, List.length_nil, hn0] at q5
        have : j = values.length := by omega
        subst this
        rw [Net.grow_value] at q2
        unfold Net.newVal at q2
        rw [hn0, if_neg (by omega)] at q2
        simp at q2
        omega
    have hWl : W.length < values.length := by omega
    have hWv : values[W.length] = ts.sum := by
      simp only [hval]
      simp
    have hnodeW : (g.node W.length).past = (Net.ofValues values).copyPast W.length ∧ (g.node W.length).org = W.length ∧
        (g.node W.length).value = ts.sum := by
      rw [m2]
      refine ⟨?_, ?_, ?_⟩
      · unfold Net.grow; dsimp only; rw [if_pos (by rw [hn0]; exact hWl)]
      · rw [Net.grow_org_old (by rw [hn0]; exact hWl)]; rfl
      · rw [Net.grow_value, Net.newVal_old (by rw [hn0]; exact hWl), (hnode0 _ hWl).1, hWv]
    have hcW := hcopy0 _ hWl
    rw [hWv] at hcW
    have I : PlanAt P B values [] ts.sum [t] ts g (((W.length / 2 : Nat) : Int) + r') := by
      refine ⟨.move .start m1, hgwf, hvals, ?_, ?_, ?_, ?_, r', hr', ?_⟩
      · rw [hsrc, hnodeW.1]
        exact ⟨fun v hv => Or.inr (hcW.1 v hv).ge, fun v hv => Or.inr (hcW.2 v hv).ge⟩
      · rw [hsrc, hnodeW.2.1, hnodeW.1]; exact hcW
      · rw [hsrc, hnodeW.2.1]; exact hnodeW.2.2
      · intro m hm
        rw [← hg, child_past] at hm
        exact Or.inl (hpast0 m hm)
      · rw [← hg, child_size]
        have : (Net.ofValues values).size = 0 := rfl
        omega
    obtain ⟨g', g1, g2, g3⟩ := I.run hP ts htsne (by omega) hspos.2 htspos (by simpa using hspos.1)
      (fun v hv => hmin v (by rw [htt]; simp [hv])) (fun v hv => hgle v (by rw [htt]; simp [hv])) (by rw [htt]; rfl)
      (fun v hv h => hdis v hv (by rw [htt]; simp [h])) (by simp) hmem (fun h => by
        obtain ⟨x, xs, rfl⟩ := List.exists_cons_of_ne_nil htsne
        have h1 := (remainders_lt xs fun v hv => htspos v (by simp [hv])).1 _ h
        have h2 := htspos x (by simp)
        rw [List.sum_cons] at h1
        omega)
    exact ⟨g', g1, g2, by omega⟩
  · obtain ⟨m1, m2, m3⟩ := merge_first (B := B) (R := []) hP (by simp) hlen hwf hpv (by simp) hlim (by
        have h1 := hgle t (by rw [htt]; simp)
        have h2 := mem_le_sum (fun v hv => (hpos v hv).le) (show t ∈ P.targetValues by rw [htt]; simp)
        omega) hdis (by omega)
    generalize hg : (Net.ofValues values).child P.cfg (.merge (List.range values.length)) ((values.length / 2 : Nat) : Int) = g at m1 m2 m3
    have hgwf := m1.wf hP hwf
    have hvals : g.vals = [] ++ [P.targetValues.sum] := by rw [hsum]; exact List.perm_singleton.1 m3
    have hsrc : g.src ([] : List Int).length = values.length := by
      obtain ⟨q1, q2⟩ := Net.lt_of_vals (show g.vals[([] : List Int).length]? = some P.targetValues.sum by rw [hvals]; rfl)
      have q3 := Net.src_mem q1
      generalize g.src ([] : List Int).length = j at q2 q3
      rw [m2] at q2 q3
      rcases (Net.mem_newSrcs j).1 q3 with ⟨q4, q5⟩ | ⟨q4, q5⟩
      · exact absurd q4 q5
      · rw [hn0] at q4
        simp only [List.length_cons, List.length_nil, hn0] at q5
        omega
    have h0l : 0 < values.length := by omega
    have horg : (g.node values.length).org = 0 := by
      rw [m2, Net.grow_org_new (by rw [hn0])]
      have hl := Net.least_le ((List.range values.length).map fun a => ((Net.ofValues values).node a).org) 0
        (List.mem_map.2 ⟨0, List.mem_range.2 h0l, rfl⟩)
      omega
    have hroot : (g.node 0).past = (Net.ofValues values).copyPast 0 ∧ (g.node 0).value = values[0] := by
      rw [m2]
      refine ⟨?_, ?_⟩
      · unfold Net.grow; dsimp only; rw [if_pos (by rw [hn0]; exact h0l)]
      · rw [Net.grow_value, Net.newVal_old (by rw [hn0]; exact h0l), (hnode0 _ h0l).1]
    have I : PlanAt P B values values values[0] [] P.targetValues g (((values.length / 2 : Nat) : Int) + r) := by
      refine ⟨.move .start m1, hgwf, hvals, ?_, ?_, ?_, ?_, r, by rw [hsum]; exact hr, ?_⟩
      · rw [hsrc]
        have : (g.node values.length).past = (List.range values.length).foldl
            (fun p a => p.extend ((Net.ofValues values).copyPast a).items) (FastList.new [values.sum]) := by
          rw [m2]
          unfold Net.grow; dsimp only; rw [if_neg (by rw [hn0]; omega)]; simp [hn0]
        rw [this]
        have key : ∀ (l : List Nat) (p : FastList Int), (∀ a ∈ l, a < values.length) →
            AllIn (fun v => v ∈ values ∨ P.targetValues.sum ≤ v) p →
            AllIn (fun v => v ∈ values ∨ P.targetValues.sum ≤ v) (l.foldl (fun p a => p.extend ((Net.ofValues values).copyPast a).items) p) := by
          intro l
          induction l with
          | nil => intro p _ hp; exact hp
          | cons x l ih =>
            intro p hl hp
            rw [List.foldl_cons]
            refine ih _ (fun a ha => hl a (by simp [ha])) (hp.extend _ ?_)
            intro v hv
            rw [(hcopy0 x (hl x (by simp))).1 v hv]
            exact Or.inl (List.getElem_mem _)
        exact key _ _ (fun a ha => List.mem_range.1 ha) (AllIn.new _ (by rw [hsum]; simp))
      · rw [hsrc, horg, hroot.1]; exact hcopy0 0 h0l
      · rw [hsrc, horg]; exact hroot.2
      · intro m hm
        rw [← hg, child_past] at hm
        exact Or.inl (hpast0 m hm)
      · rw [← hg, child_size]
        have : (Net.ofValues values).size = 0 := rfl
        omega
    obtain ⟨g', g1, g2, g3⟩ := I.run hP _ hts (by omega) hs hpos (by simp) hmin hgle rfl hdis
      (fun v hv => ⟨hv, fun e => hmem (by rw [htt] at e; rw [← show v = ts.sum from e]; exact hv)⟩) (List.getElem_mem _) (by
        rw [hrem]
        exact hhead _ (by rw [List.head?_eq_getElem?, List.getElem?_eq_getElem h0l]; rfl))
    exact ⟨g', g1, g2, g3.le⟩

end Satis.Solver
