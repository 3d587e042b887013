import Verif.Solver.LoadFacts
import Verif.Solver.Facts
/-!
# The plan behind the initial bound: merge everything, then extract the targets
-/

namespace Satis.Solver
open Satis Satis.Graph Satis.Utils Satis.Cost

/-! ### As a sequence of conversions -/

theorem extractAll_converts {cfg : Config} {s : List Int} : ∀ (ts : List Int) (c r : Int) (done : List Int), ts ≠ [] →
    ts.Pairwise (· < ·) → (∀ v ∈ ts, 0 < v) → extractAll cfg ts.sum ts = .ok r → Converts cfg s c (ts.sum :: done) →
    Converts cfg s (c + r) (ts.reverse ++ done) := by
  intro ts
  induction ts with
  | nil => intro _ _ _ h; exact absurd rfl h
  | cons t ts ih =>
    intro c r done _ hs hpos he hc
    have hstep : extractAll cfg (t :: ts).sum (t :: ts) = match extractCost cfg (t :: ts).sum t with
      | .error e => .error e
      | .ok c => match extractAll cfg ((t :: ts).sum - t) ts with
        | .error e => .error e
        | .ok r => .ok (c + r) := rfl
    rw [hstep] at he
    have hrest : (t :: ts).sum - t = ts.sum := by rw [List.sum_cons]; omega
    cases hk : extractCost cfg (t :: ts).sum t with
    | error e => rw [hk] at he; simp at he
    | ok k =>
      rw [hk] at he
      dsimp only at he
      rw [hrest] at he
      by_cases hnil : ts = []
      · subst hnil
        simp only [extractAll, Except.ok.injEq] at he
        simp only [List.sum_cons, List.sum_nil, add_zero] at hk hc
        have hk0 : k = 0 := by
          unfold extractCost at hk
          split at hk
          · simp at hk
          · rw [if_pos (Or.inr rfl)] at hk
            simpa using hk.symm
        simp only [List.reverse_cons, List.reverse_nil, List.nil_append, List.singleton_append]
        rw [show c + r = c by omega]
        exact hc
      · cases hr : extractAll cfg ts.sum ts with
        | error e => rw [hr] at he; simp at he
        | ok r' =>
          rw [hr] at he
          simp only [Except.ok.injEq] at he
          have ht := hpos t (by simp)
          have hts : 0 < ts.sum := List.sum_pos _ (fun v hv => hpos v (by simp [hv])) hnil
          have hc' := Converts.extract hc ht (by rw [List.sum_cons]; omega) hk
          rw [hrest] at hc'
          have := ih (c + k) r' (t :: done) hnil (List.pairwise_cons.1 hs).2 (fun v hv => hpos v (by simp [hv])) hr hc'
          rw [List.reverse_cons, List.append_assoc, List.singleton_append, show c + r = c + k + r' by omega]
          exact this

/-! ### As moves of the search -/

/-- All elements satisfy `Q`. -/
def AllIn (Q : Int → Prop) (l : FastList Int) : Prop := (∀ v ∈ l.items, Q v) ∧ ∀ v ∈ l.set, Q v

theorem AllIn.extend {Q : Int → Prop} {l : FastList Int} (hl : AllIn Q l) (xs : List Int) (hx : ∀ v ∈ xs, Q v) : AllIn Q (l.extend xs) := by
  unfold FastList.extend
  induction xs generalizing l with
  | nil => exact hl
  | cons x xs ih =>
    rw [List.foldl_cons]
    apply ih
    · unfold FastList.append
      split
      · exact hl
      · constructor
        · intro v hv
          rcases List.mem_append.1 hv with h | h
          · exact hl.1 v h
          · rw [List.mem_singleton.1 h]; exact hx x (by simp)
        · intro v hv
          rcases List.mem_append.1 hv with h | h
          · exact hl.2 v h
          · rw [List.mem_singleton.1 h]; exact hx x (by simp)
    · intro v hv; exact hx v (by simp [hv])

theorem AllIn.new {Q : Int → Prop} (xs : List Int) (hx : ∀ v ∈ xs, Q v) : AllIn Q (FastList.new xs) :=
  AllIn.extend (l := FastList.empty) ⟨by simp [FastList.empty], by simp [FastList.empty]⟩ xs hx

/-- All values that occur in a net satisfy `Q`. -/
def Net.All (g : Net) (Q : Int → Prop) : Prop := ∀ i, i < g.n → Q (g.node i).value ∧ AllIn Q (g.node i).past

theorem Net.All.mono {g : Net} {Q R : Int → Prop} (h : g.All Q) (hqr : ∀ v, Q v → R v) : g.All R := fun i hi =>
  ⟨hqr _ (h i hi).1, fun v hv => hqr v ((h i hi).2.1 v hv), fun v hv => hqr v ((h i hi).2.2 v hv)⟩

theorem Net.All.copyPast {g : Net} (hg : g.WF) {Q : Int → Prop} (h : g.All Q) {i : Nat} (hi : i < g.n) : AllIn Q (g.copyPast i) := by
  unfold Net.copyPast
  refine AllIn.extend (AllIn.new _ (by simpa using (h i hi).1)) _ ?_
  exact (h _ (lt_of_lt_of_le (hg.org_lt i hi) hg.rootsLe)).2.1

theorem Net.All.grow {g : Net} (hg : g.WF) {Q : Int → Prop} (h : g.All Q) {old : List Nat} {vs : List Int} (ho : ∀ a ∈ old, a < g.n)
    (hv : ∀ v ∈ vs, Q v) (tO tN : List (Expand Int)) (cost : Int) : (g.grow old vs tO tN cost).All Q := by
  intro i hi
  have hn : (g.grow old vs tO tN cost).n = g.n + vs.length := rfl
  rw [hn] at hi
  by_cases hlt : i < g.n
  · constructor
    · rw [Net.grow_value, Net.newVal_old hlt]; exact (h i hlt).1
    · have : ((g.grow old vs tO tN cost).node i).past = g.copyPast i := by
        unfold Net.grow; dsimp only; rw [if_pos hlt]
      rw [this]
      exact h.copyPast hg hlt
  · have hval : Q (vs.getD (i - g.n) 0) := by
      apply hv
      rw [List.getD_eq_getElem?_getD, List.getElem?_eq_getElem (by omega), Option.getD_some]
      exact List.getElem_mem _
    constructor
    · rw [Net.grow_value]
      unfold Net.newVal
      rw [if_neg hlt]; exact hval
    · have : ((g.grow old vs tO tN cost).node i).past =
          old.foldl (fun p a => p.extend (g.copyPast a).items) (FastList.new [vs.getD (i - g.n) 0]) := by
        unfold Net.grow; dsimp only; rw [if_neg hlt]
      rw [this]
      have key : ∀ (l : List Nat) (p : FastList Int), (∀ a ∈ l, a < g.n) → AllIn Q p →
          AllIn Q (l.foldl (fun p a => p.extend (g.copyPast a).items) p) := by
        intro l
        induction l with
        | nil => intro p _ hp; exact hp
        | cons x l ih =>
          intro p hl hp
          rw [List.foldl_cons]
          exact ih _ (fun a ha => hl a (by simp [ha])) (hp.extend _ (h.copyPast hg (hl x (by simp))).1)
      exact key old _ ho (AllIn.new _ (by simpa using hval))

theorem Net.All.pastOf {g : Net} (hg : g.WF) {Q : Int → Prop} (h : g.All Q) {i : Nat} {v : Int} (hp : g.pastOf i v) : Q v := by
  obtain ⟨h1, h2⟩ := hp
  have := (h _ ((hg.memSrcs _).1 (Net.src_mem h1)).1).2.2 v
  apply this
  simpa [FastList.contains] using h2

variable {P : Problem} {B : Int} {values : List Int}

/-- The state of the plan: the belts `done` have been extracted, and the targets `ts` are still to be extracted. -/
structure PlanInv (P : Problem) (B : Int) (values done ts : List Int) (g : Net) (total : Int) : Prop where
  play : NPlay P B (Net.ofValues values) g
  wf : g.WF
  vals : g.vals = done ++ [ts.sum]
  all : g.All fun v => v ∈ values ∨ v ∈ done ∨ ts.sum ≤ v
  past : ∀ m ∈ g.past.items, m = values ∨ m.length ≤ done.length
  cost : ∃ r, extractAll P.cfg ts.sum ts = .ok r ∧ g.size + r = total

theorem sum_gt_of_lt {t : Int} {ts : List Int} (hne : ts ≠ []) (hlt : ∀ v ∈ ts, t < v) (hpos : ∀ v ∈ ts, 0 < v) : t < ts.sum := by
  obtain ⟨x, xs, rfl⟩ := List.exists_cons_of_ne_nil hne
  have h1 := hlt x (by simp)
  have h2 := mem_le_sum (fun v hv => (hpos v hv).le) (show x ∈ x :: xs by simp)
  omega

/-- One extraction. -/
theorem PlanInv.step (hP : P.WF) (hpv : ∀ v ∈ values, 0 < v) {done ts : List Int} {t : Int} {g : Net} {total : Int}
    (I : PlanInv P B values done (t :: ts) g total) (hne : ts ≠ []) (hB : total ≤ B) (hsorted : (t :: ts).Pairwise (· < ·))
    (hpos : ∀ v ∈ t :: ts, 0 < v) (hdone : ∀ v ∈ done, v < t) (hmin : P.minTarget ≤ t) (hgcd : P.gcd ≤ t)
    (htar : ∀ v ∈ t :: ts, v ∈ P.targetValues) (hmax : ∀ v ∈ P.targetValues, v ∈ done ∨ v ∈ t :: ts)
    (hv1 : t ∉ values) (hv2 : ts.sum ∉ values) : ∃ g', PlanInv P B values (done ++ [t]) ts g' total := by
  obtain ⟨r, hr, htotal⟩ := I.cost
  have hs' := List.pairwise_cons.1 hsorted
  have ht := hpos t (by simp)
  have hpos' : ∀ v ∈ ts, 0 < v := fun v hv => hpos v (by simp [hv])
  have hgt : t < ts.sum := sum_gt_of_lt hne hs'.1 hpos'
  have hsum : (t :: ts).sum = t + ts.sum := List.sum_cons
  have hstep : extractAll P.cfg (t :: ts).sum (t :: ts) = match extractCost P.cfg (t :: ts).sum t with
      | .error e => .error e
      | .ok c => match extractAll P.cfg ((t :: ts).sum - t) ts with
        | .error e => .error e
        | .ok r => .ok (c + r) := rfl
  rw [hstep] at hr
  have hrest : (t :: ts).sum - t = ts.sum := by rw [hsum]; omega
  obtain ⟨k, hk, hk0⟩ := extractCost_pos P.cfg (t :: ts).sum t (by omega) ht (by omega)
  rw [hk] at hr
  dsimp only at hr
  rw [hrest] at hr
  rcases extractAll_spec P.cfg ts hne (hs'.2.imp le_of_lt) (fun v hv => (hpos' v hv).le) with ⟨r', hr', hr0, _⟩ | ⟨hbad, _⟩
  swap
  · rw [hbad] at hr; simp at hr
  rw [hr'] at hr
  simp only [Except.ok.injEq] at hr
  -- the source to extract from
  have hat : g.vals[done.length]? = some (t :: ts).sum := by rw [I.vals]; simp
  have hlast := Net.lt_of_vals hat
  have hmaxlt : ∀ v ∈ P.targetValues, v < (t :: ts).sum := by
    intro v hv
    rcases hmax v hv with h | h
    · have := hdone v h; omega
    · rcases List.mem_cons.1 h with rfl | h
      · omega
      · have := mem_le_sum (fun v hv => (hpos' v hv).le) h; omega
  have hnotpast : ∀ v, v ∉ values → v ∉ done → v < (t :: ts).sum → ∀ i, ¬ g.pastOf i v := by
    intro v h1 h2 h3 i hp
    rcases I.all.pastOf I.wf hp with h | h | h
    · exact h1 h
    · exact h2 h
    · omega
  have hperm : Permitted P g.vals g.pastOf (.extract done.length t) k := by
    refine ⟨(t :: ts).sum, ⟨hat, ?_⟩, ?_, ⟨(t :: ts).sum, ?_, by omega⟩, ht, by omega, hgcd, ?_, ?_, hk⟩
    · intro j hj he
      rw [I.vals, List.getElem?_append_left hj, List.getElem?_eq_getElem hj, Option.some.injEq] at he
      have := hdone _ (List.getElem_mem hj)
      omega
    · rintro ⟨_, hcount⟩
      have h1 : (t :: ts).sum ∈ g.vals := by rw [I.vals]; simp
      have h2 : P.targetValues.count (t :: ts).sum = 0 := List.count_eq_zero.2 fun hm => by
        have := hmaxlt _ hm; omega
      have h3 := List.count_pos_iff.2 h1
      omega
    · rw [I.vals]; simp
    · exact hnotpast t hv1 (fun hd => by have := hdone t hd; omega) (by omega) _
    · rw [hrest]
      exact hnotpast _ hv2 (fun hd => by have := hdone _ hd; omega) (by omega) _
  have hadm := (hperm.adm hP I.wf).1
  have hcg := canGrow_extract (cfg := P.cfg) I.wf hadm
  have hchild : g.child P.cfg (.extract done.length t) k = g.grow [g.src done.length]
      ([t, (g.node (g.src done.length)).value - t].insertionSort (· ≤ ·)) (if isSpeed P.cfg t then [] else [.extract t]) [] k := rfl
  have hvs : [t, (g.node (g.src done.length)).value - t].insertionSort (· ≤ ·) = [t, ts.sum] := by
    rw [hlast.2, hrest]
    apply List.Pairwise.insertionSort_eq
    simp; omega
  have hvals : (g.child P.cfg (.extract done.length t) k).vals = (done ++ [t]) ++ [ts.sum] := by
    apply sorted_eq
    · rw [hchild, hvs]
      refine (Net.grow_vals_perm I.wf).trans ?_
      have hp := Net.vals_perm I.wf hcg
      rw [I.vals] at hp
      simp only [List.map_cons, List.map_nil, hlast.2] at hp
      have hp2 : ((t :: ts).sum :: done).Perm ([(t :: ts).sum] ++
          (g.srcs.filter fun i => decide (i ∉ [g.src done.length])).map fun i => (g.node i).value) :=
        (List.perm_append_singleton _ _).symm.trans hp
      have hp3 := (List.perm_cons _).1 (by simpa using hp2 : ((t :: ts).sum :: done).Perm ((t :: ts).sum ::
          (g.srcs.filter fun i => decide (i ∉ [g.src done.length])).map fun i => (g.node i).value))
      have hp4 : ([t, ts.sum] ++ (g.srcs.filter fun i => decide (i ∉ [g.src done.length])).map fun i => (g.node i).value).Perm
          ([t, ts.sum] ++ done) := hp3.symm.append_left _
      refine hp4.trans ?_
      rw [List.append_assoc]
      exact List.perm_append_comm
    · rw [hchild]; exact Net.grow_vals_sorted I.wf
    · rw [List.append_assoc, List.pairwise_append]
      refine ⟨?_, by simp; omega, ?_⟩
      · have := Net.vals_sorted I.wf
        rw [I.vals, List.pairwise_append] at this
        exact this.1
      · intro a ha b hb
        have := hdone a ha
        simp only [List.singleton_append, List.mem_cons, List.not_mem_nil, or_false] at hb
        rcases hb with rfl | rfl
        · omega
        · omega
  have hnew : (g.child P.cfg (.extract done.length t) k).vals ∉ g.past.items := by
    intro hm
    rcases I.past _ hm with h | h
    · apply hv2
      rw [← h, hvals]; simp
    · rw [hvals] at h; simp at h
  have hstepN : NStep P B g (g.child P.cfg (.extract done.length t) k) :=
    ⟨_, _, hperm, by omega, rfl, hnew⟩
  refine ⟨g.child P.cfg (.extract done.length t) k, ?_⟩
  refine ⟨.move I.play hstepN, hstepN.wf hP I.wf, hvals, ?_, ?_, r', hr', ?_⟩
  · have h1 : g.All fun v => v ∈ values ∨ v ∈ done ++ [t] ∨ ts.sum ≤ v := I.all.mono fun v hv => by
      rcases hv with h | h | h
      · exact Or.inl h
      · exact Or.inr (Or.inl (List.mem_append_left _ h))
      · exact Or.inr (Or.inr (by omega))
    rw [hchild, hvs]
    apply h1.grow I.wf
    · intro a ha
      exact ((I.wf.memSrcs _).1 (hcg.mem a ha)).1
    · intro v hv
      simp at hv
      rcases hv with rfl | rfl
      · exact Or.inr (Or.inl (by simp))
      · exact Or.inr (Or.inr le_rfl)
  · intro m hm
    rw [child_past] at hm
    have hm' : m ∈ g.past.items ∨ m = g.vals := by
      rw [FastList.append_items (FastList.wf_extend FastList.wf_empty _), FastList.mem_ref1,
        FastList.mem_extend FastList.wf_empty] at hm
      simpa [FastList.empty] using hm
    rcases hm' with h | rfl
    · rcases I.past m h with h | h
      · exact Or.inl h
      · right; simp; omega
    · right; rw [I.vals]; simp
  · rw [child_size]; omega

/-- All extractions. -/
theorem PlanInv.run (hP : P.WF) (hpv : ∀ v ∈ values, 0 < v) : ∀ (ts : List Int) {done : List Int} {g : Net} {total : Int},
    PlanInv P B values done ts g total → ts ≠ [] → total ≤ B → ts.Pairwise (· < ·) →
    (∀ v ∈ ts, 0 < v) → (∀ v ∈ done, ∀ w ∈ ts, v < w) → (∀ v ∈ ts, P.minTarget ≤ v) → (∀ v ∈ ts, P.gcd ≤ v) →
    P.targetValues = done ++ ts → (∀ v ∈ values, v ∉ ts.dropLast ∧ v ∉ remainders ts) →
    ∃ g', NPlay P B (Net.ofValues values) g' ∧ g'.vals = P.targetValues ∧ g'.size = total := by
  intro ts
  induction ts with
  | nil => intro _ _ _ _ h; exact absurd rfl h
  | cons t ts ih =>
    intro done g total I _ hB hs hpos hdone hmin hgcd htv hval
    by_cases hnil : ts = []
    · subst hnil
      refine ⟨g, I.play, ?_, ?_⟩
      · rw [I.vals, htv]; simp
      · obtain ⟨r, hr, hsz⟩ := I.cost
        simp only [extractAll, List.sum_cons, List.sum_nil, add_zero] at hr
        unfold extractCost at hr
        split at hr
        · simp at hr
        · rename_i h
          split at h
          · simp at h
          · rw [if_pos (Or.inr rfl)] at h
            simp at h hr
            omega
    · have hdl : (t :: ts).dropLast = t :: ts.dropLast := by
        obtain ⟨x, xs, rfl⟩ := List.exists_cons_of_ne_nil hnil
        rfl
      have hrm : remainders (t :: ts) = ts.sum :: remainders ts := by
        show (if ts = [] then [] else ts.sum :: remainders ts) = _
        rw [if_neg hnil]
      rw [hdl, hrm] at hval
      obtain ⟨g', I'⟩ := I.step hP hpv hnil hB hs hpos (fun v hv => hdone v hv t (by simp)) (hmin t (by simp)) (hgcd t (by simp))
        (fun v hv => by rw [htv]; exact List.mem_append_right _ hv) (fun v hv => by rw [htv] at hv; exact List.mem_append.1 hv)
        (fun h => (hval t h).1 (by simp)) (fun h => (hval _ h).2 (by simp))
      refine ih I' hnil hB (List.pairwise_cons.1 hs).2 (fun v hv => hpos v (by simp [hv])) ?_ (fun v hv => hmin v (by simp [hv]))
        (fun v hv => hgcd v (by simp [hv])) (by rw [htv]; simp) ?_
      · intro v hv w hw
        rcases List.mem_append.1 hv with h | h
        · exact hdone v h w (by simp [hw])
        · rw [List.mem_singleton.1 h]; exact (List.pairwise_cons.1 hs).1 w hw
      · intro v hv
        exact ⟨fun h => (hval v hv).1 (by simp [h]), fun h => (hval v hv).2 (by simp [h])⟩

theorem remainders_lt : ∀ (ts : List Int), (∀ v ∈ ts, 0 < v) → (∀ v ∈ remainders ts, v < ts.sum) ∧ ∀ v ∈ ts.dropLast, v < ts.sum := by
  intro ts
  induction ts with
  | nil => intro _; simp [remainders]
  | cons t ts ih =>
    intro hpos
    have ht := hpos t (by simp)
    obtain ⟨i1, i2⟩ := ih fun v hv => hpos v (by simp [hv])
    by_cases hnil : ts = []
    · subst hnil; simp [remainders]
    · have hts : 0 < ts.sum := List.sum_pos _ (fun v hv => hpos v (by simp [hv])) hnil
      have hdl : (t :: ts).dropLast = t :: ts.dropLast := by
        obtain ⟨x, xs, rfl⟩ := List.exists_cons_of_ne_nil hnil
        rfl
      have hrm : remainders (t :: ts) = ts.sum :: remainders ts := by
        show (if ts = [] then [] else ts.sum :: remainders ts) = _
        rw [if_neg hnil]
      rw [hdl, hrm, List.sum_cons]
      constructor
      · intro v hv
        rcases List.mem_cons.1 hv with rfl | h
        · omega
        · have := i1 v h; omega
      · intro v hv
        rcases List.mem_cons.1 hv with rfl | h
        · omega
        · have := i2 v h; omega

/-- The plan as a play. -/
theorem plan_play (hP : P.WF) (hne : values ≠ []) (hpv : ∀ v ∈ values, 0 < v) (hsv : values.Pairwise (· ≤ ·))
    (hts : P.targetValues ≠ []) (hs : P.targetValues.Pairwise (· < ·)) (hpos : ∀ v ∈ P.targetValues, 0 < v)
    (hmin : ∀ v ∈ P.targetValues, P.minTarget ≤ v) (hgcd : ∀ v ∈ values ++ P.targetValues, P.gcd ∣ v)
    (hsum : P.targetValues.sum = values.sum) (hfit : PlanFits P.limit values P.targetValues) {r : Int}
    (hr : extractAll P.cfg values.sum P.targetValues = .ok r) (hr0 : 0 ≤ r)
    (hB : ((mergeCost values.length 1 : Nat) : Int) + r ≤ B) :
    ∃ g, NPlay P B (Net.ofValues values) g ∧ g.vals = P.targetValues ∧ g.size = ((mergeCost values.length 1 : Nat) : Int) + r := by
  have hwf := Net.ofValues_wf values hne hpv hsv
  have hgle : ∀ v ∈ P.targetValues, P.gcd ≤ v := fun v hv => Int.le_of_dvd (hpos v hv) (hgcd v (by simp [hv]))
  have hall0 : (Net.ofValues values).All fun v => v ∈ values := by
    intro i hi
    have hi' : i < values.length := hi
    have hv : values.getD i 0 ∈ values := by
      rw [List.getD_eq_getElem?_getD, List.getElem?_eq_getElem hi', Option.getD_some]
      exact List.getElem_mem _
    exact ⟨hv, AllIn.new _ (by simpa using hv)⟩
  by_cases hlen : 2 ≤ values.length
  · obtain ⟨hlim, hdis⟩ := hfit hlen
    set g0 := Net.ofValues values with hg0
    have hmc : mergeCost (values.length : Int) 1 = values.length / 2 := by rw [mergeCost_eq]; omega
    have hv0 : g0.vals = values := ofValues_vals values
    have hlen0 : g0.srcs.length = values.length := by rw [← Net.vals_length, hv0]
    have hidx : (List.range values.length).map (fun i => (g0.node (g0.src i)).value) = values := by
      apply List.ext_getElem
      · simp
      · intro i h1 h2
        have := Net.vals_get (g := g0) (i := i) (by rw [hlen0]; simpa using h1)
        rw [hv0, List.getElem?_eq_getElem h2, Option.some.injEq] at this
        rw [List.getElem_map, List.getElem_range, this]
    have hperm : Permitted P g0.vals g0.pastOf (.merge (List.range values.length)) (values.length / 2 : Nat) := by
      refine ⟨values, ?_, List.pairwise_lt_range, by simpa using hlen, ?_, ?_, ?_, hlim, ?_, by simp⟩
      · rw [hv0]
        apply List.ext_getElem
        · simp
        · intro i h1 h2
          simp
      · intro idx' h1 h2 hlt
        have hl : idx'.length = values.length := by
          have := congrArg List.length h2
          simpa using this
        have hbound : ∀ i ∈ idx', i < values.length := by
          intro i hi
          have : (fun i => g0.vals[i]?) i ∈ values.map some := by rw [← h2]; exact List.mem_map.2 ⟨i, hi, rfl⟩
          obtain ⟨v, _, hv⟩ := List.mem_map.1 this
          rw [← hv0]
          exact (List.getElem?_eq_some_iff.1 hv.symm).1
        have hsub := sublist_range_iff.2 ⟨h1, hbound⟩
        have : idx' = List.range values.length := hsub.eq_of_length (by simpa using hl)
        rw [this] at hlt
        exact lt_irrefl _ hlt
      · rintro v hv ⟨h1, h2⟩
        rw [List.count_eq_zero.2 (hdis v hv).1, hv0] at h2
        have := List.count_pos_iff.2 hv
        omega
      · obtain ⟨t, ts, e⟩ := List.exists_cons_of_ne_nil hts
        have h1 := hgle t (by rw [e]; simp)
        have h2 := mem_le_sum (fun v hv => (hpos v hv).le) (show t ∈ P.targetValues by rw [e]; simp)
        omega
      · intro i hi hp
        have hmem : values.sum ∈ values := hall0.pastOf hwf hp
        -- a positive list of at least two elements does not contain its sum
        have : ∀ v ∈ values, v < values.sum := by
          intro v hv
          obtain ⟨l1, l2, e⟩ := List.append_of_mem hv
          have hne' : l1 ++ l2 ≠ [] := by
            intro h
            rw [List.append_eq_nil_iff] at h
            rw [e, h.1, h.2] at hlen
            simp at hlen
          have h1 : 0 < (l1 ++ l2).sum := List.sum_pos _ (fun w hw => hpv w (by rw [e]; simp at hw ⊢; tauto)) hne'
          rw [e]
          simp only [List.sum_append, List.sum_cons] at h1 ⊢
          omega
        have := this _ hmem
        omega
    have hadm := (hperm.adm hP hwf).1
    have hcg := canGrow_merge (cfg := P.cfg) hwf hadm
    have hvals : (g0.child P.cfg (.merge (List.range values.length)) (values.length / 2 : Nat)).vals = [values.sum] := by
      obtain ⟨rest, h1, h2⟩ := predicted_merge hwf hadm (cost := (values.length / 2 : Nat))
      rw [hidx] at h1 h2
      have hp := (removeAll_perm values g0.vals [] (by rw [hv0]; simp))
      obtain ⟨r', e1, e2, _⟩ := hp
      rw [h1] at e1
      simp only [Except.ok.injEq] at e1
      subst e1
      rw [List.perm_nil.1 e2] at h2
      rw [← h2]
      rfl
    have hstep : NStep P B g0 (g0.child P.cfg (.merge (List.range values.length)) (values.length / 2 : Nat)) := by
      refine ⟨_, _, hperm, ?_, rfl, ?_⟩
      · have : g0.size = 0 := rfl
        omega
      · have : g0.past.items = [] := rfl
        rw [this]; simp
    have I : PlanInv P B values [] P.targetValues (g0.child P.cfg (.merge (List.range values.length)) (values.length / 2 : Nat))
        (((mergeCost values.length 1 : Nat) : Int) + r) := by
      refine ⟨.move .start hstep, hstep.wf hP hwf, by rw [hvals, hsum]; rfl, ?_, ?_, r, by rw [hsum]; exact hr, ?_⟩
      · have h1 : g0.All fun v => v ∈ values ∨ v ∈ ([] : List Int) ∨ P.targetValues.sum ≤ v := hall0.mono fun v hv => Or.inl hv
        refine h1.grow hwf ?_ ?_ _ _ _
        · intro a ha
          exact ((hwf.memSrcs _).1 (hcg.mem a ha)).1
        · intro v hv
          rw [hidx] at hv
          simp only [List.mem_cons, List.not_mem_nil, or_false] at hv
          exact Or.inr (Or.inr (by rw [hsum, hv]))
      · intro m hm
        rw [child_past] at hm
        have : g0.past.items = [] := rfl
        rw [FastList.append_items (FastList.wf_extend FastList.wf_empty _), FastList.mem_ref1,
          FastList.mem_extend FastList.wf_empty, this, hv0] at hm
        left
        simpa [FastList.empty] using hm
      · rw [child_size]
        have : g0.size = 0 := rfl
        omega
    exact I.run hP hpv _ hts hB hs hpos (by simp) hmin hgle (by simp)
      (fun v hv => ⟨fun h => (hdis v hv).1 (List.dropLast_subset _ h), (hdis v hv).2⟩)
  · have hone : values = [values.sum] := by
      match values, hne, hlen with
      | [x], _, _ => simp
      | x :: y :: l, _, hl => simp at hl
    have hl1 : values.length = 1 := by rw [hone]; rfl
    have I : PlanInv P B values [] P.targetValues (Net.ofValues values) (((mergeCost values.length 1 : Nat) : Int) + r) := by
      refine ⟨.start, hwf, ?_, hall0.mono fun v hv => Or.inl hv, ?_, r, by rw [hsum]; exact hr, ?_⟩
      · rw [ofValues_vals, hsum, ← hone]; rfl
      · intro m hm
        have : (Net.ofValues values).past.items = [] := rfl
        rw [this] at hm
        simp at hm
      · have : (Net.ofValues values).size = 0 := rfl
        rw [mergeCost_eq, hl1]
        simp [this]
    have hrl := remainders_lt P.targetValues hpos
    exact I.run hP hpv _ hts hB hs hpos (by simp) hmin hgle (by simp) (fun v hv => by
      rw [hone] at hv
      have hvs := List.mem_singleton.1 hv
      refine ⟨fun h => ?_, fun h => ?_⟩
      · have := hrl.2 v h; omega
      · have := hrl.1 v h; omega)

end Satis.Solver
