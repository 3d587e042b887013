import Verif.Solver.Step
/-!
# What the move generators yield
-/

namespace Satis.Solver
open Satis Satis.Graph Satis.Cost Satis.Utils

/-! ### `compute_cant_use` -/

theorem sourceCounts_aux (values : List Int) (d : Dict Int Nat) (v : Int) :
    ((values.foldl (fun d v => match d.get? v with
      | some k => d.set v (k + 1)
      | none => d.set v 1) d).get? v).getD 0 = (d.get? v).getD 0 + values.count v := by
  induction values generalizing d with
  | nil => simp
  | cons x xs ih =>
    rw [List.foldl_cons, ih, List.count_cons]
    cases hx : d.get? x with
    | none =>
      simp only
      rw [Dict.get?_set]
      by_cases h : v = x
      · subst h; simp [hx]; omega
      · have h' : ¬ x = v := fun e => h e.symm
        simp [h, h']
    | some k =>
      simp only
      rw [Dict.get?_set]
      by_cases h : v = x
      · subst h; simp [hx]; omega
      · have h' : ¬ x = v := fun e => h e.symm
        simp [h, h']

theorem sourceCounts_get (values : List Int) (v : Int) : ((sourceCounts values).get? v).getD 0 = values.count v := by
  have := sourceCounts_aux values [] v
  simp only [Dict.get?, Option.getD_none, Nat.zero_add] at this
  exact this

theorem mem_computeCantUse {targets : List Int} {counts : Dict Int Nat} (hc : ∀ v, (counts.get? v).getD 0 = targets.count v)
    (vals : List Int) (v : Int) : v ∈ computeCantUse counts vals ↔ Needed targets vals v := by
  unfold computeCantUse Needed
  rw [List.mem_filter]
  apply and_congr_right
  intro hv
  have h1 := sourceCounts_get vals v
  have h2 := hc v
  have h3 : 0 < vals.count v := List.count_pos_iff.2 hv
  unfold needed
  cases hs : (sourceCounts vals).get? v with
  | none => rw [hs] at h1; simp at h1; omega
  | some a =>
    rw [hs] at h1
    cases ht : counts.get? v with
    | none => rw [ht] at h2; simp at h1 h2 ⊢; omega
    | some b =>
      rw [ht] at h2
      simp at h1 h2 ⊢
      omega

/-! ### The tests of the generators -/

/-- `r` is `m` if `cond` holds and nothing otherwise; in particular no exception. -/
def Yields (r : Py (Option Move)) (cond : Prop) (m : Move) : Prop := (cond → r = .ok (some m)) ∧ (¬ cond → r = .ok none)

/-- The value of a computation that does not fail. -/
def okVal (r : Py Int) : Int :=
  match r with
  | .ok x => x
  | .error _ => 0

section
variable {P : Problem} {s : Search} {t : TreeObj Int} {g : Net} {loc : Nat → Addr} {cu : List Int}

theorem extractMove_yields (hr : Rep s.heap t g loc) (hg : g.WF) (hcu : ∀ v, v ∈ cu ↔ Needed P.targetValues g.vals v)
    {i : Nat} (hi : i < g.srcs.length) {c : Int} (hc0 : 0 < c) (hc1 : 2 * c < (g.node (g.src i)).value) :
    Yields (extractMove P t cu s i (loc (g.src i)) c)
      ((¬ Needed P.targetValues g.vals (g.node (g.src i)).value ∧ P.gcd ≤ c ∧ ¬ g.pastOf i c ∧
        ¬ g.pastOf i ((g.node (g.src i)).value - c)) ∧
        t.size + okVal (extractCost P.cfg (g.node (g.src i)).value c) ≤ s.bestSize ∧
        ¬ seenState s t (g.child P.cfg (.extract i c) (okVal (extractCost P.cfg (g.node (g.src i)).value c))).vals)
      ⟨(g.child P.cfg (.extract i c) (okVal (extractCost P.cfg (g.node (g.src i)).value c))).vals, .extract i c,
        okVal (extractCost P.cfg (g.node (g.src i)).value c)⟩ := by
  have hin := ((hg.memSrcs _).1 (Net.src_mem hi)).1
  have hval := hr.nodes.value _ hin
  have hpast := hr.nodes.past _ hin
  obtain ⟨cost, hcost, hcpos⟩ := extractCost_pos P.cfg (g.node (g.src i)).value c (by omega) hc0 (by omega)
  have hadm : Adm P.cfg g (.extract i c) := ⟨hi, hc0, by omega⟩
  obtain ⟨r, e1, e2⟩ := predicted_one hg (canGrow_extract hg hadm)
    (List.perm_insertionSort (· ≤ ·) [c, (g.node (g.src i)).value - c]).symm
    (tagOld := if isSpeed P.cfg c then [] else [.extract c]) (tagNew := []) (cost := cost)
  have e2' : insortAll id r [c, (g.node (g.src i)).value - c] = (g.child P.cfg (.extract i c) cost).vals := e2
  have hp : ∀ v, g.pastOf i v ↔ (g.node (g.src i)).past.contains v = true := fun v => by unfold Net.pastOf; simp [hi]
  unfold extractMove Yields
  simp only [hval, hpast, hcost, okVal, hr.vals, e1, e2', hp]
  by_cases h1 : Needed P.targetValues g.vals (g.node (g.src i)).value
  · rw [if_pos ((hcu _).2 h1)]; simp [h1]
  · rw [if_neg (fun h => h1 ((hcu _).1 h))]
    simp only [gcdIncompatible, decide_eq_true_eq]
    by_cases h2 : c < P.gcd
    · rw [if_pos h2]; simp; omega
    · rw [if_neg h2]
      by_cases h3 : t.size + cost > s.bestSize
      · rw [if_pos h3]; simp; omega
      · rw [if_neg h3, if_neg (by omega), if_neg (by omega)]
        by_cases h4 : ([c, (g.node (g.src i)).value - c].any fun v => (g.node (g.src i)).past.contains v) = true
        · rw [if_pos h4]
          simp at h4
          constructor
          · intro h5; exfalso; rcases h4 with h4 | h4 <;> simp [h4] at h5
          · intro _; rfl
        · rw [if_neg h4]
          simp at h4
          by_cases h5 : seenState s t (g.child P.cfg (.extract i c) cost).vals = true
          · rw [if_pos h5]; simp [h5]
          · rw [if_neg h5]
            simp [h1, h4, h5]
            omega

theorem divideMove_yields (hr : Rep s.heap t g loc) (hg : g.WF) (hcu : ∀ v, v ∈ cu ↔ Needed P.targetValues g.vals v)
    {i : Nat} (hi : i < g.srcs.length) {d : Nat} (hd : 2 ≤ d) (hdv : (d : Int) ∣ (g.node (g.src i)).value) :
    Yields (divideMove P t cu s i (loc (g.src i)) d)
      ((¬ Needed P.targetValues g.vals (g.node (g.src i)).value ∧ P.gcd ≤ (g.node (g.src i)).value / d ∧
        ¬ g.pastOf i ((g.node (g.src i)).value / d)) ∧
        t.size + okVal (divideCost P.cfg (g.node (g.src i)).value d) ≤ s.bestSize ∧
        ¬ seenState s t (g.child P.cfg (.divide i d) (okVal (divideCost P.cfg (g.node (g.src i)).value d))).vals)
      ⟨(g.child P.cfg (.divide i d) (okVal (divideCost P.cfg (g.node (g.src i)).value d))).vals, .divide i d,
        okVal (divideCost P.cfg (g.node (g.src i)).value d)⟩ := by
  have hin := ((hg.memSrcs _).1 (Net.src_mem hi)).1
  have hval := hr.nodes.value _ hin
  have hpast := hr.nodes.past _ hin
  have hdle := Int.le_of_dvd (hg.pos _ hin) hdv
  obtain ⟨_, _, cost, -, -, -, -, hcost, _, -⟩ := divideCost_core P.cfg (g.node (g.src i)).value d (by omega) hd hdle
  have hadm : Adm P.cfg g (.divide i d) := ⟨hi, hd, hdv⟩
  obtain ⟨r, e1, e2⟩ := predicted_one hg (canGrow_divide hg hadm) (List.Perm.refl _)
    (tagOld := if d > 3 then [.divide d] else []) (tagNew := []) (cost := cost)
  have e2' : insortAll id r (List.replicate d ((g.node (g.src i)).value / (d : Int))) = (g.child P.cfg (.divide i d) cost).vals := e2
  have hp : ∀ v, g.pastOf i v ↔ (g.node (g.src i)).past.contains v = true := fun v => by unfold Net.pastOf; simp [hi]
  unfold divideMove Yields
  simp only [hval, hpast, hcost, okVal, hr.vals, e1, e2', hp]
  by_cases h1 : Needed P.targetValues g.vals (g.node (g.src i)).value
  · rw [if_pos ((hcu _).2 h1)]; simp [h1]
  · rw [if_neg (fun h => h1 ((hcu _).1 h))]
    by_cases h3 : t.size + cost > s.bestSize
    · rw [if_pos h3]; simp; omega
    · rw [if_neg h3]
      simp only [gcdIncompatible, Bool.or_eq_true, decide_eq_true_eq]
      by_cases h4 : (g.node (g.src i)).past.contains ((g.node (g.src i)).value / ↑d) = true ∨ (g.node (g.src i)).value / ↑d < P.gcd
      · rw [if_pos h4]
        constructor
        · intro h5; exfalso
          rcases h4 with h4 | h4
          · exact h5.1.2.2 h4
          · have := h5.1.2.1; omega
        · intro _; rfl
      · rw [if_neg h4]
        push Not at h4
        by_cases h5 : seenState s t (g.child P.cfg (.divide i d) cost).vals = true
        · rw [if_pos h5]; simp [h5]
        · rw [if_neg h5]
          simp [h1, h4, h5]
          omega

theorem find_speed {speeds : List Nat} (hs : speeds.Pairwise (· ≤ ·)) (v : Int) :
    (∀ s, speeds.find? (fun (c : Nat) => decide ((c : Int) > v)) = some s ↔
      s ∈ speeds ∧ v < (s : Int) ∧ ∀ s' ∈ speeds, v < (s' : Int) → (s : Int) ≤ s') := by
  induction speeds with
  | nil => intro s; simp
  | cons x xs ih =>
    intro s
    rw [List.find?_cons]
    obtain ⟨h1, h2⟩ := List.pairwise_cons.1 hs
    by_cases hx : (x : Int) > v
    · simp only [hx, decide_true, Option.some.injEq]
      constructor
      · rintro rfl
        refine ⟨by simp, hx, ?_⟩
        intro s' hs' _
        rcases List.mem_cons.1 hs' with rfl | h
        · exact le_rfl
        · exact_mod_cast h1 s' h
      · rintro ⟨h3, h4, h5⟩
        have h6 := h5 x (by simp) hx
        rcases List.mem_cons.1 h3 with h | h
        · exact h.symm
        · have := h1 s h; omega
    · simp only [hx, decide_false]
      rw [ih h2 s]
      constructor
      · rintro ⟨h3, h4, h5⟩
        refine ⟨by simp [h3], h4, ?_⟩
        intro s' hs' hv
        rcases List.mem_cons.1 hs' with rfl | h
        · exact absurd hv (by omega)
        · exact h5 s' h hv
      · rintro ⟨h3, h4, h5⟩
        refine ⟨?_, h4, fun s' hs' hv => h5 s' (by simp [hs']) hv⟩
        rcases List.mem_cons.1 h3 with rfl | h
        · exact absurd h4 (by omega)
        · exact h

/-- The speed a split would use. -/
def splitSpeed (P : Problem) (v : Int) : Int := (((P.cfg.speeds.find? (fun (c : Nat) => decide ((c : Int) > v))).getD 0 : Nat) : Int)

theorem splitMove_yields (hP : P.WF) (hr : Rep s.heap t g loc) (hg : g.WF)
    (hcu : ∀ v, v ∈ cu ↔ Needed P.targetValues g.vals v)
    {i : Nat} (hi : i < g.srcs.length) :
    Yields (splitMove P t cu s i (loc (g.src i)))
      ((¬ Needed P.targetValues g.vals (g.node (g.src i)).value ∧
        NextSpeed P.cfg (g.node (g.src i)).value (splitSpeed P (g.node (g.src i)).value) ∧
        P.gcd ≤ splitSpeed P (g.node (g.src i)).value / 3 ∧
        P.gcd ≤ (g.node (g.src i)).value - 2 * (splitSpeed P (g.node (g.src i)).value / 3) ∧
        0 ≤ (g.node (g.src i)).value - 2 * (splitSpeed P (g.node (g.src i)).value / 3) ∧
        ¬ g.pastOf i (splitSpeed P (g.node (g.src i)).value / 3) ∧
        ¬ g.pastOf i ((g.node (g.src i)).value - 2 * (splitSpeed P (g.node (g.src i)).value / 3))) ∧
        ¬ seenState s t (g.child P.cfg (.split i (splitSpeed P (g.node (g.src i)).value)) 3).vals)
      ⟨(g.child P.cfg (.split i (splitSpeed P (g.node (g.src i)).value)) 3).vals,
        .split i (splitSpeed P (g.node (g.src i)).value), 3⟩ := by
  have hin := ((hg.memSrcs _).1 (Net.src_mem hi)).1
  have hval := hr.nodes.value _ hin
  have hpast := hr.nodes.past _ hin
  have hp : ∀ v, g.pastOf i v ↔ (g.node (g.src i)).past.contains v = true := fun v => by unfold Net.pastOf; simp [hi]
  have hgcd := hP.gcd
  unfold splitMove Yields
  simp only [hval, hpast, hr.vals, hp]
  by_cases h1 : Needed P.targetValues g.vals (g.node (g.src i)).value
  · rw [if_pos ((hcu _).2 h1)]; simp [h1]
  · rw [if_neg (fun h => h1 ((hcu _).1 h))]
    have hfind := find_speed hP.speeds (g.node (g.src i)).value
    cases hf : P.cfg.speeds.find? (fun (c : Nat) => decide ((c : Int) > (g.node (g.src i)).value)) with
    | none =>
      simp only
      constructor
      · rintro ⟨⟨_, ⟨⟨s', hs', _⟩, hlt, hmin⟩, _⟩, _⟩
        exfalso
        rw [List.find?_eq_none] at hf
        have := hf s' hs'
        simp only [decide_eq_true_eq] at this
        omega
      · intro _; trivial
    | some speed =>
      have hsp : splitSpeed P (g.node (g.src i)).value = (speed : Int) := by unfold splitSpeed; rw [hf]; rfl
      obtain ⟨f1, f2, f3⟩ := (hfind speed).1 hf
      simp only [hsp]
      by_cases h2 : (g.node (g.src i)).value < (speed : Int) / 3 * 2
      · rw [if_pos h2]
        constructor
        · rintro ⟨h3, _⟩; exfalso; have := h3.2.2.2.2.1; omega
        · intro _; rfl
      · rw [if_neg h2]
        simp only [gcdIncompatible, Bool.or_eq_true, decide_eq_true_eq]
        have hmul : (g.node (g.src i)).value - (speed : Int) / 3 * 2 = (g.node (g.src i)).value - 2 * ((speed : Int) / 3) := by ring
        by_cases h3 : (speed : Int) / 3 < P.gcd ∨ (g.node (g.src i)).value - (speed : Int) / 3 * 2 < P.gcd
        · rw [if_pos h3]
          constructor
          · rintro ⟨h4, _⟩; exfalso; have := h4.2.2.1; have := h4.2.2.2.1; omega
          · intro _; rfl
        · rw [if_neg h3]
          push Not at h3
          rw [hmul]
          by_cases h4 : (g.node (g.src i)).past.contains ((speed : Int) / 3) = true ∨
              (g.node (g.src i)).past.contains ((g.node (g.src i)).value - 2 * ((speed : Int) / 3)) = true
          · rw [if_pos h4]
            constructor
            · rintro ⟨h5, _⟩; exfalso
              rcases h4 with h4 | h4
              · exact h5.2.2.2.2.2.1 h4
              · exact h5.2.2.2.2.2.2 h4
            · intro _; rfl
          · rw [if_neg h4]
            have hadm : Adm P.cfg g (.split i (speed : Int)) :=
              ⟨hi, (isSpeed_iff _ _).2 ⟨speed, f1, rfl⟩, by omega, by omega⟩
            obtain ⟨r, e1, e2⟩ := predicted_one hg (canGrow_split hg hadm)
              (List.perm_insertionSort (· ≤ ·) [(speed : Int) / 3, (speed : Int) / 3,
                (g.node (g.src i)).value - (speed : Int) / 3 * 2]).symm
              (tagOld := [.split (speed : Int)]) (tagNew := []) (cost := 3)
            have e2' : insortAll id r [(speed : Int) / 3, (speed : Int) / 3, (g.node (g.src i)).value - 2 * ((speed : Int) / 3)] =
                (g.child P.cfg (.split i (speed : Int)) 3).vals := by rw [← hmul]; exact e2
            rw [e1]
            simp only
            rw [e2']
            push Not at h4
            by_cases h5 : seenState s t (g.child P.cfg (.split i (speed : Int)) 3).vals = true
            · rw [if_pos h5]; simp [h5]
            · rw [if_neg h5]
              constructor
              · intro _; rfl
              · intro hno
                exfalso
                refine hno ⟨⟨h1, ⟨⟨speed, f1, rfl⟩, f2, ?_⟩, ?_, ?_, ?_, ?_, ?_⟩, h5⟩
                · intro s' hs' hlt; exact f3 s' hs' hlt
                · exact h3.1
                · rw [← hmul]; exact h3.2
                · omega
                · exact h4.1
                · exact h4.2

theorem mergeMove_yields (hr : Rep s.heap t g loc) (hg : g.WF)
    (hcu : ∀ v, v ∈ cu ↔ Needed P.targetValues g.vals v) {idx : List Nat} (ha : Adm P.cfg g (.merge idx)) (cost : Int) :
    Yields (mergeMove P t cu cost s idx (idx.map fun i => (g.node (g.src i)).value))
      (((∀ i ∈ idx, ¬ Needed P.targetValues g.vals (g.node (g.src i)).value) ∧
        P.gcd ≤ (idx.map fun i => (g.node (g.src i)).value).sum ∧
        (idx.map fun i => (g.node (g.src i)).value).sum ≤ P.limit ∧
        ∀ i ∈ idx, ¬ g.pastOf i (idx.map fun i => (g.node (g.src i)).value).sum) ∧
        ¬ seenState s t (g.child P.cfg (.merge idx) cost).vals)
      ⟨(g.child P.cfg (.merge idx) cost).vals, .merge idx, cost⟩ := by
  have hlt := sublist_range_lt ha.1
  obtain ⟨r, e1, e2⟩ := predicted_merge hg ha (cost := cost)
  have hpick : pick t.sources idx = .ok ((idx.map g.src).map loc) := by
    rw [hr.sources]; exact pick_map idx g.srcs _ (pick_srcs idx hlt)
  unfold mergeMove Yields
  rw [← List.sum_eq_foldl]
  simp only [hr.vals, e1, e2, hpick]
  by_cases h1 : ∀ i ∈ idx, ¬ Needed P.targetValues g.vals (g.node (g.src i)).value
  · rw [if_neg (by
      simp only [List.any_map, List.any_eq_true, Function.comp_apply, decide_eq_true_eq, not_exists, not_and]
      intro i hi h; exact h1 i hi ((hcu _).1 h))]
    simp only [gcdIncompatible, Bool.or_eq_true, decide_eq_true_eq]
    by_cases h2 : (idx.map fun i => (g.node (g.src i)).value).sum < P.gcd
    · rw [if_pos h2]
      constructor
      · intro h; exfalso; have := h.1.2.1; omega
      · intro _; rfl
    · rw [if_neg h2]
      have hpast : (((idx.map g.src).map loc).any fun a =>
          (s.heap.get a).past.contains (idx.map fun i => (g.node (g.src i)).value).sum) = true ↔
          ∃ i ∈ idx, g.pastOf i (idx.map fun i => (g.node (g.src i)).value).sum := by
        rw [List.map_map, List.any_map, List.any_eq_true]
        constructor
        · rintro ⟨i, hi, h⟩
          refine ⟨i, hi, hlt i hi, ?_⟩
          simp only [Function.comp_apply] at h
          rwa [hr.nodes.past _ ((hg.memSrcs _).1 (Net.src_mem (hlt i hi))).1] at h
        · rintro ⟨i, hi, _, h⟩
          refine ⟨i, hi, ?_⟩
          simp only [Function.comp_apply]
          rwa [hr.nodes.past _ ((hg.memSrcs _).1 (Net.src_mem (hlt i hi))).1]
      by_cases h3 : (idx.map fun i => (g.node (g.src i)).value).sum > P.limit ∨
          (((idx.map g.src).map loc).any fun a =>
            (s.heap.get a).past.contains (idx.map fun i => (g.node (g.src i)).value).sum) = true
      · rw [if_pos h3]
        constructor
        · intro h; exfalso
          rcases h3 with h3 | h3
          · have := h.1.2.2.1; omega
          · obtain ⟨i, hi, h3⟩ := hpast.1 h3
            exact h.1.2.2.2 i hi h3
        · intro _; rfl
      · rw [if_neg h3]
        rw [hpast] at h3
        push Not at h3
        by_cases h5 : seenState s t (g.child P.cfg (.merge idx) cost).vals = true
        · rw [if_pos h5]; simp [h5]
        · rw [if_neg h5]
          constructor
          · intro _; rfl
          · intro hno; exfalso
            exact hno ⟨⟨h1, by omega, h3.1, h3.2⟩, h5⟩
  · rw [if_pos (by
      push Not at h1
      obtain ⟨i, hi, h⟩ := h1
      rw [List.any_eq_true]
      exact ⟨_, List.mem_map_of_mem hi, by rw [decide_eq_true_iff]; exact (hcu _).2 h⟩)]
    constructor
    · intro h; exact absurd h.1.1 h1
    · intro _; rfl

end

end Satis.Solver
