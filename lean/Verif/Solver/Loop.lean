import Verif.Solver.Try
import Mathlib.Logic.Hydra
import Mathlib.Data.Multiset.MapFold
/-!
# The main loop
-/

namespace Satis.Solver
open Satis Satis.Graph Satis.Cost Satis.Utils

section
variable {P : Problem} (hP : P.WF) {B : Int} {g0 : Net} {lo : Nat} (hg0 : g0.WF) (O : Oracle)

theorem tryOps_ok {t : TreeObj Int} {g : Net} {loc : Nat → Addr} : ∀ (fs : List ((Search → Py Search) × (Op → Prop))),
    (∀ f ∈ fs, TryOK P B g0 lo O t g loc f.1 f.2) → ∀ s, Inv P B g0 lo s → Rep s.heap t g loc → Made P B g0 lo s.heap t →
    ∃ b s', tryOps O (fs.map Prod.fst) s = .ok (b, s') ∧ Tried P B g0 lo t.size s s' ∧
      (O.stopAt = none → b = true ∧ ∀ f ∈ fs, ∀ op cost, f.2 op → Permitted P g.vals g.pastOf op cost →
        NStep P B g (g.child P.cfg op cost) → Handled P B g0 s' (g.child P.cfg op cost)) := by
  intro fs
  induction fs with
  | nil =>
    intro _ s hi _ _
    exact ⟨true, s, rfl, .refl hi, fun _ => ⟨rfl, by simp⟩⟩
  | cons f fs ih =>
    intro hf s hi hr hmade
    obtain ⟨s1, e, t1, t2⟩ := hf f (by simp) s hi hr hmade
    rw [List.map_cons]
    unfold tryOps
    rw [e]
    simp only
    by_cases hread : (s1.read O).1 = false
    · rw [if_pos hread]
      refine ⟨false, _, rfl, t1.trans (.read O t1.inv), ?_⟩
      intro ho
      rw [read_true t1.inv.stopped ho] at hread
      simp at hread
    · rw [if_neg hread]
      obtain ⟨b, s', e', t1', t2'⟩ := ih (fun f' hf' => hf f' (by simp [hf'])) (s1.read O).2 (inv_read O t1.inv) (hr.ext t1.adv.ext)
        (hmade.ext t1.adv.ext)
      refine ⟨b, s', e', t1.trans ((Tried.read O t1.inv).trans t1'), ?_⟩
      intro ho
      obtain ⟨b1, b2⟩ := t2' ho
      refine ⟨b1, ?_⟩
      intro f' hf' op cost h1 h2 h3
      rcases List.mem_cons.1 hf' with rfl | hf'
      · exact ((t2 ho op cost h1 h2 h3).adv (adv_read O s1)).adv t1'.adv
      · exact b2 f' hf' op cost h1 h2 h3

theorem foldl_max (l : List Int) (x m : Int) : l.foldl max x ≤ m ↔ x ≤ m ∧ ∀ y ∈ l, y ≤ m := by
  induction l generalizing x with
  | nil => simp
  | cons y ys ih =>
    rw [List.foldl_cons, ih, max_le_iff]
    simp [and_assoc]

include hP hg0 in
theorem process_ok {t : TreeObj Int} {g : Net} {loc : Nat → Addr} (hpl : NPlay P B g0 g) {s : Search} (hi : Inv P B g0 lo s)
    (hr : Rep s.heap t g loc) (hmade : Made P B g0 lo s.heap t) : ∃ b s', process P O t s = .ok (b, s') ∧ Tried P B g0 lo t.size s s' ∧
      (O.stopAt = none → b = true ∧ ∀ g', NStep P B g g' → Handled P B g0 s' g') := by
  have hg := hpl.wf hP hg0
  have hvals : valuesOf s.heap t.sources = g.vals := by
    rw [← hr.vals, ← hr.values hg]; rfl
  have hcu := mem_computeCantUse (targets := P.targetValues) hP.counts (valuesOf s.heap t.sources)
  simp only [hvals] at hcu
  have fin : ∀ fs : List ((Search → Py Search) × (Op → Prop)), (∀ f ∈ fs, TryOK P B g0 lo O t g loc f.1 f.2) →
      (∀ op cost, Permitted P g.vals g.pastOf op cost → ∃ f ∈ fs, f.2 op) →
      ∃ b s', tryOps O (fs.map Prod.fst) s = .ok (b, s') ∧ Tried P B g0 lo t.size s s' ∧
      (O.stopAt = none → b = true ∧ ∀ g', NStep P B g g' → Handled P B g0 s' g') := by
    intro fs h1 h2
    obtain ⟨b, s', e, t1, t2⟩ := tryOps_ok O fs h1 s hi hr hmade
    refine ⟨b, s', e, t1, ?_⟩
    intro ho
    refine ⟨(t2 ho).1, ?_⟩
    intro g' hst
    obtain ⟨op, cost, q1, q2, q3, q4⟩ := id hst
    subst q3
    obtain ⟨f, hf, hop⟩ := h2 op cost q1
    exact (t2 ho).2 f hf op cost hop q1 hst
  unfold process
  simp only [hvals]
  rw [hr.vals]
  cases hv : g.vals with
  | nil => exact absurd hv (Net.vals_ne hg)
  | cons x xs =>
    unfold pyMax
    simp only
    rw [← hv]
    have hgate : (∃ w ∈ g.vals, P.minTarget < w) ↔ ¬ xs.foldl max x ≤ P.minTarget := by
      rw [foldl_max, hv]
      simp only [List.mem_cons, exists_eq_or_imp]
      push Not
      constructor
      · rintro (h | ⟨w, h1, h2⟩)
        · intro h'; omega
        · intro _; exact ⟨w, h1, h2⟩
      · intro h
        by_cases hx : x ≤ P.minTarget
        · exact Or.inr (h hx)
        · exact Or.inl (by omega)
    have hm : TryOK P B g0 lo O t g loc _ _ := tryMerge_ok hP hg0 O hpl hcu
    by_cases hgt : xs.foldl max x ≤ P.minTarget
    · rw [if_pos hgt]
      refine fin [(tryMerge P O t (computeCantUse P.targetCounts g.vals), fun op => ∃ idx, op = .merge idx)] ?_ ?_
      · intro f hf; simp at hf; subst hf; exact hm
      · intro op cost hp
        have hng := (not_iff_not.2 hgate).2 (not_not.2 hgt)
        cases op with
        | extract i c => obtain ⟨_, _, _, h, _⟩ := hp; exact absurd h hng
        | divide i c => obtain ⟨_, _, _, h, _⟩ := hp; exact absurd h hng
        | split i c => obtain ⟨_, _, _, h, _⟩ := hp; exact absurd h hng
        | merge idx => exact ⟨_, List.mem_singleton.2 rfl, idx, rfl⟩
    · rw [if_neg hgt]
      have hgate' := hgate.2 hgt
      have hx : TryOK P B g0 lo O t g loc _ _ := tryExtract_ok hP hg0 O hpl hcu hgate'
      have hd : TryOK P B g0 lo O t g loc _ _ := tryDivide_ok hP hg0 O hpl hcu hgate'
      have hs : TryOK P B g0 lo O t g loc _ _ := trySplit_ok hP hg0 O hpl hcu hgate'
      by_cases hn : t.nSources = 1
      · rw [if_pos hn]
        refine fin [(tryExtract P O t (computeCantUse P.targetCounts g.vals), fun op => ∃ i c, op = .extract i c),
          (tryDivide P O t (computeCantUse P.targetCounts g.vals), fun op => ∃ i d, op = .divide i d),
          (trySplit P O t (computeCantUse P.targetCounts g.vals), fun op => ∃ i c, op = .split i c)] ?_ ?_
        · intro f hf
          simp at hf
          rcases hf with rfl | rfl | rfl
          · exact hx
          · exact hd
          · exact hs
        · intro op cost hp
          cases op with
          | extract i c => exact ⟨_, List.mem_cons_self, i, c, rfl⟩
          | divide i c => exact ⟨_, List.mem_cons_of_mem _ List.mem_cons_self, i, c, rfl⟩
          | split i c => exact ⟨_, List.mem_cons_of_mem _ (List.mem_cons_of_mem _ List.mem_cons_self), i, c, rfl⟩
          | merge idx =>
            exfalso
            have ha := (hp.adm hP hg).1
            have h1 := ha.1.length_le
            have h2 := ha.2
            rw [hr.nSources] at hn
            simp at h1
            omega
      · rw [if_neg hn]
        refine fin [(tryExtract P O t (computeCantUse P.targetCounts g.vals), fun op => ∃ i c, op = .extract i c),
          (tryDivide P O t (computeCantUse P.targetCounts g.vals), fun op => ∃ i d, op = .divide i d),
          (trySplit P O t (computeCantUse P.targetCounts g.vals), fun op => ∃ i c, op = .split i c),
          (tryMerge P O t (computeCantUse P.targetCounts g.vals), fun op => ∃ idx, op = .merge idx)] ?_ ?_
        · intro f hf
          simp at hf
          rcases hf with rfl | rfl | rfl | rfl
          · exact hx
          · exact hd
          · exact hs
          · exact hm
        · intro op cost hp
          cases op with
          | extract i c => exact ⟨_, List.mem_cons_self, i, c, rfl⟩
          | divide i c => exact ⟨_, List.mem_cons_of_mem _ List.mem_cons_self, i, c, rfl⟩
          | split i c => exact ⟨_, List.mem_cons_of_mem _ (List.mem_cons_of_mem _ List.mem_cons_self), i, c, rfl⟩
          | merge idx =>
            exact ⟨_, List.mem_cons_of_mem _ (List.mem_cons_of_mem _ (List.mem_cons_of_mem _ List.mem_cons_self)), idx, rfl⟩

/-! ### One round -/

theorem popIndex_lt (s : Search) {n : Nat} (hn : 0 < n) : popIndex O s n < n := by
  unfold popIndex
  split
  · omega
  · rename_i h
    push Not at h
    split
    · omega
    · have := Nat.mod_lt (‹Nat› : Nat) (show n - 1 > 0 by omega)
      omega

/-- What a round does: it ends the loop, or takes a tree `e` from the queue and explores it. -/
inductive Round (P : Problem) (B : Int) (g0 : Net) (lo : Nat) (O : Oracle) (s s' : Search) : Bool → Prop
  | over : s' = (s.read O).2 → (O.stopAt = none → s.queue = []) → Round P B g0 lo O s s' false
  | step (b : Bool) (e : TreeObj Int × ℚ) (q : List (TreeObj Int × ℚ)) (n : Nat) :
      s.queue.Perm (e :: q) → Tried P B g0 lo e.1.size { s with queue := q, reads := n } s' →
      (O.stopAt = none → b = true ∧ ∀ g loc, NPlay P B g0 g → Rep s.heap e.1 g loc →
        ∀ g', NStep P B g g' → Handled P B g0 s' g') → Round P B g0 lo O s s' b

include hP hg0 in
theorem round_ok {s : Search} (hi : Inv P B g0 lo s) :
    (∃ b s', round P O s = .ok (b, s') ∧ Inv P B g0 lo s' ∧ Round P B g0 lo O s s' b) ∨
    (round P O s = .error .typeError ∧ s.queue ≠ [] ∧ O.stopAt = some (s.reads + 1)) := by
  unfold round
  simp only
  by_cases hread : (s.read O).1 = false
  · rw [if_pos hread]
    refine Or.inl ⟨false, _, rfl, inv_read O hi, .over rfl ?_⟩
    intro ho
    rw [read_true hi.stopped ho] at hread
    simp at hread
  · rw [if_neg hread]
    by_cases hq : (s.read O).2.queue = []
    · rw [if_pos hq]
      exact Or.inl ⟨false, _, rfl, inv_read O hi, .over rfl (fun _ => hq)⟩
    · rw [if_neg hq]
      unfold dequeue
      simp only
      by_cases hread2 : ((s.read O).2.read O).1 = false
      · rw [if_pos hread2]
        refine Or.inr ⟨rfl, hq, ?_⟩
        unfold Search.read at hread hread2
        simp only [hi.stopped] at hread hread2
        cases ho : O.stopAt with
        | none => simp [ho] at hread2
        | some k =>
          simp [ho] at hread hread2
          congr 1
          omega
      · rw [if_neg hread2]
        have hlt := popIndex_lt O ((s.read O).2.read O).2 (List.length_pos_of_ne_nil (show ((s.read O).2.read O).2.queue ≠ [] from hq))
        rw [List.getElem?_eq_getElem hlt]
        simp only
        set j := popIndex O ((s.read O).2.read O).2 ((s.read O).2.read O).2.queue.length with hj
        set e := ((s.read O).2.read O).2.queue[j] with he
        have hperm : s.queue.Perm (e :: s.queue.eraseIdx j) := (List.getElem_cons_eraseIdx_perm hlt).symm
        have hmem : e ∈ s.queue := List.getElem_mem hlt
        obtain ⟨_, hmade, g, loc, hpl, hr⟩ := hi.queue e hmem
        have hi2 : Inv P B g0 lo { s with queue := s.queue.eraseIdx j, reads := s.reads + 2 } :=
          ⟨hi.stopped, hi.count, hi.best0, hi.bestLe, hi.sols, fun x hx => hi.queue x (List.mem_of_mem_eraseIdx hx), hi.apart⟩
        obtain ⟨b, s', e1, t1, t2⟩ := process_ok hP hg0 O hpl hi2 hr hmade
        refine Or.inl ⟨b, s', e1, t1.inv, .step b e _ _ hperm t1 ?_⟩
        intro ho
        refine ⟨(t2 ho).1, ?_⟩
        intro g1 loc1 hpl1 hr1
        obtain ⟨b', s'', e1', _, t2'⟩ := process_ok hP hg0 O hpl1 hi2 hr1 hmade
        rw [e1] at e1'
        injection e1' with e1'; injection e1' with _ e1'
        subst e1'
        exact (t2' ho).2

/-! ### Termination -/

/-- The order on sizes below the bound. -/
theorem sizes_wf (B : Int) : WellFounded fun a' a : Int => a < a' ∧ a' ≤ B := by
  apply Subrelation.wf (r := InvImage (· < ·) fun x : Int => (B - x).toNat)
  · intro a b h
    show (B - a).toNat < (B - b).toNat
    omega
  · exact InvImage.wf _ Nat.lt_wfRel.wf

/-- The sizes of the trees in the queue. -/
def sizes (s : Search) : Multiset Int := Multiset.ofList (s.queue.map fun e => e.1.size)

include hP hg0 in
theorem solveLoop_terminates {s0 : Search} (M : Multiset Int) : ∀ s, Visited P O s0 s → Inv P B g0 lo s → sizes s ≤ M →
    ∃ fuel, (∃ s', solveLoop P O fuel s = .ok s') ∨ (solveLoop P O fuel s = .error .typeError ∧
      ∃ s', Visited P O s0 s' ∧ s'.queue ≠ [] ∧ O.stopAt = some (s'.reads + 1)) := by
  induction M using (sizes_wf B).cutExpand.induction with
  | _ M ih =>
    intro s hvis hi hM
    rcases round_ok hP hg0 O hi with ⟨b, s', e, hi', hr⟩ | ⟨e, e1, e2⟩
    · cases b with
      | false =>
        refine ⟨1, Or.inl ⟨s', ?_⟩⟩
        unfold solveLoop
        rw [e]
      | true =>
        cases hr with
        | step _ x q n hperm ht _ =>
          obtain ⟨l, hl1, hl2⟩ := ht.grows
          have hx : x.1.size ∈ M := Multiset.mem_of_le hM (by
            show x.1.size ∈ s.queue.map fun e => e.1.size
            exact List.mem_map_of_mem (hperm.mem_iff.2 (by simp)))
          have hq : Multiset.ofList (q.map fun e => e.1.size) ≤ M.erase x.1.size := by
            have h1 := Multiset.erase_le_erase x.1.size hM
            have h2 : (sizes s).erase x.1.size = Multiset.ofList (q.map fun e => e.1.size) := by
              have : sizes s = x.1.size ::ₘ Multiset.ofList (q.map fun e => e.1.size) := by
                unfold sizes
                rw [← Multiset.coe_eq_coe.2 (hperm.map fun e => e.1.size).symm]
                rfl
              rw [this, Multiset.erase_cons_head]
            rwa [h2] at h1
          have hcut : Relation.CutExpand (fun a' a : Int => a < a' ∧ a' ≤ B)
              (M.erase x.1.size + Multiset.ofList (l.map fun e => e.1.size)) M := by
            refine ⟨Multiset.ofList (l.map fun e => e.1.size), x.1.size, ?_, ?_⟩
            · intro a ha
              obtain ⟨e', he', rfl⟩ := List.mem_map.1 (Multiset.mem_coe.1 ha)
              exact hl1 e' he'
            · rw [add_assoc, add_comm _ ({x.1.size} : Multiset Int), ← add_assoc]
              congr 1
              rw [add_comm, Multiset.singleton_add, Multiset.cons_erase hx]
          have hle : sizes s' ≤ M.erase x.1.size + Multiset.ofList (l.map fun e => e.1.size) := by
            have h1 : sizes s' ≤ Multiset.ofList ((l ++ q).map fun e => e.1.size) := by
              have h2 : (Multiset.ofList s'.queue) ≤ Multiset.ofList (l ++ q) := hl2
              exact Multiset.map_le_map h2
            refine le_trans h1 ?_
            rw [List.map_append, add_comm, ← Multiset.coe_add]
            gcongr
          obtain ⟨fuel, hf⟩ := ih _ hcut s' (hvis.next e) hi' hle
          refine ⟨fuel + 1, ?_⟩
          have : solveLoop P O (fuel + 1) s = solveLoop P O fuel s' := by
            conv_lhs => unfold solveLoop
            rw [e]
          rw [this]
          exact hf
    · refine ⟨1, Or.inr ⟨?_, s, hvis, e1, e2⟩⟩
      unfold solveLoop
      rw [e]

/-! ### States met by the search -/

theorem solveLoop_visited {s0 s s' : Search} (hv : Visited P O s0 s) {fuel : Nat} (h : solveLoop P O fuel s = .ok s') :
    Visited P O s0 s' := by
  induction fuel generalizing s with
  | zero => simp [solveLoop] at h
  | succ fuel ih =>
    unfold solveLoop at h
    cases hr : round P O s with
    | error e => rw [hr] at h; simp at h
    | ok r =>
      obtain ⟨b, s1⟩ := r
      rw [hr] at h
      cases b with
      | false => simp at h; subst h; exact hv.next hr
      | true => simp at h; exact ih (hv.next hr) h

include hP hg0 in
theorem Visited.inv {s0 s : Search} (h0 : Inv P B g0 lo s0) (hv : Visited P O s0 s) : Inv P B g0 lo s := by
  induction hv with
  | start => exact h0
  | next _ hr ih =>
    rcases round_ok hP hg0 O ih with ⟨b, s', e, hi', _⟩ | ⟨e, _⟩
    · rw [e] at hr
      injection hr with hr; injection hr with _ hr
      subst hr; exact hi'
    · rw [e] at hr; simp at hr

include hP hg0 in
theorem solveLoop_inv {s s' : Search} {fuel : Nat} (h0 : Inv P B g0 lo s) (h : solveLoop P O fuel s = .ok s') : Inv P B g0 lo s' :=
  (solveLoop_visited O .start h).inv hP hg0 O h0

/-! ### Completeness -/

theorem NPlay.trans {g1 g2 g3 : Net} (h1 : NPlay P B g1 g2) (h2 : NPlay P B g2 g3) : NPlay P B g1 g3 := by
  induction h2 with
  | start => exact h1
  | move _ hs ih => exact .move ih hs

theorem NPlay.head {g1 g2 : Net} (h : NPlay P B g1 g2) : g1 = g2 ∨ ∃ g, NStep P B g1 g ∧ NPlay P B g g2 := by
  induction h with
  | start => exact Or.inl rfl
  | move hp hs ih =>
    rcases ih with rfl | ⟨g, h1, h2⟩
    · exact Or.inr ⟨_, hs, .start⟩
    · exact Or.inr ⟨g, h1, .move h2 hs⟩

theorem NPlay.size (hP : P.WF) {g1 g2 : Net} (hg : g1.WF) (h : NPlay P B g1 g2) : g1.size ≤ g2.size := by
  induction h with
  | start => exact le_rfl
  | move hp hs ih => exact le_trans ih (le_of_lt (hs.size hP (hp.wf hP hg)).1)

/-- Two ways to the targets, `gq` and the play through `g1` to `gE`, share a state, and `gq` is not cheaper than `best`. -/
def Shared (P : Problem) (B : Int) (g0 gE : Net) (best : Int) : Prop :=
  ∃ gq g g1, NPlay P B g0 gq ∧ gq.vals = P.targetValues ∧ best ≤ gq.size ∧ NPlay P B g0 g ∧ NStep P B g g1 ∧ NPlay P B g1 gE ∧
    g1.vals ∈ gq.past.items

/-- The play to `gE` is not forgotten: one of its states is in the queue, or it cannot beat what was found, or it was given up. -/
def Kept (P : Problem) (B : Int) (g0 gE : Net) (s : Search) : Prop :=
  (∃ e ∈ s.queue, ∃ g loc, Rep s.heap e.1 g loc ∧ NPlay P B g0 g ∧ NPlay P B g gE) ∨
  (0 < s.solutionsCount ∧ (s.bestSize ≤ gE.size ∨ Shared P B g0 gE s.bestSize))

include hP hg0 in
theorem Round.kept {gE : Net} (hE : gE.vals = P.targetValues) (ho : O.stopAt = none) {s s' : Search} {b : Bool} (hi : Inv P B g0 lo s)
    (hr : Round P B g0 lo O s s' b) (hk : Kept P B g0 gE s) : Kept P B g0 gE s' ∧ (b = false → s'.queue = []) := by
  cases hr with
  | over h1 h2 =>
    subst h1
    refine ⟨?_, fun _ => h2 ho⟩
    exact hk
  | step _ e q n hperm ht hdone =>
    obtain ⟨hb, hdone⟩ := hdone ho
    refine ⟨?_, fun h => by rw [hb] at h; simp at h⟩
    have hblocked : 0 < s'.solutionsCount → (s'.bestSize ≤ gE.size ∨ Shared P B g0 gE s'.bestSize) → Kept P B g0 gE s' :=
      fun h1 h2 => Or.inr ⟨h1, h2⟩
    rcases hk with ⟨x, hx, gx, lx, x1, x2, x3⟩ | ⟨h1, h2⟩
    · have hcase : x = e ∨ x ∈ q := by
        have := hperm.mem_iff.1 hx
        simpa using this
      rcases hcase with rfl | hxq
      · -- the tree that was explored
        have hne := (hi.queue x hx).1
        rw [x1.vals] at hne
        rcases x3.head with rfl | ⟨g1, hs1, hs2⟩
        · exact absurd hE hne
        · rcases hdone gx lx x2 x1 g1 hs1 with ⟨y, hy, ly, hry⟩ | ⟨h1, h2⟩
          · exact Or.inl ⟨y, hy, g1, ly, hry, x2.move hs1, hs2⟩
          · refine hblocked h1 ?_
            rcases h2 with h2 | ⟨gq, q1, q2, q3, q4⟩
            · exact Or.inl (le_trans h2 (hs2.size hP ((x2.move hs1).wf hP hg0)))
            · exact Or.inr ⟨gq, gx, g1, q1, q2, q4, x2, hs1, hs2, q3⟩
      · rcases ht.adv.keep x hxq with h | ⟨h, h'⟩
        · exact Or.inl ⟨x, h, gx, lx, x1.ext ht.adv.ext, x2, x3⟩
        · refine hblocked h (Or.inl ?_)
          rw [x1.size] at h'
          exact le_trans h' (x3.size hP (x2.wf hP hg0))
    · refine hblocked (ht.adv.count h1) ?_
      rcases h2 with h2 | ⟨gq, g, g1, q1, q2, q3, q4⟩
      · exact Or.inl (le_trans ht.adv.mono h2)
      · exact Or.inr ⟨gq, g, g1, q1, q2, le_trans ht.adv.mono q3, q4⟩

include hP hg0 in
theorem solveLoop_kept {gE : Net} (hE : gE.vals = P.targetValues) (ho : O.stopAt = none) {fuel : Nat} {s s' : Search}
    (hi : Inv P B g0 lo s) (hk : Kept P B g0 gE s) (h : solveLoop P O fuel s = .ok s') :
    0 < s'.solutionsCount ∧ (s'.bestSize ≤ gE.size ∨ Shared P B g0 gE s'.bestSize) := by
  induction fuel generalizing s with
  | zero => simp [solveLoop] at h
  | succ fuel ih =>
    unfold solveLoop at h
    rcases round_ok hP hg0 O hi with ⟨b, s1, e, hi', hr⟩ | ⟨e, _⟩
    · obtain ⟨k1, k2⟩ := hr.kept hP hg0 O hE ho hi hk
      rw [e] at h
      cases b with
      | false =>
        simp at h; subst h
        rcases k1 with ⟨x, hx, _⟩ | k1
        · rw [k2 rfl] at hx; simp at hx
        · exact k1
      | true => simp at h; exact ih hi' k1 h
    · rw [e] at h; simp at h

/-! ### The start -/

theorem initial_inv (h : Heap Int) : Inv P B g0 lo (initial h B) :=
  ⟨rfl, rfl, fun _ => rfl, le_rfl, by simp [initial], by simp [initial], List.Pairwise.nil⟩

include hP hg0 in
theorem start_inv {h : Heap Int} {t : TreeObj Int} {loc : Nat → Addr} (hr : Rep h t g0 loc) (hm : Made P B g0 lo h t) (hb : g0.size ≤ B) :
    Inv P B g0 lo (enqueue P O (initial h B) t) ∧ (O.stopAt = none → ∀ gE, NPlay P B g0 gE →
      Kept P B g0 gE (enqueue P O (initial h B) t)) := by
  have henq := enqueue_spec hP hg0 O (initial_inv h) ⟨hm, g0, loc, .start, hr⟩ (by rw [hr.size]; exact hb) (by simp [initial])
  refine ⟨henq.inv, ?_⟩
  intro ho gE hE
  rcases henq.done ho with ⟨x, hx, hxt⟩ | ⟨h1, h2⟩
  · refine Or.inl ⟨x, hx, g0, loc, ?_, .start, hE⟩
    rw [hxt, henq.heap]; exact hr
  · refine Or.inr ⟨h1, Or.inl ?_⟩
    rw [hr.size] at h2
    exact le_trans h2 (hE.size hP hg0)

end

end Satis.Solver
