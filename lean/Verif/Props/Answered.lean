import Verif.Props.Plan
import Verif.Solver.PlanMore
/-!
# C103: is every request answered?
-/

namespace Satis
open Satis.Utils Satis.Graph Satis.Solver Satis.Cost

variable {cfg : Config} {input : Str} {a : Attrs} {h : Heap Int} {sv tv : List ℚ} {O : Oracle}

/-! ## The request can be served -/

/-- Belts of throughputs `s` can be made into belts of throughputs `t` by cutting belts in two and merging two belts, where no
merged belt has more than `limit`. -/
inductive Serves (limit : Int) : List Int → List Int → Prop
  | same {s t} : s.Perm t → Serves limit s t
  | order {s s' t} : s.Perm s' → Serves limit s' t → Serves limit s t
  | cut {x v rest t} : 0 < x → x < v → Serves limit (x :: (v - x) :: rest) t → Serves limit (v :: rest) t
  | join {x y rest t} : x + y ≤ limit → Serves limit ((x + y) :: rest) t → Serves limit (x :: y :: rest) t

private theorem serves_aux (limit : Int) : ∀ (n : Nat) (s t rest : List Int), s.length + t.length ≤ n → (∀ v ∈ s, 0 < v) → (∀ v ∈ t, 0 < v) →
    (∀ v ∈ t, v ≤ limit) → s.sum = t.sum → Serves limit (s ++ rest) (t ++ rest) := by
  intro n
  induction n with
  | zero =>
    intro s t rest hn _ _ _ _
    have h1 : s = [] := List.length_eq_zero_iff.1 (by omega)
    have h2 : t = [] := List.length_eq_zero_iff.1 (by omega)
    subst h1; subst h2
    exact .same (List.Perm.refl _)
  | succ n ih =>
    intro s t rest hn hs ht hl hsum
    match s, t with
    | [], [] => exact .same (List.Perm.refl _)
    | [], w :: t' =>
      exfalso
      have := List.sum_pos (w :: t') ht (by simp)
      simp only [List.sum_nil] at hsum
      omega
    | v :: s', [] =>
      exfalso
      have := List.sum_pos (v :: s') hs (by simp)
      simp only [List.sum_nil] at hsum
      omega
    | v :: s', w :: t' =>
      have hv := hs v (by simp)
      have hw := ht w (by simp)
      have hlw := hl w (by simp)
      simp only [List.sum_cons] at hsum
      simp only [List.length_cons] at hn
      have hs' : ∀ v ∈ s', 0 < v := fun v hv => hs v (by simp [hv])
      have ht' : ∀ v ∈ t', 0 < v := fun v hv => ht v (by simp [hv])
      have hl' : ∀ v ∈ t', v ≤ limit := fun v hv => hl v (by simp [hv])
      have back : ∀ s'' : List Int, Serves limit (s'' ++ w :: rest) (t' ++ w :: rest) → Serves limit (w :: (s'' ++ rest)) (w :: t' ++ rest) := by
        intro s'' hq
        have e1 : (w :: (s'' ++ rest)).Perm (s'' ++ w :: rest) := List.perm_middle.symm
        have e2 : (t' ++ w :: rest).Perm (w :: t' ++ rest) := List.perm_middle
        have tr : ∀ {a b c : List Int}, Serves limit a b → b.Perm c → Serves limit a c := by
          intro a b c hq
          induction hq with
          | same p => intro p'; exact .same (p.trans p')
          | order p _ ih => intro p'; exact .order p (ih p')
          | cut h1 h2 _ ih => intro p'; exact .cut h1 h2 (ih p')
          | join h1 _ ih => intro p'; exact .join h1 (ih p')
        exact .order e1 (tr hq e2)
      rcases lt_trichotomy v w with h | h | h
      · match s' with
        | [] =>
          exfalso
          have : 0 ≤ t'.sum := List.sum_nonneg fun v hv => (ht' v hv).le
          simp only [List.sum_nil] at hsum
          omega
        | v2 :: s'' =>
          have hv2 := hs' v2 (by simp)
          simp only [List.sum_cons, List.length_cons] at hsum hn
          rcases le_or_gt (v + v2) w with h2 | h2
          · refine .join (by omega) ?_
            exact ih ((v + v2) :: s'') (w :: t') rest (by simp; omega)
              (fun x hx => by
                rcases List.mem_cons.1 hx with rfl | hx
                · omega
                · exact hs' x (by simp [hx])) ht hl (by simp only [List.sum_cons]; omega)
          · -- a part of the second belt completes the target
            refine .order (List.Perm.swap _ _ _) (.cut (x := w - v) (by omega) (by omega) ?_)
            refine .order (s' := v :: (w - v) :: (v2 - (w - v)) :: (s'' ++ rest)) ?_ (.join (by omega) ?_)
            · exact (List.perm_middle (l₁ := [w - v, v2 - (w - v)])).trans (List.Perm.refl _)
            · rw [show v + (w - v) = w by omega]
              exact back ((v2 - (w - v)) :: s'') (ih _ _ (w :: rest) (by simp; omega)
                (fun x hx => by
                  rcases List.mem_cons.1 hx with rfl | hx
                  · omega
                  · exact hs' x (by simp [hx])) ht' hl' (by simp only [List.sum_cons]; omega))
      · subst h
        exact back s' (ih _ _ (v :: rest) (by omega) hs' ht' hl' (by omega))
      · refine .cut hw h ?_
        exact back ((v - w) :: s') (ih _ _ (w :: rest) (by simp; omega)
          (fun x hx => by
            rcases List.mem_cons.1 hx with rfl | hx
            · omega
            · exact hs' x hx) ht' hl' (by simp only [List.sum_cons]; omega))

/-- C103. Whenever sources and targets are positive, have the same total and no target exceeds the limit, cutting and merging
belts within the limit is enough. -/
theorem C103_can_be_served {limit : Int} {s t : List Int} (hs : ∀ v ∈ s, 0 < v) (ht : ∀ v ∈ t, 0 < v) (hl : ∀ v ∈ t, v ≤ limit)
    (hsum : s.sum = t.sum) : Serves limit s t := by
  simpa using serves_aux limit _ s t [] le_rfl hs ht hl hsum

/-- For `"1000 500 to 750 750"`. -/
example : Serves 1200 [500, 1000] [750, 750] := C103_can_be_served (by decide) (by decide) (by decide) (by decide)

/-! ## Whether it is answered -/

/-- C103. A run that is not stopped answers the request if and only if some sequence of permitted moves within the initial bound
leads to the targets; scores, random choices and the duplicate test have no influence on that. -/
theorem C103_answered_iff (hcfg : cfg.speeds.Pairwise (· ≤ ·)) (hp : Parsed input sv tv) (hs : ∀ v ∈ sv, 0 < v) (ht : ∀ v ∈ tv, 0 < v)
    (e : (load cfg input a h).result = .ok true) (hO : O.stopAt = none) {fuel : Nat} {f : Search}
    (hsolve : solve ((load cfg input a h).attrs.problem cfg) O fuel (load cfg input a h).heap (load cfg input a h).attrs.treeSource
      (load cfg input a h).attrs.bestSize = .ok f) :
    f.solutions ≠ [] ↔ ∃ h' t' hist costs, Play ((load cfg input a h).attrs.problem cfg) (load cfg input a h).attrs.bestSize
      (load cfg input a h).attrs.treeSource.sourceValues h' t' hist costs ∧ t'.sourceValues = (load cfg input a h).attrs.targetValues := by
  obtain ⟨hP, hsrc, hB, -⟩ := C22_search_assumptions hcfg hp hs ht e
  generalize load cfg input a h = r at *
  constructor
  · intro hne
    obtain ⟨t, l, hq⟩ := List.exists_cons_of_ne_nil hne
    have hmem : t ∈ f.solutions := by rw [hq]; simp
    have hr : Reached (r.attrs.problem cfg) O r.heap r.attrs.treeSource r.attrs.bestSize f := solveLoop_visited O .start hsolve
    obtain ⟨-, hist, costs, hpl, -⟩ := (C34_best_size hP hsrc hB hr).1 t hmem
    exact ⟨f.heap, t, hist, costs, hpl, ((hr.inv hP hsrc hB).sols t hmem).2.1⟩
  · rintro ⟨h', t', hist, costs, hpl, hval⟩ hnone
    exact C37_no_solution hP hsrc hB hO hsolve hnone hpl hval

/-- C103. If the targets of a group together exceed the limit and every source, the request is never answered: the search looks for
the group as a single belt. -/
theorem C103_group_over (hcfg : cfg.speeds.Pairwise (· ≤ ·)) (hp : Parsed input sv tv) (hs : ∀ v ∈ sv, 0 < v) (ht : ∀ v ∈ tv, 0 < v)
    (e : (load cfg input a h).result = .ok true) {v : Int} (hv : v ∈ (load cfg input a h).attrs.targetValues) (hlim : (cfg.limit : Int) < v)
    (hsrcs : ∀ w ∈ (load cfg input a h).attrs.treeSource.sourceValues, w < v) {fuel : Nat} {f : Search}
    (hsolve : solve ((load cfg input a h).attrs.problem cfg) O fuel (load cfg input a h).heap (load cfg input a h).attrs.treeSource
      (load cfg input a h).attrs.bestSize = .ok f) : f.solutions = [] := by
  obtain ⟨hP, hsrc, hB, -, -, hl, -⟩ := C22_search_assumptions hcfg hp hs ht e
  generalize load cfg input a h = r at *
  by_contra hne
  obtain ⟨t, l, hq⟩ := List.exists_cons_of_ne_nil hne
  have hmem : t ∈ f.solutions := by rw [hq]; simp
  have hr : Reached (r.attrs.problem cfg) O r.heap r.attrs.treeSource r.attrs.bestSize f := solveLoop_visited O .start hsolve
  obtain ⟨-, hist, costs, hpl, -⟩ := (C34_best_size hP hsrc hB hr).1 t hmem
  obtain ⟨-, h2, h3⟩ := C33_solutions_correct hP hsrc hB hr hmem
  have hv' : v ∈ t.sources.map (fun a => (f.heap.get a).value) := by rw [h2]; exact hv
  obtain ⟨x, hx, hxv⟩ := List.mem_map.1 hv'
  have := hpl.values_le hP (M := v - 1) (by
      show r.attrs.limit ≤ v - 1
      rw [hl]; omega)
    (fun w hw => by have := hsrcs w hw; omega) ((h3 x).1 hx).1
  omega

/-- C103. A request is answered if it has a single source, or if the sources together do not exceed the limit, no source has the
value of a target or of a group, and the smallest source is not what remains after extracting two or more of these.
Missing are the other requests, of which some are not answered (`C103_answered_false`). -/
theorem C103_answered_partial (hcfg : cfg.speeds.Pairwise (· ≤ ·)) (hp : Parsed input sv tv) (hs : ∀ v ∈ sv, 0 < v) (ht : ∀ v ∈ tv, 0 < v)
    (e : (load cfg input a h).result = .ok true)
    (hfit : PlanOpen cfg.limit (load cfg input a h).attrs.treeSource.sourceValues (load cfg input a h).attrs.targetValues)
    (hO : O.stopAt = none) {fuel : Nat} {f : Search}
    (hsolve : solve ((load cfg input a h).attrs.problem cfg) O fuel (load cfg input a h).heap (load cfg input a h).attrs.treeSource
      (load cfg input a h).attrs.bestSize = .ok f) : f.solutions ≠ [] := by
  obtain ⟨hP, hsrc, hB0, hmin, _, hlim, hdvd, _⟩ := C22_search_assumptions hcfg hp hs ht e
  obtain ⟨s', t', hp', -, -, -, L⟩ := load_accepted e
  obtain ⟨rfl, rfl⟩ : s' = sv ∧ t' = tv := by
    have := hp'.symm.trans hp.1
    simpa using this
  generalize load cfg input a h = r at *
  have hne : r.attrs.targetValues ≠ [] := by
    intro hnil
    have := L.minTarget.1
    rw [hnil] at this
    simp at this
  obtain ⟨k, h1, h2, h3⟩ := L.bound
  have hoff := L.cost_nonneg hs ht
  rw [← L.sources] at h1 h3
  obtain ⟨g, g1, g2, -⟩ := plan_play_more (P := r.attrs.problem cfg) (B := r.attrs.bestSize) (values := r.attrs.treeSource.sourceValues)
    hP hsrc.nonempty hsrc.pos hsrc.sorted hne L.targets_sorted (L.targets_pos hs ht) L.minTarget.2 (fun v hv => (hdvd v hv).2)
    (by rw [L.sources]; exact L.targets_sum)
    (by change PlanOpen r.attrs.limit _ _; rw [hlim]; exact hfit) h1 h2 (by omega)
  obtain ⟨h', t1, loc, hist, costs, p1, p2⟩ := g1.play hP hsrc
  have hreach : t1.sourceValues = r.attrs.targetValues := by rw [p2.vals]; exact g2
  exact (C38_optimal_partial hP hsrc hB0 hO hsolve p1 hreach).1

/-- For `"1 2 13 to 3 6 7"` the source 13 is what remains after extracting 3. -/
example : Parsed "1 2 13 to 3 6 7".toList [1, 2, 13] [3, 6, 7] ∧ (Example.loaded "1 2 13 to 3 6 7").result = .ok true ∧
    PlanOpen config.limit (Example.loaded "1 2 13 to 3 6 7").attrs.treeSource.sourceValues (Example.loaded "1 2 13 to 3 6 7").attrs.targetValues ∧
    ¬ PlanFits config.limit (Example.loaded "1 2 13 to 3 6 7").attrs.treeSource.sourceValues (Example.loaded "1 2 13 to 3 6 7").attrs.targetValues := by
  have h1 : (Example.loaded "1 2 13 to 3 6 7").attrs.treeSource.sourceValues = [1, 2, 13] := by decide +kernel
  have h2 : (Example.loaded "1 2 13 to 3 6 7").attrs.targetValues = [3, 6, 7] := by decide +kernel
  have h3 : (config.limit : Int) = 1200 := by decide +kernel
  refine ⟨⟨by decide +kernel, by decide, by decide⟩, by decide +kernel, ?_, ?_⟩
  · rw [h1, h2, h3]
    intro _
    decide
  · rw [h1, h2, h3]
    intro h
    exact ((h (by decide)).2 13 (by decide)).2 (by decide)

/-- C103. With at most four targets and groups the last condition is not needed. -/
theorem C103_four_targets (hcfg : cfg.speeds.Pairwise (· ≤ ·)) (hp : Parsed input sv tv) (hs : ∀ v ∈ sv, 0 < v) (ht : ∀ v ∈ tv, 0 < v)
    (e : (load cfg input a h).result = .ok true) (h4 : (load cfg input a h).attrs.targetValues.length ≤ 4)
    (hlim : (load cfg input a h).attrs.treeSource.sourceValues.sum ≤ cfg.limit)
    (hdis : ∀ v ∈ (load cfg input a h).attrs.treeSource.sourceValues, v ∉ (load cfg input a h).attrs.targetValues)
    (hO : O.stopAt = none) {fuel : Nat} {f : Search}
    (hsolve : solve ((load cfg input a h).attrs.problem cfg) O fuel (load cfg input a h).heap (load cfg input a h).attrs.treeSource
      (load cfg input a h).attrs.bestSize = .ok f) : f.solutions ≠ [] := by
  refine C103_answered_partial hcfg hp hs ht e ?_ hO hsolve
  obtain ⟨hP, hsrc, -⟩ := C22_search_assumptions hcfg hp hs ht e
  obtain ⟨s', t', hp', -, -, -, L⟩ := load_accepted e
  obtain ⟨rfl, rfl⟩ : s' = sv ∧ t' = tv := by
    have := hp'.symm.trans hp.1
    simpa using this
  have hpos := L.targets_pos hs ht
  have hsrt := L.targets_sorted
  have hsum : (load cfg input a h).attrs.targetValues.sum = (load cfg input a h).attrs.treeSource.sourceValues.sum := by
    rw [L.sources]; exact L.targets_sum
  generalize load cfg input a h = r at *
  intro h2
  refine ⟨hlim, hdis, ?_⟩
  generalize r.attrs.targetValues = G at *
  have hvp := hsrc.pos
  have hvs := hsrc.sorted
  generalize r.attrs.treeSource.sourceValues = S at *
  match S, h2 with
  | x :: y :: S, _ =>
    intro v hv hmem
    obtain rfl : x = v := by simpa using hv
    have hxG := hdis x (by simp)
    have hxy : x ≤ y := (List.pairwise_cons.1 hvs).1 y (by simp)
    have hS : 0 ≤ S.sum := List.sum_nonneg fun w hw => (hvp w (by simp [hw])).le
    simp only [List.sum_cons] at hsum
    match G, h4 with
    | [], _ => simp [remainders] at hmem
    | [_], _ => simp [remainders] at hmem
    | [_, _], _ => simp [remainders] at hmem
    | [a, b, c], _ =>
      simp [remainders] at hmem
      exact hxG (by simp [hmem])
    | [a, b, c, d], _ =>
      simp [remainders] at hmem
      simp only [List.sum_cons, List.sum_nil] at hsum
      simp only [List.pairwise_cons, List.mem_cons, List.not_mem_nil, or_false, forall_eq_or_imp, forall_eq] at hsrt
      obtain ⟨⟨q1, q2, q3⟩, ⟨q4, q5⟩, q6, -⟩ := hsrt
      rcases hmem with hm | hm
      · omega
      · exact hxG (by simp [hm])
    | _ :: _ :: _ :: _ :: _ :: _, h => simp at h; omega

/-! ## Requests that are not answered -/

namespace Solver.Example

/-- A search that takes the trees in the order of their sizes. -/
def plain : Oracle := { stopAt := none, score := fun _ _ => 0, random := fun _ => none, iso := fun _ _ _ => false }

/-- The number of solutions of a run. -/
def answers (input : String) (fuel : Nat) : Option Nat :=
  let r := loaded input
  (solve (r.attrs.problem config) plain fuel r.heap r.attrs.treeSource r.attrs.bestSize).toOption.map fun s => s.solutions.length

/-- Every run that is not stopped ends without a solution. -/
def Unanswered (input : String) : Prop :=
  ∀ O : Oracle, O.stopAt = none → ∃ fuel f, (∀ fuel', fuel ≤ fuel' → solve ((loaded input).attrs.problem config) O fuel' (loaded input).heap
    (loaded input).attrs.treeSource (loaded input).attrs.bestSize = .ok f) ∧ f.solutions = []

end Solver.Example

section

variable {text : String} {ws wt : List ℚ}

/-- One run without solutions shows that no run has any. -/
private theorem unanswered_of_run (hcfg : config.speeds.Pairwise (· ≤ ·)) (hp : Parsed text.toList ws wt) (hs : ∀ v ∈ ws, 0 < v)
    (ht : ∀ v ∈ wt, 0 < v) (e : (Example.loaded text).result = .ok true) {fuel : Nat} (hrun : Example.answers text fuel = some 0) :
    Example.Unanswered text := by
  intro O hO
  obtain ⟨hP, hsrc, hB, -⟩ := C22_search_assumptions hcfg hp hs ht e
  obtain ⟨n, f, hf⟩ := C35_terminates (O := O) hP hsrc hB hO
  refine ⟨n, f, hf, ?_⟩
  by_contra hne
  have h1 := (C103_answered_iff hcfg hp hs ht e hO (hf n le_rfl)).1 hne
  unfold Example.answers at hrun
  dsimp only at hrun
  cases hq : solve ((Example.loaded text).attrs.problem config) Example.plain fuel (Example.loaded text).heap
      (Example.loaded text).attrs.treeSource (Example.loaded text).attrs.bestSize with
  | error x => rw [hq] at hrun; simp [Except.toOption] at hrun
  | ok s =>
    rw [hq] at hrun
    have h2 := (C103_answered_iff (O := Example.plain) hcfg hp hs ht e rfl hq).2 h1
    simp [Except.toOption] at hrun
    exact h2 hrun

private theorem unanswered_of_over (hcfg : config.speeds.Pairwise (· ≤ ·)) (hp : Parsed text.toList ws wt) (hs : ∀ v ∈ ws, 0 < v)
    (ht : ∀ v ∈ wt, 0 < v) (e : (Example.loaded text).result = .ok true) {v : Int} (hv : v ∈ (Example.loaded text).attrs.targetValues)
    (hlim : config.limit < v) (hsm : ∀ w ∈ (Example.loaded text).attrs.treeSource.sourceValues, w < v) : Example.Unanswered text := by
  intro O hO
  obtain ⟨hP, hsrc, hB, -⟩ := C22_search_assumptions hcfg hp hs ht e
  obtain ⟨n, f, hf⟩ := C35_terminates (O := O) hP hsrc hB hO
  exact ⟨n, f, hf, C103_group_over hcfg hp hs ht e hv hlim hsm (hf n le_rfl)⟩

end

private theorem over_parsed : Parsed "1000 500 to 750 750".toList [1000, 500] [750, 750] := ⟨by decide +kernel, by decide, by decide⟩

private theorem over_loaded : (Example.loaded "1000 500 to 750 750").result = .ok true := by decide +kernel

private theorem dear_parsed : Parsed "27 37 to 9 9 9 16 21".toList [27, 37] [9, 9, 9, 16, 21] := ⟨by decide +kernel, by decide, by decide⟩

private theorem dear_loaded : (Example.loaded "27 37 to 9 9 9 16 21").result = .ok true := by decide +kernel

private theorem dear_answers : Example.answers "27 37 to 9 9 9 16 21" 100 = some 0 := by decide +kernel

/-- C103 is false. `"1000 500 to 750 750"`: all belts are within the limit of 1200, and cutting 250 from 1000 and merging it with
500 would do; the program looks for a single belt of 1500. `"27 37 to 9 9 9 16 21"`: extracting 16 from 37 and dividing 27 by three
would do, and no belt is ever over the limit; but this is more expensive than the initial bound, which was computed for extracting
from a belt of 64. No run answers these, whatever the scores and random choices. -/
theorem C103_answered_false :
    (Parsed "1000 500 to 750 750".toList [1000, 500] [750, 750] ∧ (Example.loaded "1000 500 to 750 750").result = .ok true ∧
      Serves config.limit [1000, 500] [750, 750] ∧ Example.Unanswered "1000 500 to 750 750") ∧
    (Parsed "27 37 to 9 9 9 16 21".toList [27, 37] [9, 9, 9, 16, 21] ∧ (Example.loaded "27 37 to 9 9 9 16 21").result = .ok true ∧
      Serves config.limit [27, 37] [9, 9, 9, 16, 21] ∧ Example.Unanswered "27 37 to 9 9 9 16 21") := by
  have hl : (config.limit : Int) = 1200 := by decide +kernel
  have hcfg : config.speeds.Pairwise (· ≤ ·) := by decide +kernel
  have ht : (Example.loaded "1000 500 to 750 750").attrs.targetValues = [1500] := by decide +kernel
  have hv : (Example.loaded "1000 500 to 750 750").attrs.treeSource.sourceValues = [500, 1000] := by decide +kernel
  refine ⟨⟨over_parsed, over_loaded, ?_, ?_⟩, dear_parsed, dear_loaded, ?_, ?_⟩
  · rw [hl]
    exact C103_can_be_served (by decide) (by decide) (by decide) (by decide)
  · refine unanswered_of_over hcfg over_parsed (by decide) (by decide) over_loaded (v := 1500) (by rw [ht]; decide) (by rw [hl]; decide)
      (by rw [hv]; decide)
  · rw [hl]
    exact C103_can_be_served (by decide) (by decide) (by decide) (by decide)
  · exact unanswered_of_run hcfg dear_parsed (by decide) (by decide) dear_loaded dear_answers

end Satis
