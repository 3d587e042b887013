import Verif.Graph.RatAttach
import Verif.Props.Attach
import Verif.Props.Deliver
import Verif.Props.Save
import Verif.Solver.Fees
import Verif.Solver.SoundFacts
/-!
# From the request to the network that is built
-/

namespace Satis
open Satis.Utils Satis.Graph Satis.Solver Satis.Solver.Example Satis.Cost Satis.Utils.Spec

variable {cfg : Config} {input : Str} {a : Attrs} {h : Heap Int} {sv tv : List ℚ} {O : Oracle} {s : Search} {t : TreeObj Int}

/-- The ids of the grouped targets have been handed out. -/
theorem Solver.forest_uid (hs : ∀ v ∈ sv, 0 < v) (ht : ∀ v ∈ tv, 0 < v) (hp : Parsed input sv tv) (e : (load cfg input a h).result = .ok true) (x : Addr)
    (hx : Reach (load cfg input a h).heap (load cfg input a h).attrs.leaves x) :
    x < (load cfg input a h).heap.next ∧ ((load cfg input a h).heap.get x).id < (load cfg input a h).heap.nextUid := by
  obtain ⟨s', t', hp', -, -, -, L⟩ := load_accepted e
  obtain ⟨rfl, rfl⟩ : s' = sv ∧ t' = tv := by
    have := hp'.symm.trans hp.1
    simpa using this
  generalize load cfg input a h = r at *
  obtain ⟨hg, inner, I, -, -, hextg, -⟩ := L.grouped
  have hF := (I.forest (scaled_pos hs ht).2).ext hextg (fun x hx => (I.node_range x hx).2)
  have hm := (hF.nodes x).1 hx
  have hr := I.node_range x hm
  have q1 := I.id x hr.1 hr.2
  have q2 := I.uid
  rw [hextg.get x hr.2]
  have := hextg.next
  have := hextg.nextUid
  constructor <;> omega

/-- A solution with the targets attached. -/
theorem Solver.attached_solution (hcfg : cfg.speeds.Pairwise (· ≤ ·)) (hp : Parsed input sv tv) (hs : ∀ v ∈ sv, 0 < v) (ht : ∀ v ∈ tv, 0 < v)
    (e : (load cfg input a h).result = .ok true)
    (hr : Reached ((load cfg input a h).attrs.problem cfg) O (load cfg input a h).heap (load cfg input a h).attrs.treeSource
      (load cfg input a h).attrs.bestSize s) (hsol : t ∈ s.solutions) :
    ∃ n, ∃ h' : Heap Int, ∃ t' : TreeObj Int, (∀ n', n ≤ n' → t.toRat.attachLeaves n' s.heap.toRat (load cfg input a h).attrs.leaves = .ok (h'.toRat, t'.toRat)) ∧
      Sound cfg.speeds h'.toRat t'.roots ∧ (∀ x, Reach h' t'.roots x → 0 < (h'.get x).value) ∧
      t'.sources.Nodup ∧
      (∀ x, x ∈ t'.sources ↔ Reach h' t'.roots x ∧ (h'.get x).children = []) ∧
      TypedH cfg h' (Reach h' t'.roots) ∧ dues cfg h' t'.roots = t.size + (load cfg input a h).attrs.sizeOffset ∧
      (∀ x, Reach h' t'.roots x → (h'.get x).value ≤ (cfg.limit : Int) ∨ ∃ r ∈ t'.roots, (h'.get x).value ≤ (h'.get r).value) ∧
      (∀ x, Reach h' t'.roots x → (h'.get x).value ≤ (t'.roots.map fun r => (h'.get r).value).sum) ∧
      ∃ T, Remains sv tv (t'.roots.map fun x => ((h'.get x).value : ℚ) / ((load cfg input a h).attrs.unitFlowRatio : ℚ)) T ∧
        (t'.sources.map fun x => ((h'.get x).value : ℚ) / ((load cfg input a h).attrs.unitFlowRatio : ℚ)).Perm T := by
  obtain ⟨hP, hsrc, hB, -⟩ := C22_search_assumptions hcfg hp hs ht e
  obtain ⟨inner, leaves, S, hF, hT, hD, hext, hv, hrem⟩ := separate hcfg hp hs ht e hr hsol
  have hW := C27_states_well_formed hP hsrc hB hr (Or.inr hsol)
  have hL := C29_states_layered hP hsrc hB hr (Or.inr hsol)
  have hFl := (C33_solutions_correct hP hsrc hB hr hsol).1
  obtain ⟨n, h', t', q1, q2, q3, q4, q5, q6, q7, q8, ⟨h1, J, hsame⟩, q9, q10⟩ := attachLeaves_spec S hW hL hFl hsrc.nonempty
  obtain ⟨-, g, loc, hn, hR⟩ := ((hr.inv hP hsrc hB).sols t hsol).2.2
  have hg := hn.wf hP hsrc.wf
  have huid := Solver.forest_uid hs ht hp e
  have hforest : ∀ x ∈ inner ++ leaves, s.heap.get x = (load cfg input a h).heap.get x ∧ (s.heap.get x).id < s.heap.nextUid := fun x hx => by
    obtain ⟨w1, w2⟩ := huid x ((hF.nodes x).2 hx)
    have := hext.get x w1
    rw [this]
    exact ⟨rfl, lt_of_lt_of_le w2 hext.nextUid⟩
  have hT' : Tagged s.heap inner leaves := by
    refine ⟨fun x hx => ?_, fun x hx => ?_⟩
    · rw [(hforest x (List.mem_append_left _ hx)).1]
      exact hT.1 x hx
    · rw [(hforest x (List.mem_append_right _ hx)).1]
      exact hT.2 x hx
  have hid : ∀ x, (h'.get x).id = (s.heap.get x).id := fun x => by rw [hsame x]; exact J.id x
  have hregion : Region h'.toRat (Reach h' t'.roots) := by
    constructor
    · intro x hx
      show x < h'.next
      rw [q9]
      rcases (q8 x).1 hx with w | w
      · exact S.good.lt x w
      · exact S.lt x w.1
    · intro x hx c hc
      exact hx.child hc
    · intro x hx p hp
      exact q4.closed x hx p hp
    · intro x y hx hy exy
      have exy : (h'.get x).id = (h'.get y).id := exy
      rw [hid, hid] at exy
      rcases (q8 x).1 hx with w | w <;> rcases (q8 y).1 hy with w' | w'
      · exact S.good.inj x y w w' exy
      · exact absurd exy.symm (S.ids y w'.1 x w)
      · exact absurd exy (S.ids x w.1 y w')
      · exact S.inj x w.1 y w'.1 exy
    · intro x hx
      show (h'.get x).id < h'.nextUid
      rw [hid, q10]
      rcases (q8 x).1 hx with w | w
      · obtain ⟨i, hi, rfl⟩ := (hR.reach_iff hg x).1 w
        exact hR.nodes.uid i hi
      · exact (hforest x w.1).2
  have hshape : Shaped h' t'.roots := by
    rw [q5]
    exact (J.shaped S hW hFl (hR.shaped hg)).relevel hsame
  have htree : TypedH cfg s.heap (Reach s.heap t.roots) := hR.typed hg (NPlay.typed (P := (load cfg input a h).attrs.problem cfg) hP hsrc.wf hn)
  have htyped : TypedH cfg h' (Reach h' t'.roots) := by
    rw [q5]
    exact (J.typed S hW hL hT' htree).relevel hsame
  have hdues : dues cfg h' t'.roots = t.size + (load cfg input a h).attrs.sizeOffset := by
    rw [q5, dues_relevel (q9.trans J.next.symm) hsame, J.dues S hW hL hT' htree hD]
    congr 1
    exact (hR.billed hg (NPlay.billed (P := (load cfg input a h).attrs.problem cfg) hP hsrc.wf hn)).symm
  have hval : ∀ x, (h'.get x).value = (s.heap.get x).value := fun x => by rw [hsame x]; exact J.value x
  have hfrom : ∀ x, Reach h' t'.roots x → ∃ y, Reach s.heap t.roots y ∧ (h'.get x).value ≤ (s.heap.get y).value := by
    intro x hx
    rw [hval]
    rcases (q8 x).1 hx with w | ⟨w, -⟩
    · exact ⟨x, w, le_rfl⟩
    have hw := (S.forest.nodes x).2 w
    clear w hx
    induction hw with
    | @root x hm =>
      obtain ⟨y, hy⟩ := (S.pair_of hW).2 x hm
      obtain ⟨y1, -, y2⟩ := S.pair hW hy
      rw [← y2]
      exact ⟨y, ((hW.leaves y).1 y1).1, le_rfl⟩
    | @child p c hp hc ih =>
      have hpm := (S.forest.nodes p).1 hp
      have hpi := (S.kid hpm hc).1
      have h1 := S.forest.equal p hpi c hc
      have h2 := (S.forest.fan p hpi).1
      have h3 := S.forest.positive c (S.kid hpm hc).2.1
      have hle : (s.heap.get c).value ≤ (s.heap.get p).value := by
        rw [h1]
        have : (1 : Int) ≤ ((s.heap.get p).children.length : Int) := by omega
        nlinarith
      obtain ⟨y, y1, y2⟩ := ih
      exact ⟨y, y1, hle.trans y2⟩
  have hsum : ∀ x, Reach h' t'.roots x → (h'.get x).value ≤ (t'.roots.map fun r => (h'.get r).value).sum := by
    intro x hx
    obtain ⟨y, y1, y2⟩ := hfrom x hx
    refine y2.trans ((C54_values_within_total hP hsrc hB hr (Or.inr hsol) y1).trans (le_of_eq ?_))
    rw [q5]
    congr 1
    exact List.map_congr_left fun r _ => (hval r).symm
  have hsize : ∀ x, Reach h' t'.roots x → (h'.get x).value ≤ (cfg.limit : Int) ∨ ∃ r ∈ t'.roots, (h'.get x).value ≤ (h'.get r).value := by
    have hlim : ((load cfg input a h).attrs.problem cfg).limit = (cfg.limit : Int) := by
      obtain ⟨s', t'', -, -, -, -, L⟩ := load_accepted e
      exact L.limit
    have key : ∀ x, Reach s.heap t.roots x → (s.heap.get x).value ≤ (cfg.limit : Int) ∨ ∃ r ∈ t'.roots, (s.heap.get x).value ≤ (h'.get r).value := by
      intro x hx
      rw [← hlim]
      refine (C54_values_bounded hP hsrc hB hr (Or.inr hsol) hx).imp_right ?_
      rintro ⟨v, hv, hle⟩
      rw [← q4.roots] at hv
      obtain ⟨r, hr, rfl⟩ := List.mem_map.1 hv
      exact ⟨r, hr, hle⟩
    intro x hx
    obtain ⟨y, y1, y2⟩ := hfrom x hx
    rcases key y y1 with w | ⟨r, hr, w⟩
    · exact .inl (y2.trans w)
    · exact .inr ⟨r, hr, y2.trans w⟩
  refine ⟨n, h', t', fun n' hn' => by rw [attachLeaves_toRat, q1 n' hn']; rfl, sound_of hregion q4 q3 q2 hshape htyped, q2.positive,
    q2.distinct, q2.leaves, htyped, hdues, hsize, hsum, leaves.map fun x => (((load cfg input a h).heap.get x).value : ℚ) / ((load cfg input a h).attrs.unitFlowRatio : ℚ), ?_, ?_⟩
  · have := hrem
    unfold valuesOf at this
    rw [List.map_map, ← q4.roots, List.map_map] at this
    exact this
  · have := q7.map fun (z : ℤ) => (z : ℚ) / ((load cfg input a h).attrs.unitFlowRatio : ℚ)
    rw [hv] at this
    unfold valuesOf at this
    rw [List.map_map, List.map_map] at this
    exact this

/-! ## C67 -/

/-- C67, first half. Every solution becomes a sound network when the targets are attached to it. -/
theorem C67_solutions_sound (hcfg : cfg.speeds.Pairwise (· ≤ ·)) (hp : Parsed input sv tv) (hs : ∀ v ∈ sv, 0 < v) (ht : ∀ v ∈ tv, 0 < v)
    (e : (load cfg input a h).result = .ok true)
    (hr : Reached ((load cfg input a h).attrs.problem cfg) O (load cfg input a h).heap (load cfg input a h).attrs.treeSource
      (load cfg input a h).attrs.bestSize s) (hsol : t ∈ s.solutions) :
    ∃ n h' t', (∀ n', n ≤ n' → t.toRat.attachLeaves n' s.heap.toRat (load cfg input a h).attrs.leaves = .ok (h', t')) ∧
      Sound cfg.speeds h' t'.roots ∧ (∀ x, Reach h' t'.roots x → 0 < (h'.get x).value) ∧
      (∀ x, Reach h' t'.roots x → (h'.get x).value ≤ cfg.limit ∨ ∃ r ∈ t'.roots, (h'.get x).value ≤ (h'.get r).value) ∧
      t'.sources.Nodup ∧
      (∀ x, x ∈ t'.sources ↔ Reach h' t'.roots x ∧ (h'.get x).children = []) ∧
      ∃ T, Remains sv tv (t'.roots.map fun x => (h'.get x).value / ((load cfg input a h).attrs.unitFlowRatio : ℚ)) T ∧
        (t'.sources.map fun x => (h'.get x).value / ((load cfg input a h).attrs.unitFlowRatio : ℚ)).Perm T := by
  obtain ⟨n, h', t', q1, q2, q3, q4, q5, -, -, q8, -, T, q6, q7⟩ := Solver.attached_solution hcfg hp hs ht e hr hsol
  refine ⟨n, h'.toRat, t'.toRat, q1, q2, fun x hx => ?_, fun x hx => ?_, q4, fun x => ?_, T, q6, q7⟩
  · have : ((0 : Int) : ℚ) < ((h'.get x).value : ℚ) := by exact_mod_cast q3 x (reach_toRat.1 hx)
    rw [Int.cast_zero] at this
    exact this
  · rcases q8 x (reach_toRat.1 hx) with w | ⟨r, hr, w⟩
    · left
      show ((h'.get x).value : ℚ) ≤ (cfg.limit : ℚ)
      exact_mod_cast w
    · refine .inr ⟨r, hr, ?_⟩
      show ((h'.get x).value : ℚ) ≤ ((h'.get r).value : ℚ)
      exact_mod_cast w
  · rw [show (t'.toRat.roots = t'.roots) from rfl, reach_toRat]
    exact q5 x

/-- No fractions in the request: no scaling. -/
theorem Solver.unit_ratio (hp : Parsed input sv tv) (e : (load cfg input a h).result = .ok true) (hi : ∀ v ∈ sv ++ tv, Integral v) :
    (load cfg input a h).attrs.unitFlowRatio = 1 := by
  obtain ⟨s', t', hp', -, -, -, L⟩ := load_accepted e
  obtain ⟨rfl, rfl⟩ : s' = sv ∧ t' = tv := by
    have := hp'.symm.trans hp.1
    simpa using this
  rw [L.ratio]
  have hsum : ∀ l : List ℚ, (∀ v ∈ l, Integral v) → Integral l.sum := by
    intro l
    induction l with
    | nil => exact fun _ => ⟨0, by simp⟩
    | cons x l ih =>
      intro hl
      obtain ⟨z, hz⟩ := hl x (by simp)
      obtain ⟨w, hw⟩ := ih fun v hv => hl v (by simp [hv])
      exact ⟨z + w, by rw [List.sum_cons, hz, hw]; push_cast; rfl⟩
  have hs := fun v hv => hi v (List.mem_append_left _ hv)
  have ht := fun v hv => hi v (List.mem_append_right _ hv)
  have hextra : ∀ x y : ℚ, Integral x → Integral y → ∀ v ∈ extra x y, Integral v := by
    rintro x y ⟨z, rfl⟩ ⟨w, rfl⟩ v hv
    unfold extra at hv
    split at hv
    · rw [List.mem_singleton.1 hv]
      exact ⟨w - z, by push_cast; rfl⟩
    · simp at hv
  obtain ⟨⟨c, c1, c2⟩, -⟩ := reduced_spec s' t'
  have hall : ∀ f ∈ (reduced s' t').1 ++ (reduced s' t').2, Integral (f * ((1 : ℕ) : ℚ)) := by
    intro f hf
    rw [Nat.cast_one, mul_one]
    rcases List.mem_append.1 hf with hf | hf
    · have := c1.subset (List.mem_append_left _ hf)
      rcases List.mem_append.1 this with w | w
      · exact hs f w
      · exact hextra _ _ (hsum _ hs) (hsum _ ht) f w
    · have := c2.subset (List.mem_append_left _ hf)
      rcases List.mem_append.1 this with w | w
      · exact ht f w
      · exact hextra _ _ (hsum _ ht) (hsum _ hs) f w
  exact Nat.dvd_one.1 (common_min _ 1 hall)

/-- Solutions with the targets attached are delivered, and the labels tell what passes. -/
theorem Solver.delivered_labelled (hcfg : cfg.speeds.Pairwise (· ≤ ·)) (hp : Parsed input sv tv) (hs : ∀ v ∈ sv, 0 < v) (ht : ∀ v ∈ tv, 0 < v)
    (e : (load cfg input a h).result = .ok true)
    (hr : Reached ((load cfg input a h).attrs.problem cfg) O (load cfg input a h).heap (load cfg input a h).attrs.treeSource
      (load cfg input a h).attrs.bestSize s) (hsol : t ∈ s.solutions) :
    ∃ n h₁ t₁, (∀ n', n ≤ n' → t.toRat.attachLeaves n' s.heap.toRat (load cfg input a h).attrs.leaves = .ok (h₁, t₁)) ∧
      (((∀ v ∈ sv ++ tv, Integral v) ∨ Even h₁ t₁.roots) → Roomy h₁ t₁.roots → WithinLimit cfg h₁ (Reach h₁ t₁.roots) →
        ∃ h₂, Settles (fun fuel => expandRoots cfg fuel h₁ t₁.roots) (.ok h₂) ∧
          t₁.sources.Nodup ∧ (∀ x, x ∈ t₁.sources ↔ Reach h₂ t₁.roots x ∧ (h₂.get x).children = []) ∧
          (Light h₁ t₁.roots → ∀ x, Reach h₂ t₁.roots x → (h₂.get x).expands = []) ∧
          ((∀ x, Reach h₂ t₁.roots x → (h₂.get x).expands = []) →
            ∃ supply T f, Carries cfg.speeds h₂ t₁.roots supply T f ∧ Forced cfg.speeds h₂ t₁.roots supply T f ∧ (∀ x, x ∉ t₁.roots → supply x = 0) ∧
              (∀ b : ℚ, cfg.limit ≤ b → (∀ r ∈ t₁.roots, supply r ≤ b) → ∀ x, Reach h₂ t₁.roots x → T x ≤ b) ∧
              ∃ R, Remains sv tv (t₁.roots.map supply) R ∧ (t₁.sources.map T).Perm R ∧
                (Tidy h₁ t₁.roots → Labels h₁ h₂ t₁.roots (load cfg input a h).attrs.unitFlowRatio T))) := by
  obtain ⟨n, h₁, t₁, q1, q2, -, q3, q4, q5, R, q6, q7⟩ := C67_solutions_sound hcfg hp hs ht e hr hsol
  have hk : (1 : ℚ) ≤ ((load cfg input a h).attrs.unitFlowRatio : ℚ) := by
    obtain ⟨s', t', -, -, -, -, L⟩ := load_accepted e
    rw [L.ratio]
    exact_mod_cast ratio_pos s' t'
  refine ⟨n, h₁, t₁, q1, fun hi hR hW => ?_⟩
  obtain ⟨speeds, hS, hscale⟩ : ∃ speeds, Sound speeds h₁ t₁.roots ∧ ∀ (g : Heap ℚ) (rs : List Addr) (supply T : Addr → ℚ) (f : Addr → Addr → ℚ),
      Carries speeds g rs supply T f → Forced speeds g rs supply T f →
      Carries cfg.speeds g rs (fun a' => supply a' / ((load cfg input a h).attrs.unitFlowRatio : ℚ)) (fun a' => T a' / ((load cfg input a h).attrs.unitFlowRatio : ℚ))
        (fun a' b => f a' b / ((load cfg input a h).attrs.unitFlowRatio : ℚ)) ∧
      Forced cfg.speeds g rs (fun a' => supply a' / ((load cfg input a h).attrs.unitFlowRatio : ℚ)) (fun a' => T a' / ((load cfg input a h).attrs.unitFlowRatio : ℚ))
        (fun a' b => f a' b / ((load cfg input a h).attrs.unitFlowRatio : ℚ)) := by
    rcases hi with hi | hE
    · rw [Solver.unit_ratio hp e hi]
      simp only [Nat.cast_one, div_one]
      exact ⟨_, q2, fun _ _ _ _ _ w w' => ⟨w, w'⟩⟩
    · exact ⟨[], q2.even hE, fun _ _ _ _ _ w w' => ⟨w.scale _ _, w'.scale _ (by linarith)⟩⟩
  obtain ⟨h₂, w1, w3, w2, w⟩ := hS.expanded hR hW
  refine ⟨h₂, w1, q4, fun x => by rw [q5, w3], w2, fun done => ?_⟩
  obtain ⟨-, T, f, w4, w6, w7, w5, w8⟩ := w done
  obtain ⟨v4, v6⟩ := hscale _ _ _ _ _ w4 w6
  generalize (load cfg input a h).attrs.unitFlowRatio = k at *
  have hk0 : (0 : ℚ) < k := by linarith
  refine ⟨_, _, _, v4, v6, fun x hx => by show (if x ∈ t₁.roots then (h₁.get x).value else 0) / k = 0; rw [if_neg hx, zero_div], fun b hb hv x hx => ?_, R, ?_, ?_, fun Td => ?_⟩
  · rw [div_le_iff₀ hk0]
    have hb' : (cfg.limit : ℚ) ≤ b * k := by
      have : (0 : ℚ) ≤ cfg.limit := Nat.cast_nonneg _
      nlinarith
    refine w7 (b * k) hb' (fun x hx => ?_) x hx
    rcases q3 x hx with w | ⟨r, hr, w⟩
    · exact w.trans hb'
    · have := hv r hr
      rw [div_le_iff₀ hk0, if_pos hr] at this
      exact w.trans this
  · rw [List.map_congr_left (g := fun x => (h₁.get x).value / k)]
    · exact q6
    · intro x hx
      show (if x ∈ t₁.roots then (h₁.get x).value else 0) / k = _
      rw [if_pos hx]
  · rw [List.map_congr_left (g := fun x => (h₁.get x).value / k)]
    · exact q7
    · intro x hx
      show T x / k = _
      rw [w5 x ((q5 x).1 hx).1 ((q5 x).1 hx).2]
  · have L := w8 Td
    refine ⟨fun x hx hm => ?_, L.kept, fun x hx es V he hV => ?_⟩
    · have := L.plain x hx hm
      simp only [Nat.cast_one, div_one] at this
      show T x / _ = _
      rw [this]
    · have := L.worked x hx es V he hV
      simp only [Nat.cast_one, div_one] at this
      show T x / _ = _
      rw [this]

/-- C67 for requests without fractions, or solutions that use no conveyor of a given speed, where expansion loses no belts: with the targets attached,
`expand_roots` makes of the solution a network whose leaves are the targets. If nothing is left pending in it, and nothing is if the belts that an
extraction leads to a node need not be merged, then it can be built: there are flows on its belts that are conserved at every machine, are the only
ones the machines allow, start with the requested sources and bring the requested targets, after balancing and cancelling. None of them exceeds the
limit, if the sources do not. Missing: see `C66_expanded_delivers_partial` and `C67_fractions_false`. -/
theorem C67_request_delivered_partial (hcfg : cfg.speeds.Pairwise (· ≤ ·)) (hp : Parsed input sv tv) (hs : ∀ v ∈ sv, 0 < v) (ht : ∀ v ∈ tv, 0 < v)
    (e : (load cfg input a h).result = .ok true)
    (hr : Reached ((load cfg input a h).attrs.problem cfg) O (load cfg input a h).heap (load cfg input a h).attrs.treeSource
      (load cfg input a h).attrs.bestSize s) (hsol : t ∈ s.solutions) :
    ∃ n h₁ t₁, (∀ n', n ≤ n' → t.toRat.attachLeaves n' s.heap.toRat (load cfg input a h).attrs.leaves = .ok (h₁, t₁)) ∧
      (((∀ v ∈ sv ++ tv, Integral v) ∨ Even h₁ t₁.roots) → Roomy h₁ t₁.roots → WithinLimit cfg h₁ (Reach h₁ t₁.roots) →
        ∃ h₂, Settles (fun fuel => expandRoots cfg fuel h₁ t₁.roots) (.ok h₂) ∧
          t₁.sources.Nodup ∧ (∀ x, x ∈ t₁.sources ↔ Reach h₂ t₁.roots x ∧ (h₂.get x).children = []) ∧
          (Light h₁ t₁.roots → ∀ x, Reach h₂ t₁.roots x → (h₂.get x).expands = []) ∧
          ((∀ x, Reach h₂ t₁.roots x → (h₂.get x).expands = []) →
            ∃ supply T f, Carries cfg.speeds h₂ t₁.roots supply T f ∧ Forced cfg.speeds h₂ t₁.roots supply T f ∧ (∀ x, x ∉ t₁.roots → supply x = 0) ∧
              (∀ b : ℚ, cfg.limit ≤ b → (∀ r ∈ t₁.roots, supply r ≤ b) → ∀ x, Reach h₂ t₁.roots x → T x ≤ b) ∧
              ∃ R, Remains sv tv (t₁.roots.map supply) R ∧ (t₁.sources.map T).Perm R)) := by
  obtain ⟨n, h₁, t₁, q1, q2⟩ := Solver.delivered_labelled hcfg hp hs ht e hr hsol
  refine ⟨n, h₁, t₁, q1, fun hi hR hW => ?_⟩
  obtain ⟨h₂, w1, w2, w3, w4, w5⟩ := q2 hi hR hW
  refine ⟨h₂, w1, w2, w3, w4, fun done => ?_⟩
  obtain ⟨supply, T, f, v1, v2, v3, v4, R, v5, v6, -⟩ := w5 done
  exact ⟨supply, T, f, v1, v2, v3, v4, R, v5, v6⟩

/-! ### A request that is delivered -/

/-- The first solution of a run, with the targets attached. -/
def attached (input : String) : Py (Heap ℚ × TreeObj ℚ) :=
  match found input 100 with
  | .ok (h, leaves, t :: _) => t.attachLeaves 100 h leaves
  | .ok (_, _, []) => .error .indexError
  | .error e => .error e

theorem attached_reached {input : String} {h₁ : Heap ℚ} {t₁ : TreeObj ℚ} (e : attached input = .ok (h₁, t₁)) :
    ∃ s t, Reached ((Example.loaded input).attrs.problem config) (Example.oracle (Example.loaded input).attrs.targetValues none)
        (Example.loaded input).heap (Example.loaded input).attrs.treeSource (Example.loaded input).attrs.bestSize s ∧ t ∈ s.solutions ∧
      t.toRat.attachLeaves 100 s.heap.toRat (Example.loaded input).attrs.leaves = .ok (h₁, t₁) := by
  unfold attached found at e
  simp only at e
  cases hs : solve ((Example.loaded input).attrs.problem config) (Example.oracle (Example.loaded input).attrs.targetValues none) 100
      (Example.loaded input).heap (Example.loaded input).attrs.treeSource (Example.loaded input).attrs.bestSize with
  | error x => rw [hs] at e; simp at e
  | ok s =>
    rw [hs] at e
    cases hl : s.solutions with
    | nil =>
      simp only [hl, List.map_nil] at e
      simp at e
    | cons t ts =>
      simp only [hl, List.map_cons] at e
      exact ⟨s, t, solveLoop_visited _ .start hs, by rw [hl]; simp, e⟩

/-- The first solution of a run with the targets attached, if there is one. -/
def attachedOf (input : String) : Heap ℚ × TreeObj ℚ := (attached input).toOption.getD (newTree Solver.Example.emptyHeap.toRat [])

theorem attachedOf_eq {input : String} (h : (attached input).toOption.isSome = true) : attached input = .ok ((attachedOf input).1, (attachedOf input).2) := by
  unfold attachedOf
  cases e : attached input with
  | error x => rw [e] at h; simp [Except.toOption] at h
  | ok x => rfl

/-- A source of value `v` at 3 from which `c` is extracted for the target at 4; the rest is for the target at 5. -/
def oneExtraction (h : Heap ℚ) (n u : Nat) (v c : ℚ) : Heap ℚ where
  get x := if x = 3 then ⟨v, 2, some 0, (h.get 3).past, [], [4, 5], [.extract c], (h.get 3).levelsToAdd⟩
    else if x = 4 then ⟨c, 3, some 1, (h.get 4).past, [3], [], [], (h.get 4).levelsToAdd⟩
    else if x = 5 then ⟨v - c, 4, some 1, (h.get 5).past, [3], [], [], (h.get 5).levelsToAdd⟩ else h.get x
  next := n
  nextUid := u

theorem oneExtraction_eq {h : Heap ℚ} {n u : Nat} {v c : ℚ} (h0 : (h.next, h.nextUid) = (n, u))
    (h1 : [3, 4, 5].map (fun x => ((h.get x).value, (h.get x).id, (h.get x).level)) = [(v, 2, some 0), (c, 3, some 1), (v - c, 4, some 1)])
    (h2 : [3, 4, 5].map (fun x => ((h.get x).parents, (h.get x).children, (h.get x).expands)) =
      [([], [4, 5], [.extract c]), ([3], [], []), ([3], [], [])]) : h = oneExtraction h n u v c := by
  obtain ⟨g, n', u'⟩ := h
  simp only [Prod.mk.injEq] at h0
  obtain ⟨rfl, rfl⟩ := h0
  simp only [List.map_cons, List.map_nil, List.cons.injEq, Prod.mk.injEq, and_true] at h1 h2
  obtain ⟨⟨a1, a2, a3⟩, ⟨b1, b2, b3⟩, c1, c2, c3⟩ := h1
  obtain ⟨⟨a4, a5, a6⟩, ⟨b4, b5, b6⟩, c4, c5, c6⟩ := h2
  unfold oneExtraction
  congr 1
  have eta : ∀ n : NodeObj ℚ, n = ⟨n.value, n.id, n.level, n.past, n.parents, n.children, n.expands, n.levelsToAdd⟩ := fun _ => rfl
  funext x
  by_cases x3 : x = 3
  · rw [if_pos x3, x3, ← a1, ← a2, ← a3]
    refine (eta (g 3)).trans ?_
    rw [a4, a5, a6]
  by_cases x4 : x = 4
  · rw [if_neg x3, if_pos x4, x4]
    refine (eta (g 4)).trans ?_
    rw [b1, b2, b3, b4, b5, b6]
  by_cases x5 : x = 5
  · rw [if_neg x3, if_neg x4, if_pos x5, x5]
    refine (eta (g 5)).trans ?_
    rw [c1, c2, c3, c4, c5, c6]
  rw [if_neg x3, if_neg x4, if_neg x5]

/-- The hypotheses hold for `"5 to 1 4"`: what is built is a tree of six leaves, one of which leads back. -/
example : Parsed "5 to 1 4".toList [5] [1, 4] ∧ (Example.loaded "5 to 1 4").result = .ok true ∧ ∃ h t, attached "5 to 1 4" = .ok (h, t) ∧
    Roomy h t.roots ∧ WithinLimit config h (Reach h t.roots) ∧ Light h t.roots ∧
    (expandRoots config 200 h t.roots).toOption.map (fun h => [3, 4, 5, 15].map fun a => ((h.get a).value, (h.get a).parents, (h.get a).children)) =
      some [(5, [15], [15, 5]), (1, [15], []), (4, [3, 15], []), (3, [3], [3, 4, 5])] := by
  have e : (attachedOf "5 to 1 4").1 = oneExtraction (attachedOf "5 to 1 4").1 15 12 5 1 := oneExtraction_eq (by decide +kernel) (by decide +kernel) (by decide +kernel)
  have r : (attachedOf "5 to 1 4").2.roots = [3] := by decide +kernel
  refine ⟨⟨by decide +kernel, by decide, by decide⟩, by decide +kernel, (attachedOf "5 to 1 4").1, (attachedOf "5 to 1 4").2,
    attachedOf_eq (by decide +kernel), ?_⟩
  rw [r, e]
  have C : Checked config.speeds (oneExtraction (attachedOf "5 to 1 4").1 15 12 5 1) [3] (closure (oneExtraction (attachedOf "5 to 1 4").1 15 12 5 1) 2 [3]) := by
    decide +kernel
  exact ⟨C.roomy (by decide +kernel) (by decide +kernel), C.limit (by decide +kernel), C.light (by decide +kernel), by decide +kernel⟩

/-- They hold for `"13 to 1 12"`, where two of the three belts that lead back come from the same splitter and are merged. -/
example : Parsed "13 to 1 12".toList [13] [1, 12] ∧ (Example.loaded "13 to 1 12").result = .ok true ∧ ∃ h t, attached "13 to 1 12" = .ok (h, t) ∧
    Roomy h t.roots ∧ WithinLimit config h (Reach h t.roots) ∧ Light h t.roots := by
  have e : (attachedOf "13 to 1 12").1 = oneExtraction (attachedOf "13 to 1 12").1 12 9 13 1 := oneExtraction_eq (by decide +kernel) (by decide +kernel) (by decide +kernel)
  have r : (attachedOf "13 to 1 12").2.roots = [3] := by decide +kernel
  refine ⟨⟨by decide +kernel, by decide, by decide⟩, by decide +kernel, (attachedOf "13 to 1 12").1, (attachedOf "13 to 1 12").2,
    attachedOf_eq (by decide +kernel), ?_⟩
  rw [r, e]
  have C : Checked config.speeds (oneExtraction (attachedOf "13 to 1 12").1 12 9 13 1) [3] (closure (oneExtraction (attachedOf "13 to 1 12").1 12 9 13 1) 2 [3]) := by
    decide +kernel
  exact ⟨C.roomy (by decide +kernel) (by decide +kernel), C.limit (by decide +kernel), C.light (by decide +kernel)⟩

/-- They hold for `"2.5 to 0.5 2"`, which is solved as `"5 to 1 4"`. -/
example : Parsed "2.5 to 0.5 2".toList [5 / 2] [1 / 2, 2] ∧ (Example.loaded "2.5 to 0.5 2").result = .ok true ∧
    (Example.loaded "2.5 to 0.5 2").attrs.unitFlowRatio = 2 ∧ ∃ h t, attached "2.5 to 0.5 2" = .ok (h, t) ∧
    Even h t.roots ∧ Roomy h t.roots ∧ WithinLimit config h (Reach h t.roots) ∧ Light h t.roots := by
  refine ⟨⟨by decide +kernel, by decide, by decide⟩, by decide +kernel, by decide +kernel, (attachedOf "2.5 to 0.5 2").1, (attachedOf "2.5 to 0.5 2").2,
    attachedOf_eq (by decide +kernel), ?_⟩
  have C : Checked config.speeds (attachedOf "2.5 to 0.5 2").1 (attachedOf "2.5 to 0.5 2").2.roots
      (closure (attachedOf "2.5 to 0.5 2").1 2 (attachedOf "2.5 to 0.5 2").2.roots) := by
    decide +kernel
  exact ⟨C.even (by decide +kernel), C.roomy (by decide +kernel) (by decide +kernel), C.limit (by decide +kernel), C.light (by decide +kernel)⟩

/-- Roots and leaves of the first solution of a run, expanded, the parents and the children of the nodes 3 to 5, and those for which something is
pending. -/
def outline (input : String) : Py (List (List Addr)) := do
  let (h, t) ← attached input
  let h ← expandRoots config 200 h t.roots
  return [t.roots, t.sources, (h.get 3).parents, (h.get 3).children, (h.get 4).parents, (h.get 4).children, (h.get 5).parents, (h.get 5).children,
    [3, 4, 5].filter fun a => (h.get a).expands ≠ []]

/-- C67 is false for requests with fractions: `"61.5 to 30 31.5"` is solved in the unit 1/2, where `60` of `123` is taken off by a belt of
speed `60`, without any expansion. No flow from `61.5` brings `30` and `31.5`, on belts that can be built: the machine splits evenly, or one of
its belts is a conveyor whose speed is the flow. -/
theorem C67_fractions_false : Parsed "61.5 to 30 31.5".toList [123 / 2] [30, 63 / 2] ∧ (Example.loaded "61.5 to 30 31.5").result = .ok true ∧
    ∃ h₁ t₁ h₂, attached "61.5 to 30 31.5" = .ok (h₁, t₁) ∧ Settles (fun fuel => expandRoots config fuel h₁ t₁.roots) (.ok h₂) ∧
      (∀ x, Reach h₂ t₁.roots x → (h₂.get x).expands = []) ∧
      ∀ supply T f, Carries config.speeds h₂ t₁.roots supply T f → (∀ x, x ∉ t₁.roots → supply x = 0) →
        t₁.roots.map supply = [123 / 2] → ¬ (t₁.sources.map T).Perm [30, 63 / 2] := by
  refine ⟨⟨by decide +kernel, by decide, by decide⟩, by decide +kernel, ?_⟩
  have hs : (outline "61.5 to 30 31.5").toOption = some [[3], [4, 5], [], [4, 5], [3], [], [3], [], []] := by decide +kernel
  unfold outline at hs
  cases e : attached "61.5 to 30 31.5" with
  | error x => rw [e] at hs; simp [Except.toOption, bind, Except.bind] at hs
  | ok x =>
    obtain ⟨h₁, t₁⟩ := x
    cases e2 : expandRoots config 200 h₁ t₁.roots with
    | error x => rw [e] at hs; simp [Except.toOption, bind, Except.bind, e2] at hs
    | ok h₂ =>
      rw [e] at hs
      simp only [Except.toOption, bind, Except.bind, e2, pure, Except.pure, Option.some.injEq, List.cons.injEq, and_true,
        List.filter_eq_nil_iff, List.mem_cons, List.not_mem_nil, or_false, decide_eq_true_eq, not_not, forall_eq_or_imp, forall_eq] at hs
      obtain ⟨hr, hl, p3, c3, p4, c4, p5, c5, x3, x4, x5⟩ := hs
      have hre : ∀ x, Reach h₂ [3] x → x = 3 ∨ x = 4 ∨ x = 5 := by
        intro x hx
        induction hx with
        | root w => simp at w; exact .inl w
        | @child b c _ hc ih =>
          rcases ih with rfl | rfl | rfl
          · rw [c3] at hc
            exact .inr (by simpa using hc)
          · rw [c4] at hc; simp at hc
          · rw [c5] at hc; simp at hc
      refine ⟨h₁, t₁, h₂, rfl, (expandRoots_stable config _ _).settles (by simp) e2, fun x hx => ?_, fun supply T f C hz hsup hperm => ?_⟩
      · rw [hr] at hx
        rcases hre x hx with rfl | rfl | rfl
        · exact x3
        · exact x4
        · exact x5
      · rw [hr] at C hsup hz
        rw [hl] at hperm
        have r3 : Reach h₂ [3] 3 := .root (by simp)
        have r4 : Reach h₂ [3] 4 := .child r3 (by rw [c3]; simp)
        have r5 : Reach h₂ [3] 5 := .child r3 (by rw [c3]; simp)
        have i3 := C.intake 3 r3
        have i4 := C.intake 4 r4
        have i5 := C.intake 5 r5
        rw [p3] at i3
        rw [p4] at i4
        rw [p5] at i5
        have s3 : supply 3 = 123 / 2 := by simpa using hsup
        have s4 : supply 4 = 0 := hz 4 (by decide)
        have s5 : supply 5 = 0 := hz 5 (by decide)
        simp only [List.map_nil, List.map_cons, List.sum_nil, List.sum_cons, add_zero, s3, s4, s5, zero_add] at i3 i4 i5
        have hT : T 4 = 30 ∧ T 5 = 63 / 2 ∨ T 4 = 63 / 2 ∧ T 5 = 30 := by
          have hm : T 4 = 30 ∨ T 4 = 63 / 2 := by simpa using hperm.subset (by simp : T 4 ∈ [4, 5].map T)
          have hsum := hperm.sum_eq
          simp only [List.map_cons, List.map_nil, List.sum_cons, List.sum_nil] at hsum
          rcases hm with w | w
          · exact .inl ⟨w, by linarith⟩
          · exact .inr ⟨w, by linarith⟩
        rcases C.share 3 r3 (by rw [c3]; simp) with ⟨-, w⟩ | ⟨x, y, hxy, -, -, c, hc, w⟩
        · have w4 := w 4 (by rw [c3]; simp)
          have w5 := w 5 (by rw [c3]; simp)
          rw [c3] at w4 w5
          rw [← i4] at w4
          rw [← i5, ← w4] at w5
          rcases hT with ⟨a, b⟩ | ⟨a, b⟩ <;> rw [a, b] at w5 <;> norm_num at w5
        · rw [c3] at hxy
          obtain ⟨rfl, rfl⟩ : 4 = x ∧ 5 = y := by simpa using hxy
          rw [← i4, ← i5] at w
          have hsp : ∀ c ∈ config.speeds, (c : ℚ) ≠ 30 ∧ (c : ℚ) ≠ 63 / 2 := by decide +kernel
          obtain ⟨n1, n2⟩ := hsp c hc
          rcases hT with ⟨a, b⟩ | ⟨a, b⟩ <;> rw [a, b] at w <;> rcases w with w | w
          · exact n1 w.symm
          · exact n2 w.symm
          · exact n2 w.symm
          · exact n1 w.symm

end Satis
