import Verif.Graph.Endless
import Verif.Graph.Mount
import Verif.Graph.Ousted
import Verif.Props.Label
import Verif.Props.Save
/-!
# Saving the solutions of a run
-/

namespace Satis
open Satis.Utils Satis.Graph Satis.Solver Satis.Solver.Example Satis.Cost

variable {cfg : Config} {input : Str} {a : Attrs} {h : Heap Int} {sv tv : List ℚ} {O : Oracle} {s : Search} {t : TreeObj Int}

/-- The nodes below the grouped targets. -/
def Hanging (r : After) (x : Addr) : Prop := Reach r.heap r.attrs.leaves x ∧ x ∉ r.attrs.leaves

/-- A solution to which the targets can be attached after other solutions. -/
theorem Solver.mount (hcfg : cfg.speeds.Pairwise (· ≤ ·)) (hp : Parsed input sv tv) (hs : ∀ v ∈ sv, 0 < v) (ht : ∀ v ∈ tv, 0 < v)
    (e : (load cfg input a h).result = .ok true)
    (hr : Reached ((load cfg input a h).attrs.problem cfg) O (load cfg input a h).heap (load cfg input a h).attrs.treeSource
      (load cfg input a h).attrs.bestSize s) (hsol : t ∈ s.solutions) :
    ∃ h₁ t₁, Mount s.heap.toRat (load cfg input a h).attrs.leaves (Reach s.heap t.roots) (Hanging (load cfg input a h)) t.toRat h₁ t₁ ∧
      Sound cfg.speeds h₁ t₁.roots ∧ (∀ r ∈ t₁.roots, ∃ l, (h₁.get r).level = some l ∧ 0 ≤ l) := by
  obtain ⟨n, h₁, t₁, q1, q2, -⟩ := C67_solutions_sound hcfg hp hs ht e hr hsol
  obtain ⟨hP, hsrc, hB, -⟩ := C22_search_assumptions hcfg hp hs ht e
  obtain ⟨inner, leaves, Se, hF, -⟩ := separate hcfg hp hs ht e hr hsol
  have hW := C27_states_well_formed hP hsrc hB hr (Or.inr hsol)
  have hL := C29_states_layered hP hsrc hB hr (Or.inr hsol)
  have hFl := (C33_solutions_correct hP hsrc hB hr hsol).1
  obtain ⟨-, g, loc, hn, hR⟩ := ((hr.inv hP hsrc hB).sols t hsol).2.2
  have hg := hn.wf hP hsrc.wf
  have htree : TypedH cfg s.heap (Reach s.heap t.roots) := hR.typed hg (NPlay.typed (P := (load cfg input a h).attrs.problem cfg) hP hsrc.wf hn)
  obtain ⟨n', h', t', p1, p2, p3, p4, p5, p6, p7, p8, -, p9, p10⟩ := attachLeaves_spec Se hW hL hFl hsrc.nonempty
  have e1 : t.toRat.attachLeaves (max n n') s.heap.toRat (load cfg input a h).attrs.leaves = .ok (h'.toRat, t'.toRat) := by
    rw [attachLeaves_toRat, p1 _ (le_max_right _ _)]; rfl
  rw [q1 _ (le_max_left _ _)] at e1
  simp only [Except.ok.injEq, Prod.mk.injEq] at e1
  obtain ⟨rfl, rfl⟩ := e1
  have hk : ∀ x, Hanging (load cfg input a h) x ↔ x ∈ inner ++ leaves ∧ x ∉ (load cfg input a h).attrs.leaves := fun x => and_congr_left fun _ => hF.nodes x
  have Ap := Se.apart hW hL
  refine ⟨h'.toRat, t'.toRat, ⟨⟨⟨Ap.srcs, Ap.leaf, Ap.below, Ap.kids⟩, hW.count, fun x hx w => Se.disjoint hL hx ((hk x).1 w).1, fun x hx w => w.2 hx,
    fun x hx w => Se.disjoint hL w (Se.root_mem hx), fun x hx => ((hW.leaves x).1 hx).1, fun x hx => ⟨fun c hc => hx.child hc, hFl.closed x hx⟩,
    fun r hr c hc => ?_, fun x hx c hc => ?_, fun x hx hn p hp => ?_, fun x hx => Se.noLevel x ((hk x).1 hx).1, fun last hl x hx => ?_⟩, ⟨n, q1⟩, p9, p10,
    fun x => ?_, Se.good.lt, fun r hr => ?_, fun x hx c hc => ?_, q2.region, q2.levels, fun w => ?_⟩, q2, fun r hr => ?_⟩
  · have := Se.kid (Se.root_mem hr) hc
    exact (hk c).2 ⟨this.2.1, this.2.2.2⟩
  · have := Se.kid ((hk x).1 hx).1 hc
    exact (hk c).2 ⟨this.2.1, this.2.2.2⟩
  · have hx' := (Se.forest.nodes x).2 ((hk x).1 hx).1
    cases hx' with
    | root hm => exact absurd hm hx.2
    | @child q _ hq hc =>
      have hqm := (Se.forest.nodes q).1 hq
      have : (s.heap.get x).parents = [q] := (Se.kid hqm hc).2.2.1
      have hp : p ∈ (s.heap.get x).parents := hp
      rw [this] at hp
      rw [List.mem_singleton.1 hp]
      exact (hk q).2 ⟨hqm, fun w => hn q w hc⟩
  · have hl : t.levels.getLast? = some last := hl
    rw [hW.last] at hl
    cases hl
    exact ((hW.leaves x).1 hx).1
  · rw [hk]
    exact reach_toRat.trans (p8 x)
  · have : t'.toRat.roots = t.roots := p5
    rw [this] at hr
    exact .root hr
  · obtain ⟨hx1, hx2⟩ := (hW.leaves x).1 hx
    obtain ⟨-, es, w1, w2⟩ := htree x hx1
    rw [hx2, List.map_nil] at w1
    rw [w1.nil, List.append_nil] at w2
    have hc : .extract c ∈ (s.heap.get x).toRat.expands := hc
    unfold NodeObj.toRat at hc
    simp only [w2] at hc
    unfold mergeTag at hc
    split at hc <;> simp at hc
  · have := p4.roots
    have w : t'.roots = [] := w
    rw [w] at this
    exact hsrc.nonempty this.symm
  · obtain ⟨l, w1, w2, -⟩ := p3.range r (.root hr)
    exact ⟨l, w1, w2⟩

/-- Nothing is pending inside of the groups of targets if those inside of another group have at most three members. -/
theorem Solver.quiet (hcfg : cfg.speeds.Pairwise (· ≤ ·)) (hp : Parsed input sv tv) (hs : ∀ v ∈ sv, 0 < v) (ht : ∀ v ∈ tv, 0 < v)
    (e : (load cfg input a h).result = .ok true)
    (hr : Reached ((load cfg input a h).attrs.problem cfg) O (load cfg input a h).heap (load cfg input a h).attrs.treeSource
      (load cfg input a h).attrs.bestSize s)
    (hquiet : ∀ x, Reach (load cfg input a h).heap (load cfg input a h).attrs.leaves x → x ∉ (load cfg input a h).attrs.leaves →
      ((load cfg input a h).heap.get x).children.length ≤ 3) :
    Quiet s.heap.toRat (load cfg input a h).attrs.leaves (Hanging (load cfg input a h)) := by
  obtain ⟨hP, hsrc, hB, -⟩ := C22_search_assumptions hcfg hp hs ht e
  have hext := hr.ext hP hsrc hB
  obtain ⟨s', t', hp', -, -, -, L⟩ := load_accepted e
  obtain ⟨rfl, rfl⟩ : s' = sv ∧ t' = tv := by
    have := hp'.symm.trans hp.1
    simpa using this
  have hpend : ∀ x, Reach (load cfg input a h).heap (load cfg input a h).attrs.leaves x → x < (load cfg input a h).heap.next ∧
      ((load cfg input a h).heap.get x).levelsToAdd = 0 ∧
      (((load cfg input a h).heap.get x).children.length ≤ 3 → ((load cfg input a h).heap.get x).expands = []) := by
    intro x hx
    refine ⟨(Solver.forest_uid hs ht hp e x hx).1, ?_⟩
    generalize load cfg input a h = r at *
    obtain ⟨hg, inner, I, -, -, hextg, -⟩ := L.grouped
    have hF := (I.forest (scaled_pos hs ht).2).ext hextg (fun x hx => (I.node_range x hx).2)
    have hm := (hF.nodes x).1 hx
    have hr := I.node_range x hm
    rw [hextg.get x hr.2]
    refine ⟨(I.bare x hr.1 hr.2).2, fun hq => ?_⟩
    rcases List.mem_append.1 hm with w | w
    · rw [I.tagged.1 x w, if_neg (by omega)]
    · exact I.tagged.2 x w
  have hsame : ∀ x, Reach (load cfg input a h).heap (load cfg input a h).attrs.leaves x → s.heap.get x = (load cfg input a h).heap.get x :=
    fun x hx => hext.get x (hpend x hx).1
  refine ⟨fun x hx => ?_, fun x hx => ?_, fun x hx => lt_of_lt_of_le (hpend x (.root hx)).1 hext.next⟩
  · show (s.heap.get x).toRat.expands = []
    unfold NodeObj.toRat
    rw [hsame x hx.1, List.map_eq_nil_iff]
    exact (hpend x hx.1).2.2 (hquiet x hx.1 hx.2)
  · show (s.heap.get x).levelsToAdd = 0
    rw [hsame x hx.1]
    exact (hpend x hx.1).2.1

/-- C41, for problems in which groups of equal targets that are inside of another group have at most three members. Concluding always ends, whatever was found and
however long the run took. If it succeeds then each solution can be saved alone, right after the search; the unexpanded network written for it is exactly the one
written then, and the expanded network is the same too, up to the names of the nodes made while expanding. If it fails then so does saving one of the solutions
alone, in the same way. (For larger groups inside of groups the claim is false: `C41_conclude_false`.) -/
theorem C41_independent_partial (hcfg : cfg.speeds.Pairwise (· ≤ ·)) (hp : Parsed input sv tv) (hs : ∀ v ∈ sv, 0 < v) (ht : ∀ v ∈ tv, 0 < v)
    (e : (load cfg input a h).result = .ok true)
    (hr : Reached ((load cfg input a h).attrs.problem cfg) O (load cfg input a h).heap (load cfg input a h).attrs.treeSource
      (load cfg input a h).attrs.bestSize s)
    (hquiet : ∀ x, Reach (load cfg input a h).heap (load cfg input a h).attrs.leaves x → x ∉ (load cfg input a h).attrs.leaves →
      ((load cfg input a h).heap.get x).children.length ≤ 3) :
    ∃ r, Settles (fun fuel => concludeAll cfg fuel (load cfg input a h).attrs.leaves s.heap.toRat (s.solutions.map TreeObj.toRat)) r ∧
      r ≠ .error .diverge ∧
      (∀ h' l, r = .ok (h', l) → List.Forall₂ (fun t x => ∃ h'' y,
        Settles (fun fuel => concludeAll cfg fuel (load cfg input a h).attrs.leaves s.heap.toRat [t]) (.ok (h'', [y])) ∧ y.1 = x.1 ∧
          SameUpTo s.heap.nextUid y.2 x.2) (s.solutions.map TreeObj.toRat) l) ∧
      (∀ er, r = .error er → ∃ t ∈ s.solutions.map TreeObj.toRat,
        Settles (fun fuel => concludeAll cfg fuel (load cfg input a h).attrs.leaves s.heap.toRat [t]) (.error er)) := by
  obtain ⟨hP, hsrc, hB, -⟩ := C22_search_assumptions hcfg hp hs ht e
  exact concludeAll_mounts (Solver.quiet hcfg hp hs ht e hr hquiet) (fun t => Reach s.heap t.roots) _ s.heap.toRat (fun t ht' => by
    obtain ⟨u, hu, rfl⟩ := List.mem_map.1 ht'
    obtain ⟨h₁, t₁, M, -⟩ := Solver.mount hcfg hp hs ht e hr hu
    exact ⟨h₁, t₁, M⟩) (List.pairwise_map.2 (hr.inv hP hsrc hB).apart) (.refl ..) fun _ _ _ _ => rfl

/-- What is pending below the grouped targets. -/
theorem Solver.pending (hp : Parsed input sv tv) (hs : ∀ v ∈ sv, 0 < v) (ht : ∀ v ∈ tv, 0 < v) (e : (load cfg input a h).result = .ok true) (x : Addr)
    (hx : Reach (load cfg input a h).heap (load cfg input a h).attrs.leaves x) :
    x < (load cfg input a h).heap.next ∧ ((load cfg input a h).heap.get x).expands =
      if 3 < ((load cfg input a h).heap.get x).children.length then [.divide ((load cfg input a h).heap.get x).children.length] else [] := by
  obtain ⟨s', t', hp', -, -, -, L⟩ := load_accepted e
  obtain ⟨rfl, rfl⟩ : s' = sv ∧ t' = tv := by
    have := hp'.symm.trans hp.1
    simpa using this
  refine ⟨(Solver.forest_uid hs ht hp e x hx).1, ?_⟩
  generalize load cfg input a h = r at *
  obtain ⟨hg, inner, I, -, -, hextg, -⟩ := L.grouped
  have hF := (I.forest (scaled_pos hs ht).2).ext hextg (fun x hx => (I.node_range x hx).2)
  have hm := (hF.nodes x).1 hx
  have hr := I.node_range x hm
  have hleaf := hF.leaf
  rw [hextg.get x hr.2]
  rcases List.mem_append.1 hm with w | w
  · exact I.tagged.1 x w
  · have := hleaf x w
    rw [hextg.get x hr.2] at this
    rw [I.tagged.2 x w, this]
    simp

/-- C41, where it is false, in general: if a group inside of another group has a number of members that is not a product of twos and threes (so that dividing
by it sends part of the flow back), and there is a second solution, then, if the first can be saved at all, either the division of the group was left out when
it was expanded, or saving does not end. -/
theorem C41_endless (hcfg : cfg.speeds.Pairwise (· ≤ ·)) (hp : Parsed input sv tv) (hs : ∀ v ∈ sv, 0 < v) (ht : ∀ v ∈ tv, 0 < v)
    (e : (load cfg input a h).result = .ok true)
    (hr : Reached ((load cfg input a h).attrs.problem cfg) O (load cfg input a h).heap (load cfg input a h).attrs.treeSource
      (load cfg input a h).attrs.bestSize s) {t₁ t₂ : TreeObj Int} {ts : List (TreeObj Int)} (hsol : s.solutions = t₁ :: t₂ :: ts) {x : Addr}
    (hx : Reach (load cfg input a h).heap (load cfg input a h).attrs.leaves x) (hxl : x ∉ (load cfg input a h).attrs.leaves)
    (h3 : 3 < ((load cfg input a h).heap.get x).children.length)
    (hne : ∀ n m, ((load cfg input a h).heap.get x).children.length ≠ 2 ^ n * 3 ^ m) {N : Nat} {y : Heap ℚ × List (Saved ℚ × Saved ℚ)}
    (hy : concludeAll cfg N (load cfg input a h).attrs.leaves s.heap.toRat [t₁.toRat] = .ok y) :
    .divide ((load cfg input a h).heap.get x).children.length ∈ (y.1.get x).expands ∨
      ∀ fuel, concludeAll cfg fuel (load cfg input a h).attrs.leaves s.heap.toRat (s.solutions.map TreeObj.toRat) = .error .diverge := by
  obtain ⟨hP, hsrc, hB, -⟩ := C22_search_assumptions hcfg hp hs ht e
  have hext := hr.ext hP hsrc hB
  obtain ⟨h₁, u₁, M, -⟩ := Solver.mount hcfg hp hs ht e hr (t := t₁) (by rw [hsol]; simp)
  obtain ⟨h₂, u₂, M₂, -⟩ := Solver.mount hcfg hp hs ht e hr (t := t₂) (by rw [hsol]; simp)
  have hW := C27_states_well_formed hP hsrc hB hr (Or.inr (show t₂ ∈ s.solutions by rw [hsol]; simp))
  have hpend := fun x hx => Solver.pending (cfg := cfg) (input := input) (a := a) (h := h) hp hs ht e x hx
  generalize load cfg input a h = r at *
  generalize hL : r.attrs.leaves = leaves at *
  have hmeek : ∀ x, Reach r.heap leaves x → Meek s.heap.toRat x := by
    intro x hx
    obtain ⟨w1, w2⟩ := hpend x hx
    refine ⟨lt_of_lt_of_le w1 hext.next, fun y hy => ?_⟩
    have hy : y ∈ (s.heap.get x).toRat.expands := hy
    unfold NodeObj.toRat at hy
    rw [hext.get x w1] at hy
    simp only [w2] at hy
    split at hy
    · simp only [List.map_cons, List.map_nil, List.mem_singleton] at hy
      rw [hy]
      exact .inr ⟨_, rfl, by omega⟩
    · simp at hy
  have hkids : ∀ x, Reach r.heap leaves x → (s.heap.toRat.get x).children = (r.heap.get x).children := fun x hx => by
    show (s.heap.get x).children = _
    rw [hext.get x (hpend x hx).1]
  have hway : x ∈ leaves ∨ ∃ r ∈ leaves, Relation.TransGen (Hop s.heap.toRat) r x := by
    clear hxl h3 hne
    induction hx with
    | root hm => exact .inl hm
    | @child b c hb hc ih =>
      right
      have hop : Hop s.heap.toRat b c := ⟨hmeek b hb, by rw [hkids b hb]; exact hc⟩
      rcases ih with w | ⟨q, hq, w⟩
      · exact ⟨b, w, .single hop⟩
      · exact ⟨q, hq, w.tail hop⟩
  obtain ⟨q, hq, way⟩ := hway.resolve_left hxl
  have hd : Expand.divide (r.heap.get x).children.length ∈ (s.heap.toRat.get x).expands := by
    obtain ⟨w1, w2⟩ := hpend x hx
    show _ ∈ (s.heap.get x).toRat.expands
    unfold NodeObj.toRat
    rw [hext.get x w1]
    simp only [w2, if_pos h3]
    simp
  have hloop : LoopsBack (r.heap.get x).children.length := by
    obtain ⟨n, m, w, hle, -⟩ := findNML_core (r.heap.get x).children.length (by omega)
    refine ⟨n, m, _, _, w, ?_⟩
    have := hne n m
    unfold L at hle ⊢
    omega
  -- the first solution
  have F : Fated s.heap.toRat y.1 := by
    have hat := (concludeAll_stable cfg leaves [t₁.toRat] s.heap.toRat).settles (by simp) hy
    obtain ⟨F₁, hF₁⟩ := hat
    obtain ⟨F₂, hF₂⟩ := M.attach
    have e1 := hF₁ (max F₁ F₂) (le_max_left _ _)
    have e2 := hF₂ (max F₁ F₂) (le_max_right _ _)
    simp only at e1 e2
    unfold concludeAll at e1
    rw [e2] at e1
    simp only [bind, Except.bind] at e1
    cases hsv : saveTree cfg (max F₁ F₂) h₁ u₁.roots with
    | error er => rw [hsv] at e1; cases e1
    | ok z =>
      rw [hsv] at e1
      simp only [concludeAll, pure, Except.pure, Except.ok.injEq] at e1
      rw [← e1]
      exact (fated_attachLeaves e2).trans (fated_saveTree cfg M.region hsv)
  rcases F.2 x (hmeek x hx) _ hloop hd with w | w
  · exact .inl w
  right
  intro fuel
  rw [hsol]
  refine concludeAll_diverges hy (fun fuel => ?_) fuel
  have hlen : leaves.length = t₂.nSources ∧ t₂.nSources ≤ t₂.sources.length := by
    obtain ⟨F, hF⟩ := M₂.attach
    have := hF F le_rfl
    simp only at this
    unfold TreeObj.attachLeaves at this
    constructor
    · by_contra hc
      rw [if_pos (show leaves.length ≠ t₂.toRat.nSources from hc)] at this
      cases this
    · by_contra hc
      by_cases hc' : leaves.length ≠ t₂.toRat.nSources
      · rw [if_pos hc'] at this
        cases this
      · rw [if_neg hc', if_pos (by show t₂.sources.length < t₂.nSources; omega)] at this
        cases this
  refine attachLeaves_endless (t := t₂.toRat) hlen.1 hlen.2 ?_ (fun b hb => ?_) hq (F.1.ways way) w fuel
  · intro hc
    have hc : t₂.levels = [] := hc
    have := hW.last
    rw [hc] at this
    simp at this
  · exact lt_of_lt_of_le (M₂.inside b (M₂.ready.sources b hb)) F.1.next

/-- Such a problem: five targets of 1 in a group (the node 7) in a group of two. Three solutions are found, the first can be saved, and nothing is pending at
the node then; so saving all three does not end. -/
example : (loaded "12 to 1 1 1 1 1 5 2").result.toOption = some true ∧ 8 ∈ (loaded "12 to 1 1 1 1 1 5 2").attrs.leaves ∧
    7 ∉ (loaded "12 to 1 1 1 1 1 5 2").attrs.leaves ∧ 7 ∈ ((loaded "12 to 1 1 1 1 1 5 2").heap.get 8).children ∧
    ((loaded "12 to 1 1 1 1 1 5 2").heap.get 7).children.length = 5 ∧ (∀ n m, 5 ≠ 2 ^ n * 3 ^ m) ∧
    (do
      let (h, leaves, ts) ← found "12 to 1 1 1 1 1 5 2" 100
      let y ← concludeAll config 100 leaves h (ts.take 1)
      return (ts.length, (y.1.get 7).expands.length) : Py (Nat × Nat)).toOption = some (3, 0) := by
  refine ⟨by decide +kernel, by decide +kernel, by decide +kernel, by decide +kernel, by decide +kernel, fun n m h5 => ?_, by decide +kernel⟩
  have hp : Nat.Prime 5 := Nat.prime_five
  rcases (Nat.Prime.dvd_mul hp).1 (⟨1, by omega⟩ : 5 ∣ 2 ^ n * 3 ^ m) with w | w
  · exact absurd (hp.dvd_of_dvd_pow w) (by norm_num)
  · exact absurd (hp.dvd_of_dvd_pow w) (by norm_num)

/-- C41, where it is false, in general, for any number of members over three: if the division of such a group was not left out when the first solution was
saved, then the network to which the second solution is attached has nodes that were made while the first was expanded. Attached alone, right after the search,
it consists of nodes that were there before. -/
theorem C41_mixed (hcfg : cfg.speeds.Pairwise (· ≤ ·)) (hp : Parsed input sv tv) (hs : ∀ v ∈ sv, 0 < v) (ht : ∀ v ∈ tv, 0 < v)
    (e : (load cfg input a h).result = .ok true)
    (hr : Reached ((load cfg input a h).attrs.problem cfg) O (load cfg input a h).heap (load cfg input a h).attrs.treeSource
      (load cfg input a h).attrs.bestSize s) {t₁ t₂ : TreeObj Int} {ts : List (TreeObj Int)} (hsol : s.solutions = t₁ :: t₂ :: ts) {x : Addr}
    (hx : Reach (load cfg input a h).heap (load cfg input a h).attrs.leaves x) (hxl : x ∉ (load cfg input a h).attrs.leaves)
    (h3 : 3 < ((load cfg input a h).heap.get x).children.length) {N : Nat} {y : Heap ℚ × List (Saved ℚ × Saved ℚ)}
    (hy : concludeAll cfg N (load cfg input a h).attrs.leaves s.heap.toRat [t₁.toRat] = .ok y) :
    (.divide ((load cfg input a h).heap.get x).children.length ∈ (y.1.get x).expands ∨
      ∀ fuel z, t₂.toRat.attachLeaves fuel y.1 (load cfg input a h).attrs.leaves = .ok z → ∃ c, Reach z.1 z.2.roots c ∧ s.heap.next ≤ c) ∧
    ∀ fuel z, t₂.toRat.attachLeaves fuel s.heap.toRat (load cfg input a h).attrs.leaves = .ok z → ∀ c, Reach z.1 z.2.roots c → c < s.heap.next := by
  obtain ⟨hP, hsrc, hB, -⟩ := C22_search_assumptions hcfg hp hs ht e
  have hext := hr.ext hP hsrc hB
  obtain ⟨h₁, u₁, M, -⟩ := Solver.mount hcfg hp hs ht e hr (t := t₁) (by rw [hsol]; simp)
  obtain ⟨h₂, u₂, M₂, -⟩ := Solver.mount hcfg hp hs ht e hr (t := t₂) (by rw [hsol]; simp)
  have hapart : ∀ b, Reach s.heap t₂.roots b → ¬ Reach s.heap t₁.roots b := by
    have := (hr.inv hP hsrc hB).apart
    rw [hsol, List.pairwise_cons] at this
    exact fun b h2 h1 => this.1 t₂ (by simp) b h1 h2
  have hpend := fun x hx => Solver.pending (cfg := cfg) (input := input) (a := a) (h := h) hp hs ht e x hx
  have hang : ∀ b, Hanging (load cfg input a h) b → b < s.heap.next := fun b hb => lt_of_lt_of_le (hpend b hb.1).1 hext.next
  generalize hB : Hanging (load cfg input a h) = B at M M₂ hang
  generalize load cfg input a h = r at *
  generalize hL : r.attrs.leaves = leaves at *
  refine ⟨?_, fun fuel z hz c hc => ?_⟩
  swap
  · have := M₂.attach.unique ((attachLeaves_stable _ _ _).settles (by simp) hz)
    cases this
    rcases (M₂.nodes c).1 hc with w | w
    · exact M₂.inside c w
    · exact hang c w
  have hmeek : ∀ x, Reach r.heap leaves x → Meek s.heap.toRat x := by
    intro x hx
    obtain ⟨w1, w2⟩ := hpend x hx
    refine ⟨lt_of_lt_of_le w1 hext.next, fun y hy => ?_⟩
    have hy : y ∈ (s.heap.get x).toRat.expands := hy
    unfold NodeObj.toRat at hy
    rw [hext.get x w1] at hy
    simp only [w2] at hy
    split at hy
    · simp only [List.map_cons, List.map_nil, List.mem_singleton] at hy
      rw [hy]
      exact .inr ⟨_, rfl, by omega⟩
    · simp at hy
  have hkids : ∀ x, Reach r.heap leaves x → (s.heap.toRat.get x).children = (r.heap.get x).children := fun x hx => by
    show (s.heap.get x).children = _
    rw [hext.get x (hpend x hx).1]
  have hway : x ∈ leaves ∨ ∃ r ∈ leaves, Relation.TransGen (Hop s.heap.toRat) r x := by
    clear hxl h3
    induction hx with
    | root hm => exact .inl hm
    | @child b c hb hc ih =>
      right
      have hop : Hop s.heap.toRat b c := ⟨hmeek b hb, by rw [hkids b hb]; exact hc⟩
      rcases ih with w | ⟨q, hq, w⟩
      · exact ⟨b, w, .single hop⟩
      · exact ⟨q, hq, w.tail hop⟩
  obtain ⟨q, hq, way⟩ := hway.resolve_left hxl
  have hd : Expand.divide (r.heap.get x).children.length ∈ (s.heap.toRat.get x).expands := by
    obtain ⟨w1, w2⟩ := hpend x hx
    show _ ∈ (s.heap.get x).toRat.expands
    unfold NodeObj.toRat
    rw [hext.get x w1]
    simp only [w2, if_pos h3]
    simp
  have W : Owed s.heap.next x (r.heap.get x).children.length s.heap.toRat := by
    refine ⟨le_rfl, ?_, .inl hd⟩
    obtain ⟨b, hb⟩ := List.exists_mem_of_ne_nil (r.heap.get x).children (List.ne_nil_of_length_pos (by omega))
    exact ⟨b, hmeek x hx, by rw [hkids x hx]; exact hb⟩
  -- the first solution
  obtain ⟨z₁, sv₁, ey⟩ : ∃ z, Settles (fun fuel => saveTree cfg fuel h₁ u₁.roots) (.ok z) ∧ z.1 = y.1 := by
    have hat := (concludeAll_stable cfg leaves [t₁.toRat] s.heap.toRat).settles (by simp) hy
    obtain ⟨F₁, hF₁⟩ := hat
    obtain ⟨F₂, hF₂⟩ := M.attach
    have e1 := hF₁ (max F₁ F₂) (le_max_left _ _)
    have e2 := hF₂ (max F₁ F₂) (le_max_right _ _)
    simp only at e1 e2
    unfold concludeAll at e1
    rw [e2] at e1
    simp only [bind, Except.bind] at e1
    cases hsv : saveTree cfg (max F₁ F₂) h₁ u₁.roots with
    | error er => rw [hsv] at e1; cases e1
    | ok z =>
      rw [hsv] at e1
      simp only [concludeAll, pure, Except.pure, Except.ok.injEq] at e1
      exact ⟨z, (saveTree_stable cfg h₁ u₁.roots).settles (by simp) hsv, by rw [← e1]⟩
  obtain ⟨n₁, at₁⟩ := M.attach
  have at₁ := at₁ n₁ le_rfl
  simp only at at₁
  have F : Graph.Trail s.heap.toRat y.1 := by
    rw [← ey]
    obtain ⟨m, hm⟩ := sv₁
    exact ((fated_attachLeaves at₁).trans (fated_saveTree cfg M.region (hm m le_rfl))).1
  have W₁ : Owed s.heap.next x (r.heap.get x).children.length y.1 := by
    rw [← ey]
    refine owed_saveTree cfg (by omega) M.region sv₁ ?_
    obtain ⟨-, -, -, g, A, g1, g2, -⟩ := attachLeaves_adds at₁
    exact (W.adds A).same g1 (fun b => (g2 b).1) fun b => (g2 b).2
  have hsame : ∀ b, Reach s.heap t₂.roots b → y.1.get b = s.heap.toRat.get b := by
    intro b hb
    obtain ⟨g', e', -, -, a4, -⟩ := attachLeaves_alike M.ready (.refl leaves B s.heap.toRat) (fun _ _ => rfl) at₁
    rw [at₁] at e'
    cases e'
    obtain ⟨g₂, s2, s1⟩ := saveTree_expands M.region sv₁
    obtain ⟨-, -, f3⟩ := saveTree_frame M.region s2
    have hb1 := hapart b hb
    have hb2 := M₂.ready.disjoint b hb
    rw [← ey, s1, f3 b (by rw [M.next]; exact M₂.inside b hb) (fun w => ((M.nodes b).1 w).elim hb1 hb2), a4 b hb1 hb2]
  rcases W₁.either with w | ⟨c, c1, c2⟩
  · exact .inl w
  right
  intro fuel z hz
  have hreach : ∀ b, Reach y.1 t₂.toRat.roots b ↔ Reach s.heap t₂.roots b := by
    intro b
    constructor
    · intro w
      induction w with
      | root hm => exact .root hm
      | @child b c _ hc ih => exact ih.child (by rw [hsame b ih] at hc; exact hc)
    · intro w
      induction w with
      | root hm => exact .root hm
      | @child b c hb hc ih => exact ih.child (by rw [hsame b hb]; exact hc)
  refine ⟨c, attachLeaves_below hz (fun b hb => ?_) (fun b hb => ?_) hq ((F.ways way).tail ?_), c2⟩
  · have := M₂.ready.sources b hb
    exact ⟨lt_of_lt_of_le (M₂.inside b this) F.next, (hreach b).2 this⟩
  · exact lt_of_lt_of_le (M₂.inside b ((hreach b).1 hb)) F.next
  · obtain ⟨b, w⟩ := W₁.kid
    exact ⟨w.1, c1⟩

/-- Such a problem: four targets of 1 in a group (the node 6) in a group of two. The first of the two solutions can be saved; there were 126 nodes after the
search. Nothing is pending at the node then, and it has two new children. -/
example : (loaded "7 3 to 1 1 1 1 4 2").result.toOption = some true ∧ 7 ∈ (loaded "7 3 to 1 1 1 1 4 2").attrs.leaves ∧
    6 ∉ (loaded "7 3 to 1 1 1 1 4 2").attrs.leaves ∧ 6 ∈ ((loaded "7 3 to 1 1 1 1 4 2").heap.get 7).children ∧
    ((loaded "7 3 to 1 1 1 1 4 2").heap.get 6).children.length = 4 ∧
    (do
      let (h, leaves, ts) ← found "7 3 to 1 1 1 1 4 2" 100
      let y ← concludeAll config 100 leaves h (ts.take 1)
      return (ts.length, h.next, (y.1.get 6).expands.length, (y.1.get 6).children) : Py (Nat × Nat × Nat × List Addr)).toOption =
      some (2, 126, 0, [126, 127]) := by
  refine ⟨by decide +kernel, by decide +kernel, by decide +kernel, by decide +kernel, by decide +kernel, by decide +kernel⟩

/-- C41 is false in another way for groups inside of groups whose numbers are products of twos and threes: for `"7 3 to 1 1 1 1 4 2"` saving ends, but the
unexpanded network that is written for the second solution has 15 nodes, and 13 if it is saved alone: the group of four has been expanded with the first. -/
theorem C41_pictures_false : (do
    let (h, leaves, ts) ← found "7 3 to 1 1 1 1 4 2" 100
    let x ← concludeAll config 100 leaves h ts
    let ys ← ts.mapM fun t => concludeAll config 100 leaves h [t]
    return (ys.flatMap fun y => y.2.map fun z => z.1.1.nodes.length, x.2.map fun z => z.1.1.nodes.length) : Py (List Nat × List Nat)).toOption =
    some ([11, 13], [11, 15]) := by
  decide +kernel

/-- Such a problem: the group of three inside of the group of two. Two solutions are found and saved. -/
example : (∀ x, Reach (loaded "8 to 1 1 2 3 1").heap (loaded "8 to 1 1 2 3 1").attrs.leaves x → x ∉ (loaded "8 to 1 1 2 3 1").attrs.leaves →
      ((loaded "8 to 1 1 2 3 1").heap.get x).children.length ≤ 3) ∧
    ((loaded "8 to 1 1 2 3 1").attrs.leaves.map fun l => ((loaded "8 to 1 1 2 3 1").heap.get l).children.map fun x =>
      ((loaded "8 to 1 1 2 3 1").heap.get x).children.length) = [[], [3, 0]] ∧
    (loaded "8 to 1 1 2 3 1").result.toOption = some true ∧ (saved "8 to 1 1 2 3 1" 100).toOption.map List.length = some 2 := by
  refine ⟨fun x hx hn => ?_, by decide +kernel, by decide +kernel, by decide +kernel⟩
  clear hn
  have h1 : ∀ l ∈ (loaded "8 to 1 1 2 3 1").attrs.leaves, ((loaded "8 to 1 1 2 3 1").heap.get l).children.length ≤ 3 ∧
      ∀ y ∈ ((loaded "8 to 1 1 2 3 1").heap.get l).children, ((loaded "8 to 1 1 2 3 1").heap.get y).children.length ≤ 3 ∧
        ∀ z ∈ ((loaded "8 to 1 1 2 3 1").heap.get y).children, ((loaded "8 to 1 1 2 3 1").heap.get z).children = [] := by decide +kernel
  have key : x ∈ (loaded "8 to 1 1 2 3 1").attrs.leaves ∨ (∃ l ∈ (loaded "8 to 1 1 2 3 1").attrs.leaves, x ∈ ((loaded "8 to 1 1 2 3 1").heap.get l).children) ∨
      ∃ l ∈ (loaded "8 to 1 1 2 3 1").attrs.leaves, ∃ y ∈ ((loaded "8 to 1 1 2 3 1").heap.get l).children, x ∈ ((loaded "8 to 1 1 2 3 1").heap.get y).children := by
    induction hx with
    | root hm => exact .inl hm
    | @child y x _ hc ih =>
      rcases ih with w | ⟨l, hl, w⟩ | ⟨l, hl, z, hz, w⟩
      · exact .inr (.inl ⟨y, w, hc⟩)
      · exact .inr (.inr ⟨l, hl, y, w, hc⟩)
      · rw [((h1 l hl).2 z hz).2 y w] at hc
        simp at hc
  rcases key with w | ⟨l, hl, w⟩ | ⟨l, hl, z, hz, w⟩
  · exact (h1 x w).1
  · exact ((h1 l hl).2 x w).1
  · rw [((h1 l hl).2 z hz).2 x w]
    simp

/-- A group of five: new nodes are made for it in each of three solutions. The ids of the expanded networks: saved alone and saved in a row. -/
example : (do
    let (h, leaves, ts) ← found "7 to 1 1 2 1 1 1" 100
    let x ← concludeAll config 100 leaves h ts
    let ys ← ts.mapM fun t => concludeAll config 100 leaves h [t]
    return (ys.flatMap fun y => y.2.map fun z => z.2.1.nodes.map fun n => n.1, x.2.map fun z => z.2.1.nodes.map fun n => n.1) :
      Py (List (List Nat) × List (List Nat))).toOption =
    some ([[7, 52, 10, 53, 56, 11, 54, 0, 1, 55, 2, 3, 4], [7, 52, 13, 27, 26, 33, 53, 0, 1, 54, 2, 3, 4, 12],
        [7, 52, 8, 42, 53, 0, 1, 55, 54, 2, 3, 4, 9, 40, 39, 38]],
      [[7, 52, 10, 53, 56, 11, 54, 0, 1, 55, 2, 3, 4], [7, 57, 13, 27, 26, 33, 58, 0, 1, 59, 2, 3, 4, 12],
        [7, 60, 8, 42, 61, 0, 1, 63, 62, 2, 3, 4, 9, 40, 39, 38]]) := by
  decide +kernel

/-- The ids of the expanded networks of a problem without groups: saved alone and saved in a row. The new node of each is called differently. -/
example : (do
    let (h, leaves, ts) ← found "7 to 4 2 1" 100
    let x ← concludeAll config 100 leaves h ts
    let ys ← ts.mapM fun t => concludeAll config 100 leaves h [t]
    return (ys.flatMap fun y => y.2.map fun z => z.2.1.nodes.map fun n => n.1, x.2.map fun z => z.2.1.nodes.map fun n => n.1) :
      Py (List (List Nat) × List (List Nat))).toOption =
    some ([[3, 38, 9, 8, 17, 18], [3, 38, 9, 8, 21, 20, 22, 19], [3, 38, 4, 5, 23, 24], [3, 38, 4, 5, 29, 28, 32, 27]],
      [[3, 38, 9, 8, 17, 18], [3, 39, 9, 8, 21, 20, 22, 19], [3, 40, 4, 5, 23, 24], [3, 41, 4, 5, 29, 28, 32, 27]]) := by
  decide +kernel

end Satis
