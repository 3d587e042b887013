import Verif.Props.Delivered
import Verif.Props.Depth
import Verif.Props.Descent
/-!
# How deep the picture of a solution nests its calls
-/

namespace Satis
open Satis.Utils Satis.Graph Satis.Solver Satis.Solver.Example Satis.Utils.Spec

/-- The ways from the roots of a solution to which the targets are attached: at most one node for each move, one more, and then as many as the value can be
halved. -/
theorem Solver.Joint.paths {h h1 : Heap Int} {t : TreeObj Int} {roots inner leaves : List Addr} {total V : Int} (J : Joint h t roots inner leaves h1)
    (S : Separate h t roots inner leaves) (W : WellFormed h t total) (hL : Layered h t) (hV : ∀ a, Reach h t.roots a → (h.get a).value ≤ V)
    {p : List Addr} (hp : Simple (fun a => (h1.get a).children) t.roots p) :
    ∃ b q, p = b :: q ∧ ((Reach h t.roots b ∧ ∃ l, (h.get b).level = some l ∧ (p.length : Int) ≤ l + 1) ∨
      (b ∈ inner ++ leaves ∧ ∃ j : Nat, 2 ^ j * (h.get b).value ≤ V ∧ (p.length : Int) ≤ t.currentLevel + 1 + j)) := by
  have half : ∀ {a c : Addr}, a ∈ inner ++ leaves → c ∈ (h.get a).children → c ∈ inner ++ leaves ∧ 2 * (h.get c).value ≤ (h.get a).value := by
    intro a c ha hc
    obtain ⟨hi, hm, -, -⟩ := S.kid ha hc
    have h1 := S.forest.equal a hi c hc
    have h2 := (S.forest.fan a hi).1
    have h3 := S.forest.positive c hm
    refine ⟨hm, ?_⟩
    rw [h1]
    have : (2 : Int) ≤ ((h.get a).children.length : Int) := by omega
    nlinarith
  induction hp with
  | @root r hr =>
    refine ⟨r, [], rfl, .inl ⟨.root hr, ?_⟩⟩
    obtain ⟨l, e, h0, -⟩ := hL.range r (.root hr)
    exact ⟨l, e, by simpa using h0⟩
  | @step a b p _ hb _ ih =>
    refine ⟨b, a :: p, rfl, ?_⟩
    obtain ⟨a', q, e, ih⟩ := ih
    cases e
    rcases ih with ⟨ha, l, hl, hlen⟩ | ⟨ha, j, hj, hlen⟩
    · by_cases hs : a ∈ t.sources
      · right
        obtain ⟨r, hr⟩ := (S.pair_of W).1 a hs
        obtain ⟨-, hr1, hr2⟩ := S.pair W hr
        rw [J.sourceKids a r hr] at hb
        obtain ⟨w1, w2⟩ := half (S.root_mem hr1) hb
        have hva := hV a ha
        refine ⟨w1, 1, ?_, ?_⟩
        · have : (h.get a).value = (h.get r).value := hr2
          have w3 : 2 * (h.get b).value ≤ (h.get r).value := w2
          rw [pow_one]
          omega
        · obtain ⟨l', e', -, h2⟩ := hL.range a ha
          rw [hl] at e'
          cases e'
          rw [List.length_cons]
          push_cast
          omega
      · left
        rw [J.tree a ha hs] at hb
        obtain ⟨l', m, e1, e2, e3⟩ := hL.edge a b ha hb
        rw [hl] at e1
        cases e1
        refine ⟨.child ha hb, m, e2, ?_⟩
        rw [List.length_cons]
        push_cast
        omega
    · right
      rw [J.forestKids a ha] at hb
      obtain ⟨w1, w2⟩ := half ha hb
      refine ⟨w1, j + 1, ?_, ?_⟩
      · have : (0 : Int) < 2 ^ j := by positivity
        rw [pow_succ]
        nlinarith
      · rw [List.length_cons]
        push_cast
        omega

theorem Graph.Simple.from_root {K : Addr → List Addr} {rs p : List Addr} (hp : Simple K rs p) : ∃ r, r ∈ rs := by
  induction hp with
  | root h => exact ⟨_, h⟩
  | step _ _ _ ih => exact ih

variable {cfg : Config} {input : Str} {a : Attrs} {h : Heap Int} {sv tv : List ℚ} {O : Oracle} {s : Search} {t : TreeObj Int}

/-- C105 for the solutions of a search: the targets are attached, and if less than `2 ^ k` flows through the network then as many nested calls as the size of
the solution and `k` together are enough to draw it. -/
theorem C105_solution (hcfg : cfg.speeds.Pairwise (· ≤ ·)) (hp : Parsed input sv tv) (hs : ∀ v ∈ sv, 0 < v) (ht : ∀ v ∈ tv, 0 < v)
    (e : (load cfg input a h).result = .ok true)
    (hr : Reached ((load cfg input a h).attrs.problem cfg) O (load cfg input a h).heap (load cfg input a h).attrs.treeSource
      (load cfg input a h).attrs.bestSize s) (hsol : t ∈ s.solutions) :
    ∃ n h' t', (∀ n', n ≤ n' → t.toRat.attachLeaves n' s.heap.toRat (load cfg input a h).attrs.leaves = .ok (h', t')) ∧
      ∀ limit k : Nat, (t.roots.map fun r => (s.heap.get r).value).sum < 2 ^ k → t.size + k ≤ limit →
        ∃ order, Settles (fun fuel => populateOrder fuel h' t'.roots) (.ok order) ∧
          Settles (fun fuel => populateOrderIn limit fuel h' t'.roots) (.ok (some order)) := by
  obtain ⟨n, h1, t1, q1, q2, -⟩ := Solver.attached_solution hcfg hp hs ht e hr hsol
  obtain ⟨hP, hsrc, hB, -⟩ := C22_search_assumptions hcfg hp hs ht e
  obtain ⟨inner, leaves, S, -⟩ := separate hcfg hp hs ht e hr hsol
  have hW := C27_states_well_formed hP hsrc hB hr (Or.inr hsol)
  have hL := C29_states_layered hP hsrc hB hr (Or.inr hsol)
  have hFl := (C33_solutions_correct hP hsrc hB hr hsol).1
  obtain ⟨n2, h2, t2, r1, -, -, -, r5, -, -, -, ⟨h3, J, hsame⟩, -⟩ := attachLeaves_spec S hW hL hFl hsrc.nonempty
  have hsol' : s.Holds t := Or.inr hsol
  obtain ⟨hist, costs, play⟩ := hr.play hP hsrc hB hsol'
  obtain ⟨hcur, hsize⟩ := Play.moves hP play
  refine ⟨n, h1.toRat, t1.toRat, q1, fun limit k hk hlim => ?_⟩
  have heq : h1.toRat = h2.toRat ∧ t1.toRat = t2.toRat := by
    have e1 := q1 (max n n2) (le_max_left _ _)
    rw [attachLeaves_toRat, r1 (max n n2) (le_max_right _ _)] at e1
    have e2 : both (h2, t2) = (h1.toRat, t1.toRat) := Except.ok.inj e1
    exact ⟨(congrArg Prod.fst e2).symm, (congrArg Prod.snd e2).symm⟩
  refine (C105_populate h1.toRat _ q2.region t1.toRat.roots (fun r hr => .root hr) limit).1 fun p hp => ?_
  have hroots : t1.toRat.roots = t.roots := (congrArg TreeObj.roots heq.2).trans r5
  have hkids : (fun x => (h1.toRat.get x).children) = fun x => (h3.get x).children := by
    funext x
    rw [heq.1]
    show (h2.get x).children = _
    rw [hsame x]
  rw [hroots, hkids] at hp
  have hsum := fun x (hx : Reach s.heap t.roots x) => C54_values_within_total hP hsrc hB hr hsol' hx
  obtain ⟨b, q, rfl, hb⟩ := J.paths S hW hL hsum hp
  have hk1 : 1 ≤ k := by
    have hpos : 0 < (t.roots.map fun r => (s.heap.get r).value).sum := by
      obtain ⟨r, hr⟩ := hp.from_root
      exact lt_of_lt_of_le (hW.positive r (.root hr)) (hsum r (.root hr))
    by_contra hn
    have : k = 0 := by omega
    subst this
    rw [pow_zero] at hk
    omega
  rcases hb with ⟨hb, l, hl, hlen⟩ | ⟨hb, j, hj, hlen⟩
  · obtain ⟨l', e', -, w⟩ := hL.range b hb
    rw [hl] at e'
    cases e'
    omega
  · have hv := S.forest.positive b hb
    have : (2 : Int) ^ j < 2 ^ k := by
      have : (0 : Int) < 2 ^ j := by positivity
      nlinarith
    have hjk : j < k := (pow_lt_pow_iff_right₀ (by norm_num)).1 this
    omega

/-- The hypotheses hold for `"8 to 3 3 1 1"`: a solution of size 3 through which 8 flows, so 7 nested calls are enough; it takes 3. -/
example : Parsed "8 to 3 3 1 1".toList [8] [3, 3, 1, 1] ∧ (Example.loaded "8 to 3 3 1 1").result = .ok true ∧
    (∃ s t, Reached ((Example.loaded "8 to 3 3 1 1").attrs.problem config)
      (Example.oracle (Example.loaded "8 to 3 3 1 1").attrs.targetValues none) (Example.loaded "8 to 3 3 1 1").heap
      (Example.loaded "8 to 3 3 1 1").attrs.treeSource (Example.loaded "8 to 3 3 1 1").attrs.bestSize s ∧ t ∈ s.solutions) ∧
    (attached "8 to 3 3 1 1").toOption.map (fun x => (x.2.size, x.2.roots.map fun r => (x.1.get r).value,
      (List.range 5).map fun limit => (populateOrderIn limit 100 x.1 x.2.roots).toOption.map fun r => r.map List.length)) =
      some (3, [8], [some none, some none, some none, some (some 7), some (some 7)]) := by
  refine ⟨⟨by decide +kernel, by decide, by decide⟩, by decide +kernel, ?_, by decide +kernel⟩
  obtain ⟨s, t, h1, h2, -⟩ := attached_reached (attachedOf_eq (input := "8 to 3 3 1 1") (by decide +kernel))
  exact ⟨s, t, h1, h2⟩

end Satis
