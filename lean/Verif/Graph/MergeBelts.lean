import Verif.Graph.MergeSpec
import Verif.Graph.TogetherFacts
/-!
# `expand_merge` when several belts come from the same machine
-/

namespace Satis.Graph
open Satis

/-- The state of the loop: `pre` is the last merger, if there is one, `rest` are the inputs not yet taken, `gone` those taken. -/
structure Taking (h0 : Heap ℚ) (node : Addr) (ps : List Addr) (h : Heap ℚ) (pre rest gone : List Addr) : Prop where
  ge : h0.next ≤ h.next
  size : h.next = h0.next ∧ pre = [] ∧ gone = [] ∨ h0.next < h.next ∧ pre.length = 1 ∧ gone.length = 2 * (h.next - h0.next) + 1
  fresh : ∀ a ∈ pre, h0.next ≤ a
  split : gone ++ rest = ps.reverse
  ok : ∀ a ∈ pre ++ rest, a < h.next ∧ a ≠ node ∧ (h.get a).level ≠ none ∧ 0 ≤ (h.get a).value
  edge : ∀ p ∈ ps, (h.get p).children.count node = if p ∈ gone then 0 else ps.count p
  edgeNew : ∀ a, h0.next ≤ a → a < h.next → (h.get a).children.count node = pre.count a
  three : ∀ a, h0.next ≤ a → a < h.next → (h.get a).parents.length = 3 ∧ ∃ b, (h.get a).children = [b] ∧ (b = node ∨ a < b ∧ b < h.next)
  sources : ∀ a, h0.next ≤ a → a < h.next → ∀ p ∈ (h.get a).parents, p ∈ ps ∨ h0.next ≤ p ∧ p < a
  lens : ∀ p ∈ ps, (h.get p).children.length + (if p ∈ gone then rest.count p else 0) = (h0.get p).children.length
  others : ∀ p ∈ ps, ∀ c, c < h0.next → c ≠ node → (h.get p).children.count c = (h0.get p).children.count c
  closed : ∀ p, p ∈ ps ∨ h0.next ≤ p ∧ p < h.next → ∀ c ∈ (h.get p).children, c < h.next
  links : ∀ c, h0.next ≤ c → c < h.next → ∀ p, p ∈ ps ∨ h0.next ≤ p ∧ p < h.next → (h.get c).parents.count p = (h.get p).children.count c
  flow : ∀ f : Addr → ℚ, ∃ g : Addr → ℚ, (∀ a, a < h0.next → g a = f a) ∧
    (∀ a, h0.next ≤ a → a < h.next → g a = ((h.get a).parents.map g).sum) ∧ ((pre ++ rest).map g).sum = (ps.map f).sum
  fed : ∀ p ∈ gone, ∃ c, h0.next ≤ c ∧ c < h.next ∧ c ∈ (h.get p).children
  levels : ∀ a, h0.next ≤ a → a < h.next → (h.get a).level = (h0.get node).level
  quiet : ∀ a, h0.next ≤ a → a < h.next → (h.get a).expands = []
  ids : ∀ a, h0.next ≤ a → a < h.next → (h.get a).id = h0.nextUid + (a - h0.next)
  uid : h.nextUid = h0.nextUid + (h.next - h0.next)
  frame : ∀ a, a < h0.next → a ∉ ps → h.get a = h0.get a
  kept : ∀ a ∈ ps, h.get a = { h0.get a with children := (h.get a).children }
  still : ∀ a ∈ ps, a ∉ gone → h.get a = h0.get a
  trim : ∀ p ∈ ps, ∃ l₁ l₂, (h.get p).children = l₁ ++ l₂ ∧
    (l₁ = (h0.get p).children ∨ l₁ = (h0.get p).children.filter fun y => decide (y ≠ node)) ∧ ∀ x ∈ l₂, h0.next ≤ x ∧ x < h.next
  worth : ∀ a, h0.next ≤ a → a < h.next → 0 ≤ (h.get a).value
  labelled : Together ps → ∀ a, h0.next ≤ a → a < h.next →
    (h.get a).value = ((h.get a).parents.map fun p => if p < h0.next then (h0.get p).value / (h0.get p).children.length else (h.get p).value).sum

theorem Taking.goneMem {h0 h : Heap ℚ} {node : Addr} {ps pre rest gone : List Addr} (I : Taking h0 node ps h pre rest gone) {p : Addr}
    (hp : p ∈ gone) : p ∈ ps := List.mem_reverse.1 (I.split ▸ List.mem_append_left _ hp)

theorem Taking.restMem {h0 h : Heap ℚ} {node : Addr} {ps pre rest gone : List Addr} (I : Taking h0 node ps h pre rest gone) {p : Addr}
    (hp : p ∈ rest) : p ∈ ps := List.mem_reverse.1 (I.split ▸ List.mem_append_right _ hp)

theorem Taking.counts {h0 h : Heap ℚ} {node : Addr} {ps pre rest gone : List Addr} (I : Taking h0 node ps h pre rest gone) (p : Addr) :
    gone.count p + rest.count p = ps.count p := by
  rw [← List.count_append, I.split, List.count_reverse]

theorem Taking.step {h0 h h' : Heap ℚ} {node : Addr} {ps pre rest gone d rest' : List Addr} {a b c : Addr}
    (I : Taking h0 node ps h pre rest gone) (hd : [a, b, c] = pre ++ d) (hr : rest = d ++ rest')
    (hn : node < h0.next) (hps : ∀ p ∈ ps, p < h0.next) (hnp : node ∉ ps) (hl0 : (h0.get node).level ≠ none)
    (R : Round h h' node a b c) :
    Taking h0 node ps h' [h.next] rest' (gone ++ d) := by
  have hge := I.ge
  have hnx := R.next
  have hnodeh : node ≠ h.next := by omega
  have hdps : ∀ x ∈ d, x ∈ ps := fun x hx => I.restMem (by rw [hr]; simp [hx])
  have hok : ∀ x ∈ [a, b, c], x < h.next ∧ x ≠ node ∧ (h.get x).level ≠ none ∧ 0 ≤ (h.get x).value := fun x hx =>
    I.ok x (by
      rw [hd] at hx
      rw [hr]
      rcases List.mem_append.1 hx with q | q <;> simp [q])
  have hpre0 : ∀ p ∈ ps, pre.count p = 0 := fun p hp => List.count_eq_zero.2 fun q => by
    have := I.fresh p q
    have := hps p hp
    omega
  have hc3 : ∀ p, [a, b, c].count p = pre.count p + d.count p := fun p => by rw [hd, List.count_append]
  have hm3 : ∀ p, p ∈ [a, b, c] ↔ p ∈ pre ∨ p ∈ d := fun p => by rw [hd, List.mem_append]
  have hm3' : ∀ p ∈ ps, p ∈ [a, b, c] ↔ p ∈ d := fun p hp => by
    rw [hm3]
    have := List.count_eq_zero.1 (hpre0 p hp)
    tauto
  have hcr : ∀ p, rest.count p = d.count p + rest'.count p := fun p => by rw [hr, List.count_append]
  have hd0 : ∀ x, h0.next ≤ x → x ∉ d := fun x hx q => by
    have := hps x (hdps x q)
    omega
  have hch3 : ∀ x ∈ [a, b, c], (h'.get x).children =
      ((h.get x).children.filter fun y => decide (y ≠ node)) ++ List.replicate ([a, b, c].count x) h.next := fun x hx => by
    have := (hok x hx).1
    rw [R.old x (by omega)]
    simp only [if_pos hx]
  have hch : ∀ x, x ≠ h.next → x ∉ [a, b, c] → h'.get x = h.get x := fun x hx hx3 => by
    rw [R.old x hx]
    simp only [if_neg hx3]
  have hpar : ∀ x, x ≠ h.next → (h'.get x).parents = (h.get x).parents := fun x hx => by rw [R.old x hx]
  have hnewc : (h'.get h.next).children = [node] := by rw [R.new]
  have hnewp : (h'.get h.next).parents = [a, b, c] := by rw [R.new]
  have hz : ∀ x ∈ [a, b, c], (h'.get x).children.count node = 0 := fun x hx => by
    rw [hch3 x hx, List.count_append, List.count_eq_zero.2, List.count_eq_zero.2]
    · intro q
      exact hnodeh (List.eq_of_mem_replicate q)
    · simp
  have hcnt : ∀ x, x ≠ h.next → ∀ y, y ≠ node → y ≠ h.next → (h'.get x).children.count y = (h.get x).children.count y := fun x hx y hy1 hy2 => by
    by_cases hx3 : x ∈ [a, b, c]
    · rw [hch3 x hx3, List.count_append, count_filter_ne hy1, List.count_eq_zero (l := List.replicate _ _) |>.2]
      · rfl
      · intro q
        exact hy2 (List.eq_of_mem_replicate q)
    · rw [hch x hx hx3]
  have hlvl : (h.get node).level = (h0.get node).level := by rw [I.frame node hn hnp]
  have hsum : 0 ≤ (h'.get h.next).value := by
    rw [R.new]
    show 0 ≤ out h a + out h b + out h c
    have h1 := out_nonneg (hok a (by simp)).2.2.2
    have h2 := out_nonneg (hok b (by simp)).2.2.2
    have h3 := out_nonneg (hok c (by simp)).2.2.2
    linarith
  refine ⟨by omega, ?_, ?_, ?_, ?_, ?_, ?_, ?_, ?_, ?_, ?_, ?_, ?_, ?_, ?_, ?_, ?_, ?_, ?_, ?_, ?_, ?_, ?_, ?_, ?_⟩
  · -- size
    have h3 : 3 = pre.length + d.length := by
      have := congrArg List.length hd
      simpa using this
    refine .inr ⟨by omega, rfl, ?_⟩
    rw [List.length_append]
    rcases I.size with ⟨q1, q2, q3⟩ | ⟨q1, q2, q3⟩
    · rw [q2] at h3
      rw [q3]
      simp only [List.length_nil] at h3 ⊢
      omega
    · omega
  · intro x hx
    rw [List.mem_singleton] at hx
    omega
  · rw [List.append_assoc, ← hr]
    exact I.split
  · intro x hx
    rcases List.mem_append.1 hx with hx | hx
    · rw [List.mem_singleton] at hx
      subst hx
      refine ⟨by omega, by omega, ?_, hsum⟩
      rw [R.new]
      show (h.get node).level ≠ none
      rw [hlvl]
      exact hl0
    · obtain ⟨q1, q2, q3, q4⟩ := I.ok x (by rw [hr]; simp [hx])
      rw [R.old x (by omega)]
      exact ⟨by omega, q2, q3, q4⟩
  · intro p hp
    have hpn : p ≠ h.next := by have := hps p hp; omega
    by_cases hx : p ∈ d
    · rw [hz p ((hm3' p hp).2 hx), if_pos (by simp [hx])]
    · rw [hch p hpn (fun q => hx ((hm3' p hp).1 q)), I.edge p hp]
      simp [hx]
  · intro x h1 h2
    by_cases hxn : x = h.next
    · subst hxn
      rw [hnewc]
      simp
    · have e : [h.next].count x = 0 := List.count_eq_zero.2 (by simpa using hxn)
      rw [e]
      by_cases hx3 : x ∈ [a, b, c]
      · exact hz x hx3
      · rw [hch x hxn hx3, I.edgeNew x h1 (by omega), List.count_eq_zero]
        intro q
        exact hx3 ((hm3 x).2 (.inl q))
  · intro x h1 h2
    by_cases hxn : x = h.next
    · subst hxn
      rw [hnewp, hnewc]
      exact ⟨rfl, node, rfl, .inl rfl⟩
    · obtain ⟨q1, b', q2, q3⟩ := I.three x h1 (by omega)
      rw [hpar x hxn]
      refine ⟨q1, ?_⟩
      by_cases hx3 : x ∈ [a, b, c]
      · have hxp : x ∈ pre := by
          rcases (hm3 x).1 hx3 with q | q
          · exact q
          · exact absurd q (hd0 x h1)
        have hcp : 0 < pre.count x := List.count_pos_iff.2 hxp
        have e := I.edgeNew x h1 (by omega)
        rw [q2] at e
        have hb : b' = node := by
          by_contra hne
          simp [hne] at e
          omega
        rw [hb] at e
        simp only [List.count_singleton_self] at e
        rw [hch3 x hx3, hc3, List.count_eq_zero.2 (hd0 x h1), q2, hb, ← e]
        exact ⟨h.next, by simp, .inr ⟨by omega, by omega⟩⟩
      · rw [hch x hxn hx3]
        refine ⟨b', q2, ?_⟩
        rcases q3 with q3 | q3
        · exact .inl q3
        · exact .inr ⟨q3.1, by omega⟩
  · intro x h1 h2 p hp
    by_cases hxn : x = h.next
    · subst hxn
      rw [hnewp] at hp
      rcases (hm3 p).1 hp with q | q
      · exact .inr ⟨I.fresh p q, (hok p hp).1⟩
      · exact .inl (hdps p q)
    · rw [hpar x hxn] at hp
      exact I.sources x h1 (by omega) p hp
  · -- lens
    intro p hp
    have hpn : p ≠ h.next := by have := hps p hp; omega
    have hl := I.lens p hp
    have he := I.edge p hp
    have hc := I.counts p
    have hcr := hcr p
    by_cases hx : p ∈ d
    · rw [if_pos (by simp [hx]), hch3 p ((hm3' p hp).2 hx), List.length_append, List.length_replicate, hc3, hpre0 p hp]
      have hf := filter_ne_length node (h.get p).children
      by_cases hg : p ∈ gone
      · rw [if_pos hg] at hl he
        omega
      · rw [if_neg hg] at hl he
        rw [List.count_eq_zero.2 hg] at hc
        omega
    · rw [hch p hpn (fun q => hx ((hm3' p hp).1 q))]
      rw [List.count_eq_zero.2 hx] at hcr
      simp only [List.mem_append, hx, or_false]
      rw [← hl, hcr, Nat.zero_add]
  · intro p hp y h1 h2
    rw [hcnt p (by have := hps p hp; omega) y h2 (by omega)]
    exact I.others p hp y h1 h2
  · intro p hp y hy
    by_cases hpn : p = h.next
    · subst hpn
      rw [hnewc] at hy
      simp at hy
      omega
    · have hp' : p ∈ ps ∨ h0.next ≤ p ∧ p < h.next := by
        rcases hp with q | q
        · exact .inl q
        · exact .inr ⟨q.1, by omega⟩
      by_cases hp3 : p ∈ [a, b, c]
      · rw [hch3 p hp3] at hy
        rcases List.mem_append.1 hy with hy | hy
        · have := I.closed p hp' y (List.mem_filter.1 hy).1
          omega
        · have := List.eq_of_mem_replicate hy
          omega
      · rw [hch p hpn hp3] at hy
        have := I.closed p hp' y hy
        omega
  · intro y h1 h2 p hp
    have hpn' : p = h.next ∨ p ≠ h.next ∧ (p ∈ ps ∨ h0.next ≤ p ∧ p < h.next) := by
      by_cases q : p = h.next
      · exact .inl q
      · refine .inr ⟨q, ?_⟩
        rcases hp with w | w
        · exact .inl w
        · exact .inr ⟨w.1, by omega⟩
    by_cases hyn : y = h.next
    · subst hyn
      rw [hnewp]
      rcases hpn' with rfl | ⟨hpn, hp'⟩
      · rw [hnewc, List.count_eq_zero.2 (fun q => by have := (hok _ q).1; omega), List.count_eq_zero.2]
        simp
        omega
      · have hno : h.next ∉ (h.get p).children := fun q => by
          have := I.closed p hp' _ q
          omega
        by_cases hp3 : p ∈ [a, b, c]
        · rw [hch3 p hp3, List.count_append, count_filter_ne hnodeh.symm, List.count_eq_zero.2 hno, List.count_replicate_self]
          omega
        · rw [hch p hpn hp3, List.count_eq_zero.2 hp3, List.count_eq_zero.2 hno]
    · rw [hpar y hyn]
      have hyn0 : y ≠ node := by omega
      rcases hpn' with rfl | ⟨hpn, hp'⟩
      · rw [hnewc, List.count_eq_zero.2, List.count_eq_zero.2]
        · simp; omega
        · intro q
          rcases I.sources y h1 (by omega) _ q with w | w
          · have := hps _ w; omega
          · omega
      · rw [hcnt p hpn y hyn0 hyn]
        exact I.links y h1 (by omega) p hp'
  · -- flow
    intro f
    obtain ⟨g, g1, g2, g3⟩ := I.flow f
    obtain ⟨G, hG⟩ : ∃ G : Addr → ℚ, G = fun x => if x = h.next then g a + g b + g c else g x := ⟨_, rfl⟩
    have hGo : ∀ x, x ≠ h.next → G x = g x := fun x hx => by rw [hG]; exact if_neg hx
    have hGn : G h.next = g a + g b + g c := by rw [hG]; exact if_pos rfl
    have hm : ∀ l : List Addr, (∀ x ∈ l, x < h.next) → l.map G = l.map g := fun l hl => List.map_congr_left fun x hx =>
      hGo x (by have := hl x hx; omega)
    refine ⟨G, fun x hx => by rw [hGo x (by omega), g1 x hx], ?_, ?_⟩
    · intro x h1 h2
      by_cases hxn : x = h.next
      · subst hxn
        rw [hnewp, hm _ fun x hx => (hok x hx).1, hGn]
        simp
        ring
      · rw [hpar x hxn, hGo x hxn, g2 x h1 (by omega), hm]
        intro p hp
        rcases I.sources x h1 (by omega) p hp with w | w
        · have := hps _ w; omega
        · omega
    · rw [← g3, hr, ← List.append_assoc, ← hd]
      simp only [List.map_append, List.map_cons, List.map_nil, List.sum_append, List.sum_cons, List.sum_nil]
      rw [hGn, hm rest' fun x hx => (I.ok x (by rw [hr]; simp [hx])).1]
      ring
  · intro p hp
    have hpp : p ∈ ps := by
      rcases List.mem_append.1 hp with q | q
      · exact I.goneMem q
      · exact hdps p q
    have hpn : p ≠ h.next := by have := hps p hpp; omega
    by_cases hp3 : p ∈ [a, b, c]
    · refine ⟨h.next, hge, by omega, ?_⟩
      rw [hch3 p hp3, List.mem_append]
      right
      rw [List.mem_replicate]
      exact ⟨(List.count_pos_iff.2 hp3).ne', rfl⟩
    · rcases List.mem_append.1 hp with q | q
      · obtain ⟨y, q1, q2, q3⟩ := I.fed p q
        refine ⟨y, q1, by omega, ?_⟩
        rw [hch p hpn hp3]
        exact q3
      · exact absurd ((hm3 p).2 (.inr q)) hp3
  · intro x h1 h2
    by_cases hxn : x = h.next
    · subst hxn
      rw [R.new]
      exact hlvl
    · rw [R.old x hxn]
      exact I.levels x h1 (by omega)
  · intro x h1 h2
    by_cases hxn : x = h.next
    · subst hxn
      rw [R.new]
    · rw [R.old x hxn]
      exact I.quiet x h1 (by omega)
  · intro x h1 h2
    by_cases hxn : x = h.next
    · subst hxn
      rw [R.new]
      exact I.uid
    · rw [R.old x hxn]
      exact I.ids x h1 (by omega)
  · rw [R.uid, I.uid]
    omega
  · intro x h1 h2
    have hx3 : x ∉ [a, b, c] := fun q => by
      rcases (hm3 x).1 q with w | w
      · have := I.fresh x w
        omega
      · exact h2 (hdps x w)
    rw [hch x (by omega) hx3]
    exact I.frame x h1 h2
  · intro x hx
    have := hps x hx
    rw [R.old x (by omega)]
    simp only
    conv_lhs => rw [I.kept x hx]
  · intro x hx hxg
    rw [List.mem_append, not_or] at hxg
    rw [hch x (by have := hps x hx; omega) fun q => hxg.2 ((hm3' x hx).1 q)]
    exact I.still x hx hxg.1
  · intro x hx
    obtain ⟨l₁, l₂, t1, t2, t3⟩ := I.trim x hx
    by_cases hx3 : x ∈ [a, b, c]
    · refine ⟨l₁.filter fun y => decide (y ≠ node), (l₂.filter fun y => decide (y ≠ node)) ++ List.replicate ([a, b, c].count x) h.next, ?_, ?_, ?_⟩
      · rw [hch3 x hx3, t1, List.filter_append, List.append_assoc]
      · rcases t2 with rfl | rfl
        · exact .inr rfl
        · right
          rw [List.filter_filter]
          simp
      · intro y hy
        rcases List.mem_append.1 hy with hy | hy
        · have := t3 y (List.mem_filter.1 hy).1
          omega
        · have := List.eq_of_mem_replicate hy
          omega
    · refine ⟨l₁, l₂, ?_, t2, fun y hy => ?_⟩
      · rw [hch x (by have := hps x hx; omega) hx3]
        exact t1
      · have := t3 y hy
        omega
  · intro x h1 h2
    by_cases hxn : x = h.next
    · subst hxn
      exact hsum
    · rw [R.old x hxn]
      exact I.worth x h1 (by omega)
  · -- labels
    intro hT x h1 h2
    by_cases hxn : x = h.next
    · subst hxn
      have hap : ∀ x ∈ d, x ∉ gone := by
        refine hT.apart (d := d) (rest := rest') (k := h.next - h0.next) (by rw [← hr]; exact I.split) ?_ ?_
        · rcases I.size with ⟨-, -, q⟩ | ⟨q1, -, q2⟩
          · exact .inl (by rw [q]; rfl)
          · exact .inr ⟨by omega, q2⟩
        · intro q
          have h3 : 3 = pre.length + d.length := by
            have := congrArg List.length hd
            simpa using this
          rcases I.size with ⟨-, -, q'⟩ | ⟨-, q', -⟩
          · rw [q'] at q
            simp at q
          · omega
      have key : ∀ x ∈ [a, b, c], out h x =
          if x < h0.next then (h0.get x).value / (h0.get x).children.length else (h'.get x).value := fun x hx => by
        have hxlt := (hok x hx).1
        rcases (hm3 x).1 hx with w | w
        · have hx0 := I.fresh x w
          have hcnt : (h.get x).children.count node = pre.count x := I.edgeNew x hx0 hxlt
          obtain ⟨-, b', q2, -⟩ := I.three x hx0 hxlt
          rw [if_neg (by omega), R.old x (by omega)]
          unfold out sharedValue
          rw [q2]
          simp
        · have hxp := hdps x w
          have hlen := I.lens x hxp
          rw [if_neg (hap x w), Nat.add_zero] at hlen
          have hval : (h.get x).value = (h0.get x).value := by rw [I.kept x hxp]
          have hne : (h.get x).children ≠ [] := fun e => by
            have := I.edge x hxp
            rw [if_neg (hap x w), e, List.count_nil] at this
            have := List.count_pos_iff.2 hxp
            omega
          rw [if_pos (hps x hxp)]
          unfold out sharedValue
          rw [if_neg hne, hval, hlen]
      rw [hnewp]
      simp only [List.map_cons, List.map_nil, List.sum_cons, List.sum_nil]
      rw [← key a (by simp), ← key b (by simp), ← key c (by simp), R.new]
      simp only
      ring
    · rw [hpar x hxn, R.old x hxn]
      simp only
      rw [I.labelled hT x h1 (by omega)]
      congr 1
      apply List.map_congr_left
      intro p hp
      have hpn : p ≠ h.next := by
        rcases I.sources x h1 (by omega) p hp with w | w
        · have := hps p w; omega
        · omega
      rw [R.old p hpn]

theorem mergeRounds_taking {h0 : Heap ℚ} {node : Addr} {ps : List Addr} {t : Nat} (ht : 2 ≤ t) (hn : node < h0.next)
    (hps : ∀ p ∈ ps, p < h0.next) (hnp : node ∉ ps) (hl0 : (h0.get node).level ≠ none) :
    ∀ (fuel : Nat) (h : Heap ℚ) (pre rest gone : List Addr), (pre ++ rest).length ≤ fuel → Taking h0 node ps h pre rest gone →
      t ≤ (pre ++ rest).length + 1 → ∃ h' pre' rest' gone', mergeRounds node t fuel h (pre ++ rest) = .ok (h', pre' ++ rest') ∧
        (pre' ++ rest').length ≤ t ∧ t ≤ (pre' ++ rest').length + 1 ∧ Taking h0 node ps h' pre' rest' gone' := by
  intro fuel
  induction fuel with
  | zero =>
    intro h pre rest gone hf I hm
    refine ⟨h, pre, rest, gone, ?_, by omega, hm, I⟩
    rw [mergeRounds.eq_def]
    simp only
    rw [if_pos (by omega)]
  | succ fuel ih =>
    intro h pre rest gone hf I hm
    by_cases hlen : (pre ++ rest).length ≤ t
    · refine ⟨h, pre, rest, gone, ?_, hlen, hm, I⟩
      rw [mergeRounds.eq_def]
      simp only
      rw [if_pos hlen]
    · obtain ⟨a, b, c, rest', e⟩ : ∃ a b c rest', pre ++ rest = a :: b :: c :: rest' := by
        match hq : pre ++ rest, hlen with
        | [], hlen => simp at hlen
        | [_], hlen => simp at hlen; omega
        | [_, _], hlen => simp at hlen; omega
        | a :: b :: c :: rest', _ => exact ⟨a, b, c, rest', rfl⟩
      obtain ⟨d, hd, hr⟩ : ∃ d, [a, b, c] = pre ++ d ∧ rest = d ++ rest' := by
        rcases I.size with ⟨-, q, -⟩ | ⟨-, q, -⟩
        · subst q
          exact ⟨[a, b, c], rfl, e⟩
        · obtain ⟨m, rfl⟩ := List.length_eq_one_iff.1 q
          simp only [List.cons_append, List.nil_append, List.cons.injEq] at e
          exact ⟨[b, c], by rw [e.1]; rfl, by rw [e.2]; rfl⟩
      have hlen' : (pre ++ rest).length = rest'.length + 3 := by rw [e]; rfl
      obtain ⟨h1, R, e1⟩ := merge_round (node := node) (a := a) (b := b) (c := c) (h := h) (by have := I.ge; omega)
        (fun x hx => by
          obtain ⟨q1, q2, q3, q4⟩ := I.ok x (by
            rw [e]
            simp only [List.mem_cons, List.not_mem_nil, or_false] at hx ⊢
            tauto)
          exact ⟨q1, q3, q4⟩) rest' t fuel (by rw [← e]; omega)
      rw [e, e1]
      exact ih h1 [h.next] rest' (gone ++ d) (by simp only [List.length_append, List.length_cons, List.length_nil] at hf hlen' ⊢; omega)
        (I.step hd hr hn hps hnp hl0 R) (by simp only [List.length_append, List.length_cons, List.length_nil] at hlen hlen' ⊢; omega)

theorem Taking.start {h : Heap ℚ} {node : Addr} (H : BeltInput h node) :
    Taking h node (h.get node).parents h [] (h.get node).parents.reverse [] where
  ge := le_rfl
  size := .inl ⟨rfl, rfl, rfl⟩
  fresh _ ha := by simp at ha
  split := rfl
  ok a ha := by
    rw [List.nil_append, List.mem_reverse] at ha
    exact ⟨(H.lt a ha).1, (H.lt a ha).2, H.levels a ha, H.nonneg a ha⟩
  edge p hp := by rw [if_neg (by simp)]; exact H.count p hp
  edgeNew a h1 h2 := by omega
  three a h1 h2 := by omega
  sources a h1 h2 := by omega
  lens _ _ := by simp
  others _ _ _ _ _ := rfl
  closed p hp c hc := by
    rcases hp with q | q
    · exact H.closed p q c hc
    · omega
  links c h1 h2 := by omega
  flow f := ⟨f, fun _ _ => rfl, fun a h1 h2 => by omega, by rw [List.nil_append, List.map_reverse, List.sum_reverse]⟩
  fed _ hp := by simp at hp
  levels a h1 h2 := by omega
  quiet a h1 h2 := by omega
  ids a h1 h2 := by omega
  uid := by omega
  frame _ _ _ := rfl
  kept _ _ := rfl
  still _ _ _ := rfl
  trim p _ := ⟨_, [], by rw [List.append_nil], .inl rfl, by simp⟩
  worth a h1 h2 := by omega
  labelled _ a h1 h2 := by omega

theorem Taking.finish {h h1 h' : Heap ℚ} {node : Addr} {t : Nat} {pre rest gone : List Addr} (H : BeltInput h node)
    (I : Taking h node (h.get node).parents h1 pre rest gone) (hlen : (pre ++ rest).length ≤ t) (hn : h'.next = h1.next)
    (hu : h'.nextUid = h1.nextUid) (hg : ∀ x, x ≠ node → h'.get x = h1.get x)
    (hnode : h'.get node = { h1.get node with parents := (pre ++ rest).reverse }) (hdis : rest.Disjoint gone)
    (hgone : ∀ p ∈ gone, p ∈ (h.get node).parents.drop (untouched t (h.get node).parents.length))
    (hrest : rest.reverse = (h.get node).parents.take (untouched t (h.get node).parents.length))
    (hpre : pre = [] ∧ (h.get node).parents.length ≤ t ∨ pre.length = 1) :
    BeltNetwork h h' node t := by
  have hnp : node ∉ (h.get node).parents := fun q => (H.lt _ q).2 rfl
  have hlt := fun p hp => (H.lt p hp).1
  have hne := fun p hp => (H.lt p hp).2
  have hin := H.inside
  have hge := I.ge
  have hch : ∀ x, (h'.get x).children = (h1.get x).children := fun x => by
    by_cases hx : x = node
    · rw [hx, hnode]
    · rw [hg x hx]
  have hnodep : (h'.get node).parents = (pre ++ rest).reverse := by rw [hnode]
  have hfr : h1.get node = h.get node := I.frame node hin hnp
  have hto : ∀ k a, h1.next - a = k → h.next ≤ a → a < h1.next → Reach h' [a] node := by
    intro k
    induction k using Nat.strong_induction_on with
    | _ k ih =>
      intro a hk h2 h3
      obtain ⟨-, b, q1, q2⟩ := I.three a h2 h3
      have hb : b ∈ (h'.get a).children := by rw [hch, q1]; simp
      rcases q2 with rfl | q2
      · exact .child (.root (by simp)) hb
      · exact reach_trans (.child (.root (by simp)) hb) (ih (h1.next - b) (by omega) b rfl (by omega) q2.2)
  have hnew : ∀ a, h.next ≤ a → h'.get a = h1.get a := fun a ha => hg a (by omega)
  have hlens : ∀ p ∈ (h.get node).parents, (h'.get p).children.length = (h.get p).children.length := by
    intro p hp
    rw [hch, ← I.lens p hp]
    by_cases q : p ∈ gone
    · rw [if_pos q, List.count_eq_zero.2 fun w => hdis w q, Nat.add_zero]
    · rw [if_neg q, Nat.add_zero]
  refine ⟨by omega, by rw [hnodep, List.length_reverse]; exact hlen, ?_, ?_, ?_, ?_, hlens, ?_, ?_, ?_, ?_, ?_, ?_, ?_, ?_, ?_, ?_, ?_, ?_, ?_, ?_, ?_⟩
  · refine ⟨pre.reverse, by rw [hnodep, List.reverse_append, hrest], ?_⟩
    rcases hpre with ⟨q1, q2⟩ | q
    · exact .inl ⟨by rw [q1]; rfl, q2⟩
    · obtain ⟨m, rfl⟩ := List.length_eq_one_iff.1 q
      exact .inr ⟨m, rfl, I.fresh m (by simp), by have := (I.ok m (by simp)).1; omega⟩
  · intro p hp
    rw [hnodep, List.mem_reverse] at hp
    rcases List.mem_append.1 hp with q | q
    · exact .inr ⟨I.fresh p q, by have := (I.ok p hp).1; omega⟩
    · exact .inl (I.restMem q)
  · intro a h2 h3
    rw [hnew a h2, hn]
    exact I.three a h2 (by omega)
  · intro a h2 h3 p hp
    rw [hnew a h2] at hp
    exact I.sources a h2 (by omega) p hp
  · intro p hp c h2 h3
    rw [hch]
    exact I.others p hp c h2 h3
  · intro c hc p hp
    rw [hch]
    rcases hc with rfl | ⟨h2, h3⟩
    · rw [hnodep, List.count_reverse, List.count_append]
      rcases hp with hp | hp
      · have hz : pre.count p = 0 := List.count_eq_zero.2 fun q => by
          have := I.fresh p q
          have := hlt p hp
          omega
        rw [I.edge p hp, hz]
        have := I.counts p
        by_cases q : p ∈ gone
        · rw [if_pos q, List.count_eq_zero.2 fun w => hdis w q]
        · rw [if_neg q]
          rw [List.count_eq_zero.2 q] at this
          omega
      · have hz : rest.count p = 0 := List.count_eq_zero.2 fun q => by
          have := hlt p (I.restMem q)
          omega
        rw [I.edgeNew p hp.1 (by omega), hz]
        rfl
    · rw [hnew c h2]
      exact I.links c h2 (by omega) p (by rcases hp with q | q <;> [exact .inl q; exact .inr ⟨q.1, by omega⟩])
  · intro f
    obtain ⟨g, g1, g2, g3⟩ := I.flow f
    refine ⟨g, g1, fun a h2 h3 => by rw [hnew a h2]; exact g2 a h2 (by omega), ?_⟩
    rw [hnodep, List.map_reverse, List.sum_reverse, g3]
  · intro p hp
    by_cases q : p ∈ gone
    · obtain ⟨c, h2, h3, h4⟩ := I.fed p q
      have hr : Reach h' [p] c := .child (.root (List.mem_singleton_self p)) (by rw [hch]; exact h4)
      exact reach_trans hr (hto _ c rfl h2 h3)
    · have := I.edge p hp
      rw [if_neg q] at this
      refine .child (.root (List.mem_singleton_self p)) (?_ : node ∈ (h'.get p).children)
      rw [hch, ← List.count_pos_iff, this]
      exact List.count_pos_iff.2 hp
  · intro a h2 h3
    rw [hnew a h2]
    exact I.levels a h2 (by omega)
  · intro a h2 h3
    rw [hnew a h2]
    exact I.quiet a h2 (by omega)
  · intro a h2 h3
    rw [hnew a h2]
    exact I.ids a h2 (by omega)
  · rw [hu, hn]
    exact I.uid
  · intro a h2 h3 h4
    rw [hg a h3]
    exact I.frame a h2 h4
  · intro a ha
    rw [hg a (hne a ha)]
    exact I.kept a ha
  · rw [hnode, hfr]
  · intro p hp hd
    rw [hch, I.still p hp fun q => hd (hgone p q)]
  · intro p hp
    rw [hch, hn]
    exact I.trim p hp
  · intro a h2 h3
    rw [hnew a h2]
    exact I.worth a h2 (by omega)
  · intro hT a h2 h3
    rw [hnew a h2, I.labelled hT a h2 (by omega)]
    congr 1
    apply List.map_congr_left
    intro p hp
    rcases I.sources a h2 (by omega) p hp with w | w
    · have hv : (h'.get p).value = (h.get p).value := by rw [hg p (hne p w), I.kept p w]
      rw [if_pos (hlt p w), hlens p w, hv]
    · obtain ⟨-, b, q, -⟩ := I.three p w.1 (by omega)
      rw [if_neg (by omega), hnew p w.1, q]
      simp

theorem expandMerge_belts {h : Heap ℚ} {node : Addr} {t : Nat} (ht : 2 ≤ t) (H : BeltInput h node) :
    ∃ h', expandMerge h node t = .ok (h', (0, 0)) ∧ (BeltNetwork h h' node t ↔ Parted t (h.get node).parents) := by
  have hnp : node ∉ (h.get node).parents := fun q => (H.lt _ q).2 rfl
  by_cases hle : (h.get node).parents.length ≤ t
  · refine ⟨h, by unfold expandMerge; rw [if_pos hle], ?_⟩
    refine iff_of_true ?_ ?_
    · refine Taking.finish (h1 := h) H (Taking.start H) (by simpa using hle) rfl rfl (fun _ _ => rfl) ?_ (by simp) (by simp) ?_ (.inl ⟨rfl, hle⟩)
      · simp
      · unfold untouched
        rw [if_pos hle, List.take_length, List.reverse_reverse]
    · unfold Parted untouched
      rw [if_pos hle, List.drop_length]
      simp
  · obtain ⟨h1, pre, rest, gone, e, q1, q2, I⟩ := mergeRounds_taking ht H.inside (fun p hp => (H.lt p hp).1) hnp H.level
      (h.get node).parents.length h [] (h.get node).parents.reverse [] (by simp) (Taking.start H) (by simp; omega)
    rw [List.nil_append] at e
    refine ⟨h1.modify node fun o => { o with parents := (pre ++ rest).reverse }, ?_, ?_⟩
    · unfold expandMerge
      rw [if_neg hle]
      simp only [e, bind, Except.bind]
      rfl
    · have hn2 : (h1.modify node fun o => { o with parents := (pre ++ rest).reverse }).get node =
          { h1.get node with parents := (pre ++ rest).reverse } := by
        rw [Heap.get_modify, if_pos rfl]
      have hn3 : ∀ x, x ≠ node → (h1.modify node fun o => { o with parents := (pre ++ rest).reverse }).get x = h1.get x := fun x hx => by
        rw [Heap.get_modify, if_neg hx]
      have hps : (h.get node).parents = rest.reverse ++ gone.reverse := by
        rw [← List.reverse_append, I.split, List.reverse_reverse]
      have hk : untouched t (h.get node).parents.length = rest.reverse.length := by
        unfold untouched
        rw [if_neg hle]
        have e1 := congrArg List.length I.split
        simp only [List.length_append, List.length_reverse] at e1 q1 q2 ⊢
        rcases I.size with ⟨-, w2, w3⟩ | ⟨w1, w2, w3⟩
        · rw [w2] at q1
          rw [w3] at e1
          simp only [List.length_nil] at e1 q1
          omega
        · omega
      have hpart : Parted t (h.get node).parents ↔ rest.Disjoint gone := by
        unfold Parted
        rw [hk]
        conv_lhs => rw [hps]
        rw [List.take_left, List.drop_left]
        unfold List.Disjoint
        simp only [List.mem_reverse]
      rw [hpart]
      constructor
      · intro N p hr hgo
        have hp := I.goneMem hgo
        have w := N.links node (.inl rfl) p (.inl hp)
        rw [hn2, hn3 p (H.lt p hp).2, I.edge p hp, if_pos hgo] at w
        simp only [List.count_reverse, List.count_append] at w
        have := List.count_pos_iff.2 hr
        omega
      · intro hd
        have hsize : pre.length = 1 := by
          have e1 := congrArg List.length I.split
          simp only [List.length_append, List.length_reverse] at e1 q1
          rcases I.size with ⟨-, w2, w3⟩ | ⟨w1, w2, w3⟩
          · rw [w2] at q1
            rw [w3] at e1
            simp only [List.length_nil] at e1 q1
            omega
          · exact w2
        refine Taking.finish H I q1 rfl rfl hn3 hn2 hd (fun p hp => ?_) ?_ (.inr hsize)
        · rw [hk, hps, List.drop_left, List.mem_reverse]
          exact hp
        · rw [hk, hps, List.take_left]

end Satis.Graph
