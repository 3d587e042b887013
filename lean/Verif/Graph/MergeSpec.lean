import Verif.Graph.MergeRound
import Verif.Graph.ExpandSpec
/-!
# `expand_merge` as a whole
-/

namespace Satis.Graph
open Satis

/-! ### For all inputs -/

theorem mergeRounds_always {h0 : Heap ℚ} {node : Addr} {t : Nat} (ht : 2 ≤ t) (hn0 : node < h0.next) (hl0 : (h0.get node).level ≠ none) :
    ∀ (fuel : Nat) (h : Heap ℚ) (todo : List Addr), todo.length ≤ fuel → h0.next ≤ h.next → (h.get node).level = (h0.get node).level →
      (h.get node).parents = (h0.get node).parents →
      (∀ a ∈ todo, a < h.next ∧ (h.get a).level ≠ none ∧ 0 ≤ (h.get a).value) →
      (∀ a, h0.next ≤ a → a < h.next → (h.get a).parents.length = 3) →
      ∃ h' todo', mergeRounds node t fuel h todo = .ok (h', todo') ∧ todo'.length ≤ t ∧ h0.next ≤ h'.next ∧
        (∀ a, h0.next ≤ a → a < h'.next → (h'.get a).parents.length = 3) ∧
        (t < todo.length → 2 * (h'.next - h.next) + todo'.length = todo.length ∧ t ≤ todo'.length + 1) ∧ (todo.length ≤ t → h' = h ∧ todo' = todo) := by
  intro fuel
  induction fuel with
  | zero =>
    intro h todo hf hge _ _ _ h3
    refine ⟨h, todo, ?_, by omega, hge, h3, by omega, fun _ => ⟨rfl, rfl⟩⟩
    rw [mergeRounds.eq_def]
    simp only
    rw [if_pos (by omega)]
  | succ fuel ih =>
    intro h todo hf hge hl hp hok h3
    by_cases hlen : todo.length ≤ t
    · refine ⟨h, todo, ?_, hlen, hge, h3, by omega, fun _ => ⟨rfl, rfl⟩⟩
      rw [mergeRounds.eq_def]
      simp only
      rw [if_pos hlen]
    · match todo, hlen, hf, hok with
      | [], hlen, _, _ => simp at hlen
      | [_], hlen, _, _ => simp at hlen; omega
      | [_, _], hlen, _, _ => simp at hlen; omega
      | a :: b :: c :: rest, hlen, hf, hok =>
        obtain ⟨h1, R, e⟩ := merge_round (node := node) (a := a) (b := b) (c := c) (h := h) (by omega)
          (fun x hx => hok x (by simp only [List.mem_cons, List.not_mem_nil, or_false] at hx ⊢; tauto)) rest t fuel (by omega)
        have hn1 := R.next
        simp only [List.length_cons] at hf hlen
        have hne : node ≠ h.next := by omega
        obtain ⟨h', todo', q1, q2, q3, q4, q5, q6⟩ := ih h1 (h.next :: rest) (by simp only [List.length_cons]; omega) (by omega)
          (by rw [R.old node hne]; exact hl) (by rw [R.old node hne]; exact hp)
          (by
            intro x hx
            simp only [List.mem_cons] at hx
            rcases hx with rfl | hx
            · refine ⟨by omega, ?_, ?_⟩
              · rw [R.new, hl]
                exact hl0
              · rw [R.new]
                have := out_nonneg (hok a (by simp)).2.2
                have := out_nonneg (hok b (by simp)).2.2
                have := out_nonneg (hok c (by simp)).2.2
                show 0 ≤ out h a + out h b + out h c
                linarith
            · obtain ⟨w1, w2, w3⟩ := hok x (by simp [hx])
              rw [R.old x (by omega)]
              exact ⟨by omega, w2, w3⟩)
          (by
            intro x h2 h4
            by_cases hx : x = h.next
            · rw [hx, R.new]
              rfl
            · rw [R.old x hx]
              exact h3 x h2 (by omega))
        rw [e]
        refine ⟨h', todo', q1, q2, q3, q4, ?_, ?_⟩
        · intro _
          simp only [List.length_cons] at q5 q6 ⊢
          by_cases hr : t < rest.length + 1
          · obtain ⟨w1, w2⟩ := q5 hr
            refine ⟨?_, w2⟩
            have : h1.next ≤ h'.next := by
              by_contra hc
              omega
            omega
          · obtain ⟨rfl, rfl⟩ := q6 (by omega)
            simp only [List.length_cons]
            omega
        · intro q
          simp only [List.length_cons] at q
          omega

/-! ### Different inputs -/

theorem filter_ne_length (n : Addr) (l : List Addr) : (l.filter fun y => decide (y ≠ n)).length + l.count n = l.length := by
  induction l with
  | nil => rfl
  | cons x l ih =>
    by_cases h : x = n
    · subst h
      simp at ih ⊢
      omega
    · simp [h] at ih ⊢
      omega

theorem count_filter_ne {n c : Addr} (hc : c ≠ n) (l : List Addr) : (l.filter fun y => decide (y ≠ n)).count c = l.count c := by
  rw [List.count_filter]
  simp [hc]

theorem out_eq_carried {h : Heap ℚ} {a x : Addr} (hx : 0 < (h.get a).children.count x) : out h a = carried h a := by
  unfold out carried sharedValue
  rw [if_neg]
  intro q
  rw [q] at hx
  simp at hx

/-- The state of the loop. -/
structure Merging (h0 : Heap ℚ) (node : Addr) (ps : List Addr) (h : Heap ℚ) (todo : List Addr) : Prop where
  ge : h0.next ≤ h.next
  nodup : todo.Nodup
  ok : ∀ a ∈ todo, a < h.next ∧ a ≠ node ∧ (h.get a).level ≠ none ∧ 0 ≤ (h.get a).value ∧ (h.get a).children.count node = 1
  mem : ∀ a ∈ todo, a ∈ ps ∨ h0.next ≤ a
  done : ∀ a, a ∈ ps ∨ h0.next ≤ a ∧ a < h.next → a ∉ todo → node ∉ (h.get a).children
  three : ∀ a, h0.next ≤ a → a < h.next → (h.get a).parents.length = 3 ∧ ∃ b, (h.get a).children = [b] ∧
    (a ∈ todo ∧ b = node ∨ a < b ∧ b < h.next)
  sources : ∀ a, h0.next ≤ a → a < h.next → ∀ p ∈ (h.get a).parents, p ∈ ps ∨ h0.next ≤ p ∧ p < a
  sums : ∀ a, h0.next ≤ a → a < h.next → (h.get a).value = ((h.get a).parents.map (carried h)).sum
  total : (todo.map (carried h)).sum = (ps.map (carried h0)).sum
  lens : ∀ p ∈ ps, (h.get p).children.length = (h0.get p).children.length
  others : ∀ p ∈ ps, ∀ c, c < h0.next → c ≠ node → (h.get p).children.count c = (h0.get p).children.count c
  closed : ∀ p, p ∈ ps ∨ h0.next ≤ p ∧ p < h.next → ∀ c ∈ (h.get p).children, c < h.next
  links : ∀ c, h0.next ≤ c → c < h.next → ∀ p, p ∈ ps ∨ h0.next ≤ p ∧ p < h.next → (h.get c).parents.count p = (h.get p).children.count c
  fed : ∀ p ∈ ps, p ∈ todo ∨ ∃ c, h0.next ≤ c ∧ c < h.next ∧ c ∈ (h.get p).children
  levels : ∀ a, h0.next ≤ a → a < h.next → (h.get a).level = (h0.get node).level
  quiet : ∀ a, h0.next ≤ a → a < h.next → (h.get a).expands = []
  ids : ∀ a, h0.next ≤ a → a < h.next → (h.get a).id = h0.nextUid + (a - h0.next)
  uid : h.nextUid = h0.nextUid + (h.next - h0.next)
  frame : ∀ a, a < h0.next → a ∉ ps → h.get a = h0.get a
  kept : ∀ a ∈ ps, h.get a = { h0.get a with children := (h.get a).children }

theorem Merging.step {h0 h h' : Heap ℚ} {node : Addr} {ps : List Addr} {a b c : Addr} {rest : List Addr}
    (I : Merging h0 node ps h (a :: b :: c :: rest)) (hn : node < h0.next) (hps : ∀ p ∈ ps, p < h0.next) (hnp : node ∉ ps) (hl0 : (h0.get node).level ≠ none)
    (R : Round h h' node a b c) :
    Merging h0 node ps h' (h.next :: rest) := by
  have hge := I.ge
  have hnx := R.next
  have hnd := I.nodup
  have hok : ∀ x ∈ [a, b, c], x < h.next ∧ x ≠ node ∧ (h.get x).level ≠ none ∧ 0 ≤ (h.get x).value ∧ (h.get x).children.count node = 1 :=
    fun x hx => I.ok x (by simp only [List.mem_cons, List.not_mem_nil, or_false] at hx ⊢; tauto)
  have hnd3 : [a, b, c].Nodup := by
    have : (([a, b, c] : List Addr) ++ rest).Nodup := hnd
    exact (List.nodup_append.1 this).1
  have hdis : ∀ x ∈ [a, b, c], x ∉ rest := by
    have : (([a, b, c] : List Addr) ++ rest).Nodup := hnd
    intro x hx hr
    exact (List.nodup_append.1 this).2.2 x hx x hr rfl
  have hrnd : rest.Nodup := by
    have : (([a, b, c] : List Addr) ++ rest).Nodup := hnd
    exact (List.nodup_append.1 this).2.1
  have hrest : ∀ x ∈ rest, x ∈ a :: b :: c :: rest := fun x hx => by simp [hx]
  have htri : ∀ x ∈ [a, b, c], x ∈ a :: b :: c :: rest := fun x hx => by
    simp only [List.mem_cons, List.not_mem_nil, or_false] at hx ⊢
    tauto
  have hin : ∀ x, x ∈ a :: b :: c :: rest → x ∈ [a, b, c] ∨ x ∈ rest := fun x hx => by
    simp only [List.mem_cons, List.not_mem_nil, or_false] at hx ⊢
    tauto
  -- the children of the three
  have hch3 : ∀ x ∈ [a, b, c], (h'.get x).children = ((h.get x).children.filter fun y => decide (y ≠ node)) ++ [h.next] := fun x hx => by
    have := (hok x hx).1
    rw [R.old x (by omega)]
    simp only [if_pos hx, List.count_eq_one_of_mem hnd3 hx, List.replicate_one]
  have hch : ∀ x, x ≠ h.next → x ∉ [a, b, c] → h'.get x = h.get x := fun x hx hx3 => by
    rw [R.old x hx]
    simp only [if_neg hx3]
  have hval : ∀ x, x ≠ h.next → (h'.get x).value = (h.get x).value := fun x hx => by rw [R.old x hx]
  have hpar : ∀ x, x ≠ h.next → (h'.get x).parents = (h.get x).parents := fun x hx => by rw [R.old x hx]
  have hlev : ∀ x, x ≠ h.next → (h'.get x).level = (h.get x).level := fun x hx => by rw [R.old x hx]
  have hid : ∀ x, x ≠ h.next → (h'.get x).id = (h.get x).id := fun x hx => by rw [R.old x hx]
  have hlen : ∀ x, x ≠ h.next → (h'.get x).children.length = (h.get x).children.length := fun x hx => by
    by_cases hx3 : x ∈ [a, b, c]
    · rw [hch3 x hx3, List.length_append]
      have := filter_ne_length node (h.get x).children
      have := (hok x hx3).2.2.2.2
      simp only [List.length_singleton]
      omega
    · rw [hch x hx hx3]
  have hcar : ∀ x, x ≠ h.next → carried h' x = carried h x := fun x hx => by
    unfold carried
    rw [hval x hx, hlen x hx]
  have hout : ∀ x ∈ [a, b, c], out h x = carried h x := fun x hx =>
    out_eq_carried (x := node) (by have := (hok x hx).2.2.2.2; omega)
  have hnewv : (h'.get h.next).value = carried h a + carried h b + carried h c := by
    rw [R.new]
    show out h a + out h b + out h c = _
    rw [hout a (by simp), hout b (by simp), hout c (by simp)]
  have hnewc : (h'.get h.next).children = [node] := by rw [R.new]
  have hnewp : (h'.get h.next).parents = [a, b, c] := by rw [R.new]
  have hcarn : carried h' h.next = carried h a + carried h b + carried h c := by
    unfold carried
    rw [hnewv, hnewc]
    simp [carried]
  have hcnt : ∀ x, x ≠ h.next → ∀ y, y ≠ node → y ≠ h.next → (h'.get x).children.count y = (h.get x).children.count y := fun x hx y hy1 hy2 => by
    by_cases hx3 : x ∈ [a, b, c]
    · rw [hch3 x hx3, List.count_append, count_filter_ne hy1]
      simp [Ne.symm hy2]
    · rw [hch x hx hx3]
  have hnodeh : node ≠ h.next := by omega
  refine ⟨by omega, ?_, ?_, ?_, ?_, ?_, ?_, ?_, ?_, ?_, ?_, ?_, ?_, ?_, ?_, ?_, ?_, ?_, ?_, ?_⟩
  · -- nodup
    rw [List.nodup_cons]
    refine ⟨fun q => ?_, hrnd⟩
    have := (I.ok _ (hrest _ q)).1
    omega
  · intro x hx
    simp only [List.mem_cons] at hx
    rcases hx with rfl | hx
    · refine ⟨by omega, by omega, ?_, ?_, ?_⟩
      · rw [R.new]
        show (h.get node).level ≠ none
        rw [I.frame node hn hnp]
        exact hl0
      · rw [hnewv]
        have : ∀ x ∈ [a, b, c], 0 ≤ carried h x := fun x hx => by
          unfold carried
          have := (hok x hx).2.2.2.1
          positivity
        have h1 := this a (by simp)
        have h2 := this b (by simp)
        have h3 := this c (by simp)
        linarith
      · rw [hnewc]
        simp
    · obtain ⟨q1, q2, q3, q4, q5⟩ := I.ok x (hrest x hx)
      have hx3 : x ∉ [a, b, c] := fun q => hdis x q hx
      have hxn : x ≠ h.next := by omega
      rw [hch x hxn hx3]
      exact ⟨by omega, q2, q3, q4, q5⟩
  · intro x hx
    simp only [List.mem_cons] at hx
    rcases hx with rfl | hx
    · exact .inr hge
    · exact I.mem x (hrest x hx)
  · intro x hx hxt
    simp only [List.mem_cons, not_or] at hxt
    have hxn : x ≠ h.next := hxt.1
    have hx' : x ∈ ps ∨ h0.next ≤ x ∧ x < h.next := by
      rcases hx with q | q
      · exact .inl q
      · exact .inr ⟨q.1, by omega⟩
    by_cases hx3 : x ∈ [a, b, c]
    · rw [hch3 x hx3]
      simp [hnodeh]
    · rw [hch x hxn hx3]
      refine I.done x hx' fun q => ?_
      rcases hin x q with q | q
      · exact hx3 q
      · exact hxt.2 q
  · intro x h1 h2
    by_cases hxn : x = h.next
    · subst hxn
      rw [hnewp, hnewc]
      exact ⟨rfl, node, rfl, .inl ⟨by simp, rfl⟩⟩
    · obtain ⟨q1, b', q2, q3⟩ := I.three x h1 (by omega)
      rw [hpar x hxn]
      refine ⟨q1, ?_⟩
      by_cases hx3 : x ∈ [a, b, c]
      · rw [hch3 x hx3]
        have hb : b' = node := by
          have := (hok x hx3).2.2.2.2
          rw [q2] at this
          by_contra hne
          simp [hne] at this
        rw [q2, hb]
        exact ⟨h.next, by simp, .inr ⟨by omega, by omega⟩⟩
      · rw [hch x hxn hx3]
        refine ⟨b', q2, ?_⟩
        rcases q3 with q3 | q3
        · left
          refine ⟨?_, q3.2⟩
          rcases hin x q3.1 with q | q
          · exact absurd q hx3
          · simp [q]
        · exact .inr ⟨q3.1, by omega⟩
  · intro x h1 h2 p hp
    by_cases hxn : x = h.next
    · subst hxn
      rw [hnewp] at hp
      rcases I.mem p (htri p hp) with q | q
      · exact .inl q
      · exact .inr ⟨q, (hok p hp).1⟩
    · rw [hpar x hxn] at hp
      exact I.sources x h1 (by omega) p hp
  · intro x h1 h2
    by_cases hxn : x = h.next
    · subst hxn
      have e1 : ∀ y ∈ [a, b, c], carried h' y = carried h y := fun y hy => hcar y (by have := (hok y hy).1; omega)
      rw [hnewp, hnewv]
      simp only [List.map_cons, List.map_nil, List.sum_cons, List.sum_nil]
      rw [e1 a (by simp), e1 b (by simp), e1 c (by simp)]
      ring
    · rw [hpar x hxn, hval x hxn, I.sums x h1 (by omega)]
      congr 1
      apply List.map_congr_left
      intro p hp
      refine (hcar p ?_).symm
      rcases I.sources x h1 (by omega) p hp with q | q
      · have := hps p q; omega
      · omega
  · rw [← I.total]
    simp only [List.map_cons, List.sum_cons]
    rw [hcarn]
    have : rest.map (carried h') = rest.map (carried h) := List.map_congr_left fun x hx =>
      hcar x (by have := (I.ok x (hrest x hx)).1; omega)
    rw [this]
    ring
  · intro p hp
    rw [hlen p (by have := hps p hp; omega)]
    exact I.lens p hp
  · intro p hp y h1 h2
    rw [hcnt p (by have := hps p hp; omega) y h2 (by omega)]
    exact I.others p hp y h1 h2
  · intro p hp y hy
    by_cases hpn : p = h.next
    · subst hpn
      rw [hnewc] at hy
      simp at hy
      omega
    · have hp' : p ∈ ps ∨ h0.next ≤ p ∧ p < h.next := by
        rcases hp with q | q
        · exact .inl q
        · exact .inr ⟨q.1, by omega⟩
      by_cases hp3 : p ∈ [a, b, c]
      · rw [hch3 p hp3] at hy
        rcases List.mem_append.1 hy with hy | hy
        · have := I.closed p hp' y (List.mem_filter.1 hy).1
          omega
        · simp at hy
          omega
      · rw [hch p hpn hp3] at hy
        have := I.closed p hp' y hy
        omega
  · intro y h1 h2 p hp
    have hpn' : p = h.next ∨ p ≠ h.next ∧ (p ∈ ps ∨ h0.next ≤ p ∧ p < h.next) := by
      by_cases q : p = h.next
      · exact .inl q
      · refine .inr ⟨q, ?_⟩
        rcases hp with w | w
        · exact .inl w
        · exact .inr ⟨w.1, by omega⟩
    by_cases hyn : y = h.next
    · subst hyn
      rw [hnewp]
      rcases hpn' with rfl | ⟨hpn, hp'⟩
      · rw [hnewc, List.count_eq_zero.2 (fun q => by have := (hok _ q).1; omega), List.count_eq_zero.2]
        simp
        omega
      · have hno : h.next ∉ (h.get p).children := fun q => by
          have := I.closed p hp' _ q
          omega
        by_cases hp3 : p ∈ [a, b, c]
        · rw [hch3 p hp3, List.count_append, count_filter_ne hnodeh.symm, List.count_eq_one_of_mem hnd3 hp3, List.count_eq_zero.2 hno]
          simp
        · rw [hch p hpn hp3, List.count_eq_zero.2 hp3, List.count_eq_zero.2 hno]
    · rw [hpar y hyn]
      have hyn0 : y ≠ node := by omega
      rcases hpn' with rfl | ⟨hpn, hp'⟩
      · rw [hnewc, List.count_eq_zero.2, List.count_eq_zero.2]
        · simp; omega
        · intro q
          rcases I.sources y h1 (by omega) _ q with w | w
          · have := hps _ w; omega
          · omega
      · rw [hcnt p hpn y hyn0 hyn]
        exact I.links y h1 (by omega) p hp'
  · intro p hp
    have hpn : p ≠ h.next := by have := hps p hp; omega
    by_cases hp3 : p ∈ [a, b, c]
    · right
      refine ⟨h.next, hge, by omega, ?_⟩
      rw [hch3 p hp3]
      simp
    · rcases I.fed p hp with q | ⟨y, q1, q2, q3⟩
      · rcases hin p q with q | q
        · exact absurd q hp3
        · left; simp [q]
      · right
        refine ⟨y, q1, by omega, ?_⟩
        rw [hch p hpn hp3]
        exact q3
  · intro x h1 h2
    by_cases hxn : x = h.next
    · subst hxn
      rw [R.new]
      show (h.get node).level = _
      rw [I.frame node hn hnp]
    · rw [hlev x hxn]
      exact I.levels x h1 (by omega)
  · intro x h1 h2
    by_cases hxn : x = h.next
    · subst hxn
      rw [R.new]
    · rw [R.old x hxn]
      exact I.quiet x h1 (by omega)
  · intro x h1 h2
    by_cases hxn : x = h.next
    · subst hxn
      rw [R.new]
      exact I.uid
    · rw [hid x hxn]
      exact I.ids x h1 (by omega)
  · rw [R.uid, I.uid]
    omega
  · intro x h1 h2
    have hx3 : x ∉ [a, b, c] := fun q => by
      rcases I.mem x (htri x q) with w | w
      · exact h2 w
      · omega
    rw [hch x (by omega) hx3]
    exact I.frame x h1 h2
  · intro x hx
    have := hps x hx
    rw [R.old x (by omega)]
    simp only
    conv_lhs => rw [I.kept x hx]

theorem mergeRounds_merging {h0 : Heap ℚ} {node : Addr} {ps : List Addr} {t : Nat} (ht : 2 ≤ t) (hn : node < h0.next)
    (hps : ∀ p ∈ ps, p < h0.next) (hnp : node ∉ ps) (hl0 : (h0.get node).level ≠ none) : ∀ (fuel : Nat) (h : Heap ℚ) (todo : List Addr),
      todo.length ≤ fuel → Merging h0 node ps h todo →
      ∃ h' todo', mergeRounds node t fuel h todo = .ok (h', todo') ∧ todo'.length ≤ t ∧ Merging h0 node ps h' todo' := by
  intro fuel
  induction fuel with
  | zero =>
    intro h todo hf I
    refine ⟨h, todo, ?_, by omega, I⟩
    rw [mergeRounds.eq_def]
    simp only
    rw [if_pos (by omega)]
  | succ fuel ih =>
    intro h todo hf I
    by_cases hlen : todo.length ≤ t
    · refine ⟨h, todo, ?_, hlen, I⟩
      rw [mergeRounds.eq_def]
      simp only
      rw [if_pos hlen]
    · match todo, hlen, hf, I with
      | [], hlen, _, _ => simp at hlen
      | [_], hlen, _, _ => simp at hlen; omega
      | [_, _], hlen, _, _ => simp at hlen; omega
      | a :: b :: c :: rest, hlen, hf, I =>
        obtain ⟨h1, R, e⟩ := merge_round (node := node) (a := a) (b := b) (c := c) (h := h) (by have := I.ge; omega)
          (fun x hx => by
            obtain ⟨q1, q2, q3, q4, q5⟩ := I.ok x (by simp only [List.mem_cons, List.not_mem_nil, or_false] at hx ⊢; tauto)
            exact ⟨q1, q3, q4⟩) rest t fuel (by omega)
        simp only [List.length_cons] at hf hlen
        rw [e]
        exact ih h1 (h.next :: rest) (by simp only [List.length_cons]; omega) (I.step hn hps hnp hl0 R)

theorem Merging.start {h : Heap ℚ} {node : Addr} (H : MergeInput h node) :
    Merging h node (h.get node).parents h (h.get node).parents.reverse where
  ge := le_rfl
  nodup := List.nodup_reverse.2 H.nodup
  ok a ha := by
    rw [List.mem_reverse] at ha
    exact ⟨(H.lt a ha).1, (H.lt a ha).2, H.levels a ha, H.nonneg a ha, H.once a ha⟩
  mem a ha := .inl (List.mem_reverse.1 ha)
  done a ha hb := by
    rw [List.mem_reverse] at hb
    rcases ha with q | q
    · exact absurd q hb
    · omega
  three a h1 h2 := by omega
  sources a h1 h2 := by omega
  sums a h1 h2 := by omega
  total := by rw [List.map_reverse, List.sum_reverse]
  lens _ _ := rfl
  others _ _ _ _ _ := rfl
  closed p hp c hc := by
    rcases hp with q | q
    · exact H.closed p q c hc
    · omega
  links c h1 h2 := by omega
  fed p hp := .inl (List.mem_reverse.2 hp)
  levels a h1 h2 := by omega
  quiet a h1 h2 := by omega
  ids a h1 h2 := by omega
  uid := by omega
  frame _ _ _ := rfl
  kept _ _ := rfl

theorem reach_trans {h : Heap ℚ} {rs : List Addr} {b c : Addr} (h1 : Reach h rs b) (h2 : Reach h [b] c) : Reach h rs c := by
  induction h2 with
  | root w => simp at w; rw [w]; exact h1
  | child _ w ih => exact .child ih w

theorem Merging.finish {h h1 h' : Heap ℚ} {node : Addr} {t : Nat} {todo : List Addr} (H : MergeInput h node)
    (I : Merging h node (h.get node).parents h1 todo) (hlen : todo.length ≤ t) (hn : h'.next = h1.next) (hu : h'.nextUid = h1.nextUid)
    (hg : ∀ x, x ≠ node → h'.get x = h1.get x) (hnode : h'.get node = { h1.get node with parents := todo.reverse }) :
    MergerNetwork h h' node t := by
  have hnp : node ∉ (h.get node).parents := fun q => (H.lt _ q).2 rfl
  have hlt := fun p hp => (H.lt p hp).1
  have hne := fun p hp => (H.lt p hp).2
  have hin := H.inside
  have hge := I.ge
  have hch : ∀ x, (h'.get x).children = (h1.get x).children := fun x => by
    by_cases hx : x = node
    · subst hx; rw [hnode]
    · rw [hg x hx]
  have hva : ∀ x, (h'.get x).value = (h1.get x).value := fun x => by
    by_cases hx : x = node
    · subst hx; rw [hnode]
    · rw [hg x hx]
  have hcar : carried h' = carried h1 := by
    funext x
    unfold carried
    rw [hch, hva]
  have hpn : (h'.get node).parents = todo.reverse := by rw [hnode]
  have hpv : ∀ p ∈ (h.get node).parents, (h1.get p).value = (h.get p).value := fun p hp => by rw [I.kept p hp]
  have hup : ∀ k x, h1.next - x ≤ k → h.next ≤ x → x < h1.next → Reach h' [x] node := by
    intro k
    induction k with
    | zero => intro x q1 q2 q3; omega
    | succ k ih =>
      intro x q1 q2 q3
      obtain ⟨-, b, e, q⟩ := I.three x q2 q3
      have hb : b ∈ (h'.get x).children := by rw [hch, e]; simp
      rcases q with q | q
      · rw [q.2] at hb
        exact .child (.root (by simp)) hb
      · have := ih b (by omega) (by omega) q.2
        have h0 : Reach h' [x] b := .child (.root (by simp)) hb
        exact reach_trans h0 this
  refine ⟨by omega, ?_, ?_, ?_, ?_, ?_, ?_, ?_, ?_, ?_, ?_, ?_, ?_, ?_, ?_, ?_, ?_, ?_⟩
  · rw [hpn, List.length_reverse]
    exact hlen
  · intro p hp
    rw [hpn, List.mem_reverse] at hp
    rcases I.mem p hp with q | q
    · exact .inl q
    · exact .inr ⟨q, by have := (I.ok p hp).1; omega⟩
  · intro a q1 q2
    obtain ⟨w1, b, w2, w3⟩ := I.three a q1 (by omega)
    rw [hg a (by omega)]
    refine ⟨w1, b, w2, ?_⟩
    rcases w3 with w3 | w3
    · exact .inl w3.2
    · exact .inr (by omega)
  · intro a q1 q2 p hp
    rw [hg a (by omega)] at hp
    exact I.sources a q1 (by omega) p hp
  · intro a q1 q2
    rw [hcar, hg a (by omega)]
    exact I.sums a q1 (by omega)
  · rw [hcar, hpn, List.map_reverse, List.sum_reverse]
    exact I.total
  · intro p hp
    rw [hcar]
    unfold carried
    rw [hpv p hp, I.lens p hp]
  · intro p hp c q1 q2
    rw [hch]
    exact I.others p hp c q1 q2
  · intro c hc p hp
    rw [hch]
    have hp' : p ∈ (h.get node).parents ∨ h.next ≤ p ∧ p < h1.next := by rw [hn] at hp; exact hp
    by_cases hcn : c = node
    · subst hcn
      rw [hpn, List.count_reverse]
      by_cases hpt : p ∈ todo
      · rw [(I.ok p hpt).2.2.2.2, List.count_eq_one_of_mem I.nodup hpt]
      · rw [List.count_eq_zero.2 hpt, List.count_eq_zero.2 (I.done p hp' hpt)]
    · rw [hg c hcn]
      rcases hc with q | q
      · exact absurd q hcn
      · exact I.links c q.1 (by omega) p hp'
  · intro p hp
    rcases I.fed p hp with q | ⟨c, q1, q2, q3⟩
    · have h1 := (I.ok p q).2.2.2.2
      have : node ∈ (h'.get p).children := by
        rw [hch]
        exact List.count_pos_iff.1 (by omega)
      exact .child (.root (by simp)) this
    · have := hup _ c le_rfl q1 q2
      have h0 : Reach h' [p] c := .child (.root (List.mem_singleton.2 rfl)) (by rw [hch]; exact q3)
      exact reach_trans h0 this
  · intro a q1 q2
    rw [hg a (by omega)]
    exact I.levels a q1 (by omega)
  · intro a q1 q2
    rw [hg a (by omega)]
    exact I.quiet a q1 (by omega)
  · intro a q1 q2
    rw [hg a (by omega)]
    exact I.ids a q1 (by omega)
  · rw [hu, hn]
    exact I.uid
  · intro a q1 q2 q3
    rw [hg a q2]
    exact I.frame a q1 q3
  · intro a ha
    rw [hg a (hne a ha)]
    exact I.kept a ha
  · rw [hnode, I.frame node hin hnp]

theorem expandMerge_network {h : Heap ℚ} {node : Addr} {t : Nat} (ht : 2 ≤ t) (H : MergeInput h node) :
    ∃ h', expandMerge h node t = .ok (h', (0, 0)) ∧ MergerNetwork h h' node t := by
  have I0 := Merging.start H
  unfold expandMerge
  by_cases hlen : (h.get node).parents.length ≤ t
  · rw [if_pos hlen]
    refine ⟨h, rfl, Merging.finish H I0 (by simpa using hlen) rfl rfl (fun _ _ => rfl) ?_⟩
    rw [List.reverse_reverse]
  · rw [if_neg hlen]
    obtain ⟨h1, todo, e, q, I⟩ := mergeRounds_merging ht H.inside (fun p hp => (H.lt p hp).1) (fun q => (H.lt _ q).2 rfl) H.level
      (h.get node).parents.length h (h.get node).parents.reverse (by simp) I0
    simp only [e, bind, Except.bind, pure, Except.pure]
    refine ⟨_, rfl, Merging.finish H I q rfl rfl (fun x hx => ?_) ?_⟩
    · rw [Heap.get_modify, if_neg hx]
    · rw [Heap.get_modify, if_pos rfl]

/-- For all inputs, also repeated ones. -/
theorem expandMerge_always {h : Heap ℚ} {node : Addr} {t : Nat} (ht : 2 ≤ t) (hn : node < h.next) (hl : (h.get node).level ≠ none)
    (hp : ∀ p ∈ (h.get node).parents, p < h.next ∧ (h.get p).level ≠ none ∧ 0 ≤ (h.get p).value) :
    ∃ h', expandMerge h node t = .ok (h', (0, 0)) ∧ (h'.get node).parents.length ≤ t ∧
      (∀ a, h.next ≤ a → a < h'.next → (h'.get a).parents.length = 3) ∧
      h'.next - h.next = ((h.get node).parents.length - t + 1) / 2 := by
  unfold expandMerge
  by_cases hlen : (h.get node).parents.length ≤ t
  · rw [if_pos hlen]
    refine ⟨h, rfl, hlen, fun a h1 h2 => by omega, by omega⟩
  · rw [if_neg hlen]
    obtain ⟨h', todo, e, q1, q2, q3, q4, -⟩ := mergeRounds_always ht hn hl (h.get node).parents.length h (h.get node).parents.reverse (by simp)
      le_rfl rfl rfl (fun a ha => hp a (List.mem_reverse.1 ha)) (fun a h1 h2 => by omega)
    simp only [e, bind, Except.bind, pure, Except.pure]
    rw [List.length_reverse] at q4
    obtain ⟨w1, w2⟩ := q4 (by omega)
    refine ⟨_, rfl, ?_, ?_, ?_⟩
    · rw [Heap.get_modify, if_pos rfl, List.length_reverse]
      exact q1
    · intro a h1 h2
      rw [Heap.get_modify, if_neg (by omega)]
      exact q3 a h1 h2
    · show h'.next - h.next = _
      omega

end Satis.Graph
