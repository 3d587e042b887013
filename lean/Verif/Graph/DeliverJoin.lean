import Verif.Graph.MergeSpec
import Verif.Graph.Tally
/-!
# Merging belts in a network that is partly expanded
-/

namespace Satis.Graph
open Satis Satis.Cost

variable {Z : Addr → Prop} {Q : Terms} {cfg : Config} {speeds : List Nat} {roots : List Addr} {supply : Addr → ℚ} {h h' : Heap ℚ} {U : Addr → Prop}
  {T : Addr → ℚ} {f : Addr → Addr → ℚ}

/-- The heap in which the pending expansions of the node are `es`. -/
abbrev popped (h : Heap ℚ) (node : Addr) (es : List (Expand ℚ)) : Heap ℚ := h.modify node fun o => { o with expands := es }

theorem popped_ne (h : Heap ℚ) {node : Addr} (es : List (Expand ℚ)) {a : Addr} (ha : a ≠ node) : (popped h node es).get a = h.get a := by
  rw [Heap.get_modify, if_neg ha]

theorem popped_self (h : Heap ℚ) (node : Addr) (es : List (Expand ℚ)) : (popped h node es).get node = { h.get node with expands := es } := by
  rw [Heap.get_modify, if_pos rfl]

theorem popped_value (h : Heap ℚ) (node : Addr) (es : List (Expand ℚ)) (a : Addr) : ((popped h node es).get a).value = (h.get a).value := by
  by_cases q : a = node
  · subst q; rw [popped_self]
  · rw [popped_ne h es q]

theorem popped_parents (h : Heap ℚ) (node : Addr) (es : List (Expand ℚ)) (a : Addr) : ((popped h node es).get a).parents = (h.get a).parents := by
  by_cases q : a = node
  · subst q; rw [popped_self]
  · rw [popped_ne h es q]

theorem popped_children (h : Heap ℚ) (node : Addr) (es : List (Expand ℚ)) (a : Addr) : ((popped h node es).get a).children = (h.get a).children := by
  by_cases q : a = node
  · subst q; rw [popped_self]
  · rw [popped_ne h es q]

theorem popped_level (h : Heap ℚ) (node : Addr) (es : List (Expand ℚ)) (a : Addr) : ((popped h node es).get a).level = (h.get a).level := by
  by_cases q : a = node
  · subst q; rw [popped_self]
  · rw [popped_ne h es q]

/-- What merging the belts that enter `node` does: `es` is left to be done for the node. -/
structure Funnelled (h h' : Heap ℚ) (node : Addr) (t : Nat) (es : List (Expand ℚ)) : Prop where
  next : h.next ≤ h'.next
  few : (h'.get node).parents.length ≤ t
  order : ∃ ms, (h'.get node).parents = (h.get node).parents.take (untouched t (h.get node).parents.length) ++ ms ∧
    (ms = [] ∧ (h.get node).parents.length ≤ t ∨ ∃ m, ms = [m] ∧ h.next ≤ m ∧ m < h'.next)
  inputs : ∀ p ∈ (h'.get node).parents, p ∈ (h.get node).parents ∨ h.next ≤ p ∧ p < h'.next
  three : ∀ a, h.next ≤ a → a < h'.next → (h'.get a).parents.length = 3 ∧ ∃ b, (h'.get a).children = [b] ∧ (b = node ∨ a < b ∧ b < h'.next)
  sources : ∀ a, h.next ≤ a → a < h'.next → ∀ p ∈ (h'.get a).parents, p ∈ (h.get node).parents ∨ h.next ≤ p ∧ p < a
  lens : ∀ p ∈ (h.get node).parents, (h'.get p).children.length = (h.get p).children.length
  others : ∀ p ∈ (h.get node).parents, ∀ c, c < h.next → c ≠ node → (h'.get p).children.count c = (h.get p).children.count c
  links : ∀ c, c = node ∨ h.next ≤ c ∧ c < h'.next → ∀ p, p ∈ (h.get node).parents ∨ h.next ≤ p ∧ p < h'.next →
    (h'.get c).parents.count p = (h'.get p).children.count c
  flow : ∀ f : Addr → ℚ, ∃ g : Addr → ℚ, (∀ a, a < h.next → g a = f a) ∧
    (∀ a, h.next ≤ a → a < h'.next → g a = ((h'.get a).parents.map g).sum) ∧
    ((h'.get node).parents.map g).sum = ((h.get node).parents.map f).sum
  reach : ∀ p ∈ (h.get node).parents, Reach h' [p] node
  quiet : ∀ a, h.next ≤ a → a < h'.next → (h'.get a).expands = []
  frame : ∀ a, a < h.next → a ≠ node → a ∉ (h.get node).parents → h'.get a = h.get a
  keptParents : ∀ a ∈ (h.get node).parents, h'.get a = { h.get a with children := (h'.get a).children }
  keptNode : h'.get node = { h.get node with parents := (h'.get node).parents, expands := es }
  still : ∀ p ∈ (h.get node).parents, p ∉ (h.get node).parents.drop (untouched t (h.get node).parents.length) →
    (h'.get p).children = (h.get p).children
  trim : ∀ p ∈ (h.get node).parents, ∃ l₁ l₂, (h'.get p).children = l₁ ++ l₂ ∧
    (l₁ = (h.get p).children ∨ l₁ = (h.get p).children.filter fun y => decide (y ≠ node)) ∧ ∀ x ∈ l₂, h.next ≤ x ∧ x < h'.next
  worth : ∀ a, h.next ≤ a → a < h'.next → 0 ≤ (h'.get a).value
  labelled : Together (h.get node).parents → ∀ a, h.next ≤ a → a < h'.next →
    (h'.get a).value = ((h'.get a).parents.map fun p => (h'.get p).value / (h'.get p).children.length).sum
  spared : (h'.get node).parents.length + 2 * (h'.next - h.next) = (h.get node).parents.length

/-- A pending merge. -/
theorem Mixed.merge_run (M : Mixed Z Q speeds roots supply h U T f) {node : Addr} (hU : U node) (es : List (Expand ℚ)) {t : Nat} (ht : 2 ≤ t)
    (hp : Parted t (h.get node).parents) :
    ∃ h' u, runExpand cfg (popped h node es) node (.merge t) = .ok (h', u) ∧ Funnelled h h' node t es := by
  have hin := M.region.inside
  have hne : ∀ p ∈ (h.get node).parents, p ≠ node := fun p hp e => M.apart node hU (e ▸ hp)
  have hpp := popped_parents h node es node
  have H : BeltInput (popped h node es) node := by
    refine ⟨hin node hU, ?_, ?_, ?_, ?_, ?_, ?_⟩
    · rw [popped_level]; exact M.levels node hU
    · rw [hpp]
      exact fun p hp => ⟨hin p (M.region.parents node hU p hp), hne p hp⟩
    · rw [hpp]
      intro p hp
      rw [popped_level]
      exact M.levels p (M.region.parents node hU p hp)
    · rw [hpp]
      intro p hp
      rw [popped_value]
      exact M.nonneg p (M.region.parents node hU p hp)
    · rw [hpp]
      intro p hp
      rw [popped_children]
      exact M.count p node (M.region.parents node hU p hp) hU
    · rw [hpp]
      intro p hp c hc
      rw [popped_children] at hc
      exact hin c (M.region.children p (M.region.parents node hU p hp) c hc)
  obtain ⟨h', e, N⟩ := expandMerge_belts ht H
  have N := N.2 (by rw [hpp]; exact hp)
  obtain ⟨h'', e', -, -, hsize⟩ := expandMerge_always ht H.inside H.level fun p hp => ⟨(H.lt p hp).1, H.levels p hp, H.nonneg p hp⟩
  rw [e] at e'
  simp only [Except.ok.injEq, Prod.mk.injEq, and_true] at e'
  subst e'
  have q1 := N.order
  have q2 := N.inputs
  have q3 := N.sources
  have q4 := N.lens
  have q5 := N.others
  have q6 := N.links
  have q7 := N.flow
  have q8 := N.reach
  have q9 := N.frame
  have q10 := N.keptParents
  have q11 := N.still
  have q12 := N.trim
  have q13 := N.labelled
  rw [hpp] at q1 q2 q4 q5 q8 q10 q11 q12 q13 hsize
  simp only [hpp] at q3 q6 q7 q9
  refine ⟨h', _, e, N.next, N.few, q1, q2, N.three, q3, ?_, ?_, q6, q7, q8, N.quiet, ?_, ?_, ?_, ?_, ?_, N.worth, q13, ?_⟩
  · intro p hp
    rw [q4 p hp, popped_children]
  · intro p hp c h1 h2
    rw [q5 p hp c h1 h2, popped_children]
  · intro a h1 h2 h3
    rw [q9 a h1 h2 h3, popped_ne h es h2]
  · intro a ha
    have := q10 a ha
    rw [popped_ne h es (hne a ha)] at this
    exact this
  · rw [N.keptNode, popped_self]
  · intro p hp h2
    rw [q11 p hp h2, popped_children]
  · intro p hp
    have := q12 p hp
    rw [popped_children] at this
    exact this
  · have hsize : h'.next - h.next = ((h.get node).parents.length - t + 1) / 2 := hsize
    obtain ⟨ms, o1, o2⟩ := q1
    rw [o1, List.length_append, List.length_take]
    unfold untouched
    rcases o2 with ⟨rfl, o2⟩ | ⟨m, rfl, o3, o4⟩
    · rw [if_pos o2, List.length_nil]
      omega
    · rw [List.length_singleton]
      split <;> omega

theorem Mixed.join (M : Mixed Z Q speeds roots supply h U T f) {node : Addr} (hU : U node) {es post : List (Expand ℚ)} {t : Nat}
    (he : (h.get node).expands = .merge t :: (es ++ post)) (O : Outlet Z speeds roots h T f node es) (hpost : ∀ e ∈ post, e = .merge (cap roots node))
    (N : Funnelled h h' node t (es ++ post)) (ht : t ≤ cap roots node) (hZ : Z node ∨ post = [] ∧ ∀ p ∈ (h.get node).parents, (h.get p).children = [node])
    (hA : ¬ Above h U node) (hfit : Lodges (cap roots node) h node (h'.get node).parents)
    (hbook : Q.book ≠ none → Together (h.get node).parents ∧ Together ((h'.get node).parents.map Sum.inl ++ (loops h node).map Sum.inr))
    (hPart : Parted t (h.get node).parents) (ht3 : node ∉ roots → t = 3) (R : Region h' (Within h U h'))
    (hlev : ∀ a, Within h U h' a → (h'.get a).level ≠ none) :
    ∃ T' f', Mixed Z Q speeds roots supply h' (Within h U h') T' f' := by
  have hin := M.region.inside
  have hnode := hin node hU
  have hnext := N.next
  obtain ⟨ps, hps⟩ : ∃ ps, ps = (h.get node).parents := ⟨_, rfl⟩
  have psU : ∀ p ∈ ps, U p := fun p hp => M.region.parents node hU p (hps ▸ hp)
  have psNe : ∀ p ∈ ps, p ≠ node := fun p hp e => M.apart node hU (hps ▸ e ▸ hp)
  have nodePs : node ∉ ps := fun q => psNe node q rfl
  have psCh : ∀ p ∈ ps, node ∈ (h.get p).children := fun p hp => by
    rw [← List.count_pos_iff, M.count p node (psU p hp) hU, List.count_pos_iff, ← hps]
    exact hp
  have psQuiet : ∀ p ∈ ps, ∀ e ∈ (h.get p).expands, ∃ t, e = .merge t := fun p hp e he => by
    by_contra q
    exact hA ⟨p, psU p hp, psCh p hp, e, he, fun t w => q ⟨t, w⟩⟩
  have psLt : ∀ p ∈ ps, p < h.next := fun p hp => hin p (psU p hp)
  -- what was there
  have kFrame : ∀ a, U a → a ≠ node → a ∉ ps → h'.get a = h.get a := fun a ha hne q =>
    N.frame a (hin a ha) hne (by rw [← hps]; exact q)
  have kPs : ∀ a ∈ ps, h'.get a = { h.get a with children := (h'.get a).children } := fun a ha => N.keptParents a (by rw [← hps]; exact ha)
  have kNode := N.keptNode
  have kVal : ∀ a, U a → (h'.get a).value = (h.get a).value := fun a ha => by
    by_cases hne : a = node
    · subst hne; rw [kNode]
    · by_cases q : a ∈ ps
      · rw [kPs a q]
      · rw [kFrame a ha hne q]
  have kExp : ∀ a, U a → a ≠ node → (h'.get a).expands = (h.get a).expands := fun a ha hne => by
    by_cases q : a ∈ ps
    · rw [kPs a q]
    · rw [kFrame a ha hne q]
  have kPar : ∀ a, U a → a ≠ node → (h'.get a).parents = (h.get a).parents := fun a ha hne => by
    by_cases q : a ∈ ps
    · rw [kPs a q]
    · rw [kFrame a ha hne q]
  have kCh : ∀ a, U a → a ∉ ps → (h'.get a).children = (h.get a).children := fun a ha q => by
    by_cases hne : a = node
    · subst hne; rw [kNode]
    · rw [kFrame a ha hne q]
  have eNode : (h'.get node).expands = es ++ post := by rw [kNode]
  have kLoops : ∀ a, U a → loops h' a = loops h a := fun a ha => by
    by_cases hne : a = node
    · subst hne
      unfold loops
      rw [he, eNode, kVal a ha]
      rfl
    · exact loops_congr (tag := []) (kVal a ha) (by rw [kExp a ha hne, List.append_nil]) (by simp)
  -- the children of an input
  have kids : ∀ p ∈ ps, ∀ c ∈ (h'.get p).children, c ∈ (h.get p).children ∨ h.next ≤ c ∧ c < h'.next := fun p hp c hc => by
    have hcW := R.inside c (R.children p (.inl (psU p hp)) c hc)
    by_cases q : h.next ≤ c
    · exact .inr ⟨q, hcW⟩
    · left
      by_cases e : c = node
      · rw [e]; exact psCh p hp
      · rw [← List.count_pos_iff, ← N.others p (hps ▸ hp) c (by omega) e]
        exact List.count_pos_iff.2 hc
  have src : ∀ a, h.next ≤ a → a < h'.next → ∀ p ∈ (h'.get a).parents, p ∈ ps ∨ h.next ≤ p ∧ p < h'.next := fun a q1 q2 p hp => by
    rcases N.sources a q1 q2 p hp with q | q
    · rw [← hps] at q; exact .inl q
    · exact .inr ⟨q.1, by omega⟩
  have srcN : ∀ p ∈ (h'.get node).parents, p ∈ ps ∨ h.next ≤ p ∧ p < h'.next := fun p hp => by
    have := N.inputs p hp
    rw [← hps] at this
    exact this
  obtain ⟨g, g1, g2, g3⟩ := N.flow fun p => f p node
  obtain ⟨T', hT'⟩ : ∃ T' : Addr → ℚ, T' = fun a => if h.next ≤ a then g a else T a := ⟨_, rfl⟩
  obtain ⟨f', hf'⟩ : ∃ f' : Addr → Addr → ℚ, f' = fun p c => if h.next ≤ p then g p else if h.next ≤ c then f p node else f p c := ⟨_, rfl⟩
  have TO : ∀ a, U a → T' a = T a := fun a ha => by rw [hT']; exact if_neg (by have := hin a ha; omega)
  have TN : ∀ a, h.next ≤ a → T' a = g a := fun a ha => by rw [hT']; exact if_pos ha
  have fN : ∀ p, h.next ≤ p → ∀ c, f' p c = g p := fun p hp c => by rw [hf']; exact if_pos hp
  have fX : ∀ p, U p → ∀ c, h.next ≤ c → f' p c = f p node := fun p hp c hc => by
    have := hin p hp
    rw [hf']
    simp only
    rw [if_neg (by omega), if_pos hc]
  have fO : ∀ p c, U p → U c → f' p c = f p c := fun p c hp hc => by
    have := hin p hp
    have := hin c hc
    rw [hf']
    simp only
    rw [if_neg (by omega), if_neg (by omega)]
  have rootsLt : ∀ r ∈ roots, r < h.next := fun r hr => hin r (M.top r hr)
  have gIn : ∀ c, (c = node ∨ h.next ≤ c) → ∀ p, (p ∈ ps ∨ h.next ≤ p ∧ p < h'.next) → f' p c = g p := by
    intro c hc p hp
    rcases hp with hp | hp
    · rw [g1 p (psLt p hp)]
      rcases hc with rfl | hc
      · exact fO p c (psU p hp) hU
      · exact fX p (psU p hp) c hc
    · exact fN p hp.1 c
  have intake' : ∀ a, Within h U h' a → T' a = supply a + ((h'.get a).parents.map fun p => f' p a).sum := by
    intro a ha
    rcases ha with ha | ha
    · by_cases hne : a = node
      · subst hne
        have h2 : ((h'.get a).parents.map fun p => f' p a) = (h'.get a).parents.map g :=
          List.map_congr_left fun p hp => gIn a (.inl rfl) p (srcN p hp)
        rw [h2, g3, TO a hU]
        exact M.intake a hU
      · rw [kPar a ha hne, TO a ha, M.intake a ha]
        congr 2
        apply List.map_congr_left
        intro p hp
        exact (fO p a (M.region.parents a ha p hp) ha).symm
    · have h2 : ((h'.get a).parents.map fun p => f' p a) = (h'.get a).parents.map g :=
        List.map_congr_left fun p hp => gIn a (.inr ha.1) p (src a ha.1 ha.2 p hp)
      rw [h2, TN a ha.1, ← g2 a ha.1 ha.2, M.dry a fun w => by have := rootsLt a w; omega, zero_add]
  have psPos : ∀ p ∈ ps, 0 < g p := fun p hp => by
    rw [g1 p (psLt p hp)]
    exact M.pos p (psU p hp) node (psCh p hp)
  have newPos : ∀ a, h.next ≤ a → a < h'.next → 0 < g a := by
    intro a
    induction a using Nat.strong_induction_on with
    | _ a ih =>
      intro q1 q2
      rw [g2 a q1 q2]
      apply List.sum_pos
      · intro x hx
        obtain ⟨p, hp, rfl⟩ := List.mem_map.1 hx
        rcases N.sources a q1 q2 p hp with w | w
        · exact psPos p (hps ▸ w)
        · exact ih p w.2 w.1 (by omega)
      · intro e
        have := (N.three a q1 q2).1
        rw [List.map_eq_nil_iff.1 e] at this
        simp at this
  have sup0 : ∀ a, 0 ≤ supply a := fun a => by
    by_cases q : a ∈ roots
    · exact (M.paid a q).le
    · rw [M.dry a q]
  have below : ∀ k a, h'.next - a = k → h.next ≤ a → a < h'.next → T' a ≤ T' node := by
    intro k
    induction k using Nat.strong_induction_on with
    | _ k ih =>
      intro a hk q1 q2
      obtain ⟨-, b, hb, hb'⟩ := N.three a q1 q2
      have hbW : Within h U h' b := hb'.elim (fun e => .inl (e ▸ hU)) fun w => .inr ⟨by omega, w.2⟩
      have hab : a ∈ (h'.get b).parents := by
        rw [← List.count_pos_iff, N.links b (hb'.imp id fun w => ⟨by omega, w.2⟩) a (.inr ⟨q1, q2⟩), hb]
        simp
      have hle : T' a ≤ T' b := by
        have hi := intake' b hbW
        have h3 : T' a = f' a b := by rw [TN a q1, fN a q1]
        have h4 : f' a b ≤ ((h'.get b).parents.map fun p => f' p b).sum := by
          refine List.single_le_sum (fun x hx => ?_) _ (List.mem_map.2 ⟨a, hab, rfl⟩)
          obtain ⟨p, hp, rfl⟩ := List.mem_map.1 hx
          have hpc : p ∈ ps ∨ h.next ≤ p ∧ p < h'.next := by
            rcases hb' with rfl | w
            · exact srcN p hp
            · exact src b (by omega) w.2 p hp
          rw [gIn b (hb'.imp id fun w => by omega) p hpc]
          rcases hpc with w | w
          · exact (psPos p w).le
          · exact (newPos p w.1 w.2).le
        have := sup0 b
        linarith
      rcases hb' with rfl | w
      · exact hle
      · exact hle.trans (ih (h'.next - b) (by omega) b rfl (by omega) w.2)
  -- what an input hands on
  have evenly : ∀ p ∈ ps, ∀ c ∈ (h'.get p).children, ∃ c' ∈ (h.get p).children, f' p c = f p c' := fun p hp c hc => by
    rcases kids p hp c hc with w | w
    · exact ⟨c, w, fO p c (psU p hp) (M.region.children p (psU p hp) c w)⟩
    · exact ⟨node, psCh p hp, fX p (psU p hp) c w.1⟩
  refine ⟨T', f', R, hlev, ?_, ?_, fun r hr => .inl (M.top r hr), M.dry, ?_, intake', ?_, ?_, ?_, M.paid, ?_, ?_, ?_, ?_⟩
  · -- values
    rintro a (ha | ha)
    · rw [kVal a ha]
      exact M.nonneg a ha
    · exact N.worth a ha.1 ha.2
  · -- no belt from a node to itself
    rintro a (ha | ha) w
    · by_cases hne : a = node
      · subst hne
        rcases srcN a w with q | q
        · exact nodePs q
        · omega
      · rw [kPar a ha hne] at w
        exact M.apart a ha w
    · rcases N.sources a ha.1 ha.2 a w with q | q
      · have := psLt a (hps ▸ q)
        omega
      · omega
  · -- links
    intro a b ha hb
    have key : b = node ∨ h.next ≤ b ∧ b < h'.next → (h'.get a).children.count b = (h'.get b).parents.count a := fun hb' => by
      by_cases q : a ∈ ps ∨ h.next ≤ a ∧ a < h'.next
      · exact (N.links b hb' a (by rw [← hps]; exact q)).symm
      · have haU : U a := by
          rcases ha with ha | ha
          · exact ha
          · exact absurd (.inr ha) q
        have hap : a ∉ ps := fun w => q (.inl w)
        have h0 : (h'.get b).parents.count a = 0 := by
          rw [List.count_eq_zero]
          intro w
          rcases hb' with rfl | hb'
          · exact q (srcN a w)
          · exact q (src b hb'.1 hb'.2 a w)
        rw [h0, kCh a haU hap]
        rcases hb' with rfl | hb'
        · rw [M.count a b haU hU, List.count_eq_zero]
          rw [← hps]
          exact hap
        · rw [List.count_eq_zero]
          intro w
          have := hin b (M.region.children a haU b w)
          omega
    rcases hb with hb | hb
    · by_cases hne : b = node
      · exact key (.inl hne)
      · rw [kPar b hb hne]
        rcases ha with ha | ha
        · rw [← M.count a b ha hb]
          by_cases q : a ∈ ps
          · exact N.others a (hps ▸ q) b (hin b hb) hne
          · rw [kCh a ha q]
        · obtain ⟨-, c, hc, hc'⟩ := N.three a ha.1 ha.2
          have : (h.get b).parents.count a = 0 := List.count_eq_zero.2 fun w => by
            have := hin a (M.region.parents b hb a w)
            omega
          rw [this, hc, List.count_eq_zero, List.mem_singleton]
          rintro rfl
          rcases hc' with w | w
          · exact hne w
          · have := hin b hb; omega
    · exact key (.inr hb)
  · -- what is to be done
    intro a ha
    rcases ha with ha | ha
    · by_cases hne : a = node
      · subst hne
        refine ⟨[], es, post, by rw [eNode]; rfl, ?_, .inr ⟨rfl, hpost, .inl (N.few.trans ht), hZ.imp id And.left⟩⟩
        refine O.keep hnext (kCh a hU nodePs) (kVal a hU) (TO a hU) (fun c hc => fO a c hU (M.region.children a hU c hc)) fun hes => ⟨?_, fun c hc => ?_⟩
        · obtain ⟨ms, o1, o2⟩ := N.order
          rcases o2 with ⟨o2, o3⟩ | ⟨m, o2, o3⟩
          · rw [o1, o2, List.append_nil]
            unfold untouched
            rw [if_pos o3, List.take_length]
          · rw [o1, o2]
            refine iff_of_false (fun e => ?_) (by simp)
            have w := N.three h.next le_rfl (by omega)
            obtain ⟨p, hp⟩ := List.exists_mem_of_length_pos (by omega : 0 < (h'.get h.next).parents.length)
            rcases N.sources h.next le_rfl (by omega) p hp with w | w
            · rw [e] at w
              simp at w
            · omega
        · have hcU := M.region.children a hU c hc
          have hca := ((O.below hes).2.2 c hc).1
          exact ⟨kVal c hcU, kPar c hcU hca, kExp c hcU hca, id⟩
      · obtain ⟨mg, es', post', q1, q2, q3⟩ := M.jobs a ha
        refine ⟨mg, es', post', by rw [kExp a ha hne]; exact q1, ?_, ?_⟩
        · by_cases q : a ∈ ps
          · have hes : es' = [] := by
              by_contra w
              obtain ⟨⟨e, w1, w2⟩, -⟩ := q2.below w
              obtain ⟨t', w3⟩ := psQuiet a q e (by rw [q1, w1]; simp)
              exact w2 t' w3
            subst hes
            cases q2 with
            | leaf w =>
              have := psCh a q
              rw [w] at this
              simp at this
            | share w1 w2 w3 =>
              have hl := N.lens a (hps ▸ q)
              refine .share (fun e => w1 ?_) (by omega) fun c hc => ?_
              · rw [e] at hl
                exact List.length_eq_zero_iff.1 hl.symm
              · obtain ⟨c', hc', e⟩ := evenly a q c hc
                rw [e, hl, TO a ha]
                exact w3 c' hc'
            | belt x y w1 w2 w3 w4 =>
              have hl := N.lens a (hps ▸ q)
              rw [w1] at hl
              have hkid : ∀ z, z ∈ (h.get a).children → z ≠ node → (h'.get a).children.count z = 1 ∧ f' a z = f a z := fun z hz hzn => by
                have hzU := M.region.children a ha z hz
                refine ⟨?_, fO a z ha hzU⟩
                rw [N.others a (hps ▸ q) z (hin z hzU) hzn, w1]
                rw [w1] at hz
                simp only [List.mem_cons, List.not_mem_nil, or_false] at hz
                rcases hz with rfl | rfl
                · rw [List.count_cons_self, List.count_eq_zero.2 (by simpa using w2)]
                · rw [List.count_cons_of_ne w2, List.count_singleton_self]
              have other : ∀ z c, z ∈ (h.get a).children → z ≠ node → c ∈ (h'.get a).children → c ≠ z → f' a c = f a node := fun z c hz hzn hc hcz => by
                rcases kids a q c hc with w | w
                · have : c = node := by
                    have hn := psCh a q
                    rw [w1] at w hz hn
                    simp only [List.mem_cons, List.not_mem_nil, or_false] at w hz hn
                    clear * - w hz hn hzn hcz
                    rcases w with w | w <;> rcases hz with hz | hz <;> rcases hn with hn | hn
                    · exact absurd (w.trans hz.symm) hcz
                    · exact absurd (w.trans hz.symm) hcz
                    · exact w.trans hn.symm
                    · exact absurd (hz.trans hn.symm) hzn
                    · exact absurd (hz.trans hn.symm) hzn
                    · exact w.trans hn.symm
                    · exact absurd (w.trans hz.symm) hcz
                    · exact absurd (w.trans hz.symm) hcz
                  rw [this]
                  exact fO a node ha hU
                · exact fX a ha c w.1
              have final : ∀ z, z ∈ (h.get a).children → z ≠ node → f a z + f a node = T a → (∃ s ∈ speeds, f a z = (s : ℚ) ∨ f a node = (s : ℚ)) →
                  Outlet Z speeds roots h' T' f' a [] := fun z hz hzn u1 u2 => by
                obtain ⟨k1, k2⟩ := hkid z hz hzn
                match hcs : (h'.get a).children, hl with
                | [u, w], _ =>
                  rw [hcs] at k1
                  by_cases e : u = z
                  · subst e
                    have hw : w ≠ u := fun e => by subst e; simp at k1
                    have := other u w hz hzn (by rw [hcs]; simp) hw
                    exact .belt u w hcs (Ne.symm hw) (by rw [k2, this, TO a ha]; exact u1) (by rw [k2, this]; exact u2)
                  · have hw : w = z := by
                      by_contra hw
                      rw [List.count_eq_zero.2 (by simp [Ne.symm e, Ne.symm hw])] at k1
                      omega
                    subst hw
                    have := other w u hz hzn (by rw [hcs]; simp) e
                    refine .belt u w hcs e (by rw [k2, this, TO a ha, add_comm]; exact u1) ?_
                    rw [k2, this]
                    obtain ⟨s, s1, s2⟩ := u2
                    exact ⟨s, s1, s2.symm⟩
              have hn := psCh a q
              rw [w1] at hn
              simp only [List.mem_cons, List.not_mem_nil, or_false] at hn
              rcases hn with hn | hn
              · rw [← hn] at w2 w3 w4
                refine final y (by rw [w1]; simp) (Ne.symm w2) (by rw [add_comm]; exact w3) ?_
                obtain ⟨s, s1, s2⟩ := w4
                exact ⟨s, s1, s2.symm⟩
              · rw [← hn] at w2 w3 w4
                exact final x (by rw [w1]; simp) w2 w3 w4
          · refine q2.keep hnext (kCh a ha q) (kVal a ha) (TO a ha) (fun c hc => fO a c ha (M.region.children a ha c hc)) fun hes =>
              ⟨by rw [kPar a ha hne], fun c hc => ?_⟩
            have hcU := M.region.children a ha c hc
            have hcn : c ≠ node := fun e => by
              obtain ⟨⟨e', w1, w2⟩, -⟩ := q2.below hes
              exact hA ⟨a, ha, e ▸ hc, e', by rw [q1, w1]; simp, w2⟩
            exact ⟨kVal c hcU, kPar c hcU hcn, kExp c hcU hcn, id⟩
        · rcases q3 with ⟨q3, G', q4⟩ | ⟨q3, q4, q5, q6⟩
          · refine .inl ⟨q3, ?_, q4⟩
            have e := kPar a ha hne
            refine ⟨by rw [e]; exact G'.many, by rw [e]; exact G'.nodup, fun p hp => ?_, G'.inner⟩
            rw [e] at hp
            obtain ⟨w1, w2, w3⟩ := G'.only p hp
            have hpU := M.region.parents a ha p hp
            have hpp : p ∉ ps := fun q => by
              have := psCh p q
              rw [w2, List.mem_singleton] at this
              exact hne this.symm
            exact ⟨w1, by rw [kCh p hpU hpp]; exact w2, by rw [kVal p hpU]; exact w3⟩
          · exact .inr ⟨q3, q4, by rw [kPar a ha hne]; exact q5, q6⟩
    · obtain ⟨w1, b, hb, -⟩ := N.three a ha.1 ha.2
      have hc3 : cap roots a = 3 := cap_ne fun w => by have := rootsLt a w; omega
      refine ⟨[], [], [], N.quiet a ha.1 ha.2, ?_, .inr ⟨rfl, by simp, .inl (by omega), .inr rfl⟩⟩
      refine .share (by rw [hb]; simp) (by rw [hb]; simp) (fun c _ => ?_)
      rw [fN a ha.1, TN a ha.1, hb]
      simp
  · -- no belt will be lost
    intro a ha
    rcases ha with ha | ha
    · by_cases hne : a = node
      · subst hne
        exact .inr (hfit.congr (kLoops a ha))
      · rcases M.fits a ha with ⟨b, hb, w1, e, w2, w3⟩ | w
        · have hbp : b ∉ ps := fun q => by
            obtain ⟨t', w4⟩ := psQuiet b q e w2
            exact w3 t' w4
          refine .inl ⟨b, .inl hb, by rw [kCh b hb hbp]; exact w1, e, ?_, w3⟩
          by_cases hbn : b = node
          · subst hbn
            rw [he] at w2
            rw [eNode]
            rcases List.mem_cons.1 w2 with w2 | w2
            · exact absurd w2 (w3 t)
            · exact w2
          · rw [kExp b hb hbn]
            exact w2
        · rw [kPar a ha hne]
          exact .inr (w.congr (kLoops a ha))
    · refine .inr (parted_few ?_)
      have hc3 : cap roots a = 3 := cap_ne fun w => by have := rootsLt a w; omega
      rw [loops_nil (N.quiet a ha.1 ha.2), hc3]
      simp [(N.three a ha.1 ha.2).1]
  · -- which belts are merged
    intro a ha
    rcases ha with ha | ha
    · by_cases hne : a = node
      · subst hne
        rcases hZ with w | ⟨-, w⟩
        · exact .inl w
        · refine .inr (.inr (.inr fun p hp => ?_))
          have hpar := N.links a (.inl rfl) p (by rw [← hps]; exact srcN p hp)
          have hac : a ∈ (h'.get p).children := by
            rw [← List.count_pos_iff, ← hpar]
            exact List.count_pos_iff.2 hp
          rcases srcN p hp with q | q
          · have hl := N.lens p (hps ▸ q)
            rw [w p (hps ▸ q), List.length_singleton] at hl
            obtain ⟨c, hc⟩ := List.length_eq_one_iff.1 hl
            rw [hc, List.mem_singleton] at hac
            rw [hc, hac]
          · obtain ⟨-, b, hb, -⟩ := N.three p q.1 q.2
            rw [hb, List.mem_singleton] at hac
            rw [hb, hac]
      · rcases M.easy a ha with w | w | w | w
        · exact .inl w
        · exact .inr (.inl (by rw [kPar a ha hne, kLoops a ha]; exact w))
        · exact .inr (.inr (.inl (by rw [kPar a ha hne]; exact w)))
        · refine .inr (.inr (.inr fun p hp => ?_))
          rw [kPar a ha hne] at hp
          have hpp : p ∉ ps := fun q => by
            have := psCh p q
            rw [w p hp, List.mem_singleton] at this
            exact hne this.symm
          rw [kCh p (M.region.parents a ha p hp) hpp]
          exact w p hp
    · refine .inr (.inl ?_)
      have hc3 : cap roots a = 3 := cap_ne fun w => by have := rootsLt a w; omega
      rw [loops_nil (N.quiet a ha.1 ha.2), hc3]
      simp [(N.three a ha.1 ha.2).1]
  · -- positive flows
    intro a ha c hc
    rcases ha with ha | ha
    · by_cases q : a ∈ ps
      · obtain ⟨c', hc', e⟩ := evenly a q c hc
        rw [e]
        exact M.pos a ha c' hc'
      · rw [kCh a ha q] at hc
        rw [fO a c ha (M.region.children a ha c hc)]
        exact M.pos a ha c hc
    · rw [fN a ha.1]
      exact newPos a ha.1 ha.2
  · -- bounds
    intro b hb a ha
    rcases ha with ha | ha
    · rw [TO a ha]
      exact M.under b hb a ha
    · refine (below _ a rfl ha.1 ha.2).trans ?_
      rw [TO node hU]
      exact M.under b hb node hU
  · -- ranks
    obtain ⟨ρ, hρ⟩ := M.rank
    refine ⟨fun x => if h.next ≤ x then ρ node else ρ x, fun a ha c hc => ?_⟩
    have old : ∀ x, U x → (if h.next ≤ x then ρ node else ρ x) = ρ x := fun x hx => if_neg (by have := hin x hx; omega)
    have onNew : ∀ x, (x = node ∨ h.next ≤ x ∧ x < h'.next) → (if h.next ≤ x then ρ node else ρ x) = ρ node := fun x hx => by
      rcases hx with rfl | w
      · exact old x hU
      · exact if_pos w.1
    simp only
    rcases ha with ha | ha
    · by_cases q : a ∈ ps
      · have hsk : Skewed h' T' f' a → Skewed h T f a := fun ⟨y, hy, hy'⟩ => by
          obtain ⟨c', hc', e⟩ := evenly a q y hy
          refine ⟨c', hc', ?_⟩
          rw [e, TO a ha, N.lens a (hps ▸ q)] at hy'
          exact hy'
        rw [old a ha]
        rcases kids a q c hc with w | w
        · rw [old c (M.region.children a ha c w)]
          exact ⟨(hρ a ha c w).1, fun s => (hρ a ha c w).2 (hsk s)⟩
        · rw [onNew c (.inr w)]
          have hn := psCh a q
          exact ⟨(hρ a ha node hn).1, fun s => (hρ a ha node hn).2 (hsk s)⟩
      · have kc := kCh a ha q
        rw [kc] at hc
        rw [old a ha, old c (M.region.children a ha c hc)]
        refine ⟨(hρ a ha c hc).1, fun ⟨x, hx, hx'⟩ => (hρ a ha c hc).2 ⟨x, by rw [← kc]; exact hx, ?_⟩⟩
        rw [kc] at hx
        rw [fO a x ha (M.region.children a ha x hx), TO a ha, kc] at hx'
        exact hx'
    · obtain ⟨-, b, hb, hb'⟩ := N.three a ha.1 ha.2
      rw [hb, List.mem_singleton] at hc
      subst hc
      rw [onNew a (.inr ha), onNew c (hb'.imp id fun w => ⟨by omega, w.2⟩)]
      refine ⟨le_rfl, fun ⟨y, hy, hy'⟩ => ?_⟩
      rw [fN a ha.1, TN a ha.1, hb] at hy'
      simp at hy'
  · -- labels
    intro y hy
    have Y := M.labels y hy
    obtain ⟨b1, b2⟩ := hbook (by rw [hy]; simp)
    have oPends : ∀ a, U a → (Pends h' a ↔ Pends h a) := fun a ha => by
      unfold Pends
      by_cases hne : a = node
      · subst hne
        rw [eNode, he]
        constructor
        · rintro ⟨e, w1, w2⟩
          exact ⟨e, List.mem_cons_of_mem _ w1, w2⟩
        · rintro ⟨e, w1, w2⟩
          rcases List.mem_cons.1 w1 with w1 | w1
          · exact absurd w1 (w2 t)
          · exact ⟨e, w1, w2⟩
      · rw [kExp a ha hne]
    have oOut : ∀ a, U a → ∀ e ∈ (h'.get a).expands, e ∈ (h.get a).expands := fun a ha e w => by
      by_cases hne : a = node
      · subst hne
        rw [eNode] at w
        rw [he]
        exact List.mem_cons_of_mem _ w
      · rw [kExp a ha hne] at w
        exact w
    have nPends : ∀ a, h.next ≤ a → a < h'.next → ¬ Pends h' a := fun a h1 h2 ⟨e, w, _⟩ => by
      rw [N.quiet a h1 h2] at w
      simp at w
    have oldBad : ∀ p, U p → y p ≠ none ∨ Skewed h' T' f' p → y p ≠ none ∨ Skewed h T f p := fun p hp w => by
      refine w.imp id fun ⟨c, w1, w2⟩ => ?_
      by_cases q : p ∈ ps
      · obtain ⟨c', hc', e⟩ := evenly p q c w1
        refine ⟨c', hc', ?_⟩
        rw [e, TO p hp, N.lens p (hps ▸ q)] at w2
        exact w2
      · have kc := kCh p hp q
        rw [kc] at w1
        refine ⟨c, w1, ?_⟩
        rw [fO p c hp (M.region.children p hp c w1), TO p hp, kc] at w2
        exact w2
    have newBad : ∀ p, h.next ≤ p → p < h'.next → ¬ (y p ≠ none ∨ Skewed h' T' f' p) := fun p h1 h2 w => by
      rcases w with w | ⟨c, -, w⟩
      · exact w (Y.fresh p h1)
      · obtain ⟨-, b, hb, -⟩ := N.three p h1 h2
        rw [fN p h1, TN p h1, hb] at w
        simp at w
    -- a belt that carries something else than the label of its machine tells stays
    have stays : ∀ p ∈ ps, y p ≠ none ∨ Skewed h T f p → (h'.get p).children = (h.get p).children ∧ node ∉ roots ∧
        ((h'.get node).parents.head? = some p) := fun p hp bad => by
      obtain ⟨k1, k2⟩ := Y.front node hU p (hps ▸ hp) bad
      have ht' := ht3 k1
      subst ht'
      obtain ⟨rest, hrest⟩ : ∃ rest, (h.get node).parents = p :: rest := by
        cases q : (h.get node).parents with
        | nil => rw [q] at k2; simp at k2
        | cons x l => rw [q] at k2; simp at k2; exact ⟨l, by rw [k2]⟩
      have hu : 1 ≤ untouched 3 (h.get node).parents.length := by
        by_cases w : 3 < (h.get node).parents.length
        · exact untouched_pos w
        · unfold untouched
          rw [if_pos (by omega), hrest]
          simp
      have htake : p ∈ (h.get node).parents.take (untouched 3 (h.get node).parents.length) := by
        obtain ⟨k, hk⟩ := Nat.exists_eq_add_of_le hu
        rw [hk, hrest, Nat.add_comm, List.take_succ_cons]
        simp
      refine ⟨N.still p (hps ▸ hp) fun w => hPart htake w, k1, ?_⟩
      obtain ⟨ms, o1, -⟩ := N.order
      obtain ⟨k, hk⟩ := Nat.exists_eq_add_of_le hu
      rw [o1, hk, hrest, Nat.add_comm, List.take_succ_cons]
      rfl
    have newIn : ∀ a, h.next ≤ a → a < h'.next → ∀ p ∈ (h'.get a).parents, p ∈ ps → ¬ (y p ≠ none ∨ Skewed h T f p) := fun a h1 h2 p hp hps' bad => by
      have hc : a ∈ (h'.get p).children := by
        rw [← List.count_pos_iff, ← N.links a (.inr ⟨h1, h2⟩) p (.inl (hps ▸ hps'))]
        exact List.count_pos_iff.2 hp
      rw [(stays p hps' bad).1] at hc
      have := hin a (M.region.children p (psU p hps') a hc)
      omega
    have plain : ∀ p, U p → ¬ (y p ≠ none ∨ Skewed h T f p) → T p = (h.get p).value := fun p hp w => by
      rcases Y.label p hp with q | q
      · exact q.1
      · exact absurd (.inl (by rw [q.2]; simp)) w
    have worth : ∀ a, h.next ≤ a → a < h'.next → T' a = (h'.get a).value := by
      intro a
      induction a using Nat.strong_induction_on with
      | _ a ih =>
        intro h1 h2
        rw [TN a h1, g2 a h1 h2, N.labelled b1 a h1 h2]
        congr 1
        apply List.map_congr_left
        intro p hp
        rcases N.sources a h1 h2 p hp with w | w
        · have w' : p ∈ ps := by rw [hps]; exact w
          have nb := newIn a h1 h2 p hp w'
          rw [g1 p (psLt p w'), N.lens p w, kVal p (psU p w'), ← plain p (psU p w') nb]
          by_contra q
          exact nb (.inr ⟨node, psCh p w', q⟩)
        · have := ih p w.2 w.1 (by omega)
          rw [TN p w.1] at this
          obtain ⟨-, b, hb, -⟩ := N.three p w.1 (by omega)
          rw [this, hb]
          simp
    refine ⟨fun a ha => ?_, fun a ha e w1 w2 => ?_, fun a ha => Y.fresh a (hnext.trans ha), fun a ha p hp bad => ?_, fun a ha => ?_,
      fun a ha c hc z hz => ?_, fun a ha d hd z hz => ?_⟩
    · rcases ha with ha | ha
      · rw [TO a ha, kVal a ha, oPends a ha]
        exact Y.label a ha
      · exact .inl ⟨worth a ha.1 ha.2, fun w => absurd (Y.fresh a ha.1) w⟩
    · rcases ha with ha | ha
      · rw [kVal a ha]
        exact Y.owed a ha e (oOut a ha e w1) w2
      · exact absurd ⟨e, w1, w2⟩ (nPends a ha.1 ha.2)
    · rcases ha with ha | ha
      · by_cases hne : a = node
        · subst hne
          rcases srcN p hp with w | w
          · exact (stays p w (oldBad p (psU p w) bad)).2
          · exact absurd bad (newBad p w.1 w.2)
        · rw [kPar a ha hne] at hp ⊢
          exact Y.front a ha p hp (oldBad p (M.region.parents a ha p hp) bad)
      · rcases src a ha.1 ha.2 p hp with w | w
        · exact absurd (oldBad p (psU p w) bad) (newIn a ha.1 ha.2 p hp w)
        · exact absurd bad (newBad p w.1 w.2)
    · rcases ha with ha | ha
      · rw [kLoops a ha]
        by_cases hne : a = node
        · subst hne
          exact .inr b2
        · rcases Y.tidy a ha with ⟨b, hb, w1, w2⟩ | w
          · have hbp : b ∉ ps := fun q => by
              obtain ⟨e, w2, w3⟩ := w2
              obtain ⟨t', w4⟩ := psQuiet b q e w2
              exact w3 t' w4
            exact .inl ⟨b, .inl hb, by rw [kCh b hb hbp]; exact w1, (oPends b hb).2 w2⟩
          · rw [kPar a ha hne]
            exact .inr w
      · refine .inr (together_few ?_)
        rw [loops_nil (N.quiet a ha.1 ha.2)]
        simp [(N.three a ha.1 ha.2).1]
    all_goals
      rcases ha with ha | ha
      · have hx := oOut a ha _ ‹_ ∈ (h'.get a).expands›
        have hap : a ∉ ps := fun q => by
          obtain ⟨t', w4⟩ := psQuiet a q _ hx
          simp at w4
        rw [kCh a ha hap] at hz
        have hzU := M.region.children a ha z hz
        rw [kLoops z hzU]
        first
          | (rw [kVal a ha, kVal z hzU]; exact Y.tidyOut a ha c hx z hz)
          | exact Y.tidyDiv a ha d hx z hz
      · exact absurd ⟨_, ‹_ ∈ (h'.get a).expands›, by simp⟩ (nPends a ha.1 ha.2)

/-- What was allowed at a node while it was visited. -/
theorem Mixed.calm {node : Addr} (M : Mixed (fun a => Z a ∨ a = node) Q speeds roots supply h U T f) (he : (h.get node).expands = [])
    (hA : ¬ Above h U node) : Mixed Z Q speeds roots supply h U T f := by
  refine { M with jobs := fun a ha => ?_, easy := fun a ha => ?_ }
  · obtain ⟨mg, es, post, q1, q2, q3⟩ := M.jobs a ha
    refine ⟨mg, es, post, q1, ?_, q3.imp id fun q3 => ⟨q3.1, q3.2.1, q3.2.2.1, ?_⟩⟩
    · cases q2 with
      | leaf w1 w2 => exact .leaf w1 w2
      | share w1 w2 w3 => exact .share w1 w2 w3
      | belt x y w1 w2 w3 w4 => exact .belt x y w1 w2 w3 w4
      | divide d w1 w2 w3 w4 => exact .divide d w1 w2 w3 w4
      | extract v c x y w1 w2 w3 w4 =>
        refine .extract v c x y w1 w2 w3 fun z hz => ?_
        obtain ⟨u1, u2, u3, u4, u5⟩ := w4 z hz
        refine ⟨u1, u2, u3, u4, ?_⟩
        rcases u5 with (u5 | u5) | u5
        · exact .inl u5
        · exact absurd ⟨a, ha, u5 ▸ hz, .extract c, by rw [q1]; simp, by simp⟩ hA
        · exact .inr u5
    · rcases q3.2.2.2 with (w | w) | w
      · exact .inl w
      · rw [w, he] at q1
        exact .inr (List.append_eq_nil_iff.1 q1.symm).2
      · exact .inr w
  · rcases M.easy a ha with (w | w) | w
    · exact .inl w
    · right
      left
      subst w
      obtain ⟨mg, es, post, q1, q2, q3⟩ := M.jobs a ha
      rw [he] at q1
      obtain ⟨k1, k2⟩ := List.append_eq_nil_iff.1 q1.symm
      rw [loops_nil he]
      rcases q3 with ⟨w, -⟩ | ⟨-, -, w, -⟩
      · rw [w] at k1
        simp at k1
      · simpa using w.resolve_right (fun q => q k2)
    · exact .inr w

end Satis.Graph
