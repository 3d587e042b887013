import Verif.Graph.DeliverJoin
/-!
# Carrying out what is pending for a node
-/

namespace Satis.Graph
open Satis Satis.Cost Satis.Spec

variable {Z : Addr → Prop} {Q : Terms} {cfg : Config} {speeds : List Nat} {roots : List Addr} {supply : Addr → ℚ} {h h' : Heap ℚ} {U : Addr → Prop} {T : Addr → ℚ}
  {f : Addr → Addr → ℚ}

theorem DivideInput.popped {node : Addr} {d : Nat} (H : DivideInput h node d) (es : List (Expand ℚ)) :
    DivideInput (popped h node es) node d := by
  refine ⟨H.inside, ?_, H.two, ?_, ?_, ?_, ?_, ?_⟩
  · rw [popped_value]; exact H.nonneg
  · rw [popped_children]; exact H.count
  · rw [popped_children]; exact H.nodup
  · rw [popped_children]; exact H.lt
  · rw [popped_children]; exact H.ne
  · rw [popped_children]
    intro c hc
    rw [popped_value, popped_value]
    exact H.share c hc

theorem ExtractInput.popped {node x y : Addr} {v c : Nat} (H : ExtractInput h node x y v c) (es : List (Expand ℚ)) :
    ExtractInput (popped h node es) node x y v c := by
  refine ⟨H.inside, ?_, H.pos, H.lt, ?_, H.left, H.right, H.ne, ?_⟩
  · rw [popped_value]; exact H.value
  · rw [popped_children]; exact H.children
  · rw [popped_value, popped_value]; exact H.share

/-- What carrying out the division or the extraction pending for a node leaves, besides the flows. -/
structure Unfolded (Z : Addr → Prop) (roots : List Addr) (h h' : Heap ℚ) (node : Addr) (V : ℚ) : Prop where
  spread : Spread h h' node V (h.get node).children
  merges : ∀ e ∈ (h'.get node).expands, e = .merge (cap roots node)
  few : (h'.get node).parents.length ≤ cap roots node ∨ (h'.get node).expands ≠ []
  fit : Parted (cap roots node) (h'.get node).parents
  fitOut : ∀ c ∈ (h.get node).children, Lodges 3 h c (h'.get c).parents
  light : ∀ c ∈ (h.get node).children, Z c ∨ (h'.get c).parents.length + (loops h c).length ≤ 3 ∨ (h'.get c).parents.length ≤ 1
  grown : ∃ qs, (h'.get node).parents = (h.get node).parents ++ qs ∧ qs.length = (loops h node).length ∧ ∀ p ∈ qs, h.next ≤ p ∧ p < h'.next
  built : (made h h' node).length = outlay h node
  arrived : ∀ c ∈ (h.get node).children, (h'.get c).parents.length = comes h c
  /-- belts to the node that takes what is left come last -/
  trail : ∀ c, .extract c ∈ (h.get node).expands → ∀ z ∈ (h.get node).children, (h.get z).value ≠ c → ∀ p ∈ made h h' node,
    Trails (fun _ => False) z (h'.get p).children
  lead : ∀ c ∈ (h.get node).children, node ∈ (h'.get c).parents → (h'.get c).parents.head? = some node
  charged : ∀ e ∈ (h.get node).expands, (∀ t, e ≠ .merge t) → V = charge (h.get node).value e
  neat : Together ((h.get node).parents.map Sum.inl ++ (loops h node).map Sum.inr) → Together (h'.get node).parents
  neatOut : ∀ c ∈ (h.get node).children,
    (∀ x, .extract x ∈ (h.get node).expands → Together ((forth (h.get node).value x (h.get c).value).map Sum.inl ++ (loops h c).map Sum.inr)) →
    (∀ d, .divide d ∈ (h.get node).expands → Together (loops h c)) →
      Together ((h'.get c).parents.map Sum.inl ++ (loops h c).map Sum.inr)

/-- From a network of splitters to what the walk needs. -/
theorem Unfolded.of {node : Addr} {V : ℚ} {post : List (Expand ℚ)} (hnode : node < h.next) (hne : ∀ c ∈ (h.get node).children, c ≠ node)
    (N : SplitterNetwork (popped h node post) h' node V (h.get node).children) (hpost : ∀ e ∈ post, e = .merge (cap roots node))
    (hr : node ∈ roots ↔ (h.get node).parents = [])
    (q1 : Pending (popped h node post) h' node (if (h.get node).parents = [] then 2 else 3))
    (q2 : ∀ c ∈ (h.get node).children, Pending (popped h node post) h' c 3) (q3 : ∀ c ∈ (h.get node).children, (h'.get c).parents ≠ [])
    (q4 : ∀ a, h.next ≤ a → a < h'.next → belts h' (made h h' node) a = 1 ∧ (h'.get a).expands = [])
    {at_ : Nat × Nat → Addr} (q5 : (h'.get node).parents = (h.get node).parents ++ (loops h node).map at_)
    (q6 : ∀ x ∈ loops h node, ∀ y ∈ loops h node, at_ x = at_ y → x = y) (q7 : ∀ x ∈ loops h node, h.next ≤ at_ x ∧ at_ x < h'.next)
    (hpar : ∀ p ∈ (h.get node).parents, p < h.next) (hfit : Lodges (cap roots node) h node (h.get node).parents)
    (q8 : ∀ c ∈ (h.get node).children, Lodges 3 h c (h'.get c).parents)
    (q9 : ∀ c ∈ (h.get node).children, Z c ∨ (h'.get c).parents.length + (loops h c).length ≤ 3 ∨ (h'.get c).parents.length ≤ 1)
    (q10 : (made h h' node).length = outlay h node) (q11 : ∀ c ∈ (h.get node).children, (h'.get c).parents.length = comes h c)
    (q12 : ∀ c, .extract c ∈ (h.get node).expands → ∀ z ∈ (h.get node).children, (h.get z).value ≠ c → ∀ p ∈ made h h' node,
      Trails (fun _ => False) z (h'.get p).children)
    (q13 : ∀ c ∈ (h.get node).children, node ∈ (h'.get c).parents → (h'.get c).parents.head? = some node)
    (q14 : ∀ e ∈ (h.get node).expands, (∀ t, e ≠ .merge t) → V = charge (h.get node).value e)
    (q15 : ∀ c ∈ (h.get node).children,
      (∀ x, .extract x ∈ (h.get node).expands → Together ((forth (h.get node).value x (h.get c).value).map Sum.inl ++ (loops h c).map Sum.inr)) →
      (∀ d, .divide d ∈ (h.get node).expands → Together (loops h c)) → Together ((h'.get c).parents.map Sum.inl ++ (loops h c).map Sum.inr)) :
    Unfolded Z roots h h' node V := by
  have hcap : (if (h.get node).parents = [] then 2 else 3) = cap roots node := by
    unfold cap
    by_cases q : node ∈ roots
    · rw [if_pos q, if_pos (hr.1 q)]
    · rw [if_neg q, if_neg fun w => q (hr.2 w)]
  rw [hcap] at q1
  unfold Pending at q1
  rw [popped_self] at q1
  simp only at q1
  refine ⟨?_, ?_, ?_, ?_, q8, q9, ⟨(loops h node).map at_, q5, by simp, ?_⟩, q10, q11, q12, q13, q14, fun hT => ?_, q15⟩
  · refine ⟨N.next, N.arity, N.closed, N.steady, ?_, ?_, N.links, ?_, N.reach, ?_, ?_, ?_, q3, ?_, ?_⟩
    · rw [← popped_value h node post node]; exact N.looped
    · intro x hx
      rw [← popped_value h node post x]
      exact N.served x hx
    · obtain ⟨ps, w1, w2, w3⟩ := N.back
      rw [popped_parents] at w1
      have e : ps = (loops h node).map at_ := List.append_cancel_left (w1.symm.trans q5)
      refine ⟨ps, w1, fun w => ?_, w2, w3⟩
      rw [e] at w
      obtain ⟨x, hx, w⟩ := List.mem_map.1 w
      have := q7 x hx
      omega
    · intro a ha h1 h2
      rw [N.frame a ha h1 h2, popped_ne h post h1]
    · intro a ha
      obtain ⟨es, e⟩ := N.keptOuts a ha
      refine ⟨?_, ?_⟩
      · rw [e, ← popped_children h node post a]
      · rw [e, ← popped_value h node post a]
    · intro a ha
      have := q2 a ha
      unfold Pending at this
      rw [popped_ne h post (hne a ha)] at this
      refine ⟨_, this, ?_, ?_⟩
      · intro e he
        split at he
        · exact List.mem_singleton.1 he
        · simp at he
      · split
        · rename_i w
          exact .inr ⟨w, by simp⟩
        · rename_i w
          exact .inl ⟨by omega, rfl⟩
    · obtain ⟨es, e⟩ := N.keptNode
      rw [e, ← popped_value h node post node]
    · intro a h1 h2
      obtain ⟨l1, l2⟩ := N.links a (.inr ⟨h1, h2⟩)
      refine ⟨?_, (q4 a h1 h2).2⟩
      rw [length_by_count (h := h') (made_nodup (h := h) hnode) l1 l2]
      exact (q4 a h1 h2).1
  · intro e he
    rw [q1] at he
    rcases List.mem_append.1 he with he | he
    · exact hpost e he
    · split at he
      · exact List.mem_singleton.1 he
      · simp at he
  · rw [q1]
    by_cases q : cap roots node < (h'.get node).parents.length
    · right
      rw [if_pos q]
      simp
    · exact .inl (by omega)
  · have := Parted.map hfit (Sum.elim id at_) (fun x hx y hy e => by
      rcases x with x | x <;> rcases y with y | y <;> simp at hx hy e ⊢
      · exact e
      · have := hpar x hx
        have := (q7 _ hy).1
        omega
      · have := hpar y hy
        have := (q7 _ hx).1
        omega
      · exact q6 x hx y hy e)
    rw [q5]
    simpa [List.map_append, Function.comp_def] using this
  · intro p hp
    obtain ⟨x, hx, rfl⟩ := List.mem_map.1 hp
    exact q7 x hx
  · have := hT.map (Sum.elim id at_) (fun x hx y hy e => by
      rcases x with x | x <;> rcases y with y | y <;> simp at hx hy e ⊢
      · exact e
      · have := hpar x hx
        have := (q7 _ hy).1
        omega
      · have := hpar y hy
        have := (q7 _ hx).1
        omega
      · exact q6 x hx y hy e)
    rw [q5]
    simpa [List.map_append, Function.comp_def] using this

theorem loops_cons {node : Addr} {e : Expand ℚ} {post : List (Expand ℚ)} (he : (h.get node).expands = e :: post) (hpost : ∀ e ∈ post, ∃ t, e = .merge t) :
    loops h node = backs (h.get node).value e := by
  unfold loops
  rw [he, List.flatMap_cons]
  have : post.flatMap (backs (h.get node).value) = [] := by
    rw [List.flatMap_eq_nil_iff]
    intro x hx
    obtain ⟨t, rfl⟩ := hpost x hx
    rfl
  rw [this, List.append_nil]

theorem outlay_cons {node : Addr} {e : Expand ℚ} {post : List (Expand ℚ)} (he : (h.get node).expands = e :: post) (hm : outward e = true)
    (hpost : ∀ e ∈ post, ∃ t, e = .merge t) : outlay h node = splits (h.get node).value e := by
  have : (h.get node).expands.filter outward = [e] := by
    rw [he, List.filter_cons, if_pos hm, outward_merges hpost]
  unfold outlay
  rw [this]
  simp

/-- The children of a node with a pending expansion. -/
theorem comes_child {node c : Addr} {e : Expand ℚ} {post : List (Expand ℚ)} (he : (h.get node).expands = e :: post)
    (hpost : ∀ e ∈ post, ∃ t, e = .merge t) (hc : (h.get c).parents = [node]) :
    comes h c = match cut e with
      | some x => (forth (h.get node).value x (h.get c).value).length
      | none => 1 := by
  unfold comes
  rw [hc]
  simp only
  rw [he, List.findSome?_cons]
  cases e <;> simp [cut, cut_merges hpost]

theorem made_length (h h' : Heap ℚ) (node : Addr) : (made h h' node).length = h'.next - h.next + 1 := by
  simp [made]

/-- The machines of a network of splitters. -/
theorem machines_made {node : Addr} {outs : List Addr} (h1 : ∀ a, h.next ≤ a → a < h'.next → belts h' (made h h' node) a = 1) :
    machines h h' node outs = (made h h' node).length + toOne (1 + belts h' (made h h' node) node) +
      (outs.map fun a => toOne (belts h' (made h h' node) a)).sum := by
  unfold machines
  have : ((List.range' h.next (h'.next - h.next)).map fun a => toOne (belts h' (made h h' node) a)).sum = 0 := by
    rw [List.sum_eq_zero]
    intro x hx
    obtain ⟨a, ha, rfl⟩ := List.mem_map.1 hx
    rw [List.mem_range'_1] at ha
    rw [h1 a ha.1 (by omega)]
    rfl
  rw [this, add_zero]

/-- A pending division. -/
theorem Mixed.divide_run (M : Mixed Z Q speeds roots supply h U T f) (Tm : Tame cfg h U) {node : Addr} (hU : U node) {d : Nat} {post : List (Expand ℚ)}
    (he : (h.get node).expands = .divide d :: post) (hpost : ∀ e ∈ post, e = .merge (cap roots node)) (H : DivideInput h node d)
    (hr : node ∈ roots ↔ (h.get node).parents = []) (hv : 0 < (h.get node).value) (hA : ¬ Above h U node)
    (hout : ∀ c ∈ (h.get node).children, f node c = (h.get c).value ∧ (h.get c).parents = [node] ∧ c ∉ roots ∧ Lodges 3 h c [()]) :
    ∃ h' u, ∃ V : ℚ, 0 < V ∧ V ≤ cfg.limit ∧ runExpand cfg (popped h node post) node (.divide d) = .ok (h', u) ∧ Unfolded Z roots h h' node V := by
  obtain ⟨n, m, l, s, hf, hl⟩ : ∃ n m l s, findNML d = .ok (n, m, l, s) ∧ d + l = L n m := by
    obtain ⟨n, m, h1, h2, -⟩ := findNML_core d (by have := H.two; omega)
    exact ⟨n, m, _, _, h1, by omega⟩
  obtain ⟨lvl, hlvl⟩ : ∃ lvl, (h.get node).level = some lvl := Option.ne_none_iff_exists'.1 (M.levels node hU)
  have hund : (h.get node).value + l * (h.get node).value / d ≤ cfg.limit :=
    Tm.divide node hU d (by rw [he]; simp) _ (by unfold divideTotal; rw [hf]; rfl)
  have hlvl' : ((popped h node post).get node).level = some lvl := by rw [popped_level]; exact hlvl
  have hund' : ((popped h node post).get node).value + l * ((popped h node post).get node).value / d ≤ cfg.limit := by rw [popped_value]; exact hund
  obtain ⟨h', e, N, -, -, w1, w2, k1, k2, w4, w5⟩ := expandDivide_under (cfg := cfg) (H.popped post) hf hl hlvl' hund'
  obtain ⟨at_, o1, o2, o3⟩ := expandDivide_order (H.popped post) hf hl hlvl' hund' e
  rw [popped_children] at N w1 w5 k1
  rw [popped_value] at N
  rw [popped_parents] at o1
  have hloops : loops h node = Spec.places n m [] (gsel n m l l) := by
    rw [loops_cons he fun e w => ⟨_, hpost e w⟩]
    simp [backs, hf]
  have hV : 0 < (h.get node).value + l * (h.get node).value / d := by positivity
  refine ⟨h', _, _, hV, hund, e, Unfolded.of H.inside H.ne N hpost hr ?_ ?_ ?_ w4 (at_ := at_) (by rw [hloops]; exact o1) (by rw [hloops]; exact o2)
    (by rw [hloops]; exact o3) (fun p hp => M.region.inside p (M.region.parents node hU p hp)) ((M.fits node hU).resolve_left hA) ?_ ?_ ?_ ?_ ?_ ?_ ?_ ?_⟩
  · unfold Pending
    exact w2 _ (by rw [popped_parents])
  · intro c hc
    unfold Pending
    rw [w5 c hc, w1 c hc]
    simp
  · intro c hc e
    have := w1 c hc
    rw [e] at this
    simp at this
  · intro c hc
    obtain ⟨p, hp⟩ := List.length_eq_one_iff.1 (w1 c hc)
    rw [hp]
    exact Lodges.map (hout c hc).2.2.2 (fun _ => p) (by simp)
  · intro c hc
    exact .inr (.inr (w1 c hc).le)
  · rw [outlay_cons he rfl fun e w => ⟨_, hpost e w⟩]
    rw [machines_made fun a h1 h2 => (w4 a h1 h2).1, k2, List.sum_eq_zero fun x hx => by
      obtain ⟨c, hc, rfl⟩ := List.mem_map.1 hx
      obtain ⟨l1, l2⟩ := N.links c (.inl hc)
      have := length_by_count (made_nodup (h := popped h node post) H.inside) l1 l2
      rw [← this, w1 c hc]
      rfl] at k1
    simp only [splits, hf]
    show (made (popped h node post) h' node).length = _
    omega
  · intro c hc
    rw [comes_child he (fun e w => ⟨_, hpost e w⟩) (hout c hc).2.1, w1 c hc]
    rfl
  · intro c hc
    rw [he] at hc
    rcases List.mem_cons.1 hc with hc | hc
    · simp at hc
    · have := hpost _ hc
      simp at this
  · intro c hc hm
    obtain ⟨p, hp⟩ := List.length_eq_one_iff.1 (w1 c hc)
    rw [hp] at hm ⊢
    rw [List.mem_singleton.1 hm]
    rfl
  · intro e' he' hne
    rw [he] at he'
    rcases List.mem_cons.1 he' with rfl | w
    · simp [charge, hf]
    · exact absurd (hpost e' w) (hne _)
  · intro c hc _ hd
    obtain ⟨p, hp⟩ := List.length_eq_one_iff.1 (w1 c hc)
    rw [hp]
    exact together_append (List.nodup_singleton p) (hd d (by rw [he]; simp))

theorem gsel_ne_nil {n m k : Nat} (hk : 0 < k) : gsel n m k k ≠ [] := by
  intro e
  have := (gsel_greedy n m k k le_rfl).1.total
  rw [e] at this
  simp [tot] at this
  omega

/-- A pending extraction. -/
theorem Mixed.extract_run (M : Mixed Z Q speeds roots supply h U T f) (Tm : Tame cfg h U) {node x y : Addr} (hU : U node) {v c : Nat}
    {post : List (Expand ℚ)} (he : (h.get node).expands = .extract c :: post) (hpost : ∀ e ∈ post, e = .merge (cap roots node))
    (H : ExtractInput h node x y v c) (hr : node ∈ roots ↔ (h.get node).parents = []) (hA : ¬ Above h U node)
    (hout : ∀ z ∈ (h.get node).children, f node z = (h.get z).value ∧ (h.get z).parents = [node] ∧ z ∉ roots ∧
      Lodges 3 h z (forth v c (h.get z).value) ∧
      (Z z ∨ (forth v c (h.get z).value).length + (loops h z).length ≤ 3 ∨ (forth v c (h.get z).value).length ≤ 1)) :
    ∃ h' u, ∃ V : ℚ, 0 < V ∧ V ≤ cfg.limit ∧ runExpand cfg (popped h node post) node (.extract c) = .ok (h', u) ∧ Unfolded Z roots h h' node V := by
  obtain ⟨d, e, g, n, m, l, s, K⟩ := ExtractNumbers.of H.pos H.lt
  obtain ⟨lvl, hlvl⟩ : ∃ lvl, (h.get node).level = some lvl := Option.ne_none_iff_exists'.1 (M.levels node hU)
  have hvn : v / Nat.gcd v c = d := by
    rw [← K.hg]
    exact Nat.div_eq_of_eq_mul_left K.gpos K.hv
  have hcn : c / Nat.gcd v c = e := by
    rw [← K.hg]
    exact Nat.div_eq_of_eq_mul_left K.gpos K.hc
  have hund : (v : ℚ) + l * g ≤ cfg.limit := by
    refine Tm.extract node hU c (by rw [he]; simp) _ ?_
    have hnum : (((v : ℚ).num / (g : Int))).toNat = d := by
      have : (v : ℚ).num = v := Rat.num_natCast v
      rw [this, ← Int.natCast_div, Int.toNat_natCast, K.hv, Nat.mul_div_cancel _ K.gpos]
    have hg0 : g ≠ 0 := K.gpos.ne'
    unfold extractTotal
    rw [H.value, pyGcd_nat H.lt.le K.hg]
    simp only [bind, Except.bind, pure, Except.pure, if_neg hg0, hnum, K.find]
  have hlvl' : ((popped h node post).get node).level = some lvl := by rw [popped_level]; exact hlvl
  obtain ⟨h', ee, N, -, -, p1, p2, p3, k1, w1, w2, w3⟩ := expandExtract_under (cfg := cfg) K (H.popped post) hlvl' hund
  obtain ⟨at_, o1, o2, o3, o4, o6, o5⟩ := expandExtract_order K (H.popped post) hlvl' hund ee
  rw [popped_parents] at o1 p1
  have hin := H.inside
  have hch := H.children
  have hne : ∀ z ∈ [x, y], z ≠ node := fun z hz => by
    simp only [List.mem_cons, List.not_mem_nil, or_false] at hz
    rcases hz with rfl | rfl
    · exact H.left.2
    · exact H.right.2
  have hloops : loops h node = Spec.places n m [] (gsel n m l l) := by
    rw [loops_cons he fun e w => ⟨_, hpost e w⟩, H.value]
    simp [backs, K.find, hvn]
  have hforth : ∀ z ∈ [x, y], (h'.get z).parents = (forth v c (h.get z).value).map at_ := fun z hz => by
    rw [o2 z hz, popped_value]
    unfold forth
    simp [hvn, hcn, K.find]
  have hsub : ∀ z ∈ [x, y], ∀ a ∈ forth v c (h.get z).value, a ∈ allPlaces n m l e (d - e) := fun z _ a ha => by
    unfold forth at ha
    simp only [Rat.num_natCast, Int.toNat_natCast, hvn, hcn, K.find] at ha
    unfold allPlaces
    rw [List.mem_append, List.mem_append]
    split at ha
    · exact .inr (.inl ha)
    · exact .inr (.inr ha)
  have hinj : ∀ z ∈ [x, y], ∀ a ∈ forth v c (h.get z).value, ∀ b ∈ forth v c (h.get z).value, at_ a = at_ b → a = b := fun z hz => by
    have hsub := hsub z hz
    exact fun a ha b hb => o3 a (hsub a ha) b (hsub b hb)
  have hV : 0 < (v : ℚ) + l * g := by
    have : 0 < v := H.pos.trans H.lt
    positivity
  refine ⟨h', _, _, hV, hund, ee, Unfolded.of hin (by rw [hch]; exact hne) (by rw [hch]; exact N) hpost hr p1 ?_ ?_ w3 (at_ := at_)
    (by rw [hloops]; exact o1) ?_ (by rw [hloops]; exact o4) (fun p hp => M.region.inside p (M.region.parents node hU p hp))
    ((M.fits node hU).resolve_left hA) ?_ ?_ ?_ ?_ ?_ ?_ ?_ ?_⟩
  · rw [hch]
    intro z hz
    simp only [List.mem_cons, List.not_mem_nil, or_false] at hz
    rcases hz with rfl | rfl
    · exact p2
    · exact p3
  · rw [hch]
    intro z hz e'
    obtain ⟨l1, l2⟩ := N.links z (.inl hz)
    have h1 := length_by_count (made_nodup (by exact hin)) l1 l2
    rw [e', w2 z hz] at h1
    have k1 := List.length_pos_iff.2 (gsel_ne_nil (n := n) (m := m) K.epos)
    have k2 := List.length_pos_iff.2 (gsel_ne_nil (n := n) (m := m) (k := d - e) (by have := K.elt; omega))
    simp only [List.length_nil] at h1
    split at h1 <;> omega
  · rw [hloops]
    have hsub : ∀ a ∈ Spec.places n m [] (gsel n m l l), a ∈ allPlaces n m l e (d - e) := fun a ha => List.mem_append_left _ ha
    exact fun a ha b hb => o3 a (hsub a ha) b (hsub b hb)
  · intro z hz
    have hz' : z ∈ [x, y] := by rw [← hch]; exact hz
    rw [hforth z hz']
    exact Lodges.map (hout z hz).2.2.2.1 at_ (hinj z hz')
  · intro z hz
    have hz' : z ∈ [x, y] := by rw [← hch]; exact hz
    rw [hforth z hz', List.length_map]
    exact (hout z hz).2.2.2.2
  · rw [outlay_cons he rfl fun e w => ⟨_, hpost e w⟩]
    have hv : (v : ℚ).num.toNat = v := by simp
    have hc' : (c : ℚ).num.toNat = c := by simp
    rw [machines_made fun a h1 h2 => (w3 a h1 h2).1, w1] at k1
    simp only [List.map_cons, List.map_nil, List.sum_cons, List.sum_nil, w2 x (by simp), w2 y (by simp), popped_value] at k1
    have hsum : toOne (if (h.get x).value = c then (gsel n m e e).length else (gsel n m (d - e) (d - e)).length) +
        toOne (if (h.get y).value = c then (gsel n m e e).length else (gsel n m (d - e) (d - e)).length) =
        toOne (gsel n m e e).length + toOne (gsel n m (d - e) (d - e)).length := by
      by_cases hcc : (v : ℚ) - c = c
      · have : v = c + c := by
          have : (v : ℚ) = c + c := by linarith
          exact_mod_cast this
        have : d - e = e := by
          have h1 := K.hv
          have h2 := K.hc
          have : d * g = (e + e) * g := by rw [← h1, this, h2]; ring
          have := Nat.eq_of_mul_eq_mul_right K.gpos this
          omega
        rw [this]
        simp
      · rcases H.share with ⟨s1, s2⟩ | ⟨s1, s2⟩
        · rw [s1, s2, if_pos rfl, if_neg hcc]
        · rw [s1, s2, if_pos rfl, if_neg hcc, add_comm]
    simp only [splits, H.value, hv, hc', hvn, hcn, K.find]
    show (made (popped h node post) h' node).length = _
    omega
  · intro z hz
    have hz' : z ∈ [x, y] := by rw [← hch]; exact hz
    rw [comes_child he (fun e w => ⟨_, hpost e w⟩) (hout z hz).2.1, hforth z hz', List.length_map, H.value]
    rfl
  · intro c' hc' z hz hzc
    obtain rfl : c' = c := by
      rw [he] at hc'
      rcases List.mem_cons.1 hc' with w | w
      · exact Expand.extract.inj w
      · have := hpost _ w
        simp at this
    exact o5 z (by rw [← hch]; exact hz) (by rw [popped_value]; exact hzc)
  · intro z hz hm
    have hz' : z ∈ [x, y] := by rw [← hch]; exact hz
    rw [hforth z hz'] at hm ⊢
    obtain ⟨a, ha, ea⟩ := List.mem_map.1 hm
    have h0 : a = (0, 0) := o6 a (hsub z hz' a ha) ea
    have h1 : (forth v c (h.get z).value).head? = some (0, 0) := by
      rw [h0] at ha
      unfold forth at ha ⊢
      simp only [Rat.num_natCast, Int.toNat_natCast, hvn, hcn, K.find] at ha ⊢
      split at ha
      · rename_i q
        rw [if_pos q]
        exact spots_head ha
      · rename_i q
        rw [if_neg q]
        exact spots_head ha
    rw [List.head?_map, h1, ← ea, h0]
    rfl
  · intro e' he' hne'
    rw [he] at he'
    rcases List.mem_cons.1 he' with rfl | w
    · simp only [charge, H.value, Rat.num_natCast, Int.toNat_natCast, hvn, K.find]
      rw [K.hg]
    · exact absurd (hpost e' w) (hne' _)
  · intro z hz hx _
    have hz' : z ∈ [x, y] := by rw [← hch]; exact hz
    rw [hforth z hz']
    have := (hx c (by rw [he]; simp)).map (Sum.map at_ id) (fun a ha b hb e => by
      rw [H.value] at ha hb
      rcases a with a | a <;> rcases b with b | b <;> simp at ha hb e ⊢
      · exact hinj z hz' a ha b hb e
      · exact e)
    rw [H.value] at this
    simpa [List.map_append, Function.comp_def] using this

/-- What a visit does to the graph, besides making it a network that is expanded a bit further: `X` are the mergers put in front of the node.
Of the nodes `W` the children stay as they are or are all replaced by mergers. -/
structure Advance (Z : Addr → Prop) (h h' : Heap ℚ) (U W : Addr → Prop) (node : Addr) (X : Addr → Prop) : Prop where
  next : h.next ≤ h'.next
  mergers : ∀ m, X m → h.next ≤ m ∧ m < h'.next
  same : ∀ a, U a → a ≠ node → (h'.get a).expands = (h.get a).expands ∨
    Z a ∧ Below h node a ∧ ∃ tag, (h'.get a).expands = (h.get a).expands ++ tag ∧ ∀ e ∈ tag, ∃ t, e = .merge t
  down : ∀ a, U a → Above h' (Within h U h') a → Above h U a
  below : ∀ a, Below h' node a → Below h node a
  kids : ∀ a, U a → a ≠ node → ∀ c ∈ (h'.get a).children, c ∈ (h.get a).children ∨ X c
  tidy : ∀ a, W a → a ≠ node → (h'.get a).children = (h.get a).children ∨ ∀ c ∈ (h'.get a).children, X c
  via : ∀ m, X m → ∀ c ∈ (h'.get m).children, c = node ∨ X c
  new : ∀ a, h.next ≤ a → a < h'.next → (h'.get a).expands = [] ∧ (h'.get a).children ≠ []
  leaf : ∀ a, U a → ((h'.get a).children = [] ↔ (h.get a).children = [])
  reach : ∀ a c, U a → c ∈ (h.get a).children → Reach h' [a] c
  fresh : ∀ a, h.next ≤ a → a < h'.next → ∃ b, U b ∧ Reach h' [b] a
  worth : ∀ a, U a → (h'.get a).value = (h.get a).value
  trim : ∀ a, U a → a ≠ node → ∃ l₁ l₂, (h'.get a).children = l₁ ++ l₂ ∧
    (l₁ = (h.get a).children ∨ l₁ = (h.get a).children.filter fun y => decide (y ≠ node)) ∧ ∀ x ∈ l₂, X x
  spring : ∀ p, p = node ∨ h.next ≤ p ∧ p < h'.next → ∀ z ∈ (h'.get p).children, z ∈ (h.get node).children ∨ z = node ∨ h.next ≤ z
  idle : ¬ Pends h node → (h'.get node).children = (h.get node).children ∧ ¬ Pends h' node ∧
    ∀ p, h.next ≤ p → p < h'.next → ∀ z ∈ (h'.get p).children, z = node ∨ h.next ≤ z
  /-- belts to the node that takes what is left of an extraction come last, as long as there are no belts to mergers -/
  spill : ∀ c, .extract c ∈ (h.get node).expands → ∀ z ∈ (h.get node).children, z ≠ node → (h.get z).value ≠ c →
    (h'.get node).children = (h.get node).children ∧ .extract c ∈ (h'.get node).expands ∧
        (∀ p, h.next ≤ p → p < h'.next → z ∉ (h'.get p).children) ∨
      ¬ Pends h' node ∧ ∀ p, p = node ∨ h.next ≤ p ∧ p < h'.next → Trails X z (h'.get p).children

theorem Trails.trim {Y X : Addr → Prop} {z node : Addr} {l l₁ l₂ : List Addr} (T : Trails Y z l)
    (h1 : l₁ = l ∨ l₁ = l.filter fun y => decide (y ≠ node)) (h2 : ∀ x ∈ l₂, X x) : Trails (fun x => Y x ∨ X x) z (l₁ ++ l₂) := by
  obtain ⟨A, B, rfl, h3, h4⟩ := T
  have key : ∀ A' B' : List Addr, z ∉ A' → (∀ x ∈ B', x = z ∨ Y x) → Trails (fun x => Y x ∨ X x) z (A' ++ B' ++ l₂) := fun A' B' q1 q2 => by
    refine ⟨A', B' ++ l₂, by rw [List.append_assoc], q1, fun x hx => ?_⟩
    rcases List.mem_append.1 hx with w | w
    · exact (q2 x w).imp id .inl
    · exact .inr (.inr (h2 x w))
  rcases h1 with rfl | rfl
  · exact key A B h3 h4
  · rw [List.filter_append]
    exact key _ _ (fun w => h3 (List.mem_filter.1 w).1) fun x hx => h4 x (List.mem_filter.1 hx).1

theorem Advance.refl (Z : Addr → Prop) (h : Heap ℚ) (U W : Addr → Prop) (node : Addr) : Advance Z h h U W node (fun _ => False) :=
  ⟨le_rfl, fun _ w => w.elim, fun _ _ _ => .inl rfl, fun a _ ⟨b, hb, w⟩ => ⟨b, hb.elim id fun w => by omega, w⟩, fun _ w => w,
    fun _ _ _ _ hc => .inl hc, fun _ _ _ => .inl rfl, fun _ w => w.elim, fun a h1 h2 => by omega, fun _ _ => Iff.rfl,
    fun a c _ hc => .child (.root (List.mem_singleton_self a)) hc, fun a h1 h2 => by omega, fun _ _ => rfl,
    fun a _ _ => ⟨_, [], by rw [List.append_nil], .inl rfl, by simp⟩, fun p hp z hz => .inl (by rw [← hp.resolve_right (by omega)]; exact hz),
    fun w => ⟨rfl, w, fun p h1 h2 => by omega⟩, fun c hc z _ _ _ => .inl ⟨rfl, hc, fun p h1 h2 => by omega⟩⟩

theorem reach_lift {W X : Addr → Prop} {node : Addr} (A : Advance Z h h' U W node X) (hU : ∀ a, U a → ∀ c ∈ (h.get a).children, U c) {rs : List Addr}
    {a : Addr} (hr : ∀ r ∈ rs, U r) (ha : Reach h rs a) : Reach h' rs a := by
  have hr' : ∀ {a}, Reach h rs a → U a := fun ha => by
    induction ha with
    | root w => exact hr _ w
    | child _ w ih => exact hU _ ih _ w
  induction ha with
  | root w => exact .root w
  | child w1 w2 ih => exact reach_trans ih (A.reach _ _ (hr' w1) w2)

theorem within_within {h₁ h₂ : Heap ℚ} (h1 : h.next ≤ h₁.next) (h2 : h₁.next ≤ h₂.next) :
    Within h₁ (Within h U h₁) h₂ = Within h U h₂ := by
  funext a
  unfold Within
  apply propext
  constructor
  · rintro ((h | ⟨h1, h2⟩) | ⟨h1, h2⟩)
    · exact .inl h
    · exact .inr ⟨h1, by omega⟩
    · exact .inr ⟨by omega, h2⟩
  · rintro (h | ⟨h1, h2⟩)
    · exact .inl (.inl h)
    · rcases Nat.lt_or_ge a h₁.next with h | h
      · exact .inl (.inr ⟨h1, h⟩)
      · exact .inr ⟨h, h2⟩

theorem within_self (h : Heap ℚ) (U : Addr → Prop) : Within h U h = U := by
  funext a
  unfold Within
  simp only [eq_iff_iff, or_iff_left_iff_imp]
  intro hx
  omega

theorem Advance.trans {W X Y : Addr → Prop} {h₁ h₂ : Heap ℚ} {node : Addr} (R : Region h U) (hn : U node) (A : Advance Z h h₁ U W node X)
    (R₁ : Region h₁ (Within h U h₁)) (B : Advance Z h₁ h₂ (Within h U h₁) W node Y) :
    Advance Z h h₂ U W node (fun a => X a ∨ Y a) := by
  have l1 := A.next
  have l2 := B.next
  have hlt := R.inside
  have hnode := hlt node hn
  have newNe : ∀ a, h.next ≤ a → a ≠ node := fun a ha => by omega
  have kNew : ∀ p, h.next ≤ p → p < h₁.next → ∀ z ∈ (h₂.get p).children, z ∈ (h₁.get p).children ∨ h.next ≤ z := fun p q1 q2 z hz => by
    rcases B.kids p (.inr ⟨q1, q2⟩) (newNe p q1) z hz with w | w
    · exact .inl w
    · have := B.mergers z w
      exact .inr (by omega)
  have tNew : ∀ {z} p, h.next ≤ p → p < h₁.next → Trails X z (h₁.get p).children → Trails (fun a => X a ∨ Y a) z (h₂.get p).children := fun p q1 q2 w => by
    obtain ⟨l₁, l₂, t1, t2, t3⟩ := B.trim p (.inr ⟨q1, q2⟩) (newNe p q1)
    rw [t1]
    exact w.trim t2 t3
  refine ⟨by omega, ?_, ?_, ?_, fun a w => A.below a (B.below a w), ?_, ?_, ?_, ?_, fun a ha => (B.leaf a (.inl ha)).trans (A.leaf a ha), ?_, ?_,
    fun a ha => (B.worth a (.inl ha)).trans (A.worth a ha), ?_, ?_, ?_, ?_⟩
  · rintro m (w | w)
    · have := A.mergers m w
      omega
    · have := B.mergers m w
      omega
  · intro a ha hne
    rcases A.same a ha hne with q | ⟨z, b, tag, q, q'⟩ <;> rcases B.same a (.inl ha) hne with w | ⟨z', b', tag', w, w'⟩
    · exact .inl (w.trans q)
    · exact .inr ⟨z', A.below a b', tag', by rw [w, q], w'⟩
    · exact .inr ⟨z, b, tag, by rw [w, q], q'⟩
    · refine .inr ⟨z, b, tag ++ tag', by rw [w, q, List.append_assoc], fun e he => ?_⟩
      rcases List.mem_append.1 he with he | he
      · exact q' e he
      · exact w' e he
  · intro a ha w
    rw [← within_within l1 l2] at w
    exact A.down a ha (B.down a (.inl ha) w)
  · intro a ha hne c hc
    rcases B.kids a (.inl ha) hne c hc with w | w
    · exact (A.kids a ha hne c w).imp id .inl
    · exact .inr (.inr w)
  · intro a ha hne
    rcases B.tidy a ha hne with w | w
    · rw [w]
      exact (A.tidy a ha hne).imp id fun q c hc => .inl (q c hc)
    · exact .inr fun c hc => .inr (w c hc)
  · rintro m (w | w) c hc
    · have q := A.mergers m w
      rcases B.kids m (.inr q) (newNe m q.1) c hc with v | v
      · exact (A.via m w c v).imp id .inl
      · exact .inr (.inr v)
    · exact (B.via m w c hc).imp id .inr
  · intro a h1 h2
    by_cases q : a < h₁.next
    · have hW' : Within h U h₁ a := .inr ⟨h1, q⟩
      obtain ⟨k1, k2⟩ := A.new a h1 q
      refine ⟨?_, fun e => k2 ((B.leaf a hW').1 e)⟩
      rcases B.same a hW' (newNe a h1) with w | ⟨-, b, -⟩
      · rw [w, k1]
      · have := hlt a (R.children node hn a (A.below a b).1)
        omega
    · exact B.new a (by omega) h2
  · intro a c ha hc
    have := A.reach a c ha hc
    exact reach_lift B (fun a ha c hc => R₁.children a ha c hc) (fun r hr => by rw [List.mem_singleton.1 hr]; exact .inl ha) this
  · intro a h1 h2
    have old : ∀ b, Within h U h₁ b → ∃ c, U c ∧ Reach h₂ [c] b := by
      rintro b (hb | hb)
      · exact ⟨b, hb, .root (List.mem_singleton.2 rfl)⟩
      · obtain ⟨c, hc, w⟩ := A.fresh b hb.1 hb.2
        exact ⟨c, hc, reach_lift B (fun a ha c hc => R₁.children a ha c hc) (fun r hr => by rw [List.mem_singleton.1 hr]; exact .inl hc) w⟩
    by_cases q : a < h₁.next
    · exact old a (.inr ⟨h1, q⟩)
    · obtain ⟨b, hb, w⟩ := B.fresh a (by omega) h2
      obtain ⟨c, hc, w'⟩ := old b hb
      exact ⟨c, hc, reach_trans w' w⟩
  · intro a ha hne
    obtain ⟨l₁, l₂, t1, t2, t3⟩ := A.trim a ha hne
    obtain ⟨k₁, k₂, s1, s2, s3⟩ := B.trim a (.inl ha) hne
    rw [t1] at s2
    rcases s2 with rfl | rfl
    · refine ⟨l₁, l₂ ++ k₂, by rw [s1, List.append_assoc], t2, fun x hx => ?_⟩
      rcases List.mem_append.1 hx with w | w
      · exact .inl (t3 x w)
      · exact .inr (s3 x w)
    · refine ⟨l₁.filter fun y => decide (y ≠ node), (l₂.filter fun y => decide (y ≠ node)) ++ k₂, by rw [s1, List.filter_append, List.append_assoc], ?_,
        fun x hx => ?_⟩
      · right
        rcases t2 with rfl | rfl
        · rfl
        · rw [List.filter_filter]
          simp
      · rcases List.mem_append.1 hx with w | w
        · exact .inl (t3 x (List.mem_filter.1 w).1)
        · exact .inr (s3 x w)
  · intro p hp z hz
    have viaNode : z ∈ (h₁.get node).children → z ∈ (h.get node).children ∨ z = node ∨ h.next ≤ z := A.spring node (.inl rfl) z
    have late : z ∈ (h₁.get node).children ∨ z = node ∨ h₁.next ≤ z → z ∈ (h.get node).children ∨ z = node ∨ h.next ≤ z := by
      rintro (w | w | w)
      · exact viaNode w
      · exact .inr (.inl w)
      · exact .inr (.inr (by omega))
    by_cases q : h.next ≤ p ∧ p < h₁.next
    · rcases kNew p q.1 q.2 z hz with w | w
      · exact A.spring p (.inr q) z w
      · exact .inr (.inr w)
    · exact late (B.spring p (hp.imp id fun w => ⟨by omega, w.2⟩) z hz)
  · intro w
    obtain ⟨a1, a2, a3⟩ := A.idle w
    obtain ⟨b1, b2, b3⟩ := B.idle a2
    refine ⟨b1.trans a1, b2, fun p q1 q2 z hz => ?_⟩
    by_cases q : p < h₁.next
    · rcases kNew p q1 q z hz with w | w
      · exact a3 p q1 q z w
      · exact .inr w
    · exact (b3 p (by omega) q2 z hz).imp id fun w => by omega
  · intro c hc z hz hzn hzc
    have hzU := R.children node hn z hz
    have hzl := hlt z hzU
    rcases A.spill c hc z hz hzn hzc with ⟨a1, a2, a3⟩ | ⟨a1, a2⟩
    · have stay : ∀ p, h.next ≤ p → p < h₁.next → z ∉ (h₂.get p).children := fun p q1 q2 w => by
        rcases kNew p q1 q2 z w with v | v
        · exact a3 p q1 q2 v
        · omega
      rcases B.spill c a2 z (by rw [a1]; exact hz) hzn (by rw [A.worth z hzU]; exact hzc) with ⟨b1, b2, b3⟩ | ⟨b1, b2⟩
      · refine .inl ⟨b1.trans a1, b2, fun p q1 q2 => ?_⟩
        by_cases q : p < h₁.next
        · exact stay p q1 q
        · exact b3 p (by omega) q2
      · refine .inr ⟨b1, fun p hp => ?_⟩
        by_cases q : h.next ≤ p ∧ p < h₁.next
        · exact .none (stay p q.1 q.2)
        · exact (b2 p (hp.imp id fun w => ⟨by omega, w.2⟩)).mono fun _ _ w => .inr (.inr w)
    · obtain ⟨b1, b2, b3⟩ := B.idle a1
      refine .inr ⟨b2, fun p hp => ?_⟩
      by_cases q : h.next ≤ p ∧ p < h₁.next
      · exact tNew p q.1 q.2 (a2 p (.inr q))
      · rcases hp with rfl | hp
        · rw [b1]
          exact (a2 p (.inl rfl)).mono fun _ _ w => .inr (.inl w)
        · refine .none fun w => ?_
          rcases b3 p (by omega) hp.2 z w with v | v
          · exact hzn v
          · omega

theorem Unfolded.advance {node : Addr} {V : ℚ} (W : Addr → Prop) (hW : ∀ a, W a → U a) (R : Region h U) (hn : U node) (S : Unfolded Z roots h h' node V)
    (hpend : ∃ e ∈ (h.get node).expands, ∀ t, e ≠ .merge t)
    (hne : ∀ c ∈ (h.get node).children, c ≠ node) (hout : (h.get node).children ≠ []) : Advance Z h h' U W node (fun _ => False) := by
  have hL := S.light
  have hG := S.merges
  have hTr := S.trail
  have S := S.spread
  have hin := R.inside
  have hM : ∀ a, a ∈ made h h' node ↔ a = node ∨ h.next ≤ a ∧ a < h'.next := fun a => mem_made S.next
  have kCh : ∀ a, U a → a ≠ node → (h'.get a).children = (h.get a).children := fun a ha hne => by
    by_cases q : a ∈ (h.get node).children
    · exact (S.keptOuts a q).1
    · rw [S.frame a (hin a ha) hne q]
  have kExp : ∀ a, U a → a ≠ node → ∃ tag, (h'.get a).expands = (h.get a).expands ++ tag ∧ (∀ e ∈ tag, ∃ t, e = .merge t) ∧
      (tag = [] ∨ Z a ∧ Below h node a) := fun a ha hne => by
    by_cases q : a ∈ (h.get node).children
    · obtain ⟨tag, t1, t2, t3⟩ := S.tagged a q
      refine ⟨tag, t1, fun e he => ⟨_, t2 e he⟩, ?_⟩
      rcases t3 with t3 | t3
      · exact .inl t3.2
      · rcases hL a q with w | w | w
        · exact .inr ⟨w, q, hpend⟩
        · omega
        · omega
    · exact ⟨[], by rw [S.frame a (hin a ha) hne q, List.append_nil], by simp, .inl rfl⟩
  have ne : ∀ a ∈ made h h' node, (h'.get a).children ≠ [] := fun a ha e => by
    have := S.arity a ha
    rw [e] at this
    simp at this
  refine ⟨S.next, fun _ w => w.elim, ?_, ?_, ?_, fun a ha hne c hc => .inl (by rw [← kCh a ha hne]; exact hc), fun a ha hne => .inl (kCh a (hW a ha) hne),
    fun _ w => w.elim, fun a h1 h2 => ⟨(S.quiet a h1 h2).2, ne a ((hM a).2 (.inr ⟨h1, h2⟩))⟩, fun a ha => ?_, fun a c ha hc => ?_,
    fun a h1 h2 => ⟨node, hn, S.reach a h1 h2⟩, fun a ha => ?_, fun a ha hne => ⟨_, [], by rw [List.append_nil], .inl (kCh a ha hne), by simp⟩, ?_,
    fun w => absurd hpend w, fun c hc z hz _ hzc => .inr ⟨?_, fun p hp => hTr c hc z hz hzc p ((hM p).2 hp)⟩⟩
  · intro a ha hne
    obtain ⟨tag, t1, t2, t3⟩ := kExp a ha hne
    rcases t3 with rfl | t3
    · rw [t1, List.append_nil]
      exact .inl rfl
    · exact .inr ⟨t3.1, t3.2, tag, t1, t2⟩
  · rintro a ha ⟨b, hb, hc, e, he, hm⟩
    by_cases hbn : b = node
    · subst hbn
      exact absurd (hG e he) (hm _)
    · rcases hb with hb | hb
      · obtain ⟨tag, t1, t2, -⟩ := kExp b hb hbn
        rw [kCh b hb hbn] at hc
        rw [t1] at he
        refine ⟨b, hb, hc, e, ?_, hm⟩
        rcases List.mem_append.1 he with w | w
        · exact w
        · obtain ⟨t, w⟩ := t2 e w
          exact absurd w (hm t)
      · rw [(S.quiet b hb.1 hb.2).2] at he
        simp at he
  · rintro a ⟨-, e, he, hm⟩
    exact absurd (hG e he) (hm _)
  · by_cases q : a = node
    · subst q
      exact ⟨fun e => absurd e (ne a ((hM a).2 (.inl rfl))), fun e => absurd e hout⟩
    · rw [kCh a ha q]
  · by_cases q : a = node
    · subst q
      obtain ⟨p, hp⟩ := List.exists_mem_of_ne_nil _ (S.fed c hc)
      obtain ⟨l1, l2⟩ := S.links c (.inl hc)
      have hpm := l1 p hp
      have hcp : c ∈ (h'.get p).children := List.count_pos_iff.1 (by rw [l2 p hpm]; exact List.count_pos_iff.2 hp)
      rcases (hM p).1 hpm with rfl | w
      · exact .child (.root (by simp)) hcp
      · exact .child (S.reach p w.1 w.2) hcp
    · exact .child (.root (List.mem_singleton.2 rfl)) (by rw [kCh a ha q]; exact hc)
  · by_cases q : a ∈ (h.get node).children
    · exact (S.keptOuts a q).2
    · by_cases hne : a = node
      · subst hne
        exact S.keptNode
      · rw [S.frame a (hin a ha) hne q]
  · intro p hp z hz
    rcases S.closed p ((hM p).2 hp) z hz with w | w
    · exact .inr (((hM z).1 w).imp id And.left)
    · exact .inl w
  · rintro ⟨e, he, hm⟩
    exact hm _ (hG e he)

theorem Funnelled.advance {node : Addr} {t : Nat} {es : List (Expand ℚ)} (W : Addr → Prop) (hW : ∀ a, W a → U a) (M : Mixed Z Q speeds roots supply h U T f)
    (hU : U node) (he : (h.get node).expands = .merge t :: es) (N : Funnelled h h' node t es) (R : Region h' (Within h U h'))
    (hq : ∀ a, W a → a ∈ (h.get node).parents → (h.get a).children = [node] ∨
      a ∉ (h.get node).parents.drop (untouched t (h.get node).parents.length)) :
    Advance Z h h' U W node (fun a => h.next ≤ a ∧ a < h'.next) := by
  have hin := M.region.inside
  have psU : ∀ p ∈ (h.get node).parents, U p := fun p hp => M.region.parents node hU p hp
  have psCh : ∀ p ∈ (h.get node).parents, node ∈ (h.get p).children := fun p hp => by
    rw [← List.count_pos_iff, M.count p node (psU p hp) hU, List.count_pos_iff]
    exact hp
  have kFrame : ∀ a, U a → a ≠ node → a ∉ (h.get node).parents → h'.get a = h.get a := fun a ha hne q => N.frame a (hin a ha) hne q
  have kPs := N.keptParents
  have kNode : (h'.get node).children = (h.get node).children := by rw [N.keptNode]
  have eNode : (h'.get node).expands = es := by rw [N.keptNode]
  have kExp : ∀ a, U a → a ≠ node → (h'.get a).expands = (h.get a).expands := fun a ha hne => by
    by_cases q : a ∈ (h.get node).parents
    · rw [kPs a q]
    · rw [kFrame a ha hne q]
  have kids : ∀ a, U a → ∀ c ∈ (h'.get a).children, c ∈ (h.get a).children ∨ h.next ≤ c ∧ c < h'.next := fun a ha c hc => by
    by_cases hne : a = node
    · subst hne
      rw [kNode] at hc
      exact .inl hc
    · by_cases q : a ∈ (h.get node).parents
      · have hcW := R.inside c (R.children a (.inl ha) c hc)
        by_cases q' : h.next ≤ c
        · exact .inr ⟨q', hcW⟩
        · left
          by_cases e : c = node
          · rw [e]; exact psCh a q
          · rw [← List.count_pos_iff, ← N.others a q c (by omega) e]
            exact List.count_pos_iff.2 hc
      · rw [kFrame a ha hne q] at hc
        exact .inl hc
  have news : ∀ p, h.next ≤ p → p < h'.next → ∀ z ∈ (h'.get p).children, z = node ∨ h.next ≤ z := fun p h1 h2 z hz => by
    obtain ⟨-, b, hb, w⟩ := N.three p h1 h2
    rw [hb, List.mem_singleton] at hz
    subst hz
    exact w.imp id fun w => by omega
  refine ⟨N.next, fun _ w => w, fun a ha hne => .inl (kExp a ha hne), ?_, ?_, fun a ha _ => kids a ha, ?_, ?_, fun a h1 h2 => ⟨N.quiet a h1 h2, ?_⟩,
    fun a ha => ?_, fun a c ha hc => ?_, ?_, fun a ha => ?_, fun a ha hne => ?_, fun p hp z hz => ?_, fun w => ⟨kNode, fun v => w ?_, news⟩,
    fun c hc z hz hzn _ => .inl ⟨kNode, ?_, fun p h1 h2 w => ?_⟩⟩
  · rintro a ha ⟨b, hb, hc, e, hee, hm⟩
    rcases hb with hb | hb
    · have hc' : a ∈ (h.get b).children := (kids b hb a hc).resolve_right (by have := hin a ha; omega)
      refine ⟨b, hb, hc', e, ?_, hm⟩
      by_cases q : b = node
      · subst q
        rw [eNode] at hee
        rw [he]
        exact List.mem_cons_of_mem _ hee
      · rw [kExp b hb q] at hee
        exact hee
    · rw [N.quiet b hb.1 hb.2] at hee
      simp at hee
  · rintro a ⟨hc, e, hee, hm⟩
    rw [kNode] at hc
    rw [eNode] at hee
    exact ⟨hc, e, by rw [he]; exact List.mem_cons_of_mem _ hee, hm⟩
  · intro a ha hne
    by_cases q : a ∈ (h.get node).parents
    · rcases hq a ha q with w | w
      · have hl := N.lens a q
        rw [w, List.length_singleton] at hl
        obtain ⟨c, hc⟩ := List.length_eq_one_iff.1 hl
        rcases kids a (hW a ha) c (by rw [hc]; simp) with v | v
        · rw [w, List.mem_singleton] at v
          exact .inl (by rw [hc, w, v])
        · right
          rw [hc]
          intro c' hc'
          rw [List.mem_singleton.1 hc']
          exact v
      · exact .inl (N.still a q w)
    · exact .inl (by rw [kFrame a (hW a ha) hne q])
  · rintro m ⟨h1, h2⟩ c hc
    obtain ⟨-, b, hb, w⟩ := N.three m h1 h2
    rw [hb, List.mem_singleton] at hc
    subst hc
    rcases w with w | w
    · exact .inl w
    · exact .inr ⟨by omega, w.2⟩
  · obtain ⟨-, b, hb, w⟩ := N.three a h1 h2
    rw [hb]
    simp
  · by_cases hne : a = node
    · subst hne; rw [kNode]
    · by_cases q : a ∈ (h.get node).parents
      · have hl := N.lens a q
        rw [← List.length_eq_zero_iff, ← List.length_eq_zero_iff, hl]
      · rw [kFrame a ha hne q]
  · by_cases hne : a = node
    · subst hne
      exact .child (.root (List.mem_singleton.2 rfl)) (by rw [kNode]; exact hc)
    · by_cases q : a ∈ (h.get node).parents
      · by_cases e : c = node
        · subst e
          exact N.reach a q
        · refine .child (.root (List.mem_singleton.2 rfl)) ?_
          rw [← List.count_pos_iff, N.others a q c (hin c (M.region.children a ha c hc)) e]
          exact List.count_pos_iff.2 hc
      · exact .child (.root (List.mem_singleton.2 rfl)) (by rw [kFrame a ha hne q]; exact hc)
  · intro a
    induction a using Nat.strong_induction_on with
    | _ a ih =>
      intro h1 h2
      obtain ⟨p, hp⟩ := List.exists_mem_of_ne_nil (h'.get a).parents (by
        have := (N.three a h1 h2).1
        intro e
        rw [e] at this
        simp at this)
      have hs := N.sources a h1 h2 p hp
      have hc : a ∈ (h'.get p).children := by
        rw [← List.count_pos_iff, ← N.links a (.inr ⟨h1, h2⟩) p (hs.imp id fun w => ⟨w.1, by omega⟩)]
        exact List.count_pos_iff.2 hp
      rcases hs with w | w
      · exact ⟨p, psU p w, .child (.root (List.mem_singleton.2 rfl)) hc⟩
      · obtain ⟨b, hb, w'⟩ := ih p w.2 w.1 (by omega)
        exact ⟨b, hb, .child w' hc⟩
  · by_cases hne : a = node
    · subst hne
      rw [N.keptNode]
    · by_cases q : a ∈ (h.get node).parents
      · rw [kPs a q]
      · rw [kFrame a ha hne q]
  · by_cases q : a ∈ (h.get node).parents
    · exact N.trim a q
    · exact ⟨_, [], by rw [List.append_nil], .inl (by rw [kFrame a ha hne q]), by simp⟩
  · rcases hp with rfl | hp
    · exact .inl (by rw [← kNode]; exact hz)
    · exact .inr (news p hp.1 hp.2 z hz)
  · obtain ⟨e, hee, hm⟩ := v
    rw [eNode] at hee
    exact ⟨e, by rw [he]; exact List.mem_cons_of_mem _ hee, hm⟩
  · rw [he] at hc
    rw [eNode]
    exact (List.mem_cons.1 hc).resolve_left (by simp)
  · rcases news p h1 h2 z w with v | v
    · exact hzn v
    · have := hin z (M.region.children node hU z hz)
      omega

/-- After the division or the extraction of a node the belts in front of it are merged without touching machines that have other belts too. -/
theorem Unfolded.gentle {node : Addr} {V : ℚ} (S : Unfolded Z roots h h' node V) (hr : node ∈ roots → (h.get node).parents = [])
    (hin : ∀ a, U a → a < h.next) (hU : ∀ p ∈ (h.get node).parents, U p ∧ p ≠ node) (hE : Easy roots h node) :
    ∀ a, U a → a ∈ (h'.get node).parents → (h'.get a).children = [node] ∨
      a ∉ (h'.get node).parents.drop (untouched (cap roots node) (h'.get node).parents.length) := by
  intro a ha hp
  obtain ⟨qs, g1, g2, g3⟩ := S.grown
  have hp0 : a ∈ (h.get node).parents := by
    rw [g1] at hp
    rcases List.mem_append.1 hp with w | w
    · exact w
    · have := g3 a w
      have := hin a ha
      omega
  have few : (h'.get node).parents.length ≤ cap roots node →
      a ∉ (h'.get node).parents.drop (untouched (cap roots node) (h'.get node).parents.length) := fun w => by
    unfold untouched
    rw [if_pos w, List.drop_length]
    simp
  rcases hE with w | w | w
  · right
    apply few
    rw [g1, List.length_append, g2]
    exact w
  · right
    by_cases q : (h'.get node).parents.length ≤ cap roots node
    · exact few q
    · have hc : cap roots node = 3 := cap_ne fun hn => by
        rw [hr hn] at hp0
        simp at hp0
      have hfit := S.fit
      rw [hc] at q hfit ⊢
      have hpos := untouched_pos (Nat.lt_of_not_le q)
      intro hd
      refine hfit ?_ hd
      obtain ⟨x, hx⟩ := List.length_eq_one_iff.1 (le_antisymm w (List.length_pos_of_mem hp0))
      rw [hx, List.mem_singleton] at hp0
      subst hp0
      rw [g1, hx] at hpos ⊢
      generalize untouched 3 _ = k at hpos ⊢
      obtain ⟨k, rfl⟩ : ∃ k', k = k' + 1 := ⟨k - 1, by omega⟩
      simp
  · left
    have hne := (hU a hp0).2
    have : (h'.get a).children = (h.get a).children := by
      by_cases q : a ∈ (h.get node).children
      · exact (S.spread.keptOuts a q).1
      · rw [S.spread.frame a (hin a ha) hne q]
    rw [this]
    exact w a hp0

end Satis.Graph
