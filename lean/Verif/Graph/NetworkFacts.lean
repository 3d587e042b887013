import Verif.Graph.Network
/-!
# A finished network is a correct one
-/

namespace Satis.Graph
open Satis

theorem mem_made {h h' : Heap ℚ} {node a : Addr} (hn : h.next ≤ h'.next) : a ∈ made h h' node ↔ a = node ∨ h.next ≤ a ∧ a < h'.next := by
  unfold made
  rw [List.mem_cons, List.mem_range'_1]
  omega

theorem made_nodup {h h' : Heap ℚ} {node : Addr} (hnode : node < h.next) : (made h h' node).Nodup := by
  unfold made
  rw [List.nodup_cons, List.mem_range'_1]
  exact ⟨by omega, List.nodup_range'⟩

theorem brings_insOf (E : List (Addr × Addr)) (s : Addr → ℚ) (x : Addr) : brings E s x = ((insOf E x).map s).sum := by
  induction E with
  | nil => rfl
  | cons e E ih =>
    have : brings (e :: E) s x = (if e.2 = x then s e.1 else 0) + brings E s x := by simp [brings]
    rw [this, ih]
    unfold insOf
    by_cases h : e.2 = x <;> simp [h]

theorem handed_eq {h h' : Heap ℚ} {node : Addr} {V : ℚ} {E : List (Addr × Addr)} (hnode : node < h.next)
    (ch : ∀ a ∈ made h h' node, (h'.get a).children = outsOf E a) (starts : ∀ e ∈ E, e.1 ∈ made h h' node) (x : Addr) :
    handed h' (made h h' node) (flows h' node V) x = brings E (share h' node V E) x := by
  rw [brings_eq (made_nodup hnode) starts]
  unfold handed
  congr 1
  apply List.map_congr_left
  intro a ha
  rw [ch a ha]
  rfl

theorem network_of {h h' : Heap ℚ} {node : Addr} {V : ℚ} {outs : List Addr} {E : List (Addr × Addr)} (hnext : h.next ≤ h'.next)
    (hnode : node < h.next)
    (ch : ∀ a ∈ made h h' node, (h'.get a).children = outsOf E a)
    (pa : ∀ c, c ∈ outs ∨ h.next ≤ c ∧ c < h'.next → (h'.get c).parents = insOf E c)
    (pn : (h'.get node).parents = (h.get node).parents ++ insOf E node)
    (starts : ∀ e ∈ E, e.1 ∈ made h h' node) (ends : ∀ e ∈ E, e.2 ∈ made h h' node ∨ e.2 ∈ outs)
    (arity : ∀ a ∈ made h h' node, (outsOf E a).length = 2 ∨ (outsOf E a).length = 3)
    (steady : ∀ a, h.next ≤ a → a < h'.next → brings E (share h' node V E) a = (h'.get a).value)
    (looped : (h.get node).value + brings E (share h' node V E) node = V)
    (served : ∀ x ∈ outs, brings E (share h' node V E) x = (h.get x).value)
    (reach : ∀ a, h.next ≤ a → a < h'.next → Reach h' [node] a)
    (ids : ∀ a, h.next ≤ a → a < h'.next → (h'.get a).id = h.nextUid + (a - h.next))
    (uid : h'.nextUid = h.nextUid + (h'.next - h.next))
    (frame : ∀ a, a < h.next → a ≠ node → a ∉ outs → h'.get a = h.get a)
    (keptOuts : ∀ a ∈ outs, ∃ es, h'.get a = { h.get a with parents := (h'.get a).parents, expands := (h.get a).expands ++ es })
    (keptNode : ∃ es, h'.get node = { h.get node with
      parents := (h'.get node).parents, children := (h'.get node).children, expands := (h.get node).expands ++ es }) :
    SplitterNetwork h h' node V outs where
  next := hnext
  arity a ha := by rw [ch a ha]; exact arity a ha
  closed a ha c hc := by
    rw [ch a ha] at hc
    exact ends _ (mem_outsOf.1 hc)
  steady a h1 h2 := by rw [handed_eq hnode ch starts]; exact steady a h1 h2
  looped := by rw [handed_eq hnode ch starts]; exact looped
  served x hx := by rw [handed_eq hnode ch starts]; exact served x hx
  links c hc := by
    rw [pa c hc]
    refine ⟨fun p hp => starts _ (mem_insOf.1 hp), ?_⟩
    intro a ha
    rw [ch a ha, count_outsOf, count_insOf]
  back := by
    refine ⟨_, pn, fun p hp => starts _ (mem_insOf.1 hp), ?_⟩
    intro a ha
    rw [ch a ha, count_outsOf, count_insOf]
  reach := reach
  ids := ids
  uid := uid
  frame := frame
  keptOuts := keptOuts
  keptNode := keptNode

/-- The heap on which a network is built: the node has no children and the nodes `cs` have no parents. -/
def detach (h : Heap ℚ) (node : Addr) (cs : List Addr) : Heap ℚ := clear (h.modify node fun o => { o with children := [] }) cs

theorem detach_get {h : Heap ℚ} {node : Addr} {cs : List Addr} (a : Addr) : (detach h node cs).get a =
    { h.get a with
      parents := if a ∈ cs then [] else (h.get a).parents
      children := if a = node then [] else (h.get a).children } := by
  unfold detach clear
  simp only [Heap.get_modify]
  by_cases h1 : a = node
  · subst h1
    by_cases h2 : a ∈ cs <;> simp [h2]
  · by_cases h2 : a ∈ cs <;> simp [h1, h2]

theorem brings_ne_zero {E : List (Addr × Addr)} {s : Addr → ℚ} {x : Addr} (h : brings E s x ≠ 0) : ∃ a, (a, x) ∈ E := by
  by_contra hcon
  apply h
  apply brings_eq_zero
  intro e he q
  exact hcon ⟨e.1, by rw [← q]; exact he⟩

section finish
variable {h h' : Heap ℚ} {node : Addr} {V : ℚ} {cs ts : List Addr} {E : List (Addr × Addr)} {S : List Addr} {w : ℚ} {f : Addr → ℚ}

theorem Net.reach {hb g : Heap ℚ} (I : Net hb h' node V ts E S [] w f) (ch : ∀ a x, (a, x) ∈ E → x ∈ (g.get a).children) :
    ∀ a, hb.next ≤ a → a < h'.next → Reach g [node] a := by
  intro a
  induction a using Nat.strong_induction_on with
  | _ a ih =>
    intro h1 h2
    obtain ⟨p, hp, hpa, -⟩ := I.single a h1 h2
    have hE : (p, a) ∈ E := mem_insOf.1 (by rw [hp]; simp)
    have hpS := I.starts _ hE
    have hpr : Reach g [node] p := by
      rcases (I.mem p).1 (by simpa using hpS) with q | q
      · rw [q]; exact .root (by simp)
      · rcases hpa with hpa | hpa
        · rw [hpa]; exact .root (by simp)
        · exact ih p hpa q.1 q.2
    exact .child hpr (ch p a hE)

/-- Every new splitter takes at most half of what the node takes. -/
theorem Net.bound {hb : Heap ℚ} (I : Net hb h' node V ts E S [] w f) (hV : 0 ≤ V) :
    ∀ a, hb.next ≤ a → a < h'.next → 0 ≤ (h'.get a).value ∧ (h'.get a).value ≤ V / 2 := by
  intro a
  induction a using Nat.strong_induction_on with
  | _ a ih =>
    intro h1 h2
    obtain ⟨p, hp, hpa, hs⟩ := I.single a h1 h2
    have hE : (p, a) ∈ E := mem_insOf.1 (by rw [hp]; simp)
    have hpS := I.starts _ hE
    have hfl : 0 ≤ flows h' node V p ∧ flows h' node V p ≤ V := by
      rcases (I.mem p).1 (by simpa using hpS) with q | q
      · rw [q]
        simp [flows, hV]
      · have hne : p ≠ node := by have := I.below; omega
        obtain ⟨q1, q2⟩ := ih p (by omega) q.1 q.2
        simp only [flows, if_neg hne]
        exact ⟨q1, by linarith⟩
    rw [← hs]
    unfold share
    rcases I.arity p hpS with q | q <;> rw [q] <;> push_cast <;> exact ⟨by linarith [hfl.1], by linarith [hfl.1, hfl.2]⟩

/-- Without an extra node for the loop. -/
theorem Net.network (I : Net (detach h node cs) h' node V ts E S [] w f) (hnode : node < h.next)
    (hcs : ∀ c ∈ cs, c < h.next ∧ c ≠ node) (hts : ∀ t ∈ ts, t = node ∨ t ∈ cs)
    (hloop : (h.get node).value + f node = V) (hserved : ∀ c ∈ cs, f c = (h.get c).value) : SplitterNetwork h h' node V cs := by
  have hmem : ∀ a, a ∈ S ++ [] ↔ a = node ∨ h.next ≤ a ∧ a < h'.next := I.mem
  have hS : ∀ a, a ∈ S ↔ a = node ∨ h.next ≤ a ∧ a < h'.next := fun a => by simpa using hmem a
  have wc : ∀ a, a < h'.next → (h'.get a).children = (if a < h.next then ((detach h node cs).get a).children else []) ++ outsOf E a :=
    I.wired.children
  have wp : ∀ a, a < h'.next → (h'.get a).parents = (if a < h.next then ((detach h node cs).get a).parents else []) ++ insOf E a :=
    I.wired.parents
  have hnext : h.next ≤ h'.next := I.wired.next
  have hmade : ∀ a, a ∈ made h h' node ↔ a ∈ S := fun a => by rw [mem_made hnext, hS]
  have ch : ∀ a ∈ S, (h'.get a).children = outsOf E a := fun a ha => by
    have hlt : a < h'.next := by rcases (hS a).1 ha with q | q <;> omega
    rw [wc a hlt, detach_get]
    split
    · rename_i q
      have : a = node := by rcases (hS a).1 ha with q | q <;> omega
      simp [this]
    · rfl
  have out_nil : ∀ a, a < h.next → a ≠ node → outsOf E a = [] := fun a h1 h2 => outsOf_eq_nil fun e he q => by
    have := (hS e.1).1 (I.starts e he)
    omega
  refine network_of (E := E) hnext hnode (fun a ha => ch a ((hmade a).1 ha)) ?_ ?_ (fun e he => (hmade _).2 (I.starts e he)) ?_
    (fun a ha => I.arity a ((hmade a).1 ha)) ?_ ?_ ?_ (I.reach fun a x hx => by rw [ch a (I.starts _ hx)]; exact mem_outsOf.2 hx) (fun a h1 h2 => (I.wired.fresh a h1 h2).1) I.wired.uid ?_ ?_ ?_
  · rintro c (hc | hc)
    · have hlt := (hcs c hc).1
      rw [wp c (by omega), detach_get]
      simp [hc]
    · rw [wp c hc.2, if_neg]
      · rfl
      · show ¬ c < h.next
        omega
  · have : node ∉ cs := fun q => (hcs node q).2 rfl
    rw [wp node (by omega), if_pos hnode, detach_get]
    simp [this]
  · intro e he
    by_cases hlt : e.2 < h.next
    · rcases hts _ (I.ends e he hlt) with q | q
      · left; rw [q]; exact (hmade node).2 ((hS node).2 (.inl rfl))
      · exact .inr q
    · left
      rw [mem_made hnext]
      right
      exact ⟨by omega, (I.wired.inside e he).2⟩
  · intro a h1 h2
    obtain ⟨p, hp, -, hs⟩ := I.single a h1 h2
    rw [brings_insOf, hp]
    simpa using hs
  · rw [I.flow node hnode]; exact hloop
  · intro c hc
    rw [I.flow c (hcs c hc).1]
    exact hserved c hc
  · intro a ha hane hacs
    have hin : insOf E a = [] := insOf_eq_nil fun e he q => by
      rcases hts _ (I.ends e he (by rw [q]; exact ha)) with q' | q'
      · exact hane (q ▸ q')
      · exact hacs (q ▸ q')
    have h1 := wc a (by omega)
    have h2 := wp a (by omega)
    rw [out_nil a ha hane, if_pos ha, detach_get] at h1
    rw [hin, if_pos ha, detach_get] at h2
    rw [I.wired.keep a ha, h1, h2, detach_get]
    simp [hane, hacs]
  · intro a ha
    obtain ⟨h1, h2⟩ := hcs a ha
    have q1 := wc a (by omega)
    rw [out_nil a h1 h2, if_pos h1, detach_get] at q1
    refine ⟨[], ?_⟩
    conv_lhs => rw [I.wired.keep a h1, q1, detach_get]
    simp [h2]
  · refine ⟨[], ?_⟩
    conv_lhs => rw [I.wired.keep node hnode, detach_get]
    simp

theorem brings_change {E : List (Addr × Addr)} {s s' : Addr → ℚ} {a x : Addr} (h : ∀ e ∈ E, e.1 ≠ a → s' e.1 = s e.1) :
    brings E s' x = brings E s x + (E.count (a, x) : ℚ) * (s' a - s a) := by
  induction E with
  | nil => simp [brings]
  | cons e E ih =>
    have ih := ih fun e he => h e (List.mem_cons_of_mem _ he)
    have h1 : ∀ t : Addr → ℚ, brings (e :: E) t x = (if e.2 = x then t e.1 else 0) + brings E t x := fun t => by simp [brings]
    rw [h1, h1, ih, List.count_cons]
    by_cases hx : e.2 = x
    · by_cases ha : e.1 = a
      · have : e = (a, x) := by rw [← ha, ← hx]
        subst this
        simp
        ring
      · have : ¬ e = (a, x) := fun q => ha (by rw [q])
        simp [this, hx, h e (by simp) ha]
        ring
    · have : ¬ e = (a, x) := fun q => hx (by rw [q])
      simp [this, hx]

theorem Wired.linkAll {p : Addr} : ∀ (xs : List Addr) (h : Heap ℚ), p < h.next → (∀ x ∈ xs, x < h.next) →
    Wired h (xs.foldl (fun h c => Graph.link h p c) h) (xs.map fun x => (p, x)) := by
  intro xs
  induction xs with
  | nil => intro h _ _; exact Wired.refl h
  | cons x xs ih =>
    intro h hp hx
    have w1 : Wired h _ _ := Wired.link hp (hx x (by simp))
    exact w1.trans (ih (Graph.link h p x) hp fun y hy => hx y (List.mem_cons_of_mem _ hy))

theorem outsOf_map (p a : Addr) (xs : List Addr) : outsOf (xs.map fun x => (p, x)) a = if p = a then xs else [] := by
  unfold outsOf
  by_cases h : p = a
  · rw [if_pos h, List.filter_eq_self.2 (fun e he => by
      simp only [List.mem_map] at he
      obtain ⟨x, -, rfl⟩ := he
      simp [h])]
    simp
  · rw [if_neg h, List.filter_eq_nil_iff.2 (fun e he => by
      simp only [List.mem_map] at he
      obtain ⟨x, -, rfl⟩ := he
      simp [h])]
    rfl

/-- With an extra node that takes what comes back and hands it to the nodes below `node`. -/
theorem Net.networkOver {h1 : Heap ℚ} {toLoop : ℚ} (hnew : newNode h toLoop [] none none = .ok (h1, h.next))
    (I : Net (detach h1 node cs) h' node V ts E S [] w f) (hnode : node < h.next)
    (hcs : ∀ c ∈ cs, c < h.next ∧ c ≠ node) (hts : ∀ t ∈ ts, t = h.next ∨ t = node ∨ t ∈ cs)
    (hV : (h.get node).value + toLoop = V) (hpos : 0 < toLoop) (hloop : f h.next = toLoop) (hback : f node = 0)
    (hserved : ∀ c ∈ cs, f c = (h.get c).value) :
    SplitterNetwork h (joinLoop h' node h.next) node (h.get node).value cs ∧
      ((joinLoop h' node h.next).get h.next).level = none ∧ ((joinLoop h' node h.next).get h.next).value = toLoop := by
  unfold newNode at hnew
  rw [if_neg (not_lt.2 hpos.le)] at hnew
  simp only [Except.ok.injEq, Prod.mk.injEq, Heap.alloc] at hnew
  have hn1 : h1.next = h.next + 1 := by rw [← hnew.1]
  have hu1 : h1.nextUid = h.nextUid + 1 := by rw [← hnew.1]
  have hg1 : ∀ a, a < h.next → h1.get a = h.get a := fun a ha => by
    rw [← hnew.1]
    exact if_neg (by omega)
  have hgl : h1.get h.next = { value := toLoop, id := h.nextUid, level := none, past := (FastList.new [toLoop]).extend [], parents := []
                               children := [], expands := [], levelsToAdd := 0 } := by
    rw [← hnew.1]
    exact if_pos rfl
  have hmem : ∀ a, a ∈ S ++ [] ↔ a = node ∨ h1.next ≤ a ∧ a < h'.next := I.mem
  have hS : ∀ a, a ∈ S ↔ a = node ∨ h.next < a ∧ a < h'.next := fun a => by
    have := hmem a
    rw [List.append_nil, hn1] at this
    rw [this]
    omega
  have hnext1 : h1.next ≤ h'.next := I.wired.next
  have hEout : outsOf E h.next = [] := outsOf_eq_nil fun e he q => by
    have := (hS e.1).1 (I.starts e he)
    omega
  have hch : (h'.get node).children = outsOf E node := by
    have := I.wired.children node (by omega)
    rw [detach_get] at this
    simpa using this
  have hKlt : ∀ x ∈ outsOf E node, x < h'.next := fun x hx => (I.wired.inside (node, x) (mem_outsOf.1 hx)).2
  obtain ⟨h3, hh3⟩ : ∃ h3, joinLoop h' node h.next = h3 := ⟨_, rfl⟩
  have wJ : Wired h' h3 ((outsOf E node).map fun x => (h.next, x)) := by
    rw [← hh3]
    unfold joinLoop
    rw [hch]
    exact Wired.linkAll _ _ (by omega) hKlt
  have hn3 : h3.next = h'.next := by
    rw [← hh3]
    unfold joinLoop
    have : ∀ (p : Addr) (xs : List Addr) (g : Heap ℚ), (xs.foldl (fun h c => Graph.link h p c) g).next = g.next := by
      intro p xs
      induction xs with
      | nil => intro g; rfl
      | cons x xs ih => intro g; exact (ih _).trans rfl
    exact this _ _ _
  rw [hh3]
  have W := I.wired.trans wJ
  obtain ⟨E', hE'⟩ : ∃ E', E' = E ++ (outsOf E node).map fun x => (h.next, x) := ⟨_, rfl⟩
  rw [← hE'] at W
  have hout : ∀ a, outsOf E' a = outsOf E a ++ if h.next = a then outsOf E node else [] := fun a => by
    rw [hE', outsOf_append, outsOf_map]
  have houtS : ∀ a, a ≠ h.next → outsOf E' a = outsOf E a := fun a ha => by
    rw [hout, if_neg (Ne.symm ha), List.append_nil]
  have houtL : outsOf E' h.next = outsOf E node := by rw [hout, if_pos rfl, hEout]; rfl
  have hmade : ∀ a, a ∈ made h h3 node ↔ a = h.next ∨ a ∈ S := fun a => by
    rw [mem_made (by omega), hS, hn3]
    omega
  have hnodeS : node ∈ S := (hS node).2 (.inl rfl)
  have wc : ∀ a, a < h3.next → (h3.get a).children = (if a < h1.next then ((detach h1 node cs).get a).children else []) ++ outsOf E' a :=
    W.children
  have wp : ∀ a, a < h3.next → (h3.get a).parents = (if a < h1.next then ((detach h1 node cs).get a).parents else []) ++ insOf E' a :=
    W.parents
  have wk : ∀ a, a < h1.next → h3.get a = { (detach h1 node cs).get a with children := (h3.get a).children, parents := (h3.get a).parents } :=
    W.keep
  have hval : ∀ a, a < h'.next → (h3.get a).value = (h'.get a).value := fun a ha => wJ.value ha
  have hvl : (h3.get h.next).value = toLoop := by rw [wk h.next (by omega), detach_get, hgl]
  have ch : ∀ a ∈ made h h3 node, (h3.get a).children = outsOf E' a := fun a ha => by
    rcases (hmade a).1 ha with q | q
    · rw [q, wc _ (by omega), if_pos (by omega), detach_get, hgl]
      simp
    · rcases (hS a).1 q with q | q
      · rw [q, wc _ (by omega), if_pos (by omega), detach_get]
        simp
      · rw [wc _ (by omega), if_neg (by omega)]
        rfl
  have starts : ∀ e ∈ E', e.1 ∈ made h h3 node := fun e he => by
    rw [hE'] at he
    rcases List.mem_append.1 he with he | he
    · exact (hmade _).2 (.inr (I.starts e he))
    · simp only [List.mem_map] at he
      obtain ⟨x, -, rfl⟩ := he
      exact (hmade _).2 (.inl rfl)
  have ends0 : ∀ e ∈ E, e.2 ∈ made h h3 node ∨ e.2 ∈ cs := fun e he => by
    by_cases hlt : e.2 < h1.next
    · rcases hts _ (I.ends e he hlt) with q | q | q
      · left; rw [q]; exact (hmade _).2 (.inl rfl)
      · left; rw [q]; exact (hmade _).2 (.inr hnodeS)
      · exact .inr q
    · left
      rw [mem_made (by omega)]
      have := (I.wired.inside e he).2
      omega
  have ends : ∀ e ∈ E', e.2 ∈ made h h3 node ∨ e.2 ∈ cs := fun e he => by
    rw [hE'] at he
    rcases List.mem_append.1 he with he | he
    · exact ends0 e he
    · simp only [List.mem_map] at he
      obtain ⟨x, hx, rfl⟩ := he
      exact ends0 (node, x) (mem_outsOf.1 hx)
  have hK := I.arity node hnodeS
  have hK0 : ((outsOf E node).length : ℚ) ≠ 0 := by
    rcases hK with q | q <;> rw [q] <;> norm_num
  have hflow : ∀ x, brings E' (share h3 node (h.get node).value E') x = brings E (share h' node V E) x := fun x => by
    obtain ⟨sh, hsh⟩ : ∃ sh, sh = share h3 node (h.get node).value E' := ⟨_, rfl⟩
    rw [← hsh, hE', brings_append, brings_change (s := share h' node V E) (s' := sh) (a := node),
      brings_const (E := (outsOf E node).map fun x => (h.next, x)) (c := toLoop / (outsOf E node).length)]
    · have e1 : sh node = (h.get node).value / (outsOf E node).length := by
        rw [hsh]
        unfold share flows
        rw [if_pos rfl, houtS node (by omega)]
      have e2 : share h' node V E node = V / (outsOf E node).length := by
        unfold share flows
        rw [if_pos rfl]
      have e3 : (((outsOf E node).map fun x => (h.next, x)).map Prod.snd) = outsOf E node := by
        rw [List.map_map]
        exact List.map_id _
      rw [e1, e2, e3, count_outsOf, ← hV]
      field_simp
      ring
    · intro e he
      simp only [List.mem_map] at he
      obtain ⟨y, -, rfl⟩ := he
      rw [hsh]
      unfold share flows
      rw [if_neg (by simp only; omega), houtL, hvl]
    · intro e he hne
      have h1' := (hS e.1).1 (I.starts e he)
      rw [hsh]
      unfold share flows
      rw [if_neg hne, if_neg hne, houtS e.1 (by omega), hval e.1 (by omega)]
  refine ⟨network_of (E := E') (by omega) hnode ch ?_ ?_ starts ends ?_ ?_ ?_ ?_ ?_ ?_ ?_ ?_ ?_ ?_, ?_, hvl⟩
  · rintro c (hc | hc)
    · have hlt := (hcs c hc).1
      rw [wp c (by omega), if_pos (by omega), detach_get]
      simp [hc]
    · rw [wp c hc.2]
      by_cases hcl : c = h.next
      · subst hcl
        rw [if_pos (by omega), detach_get, hgl]
        simp
      · rw [if_neg (by omega)]
        rfl
  · have : node ∉ cs := fun q => (hcs node q).2 rfl
    rw [wp node (by omega), if_pos (by omega), detach_get, hg1 node hnode]
    simp [this]
  · intro a ha
    rcases (hmade a).1 ha with q | q
    · rw [q, houtL]; exact hK
    · rw [houtS a (by have := (hS a).1 q; omega)]
      exact I.arity a q
  · intro a ha1 ha2
    rw [hflow]
    by_cases hal : a = h.next
    · subst hal
      rw [I.flow _ (show h.next < h1.next by omega), hloop, hvl]
    · have h2 : h1.next ≤ a := by omega
      obtain ⟨p, hp, -, hs⟩ := I.single a h2 (by omega)
      rw [brings_insOf, hp, hval a (by omega)]
      simpa using hs
  · rw [hflow, I.flow node (show node < h1.next by omega), hback, add_zero]
  · intro c hc
    rw [hflow, I.flow c (show c < h1.next by have := (hcs c hc).1; omega)]
    exact hserved c hc
  · have hce : ∀ a x, (a, x) ∈ E → x ∈ (h3.get a).children := fun a x hx => by
      rw [ch a ((hmade a).2 (.inr (I.starts _ hx))), hout]
      exact List.mem_append_left _ (mem_outsOf.2 hx)
    have hr := I.reach (g := h3) hce
    intro a ha1 ha2
    by_cases hal : a = h.next
    · subst hal
      have hne : brings E (share h' node V E) h.next ≠ 0 := by
        rw [I.flow _ (show h.next < h1.next by omega), hloop]
        exact hpos.ne'
      obtain ⟨e, he⟩ := brings_ne_zero hne
      refine .child (a := e) ?_ (hce e _ he)
      rcases (hS e).1 (I.starts _ he) with q | q
      · rw [q]; exact .root (by simp)
      · exact hr _ (show h1.next ≤ e by omega) q.2
    · exact hr a (show h1.next ≤ a by omega) (by omega)
  · intro a ha1 ha2
    by_cases hal : a = h.next
    · subst hal
      rw [wk _ (by omega), detach_get, hgl]
      simp
    · have h2 : h1.next ≤ a := by omega
      rw [(W.fresh a h2 ha2).1]
      show h1.nextUid + (a - h1.next) = _
      omega
  · rw [W.uid]
    show h1.nextUid + (h3.next - h1.next) = _
    omega
  · intro a ha hane hacs
    have hin : insOf E' a = [] := insOf_eq_nil fun e he q => by
      rcases ends e he with q' | q'
      · rw [q, mem_made (by omega)] at q'
        omega
      · exact hacs (q ▸ q')
    have hon : outsOf E' a = [] := outsOf_eq_nil fun e he q => by
      have := starts e he
      rw [q, mem_made (by omega)] at this
      omega
    have q1 := wc a (by omega)
    have q2 := wp a (by omega)
    rw [hon, if_pos (by omega), detach_get] at q1
    rw [hin, if_pos (by omega), detach_get] at q2
    rw [wk a (by omega), q1, q2, detach_get, hg1 a ha]
    simp [hane, hacs]
  · intro a ha
    obtain ⟨p1, p2⟩ := hcs a ha
    have hon : outsOf E' a = [] := outsOf_eq_nil fun e he q => by
      have := starts e he
      rw [q, mem_made (by omega)] at this
      omega
    have q1 := wc a (by omega)
    rw [hon, if_pos (by omega), detach_get] at q1
    refine ⟨[], ?_⟩
    conv_lhs => rw [wk a (by omega), q1, detach_get, hg1 a p1]
    simp [p2]
  · refine ⟨[], ?_⟩
    conv_lhs => rw [wk node (by omega), detach_get, hg1 node hnode]
    simp
  · rw [wk _ (by omega), detach_get, hgl]

end finish

/-- Pending expansions do not matter. -/
theorem SplitterNetwork.tag {h h' : Heap ℚ} {node : Addr} {V : ℚ} {outs : List Addr} (N : SplitterNetwork h h' node V outs) {a : Addr}
    (ha : a = node ∨ a ∈ outs ∨ h.next ≤ a) (e : Expand ℚ) : SplitterNetwork h (tagExpand h' a e) node V outs := by
  have hget : ∀ x, (tagExpand h' a e).get x = if x = a then { h'.get x with expands := (h'.get x).expands ++ [e] } else h'.get x := fun x => by
    unfold tagExpand Heap.modify
    by_cases q : x = a
    · subst q; simp
    · simp [q]
  obtain ⟨g, hg⟩ : ∃ g, g = tagExpand h' a e := ⟨_, rfl⟩
  have hnx : g.next = h'.next := by rw [hg]; rfl
  have hux : g.nextUid = h'.nextUid := by rw [hg]; rfl
  rw [← hg] at hget ⊢
  have hc : ∀ x, (g.get x).children = (h'.get x).children := fun x => by rw [hget]; split <;> rfl
  have hp : ∀ x, (g.get x).parents = (h'.get x).parents := fun x => by rw [hget]; split <;> rfl
  have hv : ∀ x, (g.get x).value = (h'.get x).value := fun x => by rw [hget]; split <;> rfl
  have hi : ∀ x, (g.get x).id = (h'.get x).id := fun x => by rw [hget]; split <;> rfl
  have hm : made h g node = made h h' node := by unfold made; rw [hnx]
  have hf : flows g node V = flows h' node V := by funext x; unfold flows; rw [hv]
  have hh : ∀ S T x, handed g S T x = handed h' S T x := fun S T x => by
    unfold handed
    congr 1
    apply List.map_congr_left
    intro y _
    rw [hc]
  have hr : ∀ x, Reach h' [node] x → Reach g [node] x := fun x hx => by
    induction hx with
    | root q => exact .root q
    | child _ hb ih => exact .child ih (by rw [hc]; exact hb)
  constructor
  · rw [hnx]; exact N.next
  · intro x hx; rw [hm] at hx; rw [hc]; exact N.arity x hx
  · intro x hx c hcx; rw [hm] at hx ⊢; rw [hc] at hcx; exact N.closed x hx c hcx
  · intro x h1 h2; rw [hm, hf, hh, hv]; exact N.steady x h1 (by omega)
  · rw [hm, hf, hh]; exact N.looped
  · intro x hx; rw [hm, hf, hh]; exact N.served x hx
  · intro c hcx
    rw [hm, hp]
    obtain ⟨q1, q2⟩ := N.links c (by rw [hnx] at hcx; exact hcx)
    exact ⟨q1, fun x hx => by rw [hc]; exact q2 x hx⟩
  · obtain ⟨ps, q1, q2, q3⟩ := N.back
    rw [hm]
    exact ⟨ps, by rw [hp]; exact q1, q2, fun x hx => by rw [hc]; exact q3 x hx⟩
  · intro x h1 h2; exact hr x (N.reach x h1 (by omega))
  · intro x h1 h2; rw [hi]; exact N.ids x h1 (by omega)
  · rw [hux, hnx]; exact N.uid
  · intro x h1 h2 h3
    rw [hget, if_neg]
    · exact N.frame x h1 h2 h3
    · rintro rfl
      rcases ha with q | q | q
      · exact h2 q
      · exact h3 q
      · omega
  · intro x hx
    obtain ⟨es, q⟩ := N.keptOuts x hx
    rw [hp, hget]
    split
    · exact ⟨es ++ [e], by rw [q]; simp⟩
    · exact ⟨es, q⟩
  · obtain ⟨es, q⟩ := N.keptNode
    rw [hp, hc, hget]
    split
    · exact ⟨es ++ [e], by rw [q]; simp⟩
    · exact ⟨es, q⟩

/-- Afterwards `a` has at most `t` parents or a pending merge. -/
theorem SplitterNetwork.tagMerge {h h' : Heap ℚ} {node : Addr} {V : ℚ} {outs : List Addr} (N : SplitterNetwork h h' node V outs) {a : Addr}
    (ha : a = node ∨ a ∈ outs ∨ h.next ≤ a) (t : Nat) : SplitterNetwork h (tagMerge h' a t) node V outs := by
  unfold Graph.tagMerge
  split
  · exact N.tag ha _
  · exact N

theorem tagMerge_get (h : Heap ℚ) (a : Addr) (t : Nat) (x : Addr) : (Graph.tagMerge h a t).get x =
    if x = a ∧ t < (h.get a).parents.length then { h.get x with expands := (h.get x).expands ++ [.merge t] } else h.get x := by
  unfold Graph.tagMerge tagExpand Heap.modify
  by_cases q : x = a
  · subst q
    split <;> rename_i w <;> simp [w]
  · split <;> simp [q]

theorem tagMerge_parents (h : Heap ℚ) (a : Addr) (t : Nat) (x : Addr) : ((Graph.tagMerge h a t).get x).parents = (h.get x).parents := by
  rw [tagMerge_get]
  split <;> rfl

theorem tagMerge_children (h : Heap ℚ) (a : Addr) (t : Nat) (x : Addr) : ((Graph.tagMerge h a t).get x).children = (h.get x).children := by
  rw [tagMerge_get]
  split <;> rfl

theorem tagMerge_value (h : Heap ℚ) (a : Addr) (t : Nat) (x : Addr) : ((Graph.tagMerge h a t).get x).value = (h.get x).value := by
  rw [tagMerge_get]
  split <;> rfl

theorem tagMerge_level (h : Heap ℚ) (a : Addr) (t : Nat) (x : Addr) : ((Graph.tagMerge h a t).get x).level = (h.get x).level := by
  rw [tagMerge_get]
  split <;> rfl

theorem tagMerge_next (h : Heap ℚ) (a : Addr) (t : Nat) : (Graph.tagMerge h a t).next = h.next := by
  unfold Graph.tagMerge
  split <;> rfl

end Satis.Graph
