import Verif.Graph.Apart
/-!
# Expanding a network at another place in memory

The same calls on two heaps that hold the same network, one of which has handed out more addresses and ids: they do the same, and the
nodes they make differ only in their addresses and ids.
-/

namespace Satis.Graph
open Satis Satis.Cost

/-- Two runs with the same outcome. -/
def Rel {α β : Type} (R : α → β → Prop) : Py α → Py β → Prop
  | .error e, .error e' => e' = e
  | .ok x, .ok y => R x y
  | _, _ => False

theorem Rel.bind {α β α' β' : Type} {R : α → β → Prop} {R' : α' → β' → Prop} {x : Py α} {y : Py β} {f : α → Py α'} {f' : β → Py β'}
    (h : Rel R x y) (hf : ∀ a b, R a b → Rel R' (f a) (f' b)) : Rel R' (x >>= f) (y >>= f') := by
  cases x <;> cases y <;> simp only [Rel] at h
  · exact h
  · exact hf _ _ h

theorem Rel.mono {α β : Type} {R R' : α → β → Prop} {x : Py α} {y : Py β} (h : Rel R x y) (hf : ∀ a b, R a b → R' a b) : Rel R' x y := by
  cases x <;> cases y <;> simp only [Rel] at h ⊢
  · exact h
  · exact hf _ _ h

theorem Rel.map {α β α' β' : Type} {R : α → β → Prop} {R' : α' → β' → Prop} {x : Py α} {y : Py β} {f : α → α'} {f' : β → β'}
    (h : Rel R x y) (hf : ∀ a b, R a b → R' (f a) (f' b)) : Rel R' (x.map f) (y.map f') := by
  cases x <;> cases y <;> simp only [Rel] at h
  · exact h
  · exact hf _ _ h

theorem Rel.same {α : Type} (x : Py α) : Rel (fun a b => a = b) x x := by
  cases x <;> rfl

theorem Rel.foldlM {α α' β β' : Type} {R : β → β' → Prop} {T : α → α' → Prop} {f : β → α → Py β} {f' : β' → α' → Py β'} {l : List α}
    {l' : List α'} (hl : List.Forall₂ T l l') (hf : ∀ s s' x x', R s s' → T x x' → Rel R (f s x) (f' s' x')) :
    ∀ s s', R s s' → Rel R (l.foldlM f s) (l'.foldlM f' s') := by
  induction hl with
  | nil => exact fun s s' h => h
  | cons hx _ ih =>
    intro s s' h
    rw [List.foldlM_cons, List.foldlM_cons]
    exact (hf s s' _ _ h hx).bind fun t t' ht => ih t t' ht

theorem forall₂_self {α : Type} (l : List α) : List.Forall₂ (fun a b => a = b) l l := by
  induction l with
  | nil => exact .nil
  | cons x l ih => exact .cons rfl ih

theorem forall₂_map {α β : Type} (f : α → β) (P : α → Prop) (l : List α) (h : ∀ a ∈ l, P a) :
    List.Forall₂ (fun a b => b = f a ∧ P a) l (l.map f) := by
  induction l with
  | nil => exact .nil
  | cons x l ih => exact .cons ⟨rfl, h x (by simp)⟩ (ih fun a ha => h a (List.mem_cons_of_mem _ ha))

/-- A renaming: in the part `U` of the memory below `n` and for the ids below `u` it changes nothing; later addresses are moved by `k`,
later ids by `j`. -/
structure Ren where
  U : Addr → Prop
  n : Nat
  k : Nat
  u : Nat
  j : Nat

namespace Ren

/-- The new address. -/
def addr (r : Ren) (a : Addr) : Addr := if a < r.n then a else a + r.k

/-- The new id. -/
def uid (r : Ren) (i : Uid) : Uid := if i < r.u then i else i + r.j

/-- The renamed object. -/
def obj (r : Ren) (o : NodeObj ℚ) : NodeObj ℚ :=
  { o with id := r.uid o.id, parents := o.parents.map r.addr, children := o.children.map r.addr }

/-- The part of the memory the two runs work in. -/
def Dom (r : Ren) (h : Heap ℚ) (a : Addr) : Prop := r.U a ∨ r.n ≤ a ∧ a < h.next

theorem addr_inj (r : Ren) {a b : Addr} (h : r.addr a = r.addr b) : a = b := by
  unfold addr at h
  split at h <;> split at h <;> omega

theorem uid_inj (r : Ren) {a b : Uid} (h : r.uid a = r.uid b) : a = b := by
  unfold uid at h
  split at h <;> split at h <;> omega

theorem Dom.mono {r : Ren} {h h' : Heap ℚ} {a : Addr} (ha : r.Dom h a) (hn : h.next ≤ h'.next) : r.Dom h' a :=
  ha.imp id fun q => ⟨q.1, lt_of_lt_of_le q.2 hn⟩

end Ren

/-- The two heaps hold the same network. -/
structure Sim (r : Ren) (h g : Heap ℚ) : Prop where
  old : ∀ a, r.U a → a < r.n
  low : r.n ≤ h.next
  next : g.next = h.next + r.k
  ulow : r.u ≤ h.nextUid
  uid : g.nextUid = h.nextUid + r.j
  get : ∀ a, r.Dom h a → g.get (r.addr a) = r.obj (h.get a)
  children : ∀ a, r.Dom h a → ∀ c ∈ (h.get a).children, r.Dom h c
  parents : ∀ a, r.Dom h a → ∀ c ∈ (h.get a).parents, r.Dom h c

section
variable {r : Ren} {h g : Heap ℚ}

theorem Sim.modify (S : Sim r h g) {a : Addr} (ha : r.Dom h a) {f f' : NodeObj ℚ → NodeObj ℚ} (hf : f' (r.obj (h.get a)) = r.obj (f (h.get a)))
    (hc : ∀ c ∈ (f (h.get a)).children, r.Dom h c) (hp : ∀ c ∈ (f (h.get a)).parents, r.Dom h c) :
    Sim r (h.modify a f) (g.modify (r.addr a) f') where
  old := S.old
  low := S.low
  next := S.next
  ulow := S.ulow
  uid := S.uid
  get b hb := by
    rw [Heap.get_modify, Heap.get_modify]
    by_cases e : b = a
    · rw [if_pos (by rw [e]), if_pos e, S.get a ha, hf]
    · rw [if_neg fun q => e (r.addr_inj q), if_neg e, S.get b hb]
  children b hb := by
    rw [Heap.get_modify]
    split
    · exact hc
    · exact S.children b hb
  parents b hb := by
    rw [Heap.get_modify]
    split
    · exact hp
    · exact S.parents b hb

theorem Sim.newNode (S : Sim r h g) (v : ℚ) (p : List ℚ) (l : Option Int) :
    Rel (fun x y => Sim r x.1 y.1 ∧ x.1.next = h.next + 1 ∧ y.2 = r.addr x.2 ∧ r.Dom x.1 x.2) (newNode h v p none l) (newNode g v p none l) := by
  unfold Graph.newNode
  split
  · rfl
  have hk : r.addr h.next = g.next := by
    unfold Ren.addr
    have := S.low
    have := S.next
    rw [if_neg (by omega)]
    omega
  have hu : r.uid h.nextUid = g.nextUid := by
    unfold Ren.uid
    have := S.ulow
    have := S.uid
    rw [if_neg (by omega)]
    omega
  have dom : ∀ b, r.Dom (({ h with nextUid := h.nextUid + 1 } : Heap ℚ).alloc
      { value := v, id := h.nextUid, level := l, past := (FastList.new [v]).extend p, parents := [], children := [], expands := [],
        levelsToAdd := 0 }).1 b → b = h.next ∨ b ≠ h.next ∧ r.Dom h b := by
    rintro b (q | ⟨q1, q2⟩)
    · have := S.old b q
      have := S.low
      exact .inr ⟨by omega, .inl q⟩
    · have q2 : b < h.next + 1 := q2
      by_cases e : b = h.next
      · exact .inl e
      · exact .inr ⟨e, .inr ⟨q1, by omega⟩⟩
  refine ⟨⟨S.old, ?_, ?_, ?_, ?_, ?_, ?_, ?_⟩, rfl, hk.symm, .inr ⟨S.low, Nat.lt_succ_self _⟩⟩
  · exact S.low.trans (Nat.le_succ _)
  · show g.next + 1 = h.next + 1 + r.k
    rw [S.next]
    omega
  · exact S.ulow.trans (Nat.le_succ _)
  · show g.nextUid + 1 = h.nextUid + 1 + r.j
    rw [S.uid]
    omega
  · intro b hb
    show (if r.addr b = g.next then _ else g.get (r.addr b)) = r.obj (if b = h.next then _ else h.get b)
    rcases dom b hb with e | ⟨e, hb⟩
    · rw [if_pos (by rw [e, hk]), if_pos e]
      simp [Ren.obj, hu]
    · rw [if_neg fun q => e (r.addr_inj (q.trans hk.symm)), if_neg e, S.get b hb]
  · intro b hb c hc
    replace hc : c ∈ (if b = h.next then _ else h.get b : NodeObj ℚ).children := hc
    rcases dom b hb with e | ⟨e, hb⟩
    · rw [if_pos e] at hc
      simp at hc
    · rw [if_neg e] at hc
      exact (S.children b hb c hc).mono (Nat.le_succ _)
  · intro b hb c hc
    replace hc : c ∈ (if b = h.next then _ else h.get b : NodeObj ℚ).parents := hc
    rcases dom b hb with e | ⟨e, hb⟩
    · rw [if_pos e] at hc
      simp at hc
    · rw [if_neg e] at hc
      exact (S.parents b hb c hc).mono (Nat.le_succ _)

theorem Sim.link (S : Sim r h g) {p c : Addr} (hp : r.Dom h p) (hc : r.Dom h c) : Sim r (link h p c) (link g (r.addr p) (r.addr c)) := by
  have S1 := S.modify (f := fun o => { o with children := o.children ++ [c] }) (f' := fun o => { o with children := o.children ++ [r.addr c] })
    hp (by simp [Ren.obj]) (fun x hx => by
      rcases List.mem_append.1 hx with hx | hx
      · exact S.children p hp x hx
      · rw [List.mem_singleton.1 hx]; exact hc) (S.parents p hp)
  exact S1.modify (a := c) hc (by simp [Ren.obj]) (S1.children c hc) (fun x hx => by
      rcases List.mem_append.1 hx with hx | hx
      · exact S1.parents c hc x hx
      · rw [List.mem_singleton.1 hx]; exact hp)

theorem Sim.tag (S : Sim r h g) {a : Addr} (ha : r.Dom h a) (e : Expand ℚ) : Sim r (tagExpand h a e) (tagExpand g (r.addr a) e) :=
  S.modify ha rfl (S.children a ha) (S.parents a ha)

theorem Sim.adopt (S : Sim r h g) {p c : Addr} (hp : r.Dom h p) (hc : r.Dom h c) : Sim r (adopt p h c) (adopt (r.addr p) g (r.addr c)) := by
  unfold Graph.adopt
  have S1 := S.modify (f := fun o => { o with children := o.children ++ [c] }) (f' := fun o => { o with children := o.children ++ [r.addr c] })
    hp (by simp [Ren.obj]) (fun x hx => by
      rcases List.mem_append.1 hx with hx | hx
      · exact S.children p hp x hx
      · rw [List.mem_singleton.1 hx]; exact hc) (S.parents p hp)
  exact S1.modify (a := c) hc (by simp [Ren.obj]) (S1.children c hc) (fun x hx => by
      rw [List.mem_singleton.1 hx]; exact hp)

theorem Sim.tagMerge (S : Sim r h g) {a : Addr} (ha : r.Dom h a) (t : Nat) : Sim r (tagMerge h a t) (tagMerge g (r.addr a) t) := by
  unfold Graph.tagMerge
  rw [S.get a ha]
  simp only [Ren.obj, List.length_map]
  split
  · exact S.tag ha _
  · exact S

theorem Sim.joinLoop (S : Sim r h g) {node loop : Addr} (hn : r.Dom h node) (hl : r.Dom h loop) :
    Sim r (joinLoop h node loop) (joinLoop g (r.addr node) (r.addr loop)) := by
  unfold Graph.joinLoop
  rw [S.get node hn]
  have : ∀ (cs : List Addr) (h g : Heap ℚ), Sim r h g → (∀ c ∈ cs, r.Dom h c) → r.Dom h loop →
      Sim r (cs.foldl (fun h c => Graph.link h loop c) h) ((cs.map r.addr).foldl (fun h c => Graph.link h (r.addr loop) c) g) := by
    intro cs
    induction cs with
    | nil => exact fun _ _ S _ _ => S
    | cons c cs ih =>
      intro h g S hcs hl
      exact ih _ _ (S.link hl (hcs c (by simp))) (fun x hx => hcs x (List.mem_cons_of_mem _ hx)) hl
  exact this _ _ _ S (S.children node hn) hl

theorem rel_item (r : Ren) (l : List Addr) (i : Nat) : Rel (fun a b => b = r.addr a ∧ a ∈ l) (item l i) (item (l.map r.addr) i) := by
  unfold item
  rw [List.getElem?_map]
  cases h : l[i]? with
  | none => rfl
  | some a => exact ⟨rfl, List.mem_of_getElem? h⟩

theorem levelSucc_obj (r : Ren) (o : NodeObj ℚ) : levelSucc (r.obj o) = levelSucc o := rfl

theorem Sim.newLayer (S : Sim r h g) (q off : Nat) (value : ℚ) (lvl depth : Int) {cur : List Addr} (hcur : ∀ a ∈ cur, r.Dom h a) :
    ∀ j, Rel (fun x y => Sim r x.1 y.1 ∧ h.next ≤ x.1.next ∧ y.2 = x.2.map r.addr ∧ ∀ a ∈ x.2, r.Dom x.1 a)
      (newLayer q off value lvl depth cur h j) (newLayer q off value lvl depth (cur.map r.addr) g j) := by
  intro j
  induction j with
  | zero => exact ⟨S, le_rfl, rfl, by simp⟩
  | succ j ih =>
    rw [Graph.newLayer, Graph.newLayer]
    refine ih.bind ?_
    rintro ⟨h₂, as⟩ ⟨g₂, bs⟩ ⟨S2, n2, e2, w2⟩
    refine (S2.newNode value [] (some lvl)).bind ?_
    rintro ⟨h₃, a⟩ ⟨g₃, b⟩ ⟨S3, n3, e3, w3⟩
    simp only at n2 e2 w2 n3 e3 w3 S2 S3
    subst e2 e3
    refine (rel_item r cur _).bind ?_
    rintro p _ ⟨rfl, hp⟩
    have wp : r.Dom h₃ p := (hcur p hp).mono (by omega)
    have S4 := S3.modify (f := fun o => { o with levelsToAdd := -depth }) (f' := fun o => { o with levelsToAdd := -depth }) w3 rfl
      (S3.children a w3) (S3.parents a w3)
    have S5 := S4.modify (a := p) (f := fun o => { o with children := o.children ++ [a] })
      (f' := fun o => { o with children := o.children ++ [r.addr a] }) wp (by simp [Ren.obj]) (fun x hx => by
      rcases List.mem_append.1 hx with hx | hx
      · exact S4.children p wp x hx
      · rw [List.mem_singleton.1 hx]; exact w3) (S4.parents p wp)
    refine ⟨S5.modify (a := a) (f := fun o => { o with parents := [p] }) (f' := fun o => { o with parents := [r.addr p] }) w3 (by simp [Ren.obj])
      (S5.children a w3) (fun x hx => by rw [List.mem_singleton.1 hx]; exact wp), ?_, ?_, ?_⟩
    · show h.next ≤ h₃.next
      omega
    · simp
    · intro x hx
      rcases List.mem_append.1 hx with hx | hx
      · exact (w2 x hx).mono (show h₂.next ≤ h₃.next by omega)
      · rw [List.mem_singleton.1 hx]
        exact w3

theorem Sim.hangChildren (q off : Nat) {cur : List Addr} : ∀ (cs : List Addr) (h g : Heap ℚ) (j : Nat), Sim r h g →
    (∀ a ∈ cur, r.Dom h a) → (∀ a ∈ cs, r.Dom h a) →
    Rel (fun x y => Sim r x y ∧ x.next = h.next) (hangChildren q off cur h j cs) (hangChildren q off (cur.map r.addr) g j (cs.map r.addr)) := by
  intro cs
  induction cs with
  | nil => exact fun h g j S _ _ => ⟨S, rfl⟩
  | cons c cs ih =>
    intro h g j S hcur hcs
    rw [List.map_cons, Graph.hangChildren, Graph.hangChildren]
    refine (rel_item r cur _).bind ?_
    rintro p _ ⟨rfl, hp⟩
    exact ih _ _ (j + 1) (S.adopt (hcur p hp) (hcs c (by simp))) hcur (fun a ha => hcs a (List.mem_cons_of_mem _ ha))

theorem Sim.reroute (S : Sim r h g) (q off : Nat) {target : Addr} {cur : List Addr} (hcur : ∀ a ∈ cur, r.Dom h a) (ht : r.Dom h target) :
    ∀ j, Rel (fun x y => Sim r x y ∧ x.next = h.next) (reroute q off target cur h j) (reroute q off (r.addr target) (cur.map r.addr) g j) := by
  intro j
  induction j with
  | zero => exact ⟨S, rfl⟩
  | succ j ih =>
    rw [Graph.reroute, Graph.reroute]
    refine ih.bind ?_
    rintro h₂ g₂ ⟨S2, e2⟩
    refine (rel_item r cur _).bind ?_
    rintro p _ ⟨rfl, hp⟩
    exact ⟨S2.link ((hcur p hp).mono e2.ge) (ht.mono e2.ge), e2⟩

/-- The states of the loops over the depths. -/
def LayerSim (r : Ren) (n : Nat) (s t : Heap ℚ × Int × List Addr) : Prop :=
  Sim r s.1 t.1 ∧ n ≤ s.1.next ∧ t.2.1 = s.2.1 ∧ t.2.2 = s.2.2.map r.addr ∧ ∀ a ∈ s.2.2, r.Dom s.1 a

theorem Ren.Dom.up {r : Ren} {n : Nat} {h h' : Heap ℚ} {a : Addr} (ha : r.Dom h a) (hn : h.next ≤ n) (hn' : n ≤ h'.next) : r.Dom h' a :=
  ha.mono (hn.trans hn')

theorem rel_divideLayer (q width : Nat) (plan : Nat × Nat) (value : ℚ) (depth : Int) {target : Addr} (last : Bool) {original : List Addr}
    {h₀ : Heap ℚ} {s t : Heap ℚ × Int × List Addr} (hs : LayerSim r h₀.next s t) (ht : r.Dom h₀ target) (ho : ∀ a ∈ original, r.Dom h₀ a) :
    Rel (LayerSim r h₀.next) (divideLayer q width plan value depth target last original s)
      (divideLayer q width plan value depth (r.addr target) last (original.map r.addr) t) := by
  obtain ⟨h₁, lvl, cur⟩ := s
  obtain ⟨g₁, lvl', cur'⟩ := t
  obtain ⟨S, n1, e1, e2, hcur⟩ := hs
  simp only at S n1 e1 e2 hcur
  subst e1 e2
  have cont : ∀ x y : Heap ℚ × List Addr, (Sim r x.1 y.1 ∧ h₁.next ≤ x.1.next ∧ y.2 = x.2.map r.addr ∧ ∀ a ∈ x.2, r.Dom x.1 a) →
      Rel (LayerSim r h₀.next) (reroute q 0 target cur x.1 plan.1 >>= fun h' => pure (h', lvl' + 1, x.2))
        (reroute q 0 (r.addr target) (cur.map r.addr) y.1 plan.1 >>= fun h' => pure (h', lvl' + 1, y.2)) := by
    rintro ⟨h₂, new⟩ ⟨g₂, new'⟩ ⟨S2, n2, e, w2⟩
    simp only at S2 n2 e w2
    subst e
    refine (S2.reroute q 0 (fun a ha => (hcur a ha).mono n2) (ht.up n1 n2) plan.1).bind ?_
    rintro h₃ g₃ ⟨S3, e3⟩
    exact ⟨S3, (n1.trans n2).trans e3.ge, rfl, rfl, fun a ha => (w2 a ha).mono e3.ge⟩
  unfold divideLayer
  cases last
  · exact (S.newLayer q plan.1 value (lvl' + 1) depth hcur _).bind cont
  · refine Rel.bind ((Sim.hangChildren q plan.1 original h₁ g₁ 0 S hcur (fun a ha => (ho a ha).mono n1)).map (R' := fun x y =>
      Sim r x.1 y.1 ∧ h₁.next ≤ x.1.next ∧ y.2 = x.2.map r.addr ∧ ∀ a ∈ x.2, r.Dom x.1 a) ?_) cont
    rintro h₂ g₂ ⟨S2, e2⟩
    exact ⟨S2, e2.ge, rfl, fun a ha => (ho a ha).up n1 e2.ge⟩

theorem rel_extractLayer (q width : Nat) (p₁ p₂ p₃ : Nat × Nat) (value : ℚ) (depth : Int) {loop extracted overflow : Addr} (last : Bool)
    {original : List Addr} {h₀ : Heap ℚ} {s t : Heap ℚ × Int × List Addr} (hs : LayerSim r h₀.next s t) (hl : r.Dom h₀ loop)
    (he : r.Dom h₀ extracted) (hov : r.Dom h₀ overflow) (ho : ∀ a ∈ original, r.Dom h₀ a) :
    Rel (LayerSim r h₀.next) (extractLayer q width p₁ p₂ p₃ value depth loop extracted overflow last original s)
      (extractLayer q width p₁ p₂ p₃ value depth (r.addr loop) (r.addr extracted) (r.addr overflow) last (original.map r.addr) t) := by
  obtain ⟨h₁, lvl, cur⟩ := s
  obtain ⟨g₁, lvl', cur'⟩ := t
  obtain ⟨S, n1, e1, e2, hcur⟩ := hs
  simp only at S n1 e1 e2 hcur
  subst e1 e2
  have cont : ∀ x y : Heap ℚ × List Addr, (Sim r x.1 y.1 ∧ h₁.next ≤ x.1.next ∧ y.2 = x.2.map r.addr ∧ ∀ a ∈ x.2, r.Dom x.1 a) →
      Rel (LayerSim r h₀.next) (reroute q 0 loop cur x.1 p₁.1 >>= fun h' => reroute q p₁.1 extracted cur h' p₂.1 >>= fun h' =>
          reroute q (p₁.1 + p₂.1) overflow cur h' p₃.1 >>= fun h' => pure (h', lvl' + 1, x.2))
        (reroute q 0 (r.addr loop) (cur.map r.addr) y.1 p₁.1 >>= fun h' => reroute q p₁.1 (r.addr extracted) (cur.map r.addr) h' p₂.1 >>=
          fun h' => reroute q (p₁.1 + p₂.1) (r.addr overflow) (cur.map r.addr) h' p₃.1 >>= fun h' => pure (h', lvl' + 1, y.2)) := by
    rintro ⟨h₂, new⟩ ⟨g₂, new'⟩ ⟨S2, n2, e, w2⟩
    simp only at S2 n2 e w2
    subst e
    refine (S2.reroute q 0 (fun a ha => (hcur a ha).mono n2) (hl.up n1 n2) p₁.1).bind ?_
    rintro h₃ g₃ ⟨S3, e3⟩
    have n3 := n2.trans e3.ge
    refine (S3.reroute q p₁.1 (fun a ha => (hcur a ha).mono n3) (he.up n1 n3) p₂.1).bind ?_
    rintro h₄ g₄ ⟨S4, e4⟩
    have n4 := n3.trans e4.ge
    refine (S4.reroute q (p₁.1 + p₂.1) (fun a ha => (hcur a ha).mono n4) (hov.up n1 n4) p₃.1).bind ?_
    rintro h₅ g₅ ⟨S5, e5⟩
    exact ⟨S5, (n1.trans n4).trans e5.ge, rfl, rfl, fun a ha => (w2 a ha).mono ((e3.ge.trans e4.ge).trans e5.ge)⟩
  unfold extractLayer
  cases last
  · exact (S.newLayer q (p₁.1 + p₂.1 + p₃.1) value (lvl' + 1) depth hcur _).bind cont
  · exact cont (h₁, original) (g₁, original.map r.addr) ⟨S, le_rfl, rfl, fun a ha => (ho a ha).mono n1⟩

/-- What an expansion of a node does in both heaps. -/
def GrownBoth (r : Ren) (h : Heap ℚ) (x y : Heap ℚ × (Int × Int)) : Prop := Sim r x.1 y.1 ∧ h.next ≤ x.1.next ∧ y.2 = x.2

theorem tagMerge_next (h : Heap ℚ) (a : Addr) (t : Nat) : (Graph.tagMerge h a t).next = h.next := by
  unfold Graph.tagMerge
  split <;> rfl

theorem Sim.expandDivide (cfg : Config) (S : Sim r h g) {node : Addr} (hn : r.Dom h node) (d : Nat) :
    Rel (GrownBoth r h) (expandDivide cfg h node d) (expandDivide cfg g (r.addr node) d) := by
  unfold Graph.expandDivide
  have hv : (g.get (r.addr node)).value = (h.get node).value := by rw [S.get node hn]; rfl
  rw [hv]
  refine (Rel.same (findNML d)).bind ?_
  rintro ⟨n, m, l, ns⟩ _ rfl
  have cont : ∀ (over : Bool) (x y : Heap ℚ × Addr), (Sim r x.1 y.1 ∧ h.next ≤ x.1.next ∧ y.2 = r.addr x.2 ∧ r.Dom x.1 x.2) →
      Rel (GrownBoth r h) (do
        let isRoot := decide ((x.1.get x.2).parents = [])
        let plan ← loopingBranches n m l (branchesCount n m)
        let values := layerValues ((h.get node).value + (l * (h.get node).value) / d) n m
        let lvl ← levelSucc (x.1.get node)
        let original := (x.1.get node).children
        let h := x.1.modify node fun o => { o with children := [] }
        let s ← (List.range n).foldlM (fun s i =>
          divideLayer 2 (2 ^ (i + 1)) (plan (i + 1, 0)) (values.getD (i + 1) 0) (n + m) x.2 (decide (i + 1 = n ∧ m = 0)) original s) (h, lvl, [node])
        let s ← (List.range m).foldlM (fun s i =>
          divideLayer 3 (2 ^ n * 3 ^ (i + 1)) (plan (n, i + 1)) (values.getD (n + i + 1) 0) (n + m) node (decide (i + 1 = m)) original s) s
        let h := if over then Graph.joinLoop s.1 node x.2 else s.1
        let h := Graph.tagMerge h x.2 (if isRoot then 2 else 3)
        return (h, (lvl, n + m))) (do
        let isRoot := decide ((y.1.get y.2).parents = [])
        let plan ← loopingBranches n m l (branchesCount n m)
        let values := layerValues ((h.get node).value + (l * (h.get node).value) / d) n m
        let lvl ← levelSucc (y.1.get (r.addr node))
        let original := (y.1.get (r.addr node)).children
        let h := y.1.modify (r.addr node) fun o => { o with children := [] }
        let s ← (List.range n).foldlM (fun s i =>
          divideLayer 2 (2 ^ (i + 1)) (plan (i + 1, 0)) (values.getD (i + 1) 0) (n + m) y.2 (decide (i + 1 = n ∧ m = 0)) original s)
          (h, lvl, [r.addr node])
        let s ← (List.range m).foldlM (fun s i =>
          divideLayer 3 (2 ^ n * 3 ^ (i + 1)) (plan (n, i + 1)) (values.getD (n + i + 1) 0) (n + m) (r.addr node) (decide (i + 1 = m)) original s) s
        let h := if over then Graph.joinLoop s.1 (r.addr node) y.2 else s.1
        let h := Graph.tagMerge h y.2 (if isRoot then 2 else 3)
        return (h, (lvl, n + m))) := by
    rintro over ⟨h₁, loop⟩ ⟨g₁, _⟩ ⟨S1, n1, e, wl⟩
    simp only at S1 n1 e wl
    subst e
    have wn : r.Dom h₁ node := hn.mono n1
    have hroot : (g₁.get (r.addr loop)).parents = [] ↔ (h₁.get loop).parents = [] := by
      rw [S1.get loop wl]
      simp [Ren.obj]
    have horig : (g₁.get (r.addr node)).children = (h₁.get node).children.map r.addr := by rw [S1.get node wn]; rfl
    have hlev : levelSucc (g₁.get (r.addr node)) = levelSucc (h₁.get node) := by rw [S1.get node wn, levelSucc_obj]
    simp only [hroot, horig, hlev]
    refine (Rel.same _).bind ?_
    rintro plan _ rfl
    refine (Rel.same _).bind ?_
    rintro lvl _ rfl
    have S2 := S1.modify (f := fun o => { o with children := [] }) (f' := fun o => { o with children := [] }) wn rfl (by simp)
      (S1.parents node wn)
    have ho : ∀ a ∈ (h₁.get node).children, r.Dom h₁ a := S1.children node wn
    have hb : LayerSim r h₁.next (h₁.modify node fun o => { o with children := [] }, lvl, [node])
        (g₁.modify (r.addr node) fun o => { o with children := [] }, lvl, [r.addr node]) :=
      ⟨S2, le_rfl, rfl, rfl, fun a ha => by rw [List.mem_singleton.1 ha]; exact wn⟩
    refine (Rel.foldlM (R := LayerSim r h₁.next) (forall₂_self _) ?_ _ _ hb).bind ?_
    · rintro s t i _ hs rfl
      exact rel_divideLayer _ _ _ _ _ _ hs wl ho
    rintro s t hs
    refine (Rel.foldlM (R := LayerSim r h₁.next) (forall₂_self _) ?_ _ _ hs).bind ?_
    · rintro s t i _ hs rfl
      exact rel_divideLayer _ _ _ _ _ _ hs wn ho
    rintro ⟨h₂, _⟩ ⟨g₂, _⟩ ⟨S3, n3, -⟩
    simp only at S3 n3
    cases over
    · refine ⟨S3.tagMerge (wl.mono n3) _, ?_, rfl⟩
      simp only [tagMerge_next]
      exact n1.trans n3
    · refine ⟨(S3.joinLoop (wn.mono n3) (wl.mono n3)).tagMerge ((wl.mono n3).mono (joinLoop_next _ _ _).ge) _, ?_, rfl⟩
      simp only [tagMerge_next, if_true, joinLoop_next]
      exact n1.trans n3
  by_cases hover : (h.get node).value + (l * (h.get node).value) / d > (cfg.limit : ℚ)
  · simp only [hover, decide_true, if_true]
    refine (S.newNode _ [] none).bind ?_
    rintro x y ⟨S1, e1, e2, w1⟩
    exact cont true x y ⟨S1, by omega, e2, w1⟩
  · simp only [hover, decide_false]
    exact cont false (h, node) (g, r.addr node) ⟨S, le_rfl, rfl, hn⟩

theorem Sim.expandExtract (cfg : Config) (S : Sim r h g) {node : Addr} (hn : r.Dom h node) (c : ℚ) :
    Rel (GrownBoth r h) (expandExtract cfg h node c) (expandExtract cfg g (r.addr node) c) := by
  unfold Graph.expandExtract
  have hv : (g.get (r.addr node)).value = (h.get node).value := by rw [S.get node hn]; rfl
  rw [hv]
  refine (Rel.same _).bind ?_
  rintro k _ rfl
  by_cases hk0 : k = 0
  · simp only [hk0, if_true]
    rfl
  simp only [hk0, if_false]
  refine (Rel.same (findNML _)).bind ?_
  rintro ⟨n, m, l, ns⟩ _ rfl
  have cont : ∀ (over : Bool) (x y : Heap ℚ × Addr), (Sim r x.1 y.1 ∧ h.next ≤ x.1.next ∧ y.2 = r.addr x.2 ∧ r.Dom x.1 x.2) →
      Rel (GrownBoth r h) (do
        let isRoot := decide ((x.1.get x.2).parents = [])
        let nExtract : Int := ⌊c / ((h.get node).value / ((h.get node).value.num / (k : Int)).toNat)⌋
        let p ← loopingBranches n m l (branchesCount n m)
        let q ← loopingBranches n m nExtract (branchesCount n m)
        let r' ← loopingBranches n m (((h.get node).value.num / (k : Int)).toNat - nExtract) (branchesCount n m)
        let values := layerValues ((h.get node).value + l * k) n m
        let lvl ← levelSucc (x.1.get node)
        let c0 ← item (x.1.get node).children 0
        let c1 ← item (x.1.get node).children 1
        let extracted := if (x.1.get c0).value = c then c0 else c1
        let overflow := if (x.1.get c0).value = c then c1 else c0
        let h := x.1.modify extracted fun o => { o with parents := [] }
        let h := h.modify overflow fun o => { o with parents := [] }
        let original := (h.get node).children
        let h := h.modify node fun o => { o with children := [] }
        let s ← (List.range n).foldlM (fun s i =>
          extractLayer 2 (2 ^ (i + 1)) (p (i + 1, 0)) (q (i + 1, 0)) (r' (i + 1, 0)) (values.getD (i + 1) 0) (n + m) x.2 extracted overflow
            (decide (i + 1 = n ∧ m = 0)) original s) (h, lvl, [node])
        let s ← (List.range m).foldlM (fun s i =>
          extractLayer 3 (2 ^ n * 3 ^ (i + 1)) (p (n, i + 1)) (q (n, i + 1)) (r' (n, i + 1)) (values.getD (n + i + 1) 0) (n + m) x.2 extracted
            overflow (decide (i + 1 = m)) original s) s
        let h := if over then Graph.joinLoop s.1 node x.2 else s.1
        let h := Graph.tagMerge h x.2 (if isRoot then 2 else 3)
        let h := Graph.tagMerge h extracted 3
        let h := Graph.tagMerge h overflow 3
        return (h, (lvl, n + m))) (do
        let isRoot := decide ((y.1.get y.2).parents = [])
        let nExtract : Int := ⌊c / ((h.get node).value / ((h.get node).value.num / (k : Int)).toNat)⌋
        let p ← loopingBranches n m l (branchesCount n m)
        let q ← loopingBranches n m nExtract (branchesCount n m)
        let r' ← loopingBranches n m (((h.get node).value.num / (k : Int)).toNat - nExtract) (branchesCount n m)
        let values := layerValues ((h.get node).value + l * k) n m
        let lvl ← levelSucc (y.1.get (r.addr node))
        let c0 ← item (y.1.get (r.addr node)).children 0
        let c1 ← item (y.1.get (r.addr node)).children 1
        let extracted := if (y.1.get c0).value = c then c0 else c1
        let overflow := if (y.1.get c0).value = c then c1 else c0
        let h := y.1.modify extracted fun o => { o with parents := [] }
        let h := h.modify overflow fun o => { o with parents := [] }
        let original := (h.get (r.addr node)).children
        let h := h.modify (r.addr node) fun o => { o with children := [] }
        let s ← (List.range n).foldlM (fun s i =>
          extractLayer 2 (2 ^ (i + 1)) (p (i + 1, 0)) (q (i + 1, 0)) (r' (i + 1, 0)) (values.getD (i + 1) 0) (n + m) y.2 extracted overflow
            (decide (i + 1 = n ∧ m = 0)) original s) (h, lvl, [r.addr node])
        let s ← (List.range m).foldlM (fun s i =>
          extractLayer 3 (2 ^ n * 3 ^ (i + 1)) (p (n, i + 1)) (q (n, i + 1)) (r' (n, i + 1)) (values.getD (n + i + 1) 0) (n + m) y.2 extracted
            overflow (decide (i + 1 = m)) original s) s
        let h := if over then Graph.joinLoop s.1 (r.addr node) y.2 else s.1
        let h := Graph.tagMerge h y.2 (if isRoot then 2 else 3)
        let h := Graph.tagMerge h extracted 3
        let h := Graph.tagMerge h overflow 3
        return (h, (lvl, n + m))) := by
    rintro over ⟨h₁, loop⟩ ⟨g₁, _⟩ ⟨S1, n1, e, wl⟩
    simp only at S1 n1 e wl
    subst e
    have wn : r.Dom h₁ node := hn.mono n1
    have hroot : (g₁.get (r.addr loop)).parents = [] ↔ (h₁.get loop).parents = [] := by
      rw [S1.get loop wl]
      simp [Ren.obj]
    have horig : (g₁.get (r.addr node)).children = (h₁.get node).children.map r.addr := by rw [S1.get node wn]; rfl
    have hlev : levelSucc (g₁.get (r.addr node)) = levelSucc (h₁.get node) := by rw [S1.get node wn, levelSucc_obj]
    simp only [hroot, horig, hlev]
    refine (Rel.same _).bind ?_
    rintro p _ rfl
    refine (Rel.same _).bind ?_
    rintro q _ rfl
    refine (Rel.same _).bind ?_
    rintro r' _ rfl
    refine (Rel.same _).bind ?_
    rintro lvl _ rfl
    refine (rel_item r _ 0).bind ?_
    rintro c0 _ ⟨rfl, hc0⟩
    refine (rel_item r _ 1).bind ?_
    rintro c1 _ ⟨rfl, hc1⟩
    have w0 : r.Dom h₁ c0 := S1.children node wn c0 hc0
    have w1 : r.Dom h₁ c1 := S1.children node wn c1 hc1
    have hv0 : (g₁.get (r.addr c0)).value = (h₁.get c0).value := by rw [S1.get c0 w0]; rfl
    have hex' : (if (h₁.get c0).value = c then r.addr c0 else r.addr c1) = r.addr (if (h₁.get c0).value = c then c0 else c1) := by
      split <;> rfl
    have hov' : (if (h₁.get c0).value = c then r.addr c1 else r.addr c0) = r.addr (if (h₁.get c0).value = c then c1 else c0) := by
      split <;> rfl
    simp only [hv0, hex', hov']
    generalize hex : (if (h₁.get c0).value = c then c0 else c1) = extracted
    generalize hov : (if (h₁.get c0).value = c then c1 else c0) = overflow
    have we : r.Dom h₁ extracted := by rw [← hex]; split <;> assumption
    have wo : r.Dom h₁ overflow := by rw [← hov]; split <;> assumption
    have S2 := S1.modify (f := fun o => { o with parents := [] }) (f' := fun o => { o with parents := [] }) we rfl
      (S1.children extracted we) (by simp)
    have S3 := S2.modify (a := overflow) (f := fun o => { o with parents := [] }) (f' := fun o => { o with parents := [] }) wo rfl
      (S2.children overflow wo) (by simp)
    obtain ⟨h₂, hh2⟩ : ∃ h₂, (h₁.modify extracted fun o => { o with parents := [] }).modify overflow (fun o => { o with parents := [] }) = h₂ :=
      ⟨_, rfl⟩
    obtain ⟨g₂, hg2⟩ : ∃ g₂, (g₁.modify (r.addr extracted) fun o => { o with parents := [] }).modify (r.addr overflow)
      (fun o => { o with parents := [] }) = g₂ := ⟨_, rfl⟩
    have hn2 : h₂.next = h₁.next := by rw [← hh2]; rfl
    rw [hh2, hg2] at S3
    rw [hh2, hg2]
    have wn2 : r.Dom h₂ node := wn.mono hn2.ge
    have horig2 : (g₂.get (r.addr node)).children = (h₂.get node).children.map r.addr := by rw [S3.get node wn2]; rfl
    simp only [horig2]
    have ho : ∀ a ∈ (h₂.get node).children, r.Dom h₂ a := S3.children node wn2
    have S4 := S3.modify (a := node) (f := fun o => { o with children := [] }) (f' := fun o => { o with children := [] }) wn2 rfl (by simp)
      (S3.parents node wn2)
    have wl2 : r.Dom h₂ loop := wl.mono hn2.ge
    have we2 : r.Dom h₂ extracted := we.mono hn2.ge
    have wo2 : r.Dom h₂ overflow := wo.mono hn2.ge
    have hb : LayerSim r h₂.next (h₂.modify node fun o => { o with children := [] }, lvl, [node])
        (g₂.modify (r.addr node) fun o => { o with children := [] }, lvl, [r.addr node]) :=
      ⟨S4, le_rfl, rfl, rfl, fun a ha => by rw [List.mem_singleton.1 ha]; exact wn2⟩
    refine (Rel.foldlM (R := LayerSim r h₂.next) (forall₂_self _) ?_ _ _ hb).bind ?_
    · rintro s t i _ hs rfl
      exact rel_extractLayer _ _ _ _ _ _ _ _ hs wl2 we2 wo2 ho
    rintro s t hs
    refine (Rel.foldlM (R := LayerSim r h₂.next) (forall₂_self _) ?_ _ _ hs).bind ?_
    · rintro s t i _ hs rfl
      exact rel_extractLayer _ _ _ _ _ _ _ _ hs wl2 we2 wo2 ho
    rintro ⟨h₃, _⟩ ⟨g₃, _⟩ ⟨S5, n5, -⟩
    simp only at S5 n5
    have last : ∀ (h₄ g₄ : Heap ℚ), Sim r h₄ g₄ → h₂.next ≤ h₄.next → ∀ t,
        GrownBoth r h (Graph.tagMerge (Graph.tagMerge (Graph.tagMerge h₄ loop t) extracted 3) overflow 3, (lvl, (n : Int) + m))
          (Graph.tagMerge (Graph.tagMerge (Graph.tagMerge g₄ (r.addr loop) t) (r.addr extracted) 3) (r.addr overflow) 3, (lvl, (n : Int) + m)) := by
      intro h₄ g₄ S n4 t
      refine ⟨((S.tagMerge (wl2.mono n4) t).tagMerge (we2.mono (by rw [tagMerge_next]; exact n4)) 3).tagMerge
        (wo2.mono (by rw [tagMerge_next, tagMerge_next]; exact n4)) 3, ?_, rfl⟩
      simp only [tagMerge_next]
      omega
    cases over
    · exact last _ _ S5 n5 _
    · exact last _ _ (S5.joinLoop (wn2.mono n5) (wl2.mono n5)) (by rw [joinLoop_next]; exact n5) _
  by_cases hover : (h.get node).value + l * k > (cfg.limit : ℚ)
  · simp only [hover, decide_true, if_true]
    refine (S.newNode _ [] none).bind ?_
    rintro x y ⟨S1, e1, e2, w1⟩
    exact cont true x y ⟨S1, by omega, e2, w1⟩
  · simp only [hover, decide_false]
    exact cont false (h, node) (g, r.addr node) ⟨S, le_rfl, rfl, hn⟩

theorem Rel.eq {α : Type} {x y : Py α} (h : Rel (fun a b => a = b) x y) : y = x := by
  cases x <;> cases y <;> simp only [Rel] at h <;> rw [h]

theorem Sim.maxLevelSucc (S : Sim r h g) (l : List Addr) (hl : ∀ a ∈ l, r.Dom h a) :
    maxLevelSucc g (l.map r.addr) = maxLevelSucc h l := by
  cases l with
  | nil => rfl
  | cons a l =>
    apply Rel.eq
    simp only [Graph.maxLevelSucc, List.map_cons]
    rw [S.get a (hl a (by simp)), levelSucc_obj]
    refine (Rel.same _).bind ?_
    rintro v _ rfl
    refine Rel.foldlM (forall₂_map r.addr (r.Dom h) l fun b hb => hl b (List.mem_cons_of_mem _ hb)) ?_ v v rfl
    rintro s _ x _ rfl ⟨rfl, hx⟩
    rw [S.get x hx, levelSucc_obj]
    exact Rel.same _

theorem Sim.mergeLink (S : Sim r h g) {m a : Addr} (hm : r.Dom h m) (ha : r.Dom h a) :
    Sim r (mergeLink m h a) (mergeLink (r.addr m) g (r.addr a)) := by
  unfold Graph.mergeLink
  have S1 := S.link ha hm
  have hm1 : r.Dom (Graph.link h a m) m := hm
  have ha1 : r.Dom (Graph.link h a m) a := ha
  refine S1.modify hm1 ?_ (S1.children m hm1) (S1.parents m hm1)
  rw [S1.get a ha1]
  rfl

theorem Sim.merge (S : Sim r h g) (l : List Addr) (hl : ∀ a ∈ l, r.Dom h a) :
    Rel (fun x y => Sim r x.1 y.1 ∧ h.next ≤ x.1.next ∧ y.2 = r.addr x.2 ∧ r.Dom x.1 x.2)
      (merge (fun (v : ℚ) k => v / k) h l) (merge (fun (v : ℚ) k => v / k) g (l.map r.addr)) := by
  unfold Graph.merge
  have h1 : ((l.map r.addr).map fun a => sharedValue (fun (v : ℚ) k => v / k) (g.get a)) =
      l.map fun a => sharedValue (fun (v : ℚ) k => v / k) (h.get a) := by
    rw [List.map_map]
    refine List.map_congr_left fun a ha => ?_
    simp only [Function.comp, S.get a (hl a ha), sharedValue, Ren.obj, List.map_eq_nil_iff, List.length_map]
  rw [h1, S.maxLevelSucc l hl, List.length_map]
  refine (Rel.same _).bind ?_
  rintro lvl _ rfl
  refine (S.newNode _ [] (some lvl)).bind ?_
  rintro ⟨h₁, m⟩ ⟨g₁, _⟩ ⟨S1, n1, e1, w1⟩
  simp only at S1 n1 e1 w1
  subst e1
  have key : ∀ (l : List Addr) (h₂ g₂ : Heap ℚ), Sim r h₂ g₂ → h₁.next = h₂.next → (∀ a ∈ l, r.Dom h₂ a) →
      Sim r (l.foldl (Graph.mergeLink m) h₂) ((l.map r.addr).foldl (Graph.mergeLink (r.addr m)) g₂) ∧
        (l.foldl (Graph.mergeLink m) h₂).next = h₂.next := by
    intro l
    induction l with
    | nil => exact fun _ _ S _ _ => ⟨S, rfl⟩
    | cons a l ih =>
      intro h₂ g₂ S2 n2 hl
      exact ih _ _ (S2.mergeLink (w1.mono n2.le) (hl a (by simp))) n2 (fun b hb => hl b (List.mem_cons_of_mem _ hb))
  have fin : ∀ (h₂ g₂ : Heap ℚ), Sim r h₂ g₂ → h₁.next = h₂.next →
      Rel (fun x y => Sim r x.1 y.1 ∧ h.next ≤ x.1.next ∧ y.2 = r.addr x.2 ∧ r.Dom x.1 x.2)
        (.ok (l.foldl (Graph.mergeLink m) h₂, m)) (.ok ((l.map r.addr).foldl (Graph.mergeLink (r.addr m)) g₂, r.addr m)) := by
    intro h₂ g₂ S2 n2
    obtain ⟨q1, q2⟩ := key l h₂ g₂ S2 n2 fun a ha => (hl a ha).mono (by omega)
    exact ⟨q1, by simp only [q2]; omega, rfl, w1.mono (by rw [q2, n2])⟩
  by_cases hle : l.length ≤ 1
  · simp only [hle, if_true]
    rfl
  simp only [hle, if_false]
  by_cases h3 : l.length > 3
  · simp only [h3, if_true]
    exact fin _ _ (S1.tag w1 _) rfl
  · simp only [h3, if_false]
    exact fin _ _ S1 rfl

theorem Sim.mergeRounds (t : Nat) {node : Addr} : ∀ (fuel : Nat) (h g : Heap ℚ) (todo : List Addr), Sim r h g → r.Dom h node →
    (∀ a ∈ todo, r.Dom h a) → Rel (fun x y => Sim r x.1 y.1 ∧ h.next ≤ x.1.next ∧ y.2 = x.2.map r.addr ∧ ∀ a ∈ x.2, r.Dom x.1 a)
      (mergeRounds node t fuel h todo) (mergeRounds (r.addr node) t fuel g (todo.map r.addr)) := by
  intro fuel
  induction fuel with
  | zero =>
    intro h g todo S hn hl
    unfold Graph.mergeRounds
    rw [List.length_map]
    split
    · exact ⟨S, le_rfl, rfl, hl⟩
    · rfl
  | succ fuel ih =>
    intro h g todo S hn hl
    unfold Graph.mergeRounds
    rw [List.length_map]
    split
    · exact ⟨S, le_rfl, rfl, hl⟩
    · match todo, hl with
      | [], _ => rfl
      | [_], _ => rfl
      | [_, _], _ => rfl
      | a :: b :: c :: rest, hl =>
        simp only [List.map_cons]
        refine (S.merge [a, b, c] fun x hx => hl x (by simp only [List.mem_cons] at hx ⊢; tauto)).bind ?_
        rintro ⟨h₁, m⟩ ⟨g₁, _⟩ ⟨S1, n1, e1, w1⟩
        simp only at S1 n1 e1 w1
        subst e1
        have cut : ∀ (l : List Addr) (h₂ g₂ : Heap ℚ), Sim r h₂ g₂ → (∀ a ∈ l, r.Dom h₂ a) →
            Sim r (l.foldl (fun h x => h.modify x fun o => { o with children := o.children.filter fun y => decide (y ≠ node) }) h₂)
              ((l.map r.addr).foldl (fun h x => h.modify x fun o => { o with children := o.children.filter fun y => decide (y ≠ r.addr node) }) g₂) ∧
            (l.foldl (fun h x => h.modify x fun o => { o with children := o.children.filter fun y => decide (y ≠ node) }) h₂).next = h₂.next := by
          intro l
          induction l with
          | nil => exact fun _ _ S _ => ⟨S, rfl⟩
          | cons x l ih =>
            intro h₂ g₂ S2 hl
            have hx := hl x (by simp)
            refine ih _ _ (S2.modify hx ?_ ?_ (S2.parents x hx)) fun y hy => hl y (List.mem_cons_of_mem _ hy)
            · simp only [Ren.obj, List.filter_map]
              congr 2
              refine List.filter_congr fun y _ => ?_
              simp only [Function.comp, decide_eq_decide, ne_eq]
              exact not_congr ⟨fun q => r.addr_inj q, fun q => by rw [q]⟩
            · exact fun y hy => S2.children x hx y (List.mem_of_mem_filter hy)
        obtain ⟨S2, n2⟩ := cut [a, b, c] h₁ g₁ S1 fun x hx => (hl x (by simp only [List.mem_cons] at hx ⊢; tauto)).mono n1
        change Rel _ (Graph.mergeRounds node t fuel (([a, b, c].foldl (fun h x => h.modify x fun o =>
          { o with children := o.children.filter fun y => decide (y ≠ node) }) h₁).modify m fun o => { o with
            level := (([a, b, c].foldl (fun h x => h.modify x fun o =>
              { o with children := o.children.filter fun y => decide (y ≠ node) }) h₁).get node).level, children := o.children ++ [node] })
            (m :: rest)) (Graph.mergeRounds (r.addr node) t fuel ((([a, b, c].map r.addr).foldl (fun h x => h.modify x fun o =>
          { o with children := o.children.filter fun y => decide (y ≠ r.addr node) }) g₁).modify (r.addr m) fun o => { o with
            level := ((([a, b, c].map r.addr).foldl (fun h x => h.modify x fun o =>
              { o with children := o.children.filter fun y => decide (y ≠ r.addr node) }) g₁).get (r.addr node)).level,
            children := o.children ++ [r.addr node] }) ((m :: rest).map r.addr))
        generalize [a, b, c].foldl (fun h x => h.modify x fun o =>
          { o with children := o.children.filter fun y => decide (y ≠ node) }) h₁ = h₂ at S2 n2 ⊢
        generalize ([a, b, c].map r.addr).foldl (fun h x => h.modify x fun o =>
          { o with children := o.children.filter fun y => decide (y ≠ r.addr node) }) g₁ = g₂ at S2 ⊢
        have wn2 : r.Dom h₂ node := (hn.mono n1).mono n2.ge
        have wm2 : r.Dom h₂ m := w1.mono n2.ge
        have S3 := S2.modify (a := m) (f := fun o => { o with level := (h₂.get node).level, children := o.children ++ [node] })
          (f' := fun o => { o with level := (g₂.get (r.addr node)).level, children := o.children ++ [r.addr node] }) wm2 (by
            rw [S2.get node wn2]
            simp [Ren.obj]) (fun x hx => by
            rcases List.mem_append.1 hx with hx | hx
            · exact S2.children m wm2 x hx
            · rw [List.mem_singleton.1 hx]; exact wn2) (S2.parents m wm2)
        refine (ih _ _ (m :: rest) S3 wn2 ?_).mono ?_
        · intro x hx
          rcases List.mem_cons.1 hx with rfl | hx
          · exact wm2
          · exact ((hl x (by simp only [List.mem_cons]; tauto)).mono n1).mono n2.ge
        · rintro x y ⟨q1, q2, q3, q4⟩
          refine ⟨q1, le_trans ?_ q2, q3, q4⟩
          exact n1.trans n2.ge

theorem Sim.expandMerge (S : Sim r h g) {node : Addr} (hn : r.Dom h node) (t : Nat) :
    Rel (GrownBoth r h) (expandMerge h node t) (expandMerge g (r.addr node) t) := by
  unfold Graph.expandMerge
  have hp : (g.get (r.addr node)).parents = (h.get node).parents.map r.addr := by rw [S.get node hn]; rfl
  rw [hp, List.length_map, ← List.map_reverse]
  split
  · exact ⟨S, le_rfl, rfl⟩
  refine (Sim.mergeRounds t _ h g _ S hn fun a ha => S.parents node hn a (List.mem_reverse.1 ha)).bind ?_
  rintro ⟨h₁, todo⟩ ⟨g₁, _⟩ ⟨S1, n1, e1, w1⟩
  simp only at S1 n1 e1 w1
  subst e1
  have wn := hn.mono n1
  exact ⟨S1.modify (f := fun o => { o with parents := todo.reverse }) (f' := fun o => { o with parents := (todo.map r.addr).reverse }) wn
    (by simp [Ren.obj]) (S1.children node wn) fun x hx => w1 x (List.mem_reverse.1 hx), n1, rfl⟩

theorem Sim.expandSplit (S : Sim r h g) {node : Addr} (hn : r.Dom h node) (c : ℚ) :
    Rel (GrownBoth r h) (expandSplit h node c) (expandSplit g (r.addr node) c) := by
  unfold Graph.expandSplit
  rw [S.get node hn, levelSucc_obj]
  refine (Rel.same _).bind ?_
  rintro lvl _ rfl
  refine (S.newNode _ [] (some lvl)).bind ?_
  rintro ⟨h₁, new⟩ ⟨g₁, _⟩ ⟨S1, n1, e1, w1⟩
  simp only at S1 n1 e1 w1
  subst e1
  have wn : r.Dom h₁ node := hn.mono (by omega)
  have horig : (g₁.get (r.addr node)).children = (h₁.get node).children.map r.addr := by rw [S1.get node wn]; rfl
  simp only [horig]
  have ho := S1.children node wn
  generalize (h₁.get node).children = original at ho ⊢
  have S2 := S1.modify (f := fun o => { o with levelsToAdd := -1, children := [new], parents := [node] })
    (f' := fun o => { o with levelsToAdd := -1, children := [r.addr new], parents := [r.addr node] }) w1 rfl
    (fun x hx => by rw [List.mem_singleton.1 hx]; exact w1) (fun x hx => by rw [List.mem_singleton.1 hx]; exact wn)
  have S3 := S2.modify (a := node) (f := fun o => { o with children := [new] }) (f' := fun o => { o with children := [r.addr new] }) wn rfl
    (fun x hx => by rw [List.mem_singleton.1 hx]; exact w1) (S2.parents node wn)
  have key : ∀ (l : List Addr) (h₂ g₂ : Heap ℚ), Sim r h₂ g₂ → r.Dom h₂ node → r.Dom h₂ new → (∀ a ∈ l, r.Dom h₂ a) →
      Sim r (l.foldl (fun h x => if (h.get x).value = c / 3 then
          (h.modify new fun o => { o with children := o.children ++ [x] }).modify x fun o => { o with parents := [new] }
        else h.modify node fun o => { o with children := o.children ++ [x] }) h₂)
        ((l.map r.addr).foldl (fun h x => if (h.get x).value = c / 3 then
          (h.modify (r.addr new) fun o => { o with children := o.children ++ [x] }).modify x fun o => { o with parents := [r.addr new] }
        else h.modify (r.addr node) fun o => { o with children := o.children ++ [x] }) g₂) ∧
      (l.foldl (fun h x => if (h.get x).value = c / 3 then
          (h.modify new fun o => { o with children := o.children ++ [x] }).modify x fun o => { o with parents := [new] }
        else h.modify node fun o => { o with children := o.children ++ [x] }) h₂).next = h₂.next := by
    intro l
    induction l with
    | nil => exact fun _ _ S _ _ _ => ⟨S, rfl⟩
    | cons x l ih =>
      intro h₂ g₂ S hn hw hl
      have hx := hl x (by simp)
      have hl' : ∀ a ∈ l, r.Dom h₂ a := fun a ha => hl a (List.mem_cons_of_mem _ ha)
      have hv : (g₂.get (r.addr x)).value = (h₂.get x).value := by rw [S.get x hx]; rfl
      rw [List.map_cons, List.foldl_cons, List.foldl_cons, hv]
      split
      · have T := S.adopt hw hx
        exact ih _ _ T hn hw hl'
      · refine ih _ _ (S.modify hn ?_ ?_ (S.parents node hn)) hn hw hl'
        · simp [Ren.obj]
        · intro y hy
          rcases List.mem_append.1 hy with hy | hy
          · exact S.children node hn y hy
          · rw [List.mem_singleton.1 hy]; exact hx
  obtain ⟨q1, q2⟩ := key original _ _ S3 wn w1 ho
  refine ⟨q1, ?_, rfl⟩
  refine le_trans ?_ q2.ge
  show h.next ≤ h₁.next
  omega

theorem Sim.runExpand (cfg : Config) (S : Sim r h g) {node : Addr} (hn : r.Dom h node) (e : Expand ℚ) :
    Rel (GrownBoth r h) (runExpand cfg h node e) (runExpand cfg g (r.addr node) e) := by
  cases e with
  | extract c => exact S.expandExtract cfg hn c
  | divide d => exact S.expandDivide cfg hn d
  | merge t => exact S.expandMerge hn t
  | split c => exact S.expandSplit hn c

theorem Sim.runExpands (cfg : Config) {node : Addr} : ∀ (fuel : Nat) (h g : Heap ℚ), Sim r h g → r.Dom h node →
    Rel (fun x y => Sim r x.1 y.1 ∧ h.next ≤ x.1.next ∧ y.2 = x.2) (runExpands cfg fuel h node) (runExpands cfg fuel g (r.addr node)) := by
  intro fuel
  induction fuel with
  | zero =>
    intro h g S hn
    unfold Graph.runExpands
    have he : (g.get (r.addr node)).expands = (h.get node).expands := by rw [S.get node hn]; rfl
    rw [he]
    cases (h.get node).expands with
    | nil => exact ⟨S, le_rfl, rfl⟩
    | cons e es => rfl
  | succ fuel ih =>
    intro h g S hn
    unfold Graph.runExpands
    have he : (g.get (r.addr node)).expands = (h.get node).expands := by rw [S.get node hn]; rfl
    rw [he]
    cases (h.get node).expands with
    | nil => exact ⟨S, le_rfl, rfl⟩
    | cons e es =>
      have S1 := S.modify (f := fun o => { o with expands := es }) (f' := fun o => { o with expands := es }) hn rfl (S.children node hn)
        (S.parents node hn)
      refine (S1.runExpand cfg (node := node) hn e).bind ?_
      rintro ⟨h₂, u⟩ ⟨g₂, _⟩ ⟨S2, n2, e2⟩
      simp only at S2 n2 e2
      subst e2
      replace n2 : h.next ≤ h₂.next := n2
      refine (ih h₂ g₂ S2 (hn.mono n2)).bind ?_
      rintro ⟨h₃, us⟩ ⟨g₃, _⟩ ⟨S3, n3, e3⟩
      simp only at S3 n3 e3
      subst e3
      exact ⟨S3, n2.trans n3, rfl⟩

end

end Satis.Graph
