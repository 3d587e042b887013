import Verif.Graph.LevelWalk
/-!
# Parts that have nothing to expand

Nodes that have no expansion pending, together with everything below them, are not changed by the expansion of the other nodes, except for the machines that
lead to the topmost of them.
-/

namespace Satis.Graph
open Satis Satis.Cost

/-- If the call returns, then with something that meets `P`. -/
def Yields {α : Type} (P : α → Prop) (r : Py α) : Prop := ∀ x, r = .ok x → P x

theorem Yields.bind {α β : Type} {P : α → Prop} {P' : β → Prop} {r : Py α} {f : α → Py β} (hr : Yields P r) (hf : ∀ x, P x → Yields P' (f x)) :
    Yields P' (r >>= f) := by
  cases r with
  | error e => intro x hx; cases hx
  | ok x => exact hf x (hr x rfl)

theorem Yields.any {α β : Type} {P' : β → Prop} {r : Py α} {f : α → Py β} (hf : ∀ x, Yields P' (f x)) : Yields P' (r >>= f) :=
  Yields.bind (P := fun _ => True) (fun _ _ => trivial) fun x _ => hf x

theorem Yields.map {α β : Type} {P : α → Prop} {P' : β → Prop} {r : Py α} {f : α → β} (hr : Yields P r) (hf : ∀ x, P x → P' (f x)) :
    Yields P' (r.map f) := by
  cases r with
  | error e => intro x hx; cases hx
  | ok x =>
    intro y hy
    cases hy
    exact hf x (hr x rfl)

theorem Yields.pure {α : Type} {P : α → Prop} {x : α} (h : P x) : Yields P (.ok x) := fun y hy => by
  cases hy
  exact h

theorem yields_item (l : List Addr) (i : Nat) : Yields (fun a => a ∈ l) (item l i) := (Ends.iff.1 (ends_item l i)).2

/-- `Q` are nodes of the part `U` with nothing pending, closed under children; `R` are the topmost of them; `E` are the nodes at which something is extracted. -/
structure Still (Q E : Addr → Prop) (h₀ : Heap ℚ) (U : Addr → Prop) : Prop where
  inside : ∀ a, U a → a < h₀.next
  quiet : ∀ a, Q a → U a
  below : ∀ a, Q a → ∀ c ∈ (h₀.get a).children, Q c
  nothing : ∀ a, Q a → (h₀.get a).expands = []
  extracts : ∀ a, E a → U a

/-- The quiet nodes are as they were. -/
structure Calm (Q R E : Addr → Prop) (h₀ : Heap ℚ) (U : Addr → Prop) (h : Heap ℚ) : Prop where
  next : h₀.next ≤ h.next
  keep : ∀ a, Q a → h.get a = { h₀.get a with parents := (h.get a).parents }
  fixed : ∀ a, Q a → ¬ R a → (h.get a).parents = (h₀.get a).parents
  up : ∀ a, Within h₀ U h a → ¬ Q a → ∀ p ∈ (h.get a).parents, Within h₀ U h p ∧ ¬ Q p
  down : ∀ a, Within h₀ U h a → ¬ Q a → ∀ x ∈ (h.get a).children, Within h₀ U h x ∧ (Q x → R x ∧ ¬ E a)
  extract : ∀ a, Within h₀ U h a → ¬ Q a → ∀ c, .extract c ∈ (h.get a).expands → E a

variable {Q R E : Addr → Prop} {h₀ : Heap ℚ} {U : Addr → Prop} {h : Heap ℚ}

theorem Calm.keep_children (C : Calm Q R E h₀ U h) {a : Addr} (ha : Q a) : (h.get a).children = (h₀.get a).children := by
  rw [C.keep a ha]

theorem Calm.keep_expands (S : Still Q E h₀ U) (C : Calm Q R E h₀ U h) {a : Addr} (ha : Q a) : (h.get a).expands = [] := by
  rw [C.keep a ha]
  exact S.nothing a ha

theorem Calm.modify (C : Calm Q R E h₀ U h) {a : Addr} {f : NodeObj ℚ → NodeObj ℚ}
    (hq : Q a → f (h.get a) = { h.get a with parents := (f (h.get a)).parents } ∧ (¬ R a → (f (h.get a)).parents = (h.get a).parents))
    (hn : ¬ Q a → (∀ p ∈ (f (h.get a)).parents, Within h₀ U h p ∧ ¬ Q p) ∧
      (∀ x ∈ (f (h.get a)).children, Within h₀ U h x ∧ (Q x → R x ∧ ¬ E a)) ∧ ∀ c, .extract c ∈ (f (h.get a)).expands → E a) :
    Calm Q R E h₀ U (h.modify a f) := by
  refine ⟨C.next, ?_, ?_, ?_, ?_, ?_⟩
  · intro b hb
    rw [Heap.get_modify]
    split
    · next e =>
      subst e
      refine (hq hb).1.trans ?_
      have := C.keep b hb
      generalize (f (h.get b)).parents = ps
      generalize h.get b = o at this ⊢
      rw [this]
    · exact C.keep b hb
  · intro b hb hr
    rw [Heap.get_modify]
    split
    · next e =>
      subst e
      rw [(hq hb).2 hr]
      exact C.fixed b hb hr
    · exact C.fixed b hb hr
  · intro b hb hb'
    rw [Heap.get_modify]
    split
    · next e =>
      subst e
      exact (hn hb').1
    · exact C.up b hb hb'
  · intro b hb hb'
    rw [Heap.get_modify]
    split
    · next e =>
      subst e
      exact (hn hb').2.1
    · exact C.down b hb hb'
  · intro b hb hb'
    rw [Heap.get_modify]
    split
    · next e =>
      subst e
      exact (hn hb').2.2
    · exact C.extract b hb hb'

/-- Changes of other attributes. -/
theorem Calm.other (C : Calm Q R E h₀ U h) {a : Addr} (ha : Within h₀ U h a) (hq : ¬ Q a) {f : NodeObj ℚ → NodeObj ℚ} (hc : ∀ o, (f o).children = o.children)
    (hp : ∀ o, (f o).parents = o.parents) (he : ∀ o, (f o).expands = o.expands) : Calm Q R E h₀ U (h.modify a f) :=
  C.modify (fun w => absurd w hq) fun hn => by
    rw [hc, hp, he]
    exact ⟨C.up a ha hn, C.down a ha hn, C.extract a ha hn⟩

theorem Calm.newNode (S : Still Q E h₀ U) (C : Calm Q R E h₀ U h) (v : ℚ) (p : List ℚ) (l : Option Int) :
    Yields (fun x => Calm Q R E h₀ U x.1 ∧ x.1.next = h.next + 1 ∧ Within h₀ U x.1 x.2 ∧ ¬ Q x.2 ∧ ¬ E x.2 ∧ h.next ≤ x.2) (newNode h v p none l) := by
  rintro ⟨h₂, a⟩ hn
  unfold Graph.newNode at hn
  split at hn
  · cases hn
  simp only [Except.ok.injEq, Heap.alloc, Prod.mk.injEq] at hn
  obtain ⟨e1, e2⟩ := hn
  have hnext : h₂.next = h.next + 1 := by rw [← e1]
  have hold : ∀ b, b ≠ h.next → h₂.get b = h.get b := fun b hb => by rw [← e1]; simp [hb]
  have hne : (h₂.get h.next).expands = [] ∧ (h₂.get h.next).children = [] ∧ (h₂.get h.next).parents = [] := by
    rw [← e1]
    simp
  subst e2
  have hUlt : ∀ b, U b → b ≠ h.next := fun b hb => by
    have := S.inside b hb
    have := C.next
    omega
  have hsplit : ∀ b, Within h₀ U h₂ b → Within h₀ U h b ∨ b = h.next := by
    rintro b (hb | ⟨h1, h2⟩)
    · exact .inl (.inl hb)
    · rcases Nat.lt_or_ge b h.next with w | w
      · exact .inl (.inr ⟨h1, w⟩)
      · exact .inr (by omega)
  have hw : ∀ b, Within h₀ U h b → b ≠ h.next := by
    rintro b (hb | hb)
    · exact hUlt b hb
    · omega
  have hmono : ∀ b, Within h₀ U h b → Within h₀ U h₂ b := fun b hb => hb.mono (by omega)
  have hnx := C.next
  refine ⟨⟨by show h₀.next ≤ h₂.next; omega, ?_, ?_, ?_, ?_, ?_⟩, hnext, .inr ⟨hnx, by show h.next < h₂.next; omega⟩, fun w => hUlt _ (S.quiet _ w) rfl,
    fun w => hUlt _ (S.extracts _ w) rfl, le_rfl⟩
  · intro b hb
    show h₂.get b = { h₀.get b with parents := (h₂.get b).parents }
    rw [hold b (hUlt b (S.quiet b hb))]
    exact C.keep b hb
  · intro b hb hr
    show (h₂.get b).parents = _
    rw [hold b (hUlt b (S.quiet b hb))]
    exact C.fixed b hb hr
  · intro b hb hb' p hp
    have hp : p ∈ (h₂.get b).parents := hp
    rcases hsplit b hb with w | rfl
    · rw [hold b (hw b w)] at hp
      exact (C.up b w hb' p hp).imp (hmono p) fun x => x
    · rw [hne.2.2] at hp
      simp at hp
  · intro b hb hb' p hp
    have hp : p ∈ (h₂.get b).children := hp
    rcases hsplit b hb with w | rfl
    · rw [hold b (hw b w)] at hp
      exact (C.down b w hb' p hp).imp (hmono p) fun x => x
    · rw [hne.2.1] at hp
      simp at hp
  · intro b hb hb' c hc
    have hc : .extract c ∈ (h₂.get b).expands := hc
    rcases hsplit b hb with w | rfl
    · rw [hold b (hw b w)] at hc
      exact C.extract b w hb' c hc
    · rw [hne.1] at hc
      simp at hc

/-- A child is added to a node that is not quiet. -/
theorem Calm.addChild (C : Calm Q R E h₀ U h) {p c : Addr} (hp : Within h₀ U h p) (hpq : ¬ Q p) (hc : Within h₀ U h c) (hok : Q c → R c ∧ ¬ E p) :
    Calm Q R E h₀ U (h.modify p fun o => { o with children := o.children ++ [c] }) :=
  C.modify (fun w => absurd w hpq) fun _ => ⟨C.up p hp hpq, fun x hx => by
    rcases List.mem_append.1 hx with hx | hx
    · exact C.down p hp hpq x hx
    · rw [List.mem_singleton.1 hx]
      exact ⟨hc, hok⟩, C.extract p hp hpq⟩

theorem Calm.setParents (C : Calm Q R E h₀ U h) {c : Addr} (hc : Within h₀ U h c) (hok : Q c → R c) (f : List Addr → List Addr)
    (hf : ¬ Q c → ∀ p ∈ f (h.get c).parents, Within h₀ U h p ∧ ¬ Q p) : Calm Q R E h₀ U (h.modify c fun o => { o with parents := f o.parents }) :=
  C.modify (fun w => ⟨rfl, fun r => absurd (hok w) r⟩) fun w => ⟨hf w, C.down c hc w, C.extract c hc w⟩

theorem Calm.adopt (C : Calm Q R E h₀ U h) {p c : Addr} (hp : Within h₀ U h p) (hpq : ¬ Q p) (hc : Within h₀ U h c) (hok : Q c → R c ∧ ¬ E p) :
    Calm Q R E h₀ U (adopt p h c) :=
  (C.addChild hp hpq hc hok).setParents (c := c) hc (fun w => (hok w).1) (fun _ => [p]) fun _ q hq => by
    rw [List.mem_singleton.1 hq]
    exact ⟨hp, hpq⟩

theorem Calm.link (C : Calm Q R E h₀ U h) {p c : Addr} (hp : Within h₀ U h p) (hpq : ¬ Q p) (hc : Within h₀ U h c) (hok : Q c → R c ∧ ¬ E p) :
    Calm Q R E h₀ U (link h p c) := by
  have C1 := C.addChild hp hpq hc hok
  refine C1.setParents (c := c) hc (fun w => (hok w).1) (fun l => l ++ [p]) fun w q hq => ?_
  rcases List.mem_append.1 hq with hq | hq
  · exact C1.up c hc w q hq
  · rw [List.mem_singleton.1 hq]
    exact ⟨hp, hpq⟩

theorem Calm.tagMerge (C : Calm Q R E h₀ U h) {a : Addr} (ha : Within h₀ U h a) (hq : ¬ Q a) (t : Nat) : Calm Q R E h₀ U (tagMerge h a t) := by
  unfold Graph.tagMerge
  split
  · exact C.modify (fun w => absurd w hq) fun _ => ⟨C.up a ha hq, C.down a ha hq, fun c hc => by
      rcases List.mem_append.1 hc with hc | hc
      · exact C.extract a ha hq c hc
      · simp at hc⟩
  · exact C

theorem calm_tagNext (h : Heap ℚ) (a : Addr) (t : Nat) : (Graph.tagMerge h a t).next = h.next := by
  unfold Graph.tagMerge
  split <;> rfl

theorem calm_newLayer (S : Still Q E h₀ U) (q off : Nat) (value : ℚ) (lvl depth : Int) (cur : List Addr) (C : Calm Q R E h₀ U h)
    (hcur : ∀ a ∈ cur, Within h₀ U h a ∧ ¬ Q a) : ∀ j, Yields (fun x => Calm Q R E h₀ U x.1 ∧ h.next ≤ x.1.next ∧
      ∀ a ∈ x.2, Within h₀ U x.1 a ∧ ¬ Q a ∧ ¬ E a) (newLayer q off value lvl depth cur h j) := by
  intro j
  induction j with
  | zero => exact Yields.pure ⟨C, le_rfl, by simp⟩
  | succ j ih =>
    rw [newLayer]
    refine ih.bind ?_
    rintro ⟨h₂, as⟩ ⟨C2, n2, w2⟩
    refine (C2.newNode S value [] (some lvl)).bind ?_
    rintro ⟨h₃, a⟩ ⟨C3, n3, wa, qa, ea, -⟩
    have n3 : h₃.next = h₂.next + 1 := n3
    have n2 : h.next ≤ h₂.next := n2
    have C4 : Calm Q R E h₀ U (h₃.modify a fun o => { o with levelsToAdd := -depth }) := C3.other wa qa (fun _ => rfl) (fun _ => rfl) fun _ => rfl
    refine (yields_item cur _).bind fun p hp => ?_
    obtain ⟨wp, qp⟩ := hcur p hp
    have wp : Within h₀ U h₃ p := wp.mono (by omega)
    refine Yields.pure ⟨(C4.addChild (c := a) wp qp wa fun w => absurd w qa).setParents (c := a) wa (fun w => absurd w qa) (fun _ => [p]) fun _ x hx => ?_,
      ?_, fun x hx => ?_⟩
    · rw [List.mem_singleton.1 hx]
      exact ⟨wp, qp⟩
    · show h.next ≤ h₃.next
      omega
    · rcases List.mem_append.1 hx with hx | hx
      · obtain ⟨w1, w2, w3⟩ := w2 x hx
        exact ⟨w1.mono (show h₂.next ≤ h₃.next by omega), w2, w3⟩
      · rw [List.mem_singleton.1 hx]
        exact ⟨wa, qa, ea⟩

theorem calm_hangChildren (q off : Nat) (cur : List Addr) : ∀ (cs : List Addr) (h : Heap ℚ) (j : Nat), Calm Q R E h₀ U h →
    (∀ a ∈ cur, Within h₀ U h a ∧ ¬ Q a) → (∀ c ∈ cs, Within h₀ U h c) → (∀ p ∈ cur, ∀ c ∈ cs, Q c → R c ∧ ¬ E p) →
    Yields (fun h' => Calm Q R E h₀ U h' ∧ h'.next = h.next) (hangChildren q off cur h j cs) := by
  intro cs
  induction cs with
  | nil => exact fun h j C _ _ _ => Yields.pure ⟨C, rfl⟩
  | cons c cs ih =>
    intro h j C hcur hcs hok
    rw [hangChildren]
    refine (yields_item cur _).bind fun p hp => ?_
    exact ih (adopt p h c) (j + 1) (C.adopt (hcur p hp).1 (hcur p hp).2 (hcs c (by simp)) (hok p hp c (by simp))) hcur
      (fun a ha => hcs a (List.mem_cons_of_mem _ ha)) fun p hp x hx => hok p hp x (List.mem_cons_of_mem _ hx)

theorem calm_reroute (q off : Nat) (target : Addr) (cur : List Addr) (C : Calm Q R E h₀ U h) (hcur : ∀ a ∈ cur, Within h₀ U h a ∧ ¬ Q a)
    (ht : Within h₀ U h target) (hq : ¬ Q target) : ∀ j, Yields (fun h' => Calm Q R E h₀ U h' ∧ h'.next = h.next) (reroute q off target cur h j) := by
  intro j
  induction j with
  | zero => exact Yields.pure ⟨C, rfl⟩
  | succ j ih =>
    rw [reroute]
    refine ih.bind ?_
    rintro h₂ ⟨C2, e2⟩
    refine (yields_item cur _).bind fun p hp => ?_
    exact Yields.pure ⟨C2.link ((hcur p hp).1.mono e2.ge) (hcur p hp).2 (ht.mono e2.ge) fun w => absurd w hq, e2⟩

theorem yields_foldlM {α : Type} {f : α → Nat → Py α} (P : Nat → α → Prop) (n : Nat) (s : α) (h0 : P 0 s)
    (hf : ∀ i < n, ∀ s, P i s → Yields (P (i + 1)) (f s i)) : Yields (P n) ((List.range n).foldlM f s) := by
  induction n with
  | zero => exact Yields.pure h0
  | succ n ih =>
    rw [List.range_succ, List.foldlM_append]
    refine (ih fun i hi => hf i (by omega)).bind fun s' hs' => ?_
    simp only [List.foldlM_cons, List.foldlM_nil, bind_pure]
    exact hf n (by omega) s' hs'

/-- One depth of a division that is not the last. -/
theorem calm_divideLayer (S : Still Q E h₀ U) (q width : Nat) (plan : Nat × Nat) (value : ℚ) (depth : Int) (target : Addr) (last : Bool) (original : List Addr)
    (s : Heap ℚ × Int × List Addr) (C : Calm Q R E h₀ U s.1) (hcur : ∀ a ∈ s.2.2, Within h₀ U s.1 a ∧ ¬ Q a) (ht : Within h₀ U s.1 target) (hq : ¬ Q target)
    (ho : ∀ c ∈ original, Within h₀ U s.1 c) (hok : ∀ p ∈ s.2.2, ∀ c ∈ original, Q c → R c ∧ ¬ E p) :
    Yields (fun s' => Calm Q R E h₀ U s'.1 ∧ s.1.next ≤ s'.1.next ∧ (last = false → ∀ a ∈ s'.2.2, Within h₀ U s'.1 a ∧ ¬ Q a ∧ ¬ E a))
      (divideLayer q width plan value depth target last original s) := by
  obtain ⟨h₁, lvl, cur⟩ := s
  have cont : ∀ x : Heap ℚ × List Addr, (Calm Q R E h₀ U x.1 ∧ h₁.next ≤ x.1.next ∧ (last = false → ∀ a ∈ x.2, Within h₀ U x.1 a ∧ ¬ Q a ∧ ¬ E a)) →
      Yields (fun s' : Heap ℚ × Int × List Addr => Calm Q R E h₀ U s'.1 ∧ h₁.next ≤ s'.1.next ∧
        (last = false → ∀ a ∈ s'.2.2, Within h₀ U s'.1 a ∧ ¬ Q a ∧ ¬ E a))
        (reroute q 0 target cur x.1 plan.1 >>= fun h' => Pure.pure (h', lvl + 1, x.2)) := by
    rintro ⟨h₂, new⟩ ⟨C2, n2, w2⟩
    have n2 : h₁.next ≤ h₂.next := n2
    refine (calm_reroute q 0 target cur C2 (fun a ha => ⟨(hcur a ha).1.mono n2, (hcur a ha).2⟩) (ht.mono n2) hq plan.1).bind ?_
    rintro h₃ ⟨C3, e3⟩
    exact Yields.pure ⟨C3, n2.trans e3.ge, fun hl a ha => ⟨(w2 hl a ha).1.mono e3.ge, (w2 hl a ha).2⟩⟩
  unfold divideLayer
  cases last
  · exact (calm_newLayer S q plan.1 value (lvl + 1) depth cur C hcur _).bind fun x hx => cont x ⟨hx.1, hx.2.1, fun _ => hx.2.2⟩
  · refine Yields.bind ((calm_hangChildren q plan.1 cur original h₁ 0 C hcur ho hok).map (P' := fun x : Heap ℚ × List Addr =>
      Calm Q R E h₀ U x.1 ∧ h₁.next ≤ x.1.next ∧ (true = false → ∀ a ∈ x.2, Within h₀ U x.1 a ∧ ¬ Q a ∧ ¬ E a)) ?_) cont
    rintro h₂ ⟨C2, e2⟩
    exact ⟨C2, e2.ge, by simp⟩

theorem calm_extractLayer (S : Still Q E h₀ U) (q width : Nat) (p₁ p₂ p₃ : Nat × Nat) (value : ℚ) (depth : Int) (loop extracted overflow : Addr) (last : Bool)
    (original : List Addr) (s : Heap ℚ × Int × List Addr) (C : Calm Q R E h₀ U s.1) (hcur : ∀ a ∈ s.2.2, Within h₀ U s.1 a ∧ ¬ Q a)
    (h₁ : Within h₀ U s.1 loop ∧ ¬ Q loop) (h₂ : Within h₀ U s.1 extracted ∧ ¬ Q extracted) (h₃ : Within h₀ U s.1 overflow ∧ ¬ Q overflow)
    (ho : ∀ a ∈ original, Within h₀ U s.1 a ∧ ¬ Q a) :
    Yields (fun s' => Calm Q R E h₀ U s'.1 ∧ s.1.next ≤ s'.1.next ∧ ∀ a ∈ s'.2.2, Within h₀ U s'.1 a ∧ ¬ Q a)
      (extractLayer q width p₁ p₂ p₃ value depth loop extracted overflow last original s) := by
  obtain ⟨g, lvl, cur⟩ := s
  have cont : ∀ x : Heap ℚ × List Addr, (Calm Q R E h₀ U x.1 ∧ g.next ≤ x.1.next ∧ ∀ a ∈ x.2, Within h₀ U x.1 a ∧ ¬ Q a) →
      Yields (fun s' : Heap ℚ × Int × List Addr => Calm Q R E h₀ U s'.1 ∧ g.next ≤ s'.1.next ∧ ∀ a ∈ s'.2.2, Within h₀ U s'.1 a ∧ ¬ Q a)
        (reroute q 0 loop cur x.1 p₁.1 >>= fun h' => reroute q p₁.1 extracted cur h' p₂.1 >>= fun h' =>
          reroute q (p₁.1 + p₂.1) overflow cur h' p₃.1 >>= fun h' => Pure.pure (h', lvl + 1, x.2)) := by
    rintro ⟨g₂, new⟩ ⟨G2, n2, w2⟩
    have n2 : g.next ≤ g₂.next := n2
    refine (calm_reroute q 0 loop cur G2 (fun a ha => ⟨(hcur a ha).1.mono n2, (hcur a ha).2⟩) (h₁.1.mono n2) h₁.2 p₁.1).bind ?_
    rintro g₃ ⟨G3, e3⟩
    have n3 := n2.trans e3.ge
    refine (calm_reroute q p₁.1 extracted cur G3 (fun a ha => ⟨(hcur a ha).1.mono n3, (hcur a ha).2⟩) (h₂.1.mono n3) h₂.2 p₂.1).bind ?_
    rintro g₄ ⟨G4, e4⟩
    have n4 := n3.trans e4.ge
    refine (calm_reroute q (p₁.1 + p₂.1) overflow cur G4 (fun a ha => ⟨(hcur a ha).1.mono n4, (hcur a ha).2⟩) (h₃.1.mono n4) h₃.2 p₃.1).bind ?_
    rintro g₅ ⟨G5, e5⟩
    exact Yields.pure ⟨G5, n4.trans e5.ge, fun a ha => ⟨(w2 a ha).1.mono ((e3.ge.trans e4.ge).trans e5.ge), (w2 a ha).2⟩⟩
  unfold extractLayer
  cases last
  · exact (calm_newLayer S q (p₁.1 + p₂.1 + p₃.1) value (lvl + 1) depth cur C hcur _).bind fun x hx =>
      cont x ⟨hx.1, hx.2.1, fun a ha => ⟨(hx.2.2 a ha).1, (hx.2.2 a ha).2.1⟩⟩
  · exact cont (g, original) ⟨C, le_rfl, ho⟩

theorem calm_joinLoop (C : Calm Q R E h₀ U h) {node loop : Addr} (hn : Within h₀ U h node) (hnq : ¬ Q node) (hl : Within h₀ U h loop) (hlq : ¬ Q loop)
    (hle : E loop → E node) : Calm Q R E h₀ U (joinLoop h node loop) := by
  unfold joinLoop
  have : ∀ (cs : List Addr) (h : Heap ℚ), Calm Q R E h₀ U h → (∀ c ∈ cs, Within h₀ U h c ∧ (Q c → R c ∧ ¬ E node)) → Within h₀ U h loop →
      Calm Q R E h₀ U (cs.foldl (fun h c => link h loop c) h) := by
    intro cs
    induction cs with
    | nil => exact fun _ C _ _ => C
    | cons c cs ih =>
      intro h C hcs hl
      have hc := hcs c (by simp)
      exact ih _ (C.link hl hlq hc.1 fun w => ⟨(hc.2 w).1, fun e => (hc.2 w).2 (hle e)⟩) (fun x hx => hcs x (List.mem_cons_of_mem _ hx)) hl
  exact this _ _ C (C.down node hn hnq) hl

/-- **`expand_divide`** at a node that is not quiet. -/
theorem calm_expandDivide (S : Still Q E h₀ U) (cfg : Config) (C : Calm Q R E h₀ U h) (node : Addr) (hnode : Within h₀ U h node) (hnq : ¬ Q node) (d : Nat) :
    Yields (fun x => Calm Q R E h₀ U x.1 ∧ h.next ≤ x.1.next) (expandDivide cfg h node d) := by
  unfold expandDivide
  refine Yields.any fun r => ?_
  obtain ⟨n, m, l, ns⟩ := r
  have cont : ∀ (over : Bool) (x : Heap ℚ × Addr), (Calm Q R E h₀ U x.1 ∧ h.next ≤ x.1.next ∧ Within h₀ U x.1 x.2 ∧ ¬ Q x.2 ∧ (E x.2 → E node)) →
      Yields (fun y : Heap ℚ × (Int × Int) => Calm Q R E h₀ U y.1 ∧ h.next ≤ y.1.next) (do
        let isRoot := decide ((x.1.get x.2).parents = [])
        let plan ← loopingBranches n m l (branchesCount n m)
        let values := layerValues ((h.get node).value + (l * (h.get node).value) / d) n m
        let lvl ← levelSucc (x.1.get node)
        let original := (x.1.get node).children
        let h := x.1.modify node fun o => { o with children := [] }
        let s ← (List.range n).foldlM (fun s i =>
          divideLayer 2 (2 ^ (i + 1)) (plan (i + 1, 0)) (values.getD (i + 1) 0) (n + m) x.2 (decide (i + 1 = n ∧ m = 0)) original s) (h, lvl, [node])
        let s ← (List.range m).foldlM (fun s i =>
          divideLayer 3 (2 ^ n * 3 ^ (i + 1)) (plan (n, i + 1)) (values.getD (n + i + 1) 0) (n + m) node (decide (i + 1 = m)) original s) s
        let h := if over then joinLoop s.1 node x.2 else s.1
        let h := tagMerge h x.2 (if isRoot then 2 else 3)
        return (h, (lvl, n + m))) := by
    rintro over ⟨h₁, loop⟩ ⟨C1, n1, wl, ql, el⟩
    have n1 : h.next ≤ h₁.next := n1
    have wn : Within h₀ U h₁ node := hnode.mono n1
    refine Yields.any fun plan => ?_
    refine Yields.any fun lvl => ?_
    have C2 : Calm Q R E h₀ U (h₁.modify node fun o => { o with children := [] }) :=
      C1.modify (fun w => absurd w hnq) fun _ => ⟨C1.up node wn hnq, by simp, C1.extract node wn hnq⟩
    have ho := C1.down node wn hnq
    -- the nodes of a depth that is not the last
    let Good : Heap ℚ × Int × List Addr → Prop := fun s => ∀ a ∈ s.2.2, Within h₀ U s.1 a ∧ ¬ Q a ∧ (E a → E node)
    have hstart : Good (h₁.modify node fun o => { o with children := [] }, lvl, [node]) := fun a ha => by
      rw [List.mem_singleton.1 ha]
      exact ⟨wn, hnq, fun x => x⟩
    have step : ∀ (q width : Nat) (pl : Nat × Nat) (value : ℚ) (depth : Int) (target : Addr) (last : Bool) (s : Heap ℚ × Int × List Addr),
        Calm Q R E h₀ U s.1 → h₁.next ≤ s.1.next → Good s → Within h₀ U h₁ target → ¬ Q target →
        Yields (fun s' => Calm Q R E h₀ U s'.1 ∧ h₁.next ≤ s'.1.next ∧ (last = false → Good s'))
          (divideLayer q width pl value depth target last (h₁.get node).children s) := by
      intro q width pl value depth target last s c1 c2 c3 c4 c5
      have := calm_divideLayer S q width pl value depth target last (h₁.get node).children s c1 (fun a ha => ⟨(c3 a ha).1, (c3 a ha).2.1⟩) (c4.mono c2) c5
        (fun c hc => (ho c hc).1.mono c2) fun p hp c hc w => ⟨((ho c hc).2 w).1, fun e => ((ho c hc).2 w).2 ((c3 p hp).2.2 e)⟩
      intro s' hs'
      obtain ⟨w1, w2, w3⟩ := this s' hs'
      exact ⟨w1, c2.trans w2, fun hl a ha => ⟨(w3 hl a ha).1, (w3 hl a ha).2.1, fun e => absurd e (w3 hl a ha).2.2⟩⟩
    refine (yields_foldlM (fun i s => Calm Q R E h₀ U s.1 ∧ h₁.next ≤ s.1.next ∧ (Good s ∨ i = n ∧ m = 0)) n _ ⟨C2, le_rfl, .inl hstart⟩ ?_).bind ?_
    · rintro i hi s ⟨c1, c2, c3⟩ s' hs'
      obtain ⟨w1, w2, w3⟩ := step _ _ _ _ _ loop _ s c1 c2 (c3.resolve_right (by omega)) wl ql s' hs'
      refine ⟨w1, w2, ?_⟩
      by_cases e : i + 1 = n ∧ m = 0
      · exact .inr e
      · exact .inl (w3 (decide_eq_false e))
    rintro s ⟨c1, c2, c3⟩
    refine (yields_foldlM (fun i s => Calm Q R E h₀ U s.1 ∧ h₁.next ≤ s.1.next ∧ (Good s ∨ i = m)) m _ ⟨c1, c2, c3.imp_right fun e => e.2.symm⟩ ?_).bind ?_
    · rintro i hi s ⟨c1, c2, c3⟩ s' hs'
      obtain ⟨w1, w2, w3⟩ := step _ _ _ _ _ node _ s c1 c2 (c3.resolve_right (by omega)) wn hnq s' hs'
      refine ⟨w1, w2, ?_⟩
      by_cases e : i + 1 = m
      · exact .inr e
      · exact .inl (w3 (decide_eq_false e))
    rintro s ⟨c1, c2, -⟩
    cases over
    · exact Yields.pure ⟨c1.tagMerge (wl.mono c2) ql _, (n1.trans c2).trans (calm_tagNext _ _ _).ge⟩
    · have cj := calm_joinLoop c1 (wn.mono c2) hnq (wl.mono c2) ql el
      have ej := joinLoop_next s.1 node loop
      exact Yields.pure ⟨cj.tagMerge ((wl.mono c2).mono ej.ge) ql _, ((n1.trans c2).trans ej.ge).trans (calm_tagNext _ _ _).ge⟩
  by_cases hover : (h.get node).value + (l * (h.get node).value) / d > (cfg.limit : ℚ)
  · simp only [hover, decide_true, if_true]
    refine (C.newNode S _ [] none).bind ?_
    rintro x ⟨w1, w2, w3, w4, w5, -⟩
    exact cont true x ⟨w1, by omega, w3, w4, fun e => absurd e w5⟩
  · simp only [hover, decide_false]
    exact cont false (h, node) ⟨C, le_rfl, hnode, hnq, fun x => x⟩

/-- **`expand_extract`** at a node whose children are not quiet. -/
theorem calm_expandExtract (S : Still Q E h₀ U) (cfg : Config) (C : Calm Q R E h₀ U h) (node : Addr) (hnode : Within h₀ U h node) (hnq : ¬ Q node) (hne : E node)
    (c : ℚ) : Yields (fun x => Calm Q R E h₀ U x.1 ∧ h.next ≤ x.1.next) (expandExtract cfg h node c) := by
  unfold expandExtract
  refine Yields.any fun g => ?_
  by_cases hg0 : g = 0
  · simp only [hg0, if_true]
    intro x hx
    cases hx
  simp only [hg0, if_false]
  refine Yields.any fun r => ?_
  obtain ⟨n, m, l, ns⟩ := r
  have cont : ∀ (over : Bool) (x : Heap ℚ × Addr), (Calm Q R E h₀ U x.1 ∧ h.next ≤ x.1.next ∧ Within h₀ U x.1 x.2 ∧ ¬ Q x.2 ∧ (E x.2 → E node)) →
      Yields (fun y : Heap ℚ × (Int × Int) => Calm Q R E h₀ U y.1 ∧ h.next ≤ y.1.next) (do
        let isRoot := decide ((x.1.get x.2).parents = [])
        let nExtract : Int := ⌊c / ((h.get node).value / ((h.get node).value.num / (g : Int)).toNat)⌋
        let p ← loopingBranches n m l (branchesCount n m)
        let q ← loopingBranches n m nExtract (branchesCount n m)
        let r ← loopingBranches n m (((h.get node).value.num / (g : Int)).toNat - nExtract) (branchesCount n m)
        let values := layerValues ((h.get node).value + l * g) n m
        let lvl ← levelSucc (x.1.get node)
        let c0 ← item (x.1.get node).children 0
        let c1 ← item (x.1.get node).children 1
        let extracted := if (x.1.get c0).value = c then c0 else c1
        let overflow := if (x.1.get c0).value = c then c1 else c0
        let h := x.1.modify extracted fun o => { o with parents := [] }
        let h := h.modify overflow fun o => { o with parents := [] }
        let original := (h.get node).children
        let h := h.modify node fun o => { o with children := [] }
        let s ← (List.range n).foldlM (fun s i =>
          extractLayer 2 (2 ^ (i + 1)) (p (i + 1, 0)) (q (i + 1, 0)) (r (i + 1, 0)) (values.getD (i + 1) 0) (n + m) x.2 extracted overflow
            (decide (i + 1 = n ∧ m = 0)) original s) (h, lvl, [node])
        let s ← (List.range m).foldlM (fun s i =>
          extractLayer 3 (2 ^ n * 3 ^ (i + 1)) (p (n, i + 1)) (q (n, i + 1)) (r (n, i + 1)) (values.getD (n + i + 1) 0) (n + m) x.2 extracted
            overflow (decide (i + 1 = m)) original s) s
        let h := if over then joinLoop s.1 node x.2 else s.1
        let h := tagMerge h x.2 (if isRoot then 2 else 3)
        let h := tagMerge h extracted 3
        let h := tagMerge h overflow 3
        return (h, (lvl, n + m))) := by
    rintro over ⟨h₁, loop⟩ ⟨C1, n1, wl, ql, el⟩
    have n1 : h.next ≤ h₁.next := n1
    have wn : Within h₀ U h₁ node := hnode.mono n1
    refine Yields.any fun p => ?_
    refine Yields.any fun q => ?_
    refine Yields.any fun r => ?_
    refine Yields.any fun lvl => ?_
    refine (yields_item _ 0).bind fun c0 hc0 => ?_
    refine (yields_item _ 1).bind fun c1 hc1 => ?_
    have hk : ∀ x ∈ (h₁.get node).children, Within h₀ U h₁ x ∧ ¬ Q x := fun x hx =>
      ⟨(C1.down node wn hnq x hx).1, fun w => ((C1.down node wn hnq x hx).2 w).2 hne⟩
    have w0 := hk c0 hc0
    have w1 := hk c1 hc1
    simp only
    generalize hex : (if (h₁.get c0).value = c then c0 else c1) = extracted
    generalize hov : (if (h₁.get c0).value = c then c1 else c0) = overflow
    have we : Within h₀ U h₁ extracted ∧ ¬ Q extracted := by rw [← hex]; split <;> assumption
    have wo : Within h₀ U h₁ overflow ∧ ¬ Q overflow := by rw [← hov]; split <;> assumption
    have C2 : Calm Q R E h₀ U (h₁.modify extracted fun o => { o with parents := [] }) :=
      C1.setParents we.1 (fun w => absurd w we.2) (fun _ => []) fun _ => by simp
    have C3 := C2.setParents (c := overflow) wo.1 (fun w => absurd w wo.2) (fun _ => []) fun _ => by simp
    have ho : ∀ a ∈ (((h₁.modify extracted fun o => { o with parents := [] }).modify overflow fun o => { o with parents := [] }).get
        node).children, Within h₀ U h₁ a ∧ ¬ Q a := fun a ha => ⟨(C3.down node wn hnq a ha).1, fun w => ((C3.down node wn hnq a ha).2 w).2 hne⟩
    have C4 := C3.modify (a := node) (f := fun o => { o with children := [] }) (fun w => absurd w hnq) fun _ =>
      ⟨C3.up node wn hnq, by simp, C3.extract node wn hnq⟩
    have mono : ∀ {g : Heap ℚ} {a : Addr}, h₁.next ≤ g.next → Within h₀ U h₁ a ∧ ¬ Q a → Within h₀ U g a ∧ ¬ Q a := fun hn w => ⟨w.1.mono hn, w.2⟩
    refine (yields_foldlM (fun _ s => Calm Q R E h₀ U s.1 ∧ h₁.next ≤ s.1.next ∧ ∀ a ∈ s.2.2, Within h₀ U s.1 a ∧ ¬ Q a) n _
      ⟨C4, le_rfl, fun a ha => by rw [List.mem_singleton.1 ha]; exact ⟨wn, hnq⟩⟩ ?_).bind ?_
    · rintro i hi s ⟨c1, c2, c3⟩ s' hs'
      obtain ⟨d1, d2, d3⟩ := calm_extractLayer S _ _ _ _ _ _ _ _ _ _ _ _ s c1 c3 (mono c2 ⟨wl, ql⟩) (mono c2 we) (mono c2 wo) (fun a ha => mono c2 (ho a ha)) s' hs'
      exact ⟨d1, c2.trans d2, d3⟩
    rintro s ⟨c1, c2, c3⟩
    refine (yields_foldlM (fun _ s => Calm Q R E h₀ U s.1 ∧ h₁.next ≤ s.1.next ∧ ∀ a ∈ s.2.2, Within h₀ U s.1 a ∧ ¬ Q a) m _ ⟨c1, c2, c3⟩ ?_).bind ?_
    · rintro i hi s ⟨c1, c2, c3⟩ s' hs'
      obtain ⟨d1, d2, d3⟩ := calm_extractLayer S _ _ _ _ _ _ _ _ _ _ _ _ s c1 c3 (mono c2 ⟨wl, ql⟩) (mono c2 we) (mono c2 wo) (fun a ha => mono c2 (ho a ha)) s' hs'
      exact ⟨d1, c2.trans d2, d3⟩
    rintro s ⟨c1, c2, -⟩
    have last : ∀ g : Heap ℚ, Calm Q R E h₀ U g → h₁.next ≤ g.next → ∀ t, Calm Q R E h₀ U (tagMerge (tagMerge (tagMerge g loop t) extracted 3) overflow 3) ∧
        h.next ≤ (tagMerge (tagMerge (tagMerge g loop t) extracted 3) overflow 3).next := fun g Cg hn t =>
      ⟨((Cg.tagMerge (wl.mono hn) ql t).tagMerge ((we.1.mono hn).mono (calm_tagNext _ _ _).ge) we.2 3).tagMerge
        ((wo.1.mono hn).mono (by rw [calm_tagNext, calm_tagNext])) wo.2 3, by rw [calm_tagNext, calm_tagNext, calm_tagNext]; exact n1.trans hn⟩
    cases over
    · exact Yields.pure (last _ c1 c2 _)
    · exact Yields.pure (last _ (calm_joinLoop c1 (wn.mono c2) hnq (wl.mono c2) ql el) (by rw [joinLoop_next]; exact c2) _)
  by_cases hover : (h.get node).value + l * g > (cfg.limit : ℚ)
  · simp only [hover, decide_true, if_true]
    refine (C.newNode S _ [] none).bind ?_
    rintro x ⟨w1, w2, w3, w4, w5, -⟩
    exact cont true x ⟨w1, by omega, w3, w4, fun e => absurd e w5⟩
  · simp only [hover, decide_false]
    exact cont false (h, node) ⟨C, le_rfl, hnode, hnq, fun x => x⟩

theorem calm_mergeLink (C : Calm Q R E h₀ U h) {m a : Addr} (hm : Within h₀ U h m) (hmq : ¬ Q m) (ha : Within h₀ U h a) (haq : ¬ Q a) :
    Calm Q R E h₀ U (mergeLink m h a) :=
  (C.link ha haq hm fun w => absurd w hmq).other (a := m) (f := fun o => { o with past := o.past.extend ((link h a m).get a).past.items }) hm hmq (fun _ => rfl)
    (fun _ => rfl) fun _ => rfl

theorem calm_filter (node : Addr) : ∀ (l : List Addr) (h : Heap ℚ), Calm Q R E h₀ U h → (∀ a ∈ l, Within h₀ U h a ∧ ¬ Q a) → Calm Q R E h₀ U
      (l.foldl (fun h x => h.modify x fun o => { o with children := o.children.filter fun y => decide (y ≠ node) }) h) ∧
      (l.foldl (fun h x => h.modify x fun o => { o with children := o.children.filter fun y => decide (y ≠ node) }) h).next = h.next := by
  intro l
  induction l with
  | nil => exact fun _ C _ => ⟨C, rfl⟩
  | cons x l ih =>
    intro h C hl
    have wx := hl x (by simp)
    exact ih (h.modify x fun o => { o with children := o.children.filter fun y => decide (y ≠ node) })
      (C.modify (fun w => absurd w wx.2) fun _ => ⟨C.up x wx.1 wx.2, fun y hy => C.down x wx.1 wx.2 y (List.mem_of_mem_filter hy), C.extract x wx.1 wx.2⟩)
      (fun a ha => hl a (List.mem_cons_of_mem _ ha))

theorem calm_merge3 (S : Still Q E h₀ U) (C : Calm Q R E h₀ U h) {a b c : Addr} (ha : Within h₀ U h a ∧ ¬ Q a) (hb : Within h₀ U h b ∧ ¬ Q b)
    (hc : Within h₀ U h c ∧ ¬ Q c) : Yields (fun x => Calm Q R E h₀ U x.1 ∧ h.next ≤ x.1.next ∧ Within h₀ U x.1 x.2 ∧ ¬ Q x.2)
      (merge (fun (v : ℚ) k => v / k) h [a, b, c]) := by
  unfold merge
  refine Yields.any fun lvl => ?_
  refine (C.newNode S _ [] (some lvl)).bind ?_
  rintro ⟨h₂, m⟩ ⟨C2, n2, w2, q2, -, -⟩
  have w2 : Within h₀ U h₂ m := w2
  have n2 : h₂.next = h.next + 1 := n2
  simp only [List.length_cons, List.length_nil, Nat.reduceAdd, Nat.reduceLeDiff, gt_iff_lt, Nat.lt_irrefl, if_false, List.foldl_cons,
    List.foldl_nil]
  exact Yields.pure ⟨calm_mergeLink (calm_mergeLink (calm_mergeLink C2 w2 q2 (ha.1.mono (by omega)) ha.2) w2 q2 (hb.1.mono (by show _ ≤ h₂.next; omega)) hb.2) w2 q2
    (hc.1.mono (by show _ ≤ h₂.next; omega)) hc.2, show h.next ≤ h₂.next by omega, w2, q2⟩

theorem calm_mergeRounds (S : Still Q E h₀ U) (node : Addr) (hnq : ¬ Q node) (t : Nat) : ∀ (fuel : Nat) (todo : List Addr) (h : Heap ℚ), Calm Q R E h₀ U h →
    Within h₀ U h node → (∀ a ∈ todo, Within h₀ U h a ∧ ¬ Q a) →
    Yields (fun x => Calm Q R E h₀ U x.1 ∧ h.next ≤ x.1.next ∧ ∀ a ∈ x.2, Within h₀ U x.1 a ∧ ¬ Q a) (mergeRounds node t fuel h todo) := by
  intro fuel
  induction fuel with
  | zero =>
    intro todo h C hn htodo
    unfold mergeRounds
    split
    · exact Yields.pure ⟨C, le_rfl, htodo⟩
    · intro x hx
      cases hx
  | succ fuel ih =>
    intro todo h C hn htodo
    rw [mergeRounds.eq_def]
    by_cases hle : todo.length ≤ t
    · simp only [hle, if_true]
      exact Yields.pure ⟨C, le_rfl, htodo⟩
    · simp only [hle, if_false]
      clear hle
      match todo, htodo with
      | a :: b :: c :: rest, htodo =>
        have wa := htodo a (by simp)
        have wb := htodo b (by simp)
        have wc := htodo c (by simp)
        refine (calm_merge3 S C wa wb wc).bind ?_
        rintro ⟨h₂, m⟩ ⟨C2, n2, wm, qm⟩
        have n2 : h.next ≤ h₂.next := n2
        obtain ⟨C3, e3⟩ := calm_filter node [a, b, c] h₂ C2 (fun x hx => by
          simp only [List.mem_cons, List.not_mem_nil, or_false] at hx
          rcases hx with rfl | rfl | rfl
          · exact ⟨wa.1.mono n2, wa.2⟩
          · exact ⟨wb.1.mono n2, wb.2⟩
          · exact ⟨wc.1.mono n2, wc.2⟩)
        have wm3 := wm.mono e3.ge
        have C4 := C3.modify (a := m) (f := fun o => { o with level := (([a, b, c].foldl (fun h x => h.modify x fun o =>
          { o with children := o.children.filter fun y => decide (y ≠ node) }) h₂).get node).level, children := o.children ++ [node] })
          (fun w => absurd w qm) fun _ => ⟨C3.up m wm3 qm, fun x hx => by
            rcases List.mem_append.1 hx with hx | hx
            · exact C3.down m wm3 qm x hx
            · rw [List.mem_singleton.1 hx]
              exact ⟨(hn.mono n2).mono e3.ge, fun w => absurd w hnq⟩, C3.extract m wm3 qm⟩
        have := ih (m :: rest) _ C4 ((hn.mono n2).mono e3.ge) (fun x hx => by
          rcases List.mem_cons.1 hx with rfl | hx
          · exact ⟨wm3, qm⟩
          · have := htodo x (by simp [hx])
            exact ⟨(this.1.mono n2).mono e3.ge, this.2⟩)
        intro x hx
        obtain ⟨w1, w2, w3⟩ := this x hx
        exact ⟨w1, (n2.trans e3.ge).trans w2, w3⟩
      | [], _ => intro x hx; cases hx
      | [_], _ => intro x hx; cases hx
      | [_, _], _ => intro x hx; cases hx

/-- **`expand_merge`** at a node that is not quiet. -/
theorem calm_expandMerge (S : Still Q E h₀ U) (C : Calm Q R E h₀ U h) (node : Addr) (hnode : Within h₀ U h node) (hnq : ¬ Q node) (t : Nat) :
    Yields (fun x => Calm Q R E h₀ U x.1 ∧ h.next ≤ x.1.next) (expandMerge h node t) := by
  unfold expandMerge
  split
  · exact Yields.pure ⟨C, le_rfl⟩
  · refine (calm_mergeRounds S node hnq t _ _ h C hnode fun a ha => C.up node hnode hnq a (List.mem_reverse.1 ha)).bind ?_
    rintro ⟨h₂, todo⟩ ⟨C2, n2, w2⟩
    exact Yields.pure ⟨C2.setParents (c := node) (hnode.mono n2) (fun w => absurd w hnq) (fun _ => todo.reverse) fun _ p hp => w2 p (List.mem_reverse.1 hp), n2⟩

/-- **`expand_split`** at a node that is not quiet. -/
theorem calm_expandSplit (S : Still Q E h₀ U) (C : Calm Q R E h₀ U h) (node : Addr) (hnode : Within h₀ U h node) (hnq : ¬ Q node) (c : ℚ) :
    Yields (fun x => Calm Q R E h₀ U x.1 ∧ h.next ≤ x.1.next) (expandSplit h node c) := by
  unfold expandSplit
  refine Yields.any fun lvl => ?_
  refine (C.newNode S _ [] (some lvl)).bind ?_
  rintro ⟨h₂, new⟩ ⟨C2, n2, wm, qm, em, -⟩
  have n2 : h₂.next = h.next + 1 := n2
  have wm : Within h₀ U h₂ new := wm
  have wn : Within h₀ U h₂ node := hnode.mono (by omega)
  have ho := C2.down node wn hnq
  have C3 : Calm Q R E h₀ U (h₂.modify new fun o => { o with levelsToAdd := -1, children := [new], parents := [node] }) :=
    C2.modify (fun w => absurd w qm) fun _ => ⟨fun p hp => by rw [List.mem_singleton.1 hp]; exact ⟨wn, hnq⟩, fun p hp => by
      rw [List.mem_singleton.1 hp]; exact ⟨wm, fun w => absurd w qm⟩, C2.extract new wm qm⟩
  have C4 := C3.modify (a := node) (f := fun o => { o with children := [new] }) (fun w => absurd w hnq) fun _ => ⟨C3.up node wn hnq, fun p hp => by
      rw [List.mem_singleton.1 hp]; exact ⟨wm, fun w => absurd w qm⟩, C3.extract node wn hnq⟩
  have key : ∀ (cs : List Addr) (h : Heap ℚ), Calm Q R E h₀ U h → h.next = h₂.next → (∀ x ∈ cs, Within h₀ U h₂ x ∧ (Q x → R x ∧ ¬ E node)) →
      Calm Q R E h₀ U (cs.foldl (fun h x => if (h.get x).value = c / 3 then
        (h.modify new fun o => { o with children := o.children ++ [x] }).modify x fun o => { o with parents := [new] }
        else h.modify node fun o => { o with children := o.children ++ [x] }) h) ∧
      (cs.foldl (fun h x => if (h.get x).value = c / 3 then
        (h.modify new fun o => { o with children := o.children ++ [x] }).modify x fun o => { o with parents := [new] }
        else h.modify node fun o => { o with children := o.children ++ [x] }) h).next = h₂.next := by
    intro cs
    induction cs with
    | nil => exact fun h C e _ => ⟨C, e⟩
    | cons x cs ih =>
      intro h C e hcs
      obtain ⟨w1, w2⟩ := hcs x (by simp)
      rw [List.foldl_cons]
      have hm : Within h₀ U h new := wm.mono e.ge
      have hn : Within h₀ U h node := wn.mono e.ge
      have hx : Within h₀ U h x := w1.mono e.ge
      refine ih _ ?_ ?_ fun y hy => hcs y (List.mem_cons_of_mem _ hy)
      · split
        · exact C.adopt hm qm hx fun w => ⟨(w2 w).1, em⟩
        · exact C.addChild hn hnq hx w2
      · split <;> exact e
  obtain ⟨k1, k2⟩ := key _ _ C4 rfl ho
  refine Yields.pure ⟨?_, ?_⟩
  · exact k1
  · show h.next ≤ Heap.next _
    rw [k2]
    omega

/-- What is pending at a node that is not quiet. -/
theorem calm_runExpands (S : Still Q E h₀ U) (cfg : Config) (node : Addr) (hnq : ¬ Q node) : ∀ (fuel : Nat) (h : Heap ℚ), Calm Q R E h₀ U h →
    Within h₀ U h node → Yields (fun x => Calm Q R E h₀ U x.1 ∧ h.next ≤ x.1.next) (runExpands cfg fuel h node) := by
  intro fuel
  induction fuel with
  | zero =>
    intro h C hn
    unfold runExpands
    split
    · exact Yields.pure ⟨C, le_rfl⟩
    · intro x hx
      cases hx
  | succ fuel ih =>
    intro h C hn
    unfold runExpands
    split
    · exact Yields.pure ⟨C, le_rfl⟩
    · next e es he =>
      have C1 : Calm Q R E h₀ U (h.modify node fun o => { o with expands := es }) := C.modify (fun w => absurd w hnq) fun _ =>
        ⟨C.up node hn hnq, C.down node hn hnq, fun c hc => C.extract node hn hnq c (by rw [he]; exact List.mem_cons_of_mem _ hc)⟩
      have step : Yields (fun x => Calm Q R E h₀ U x.1 ∧ h.next ≤ x.1.next) (runExpand cfg (h.modify node fun o => { o with expands := es }) node e) := by
        cases e with
        | extract c => exact calm_expandExtract S cfg C1 node hn hnq (C.extract node hn hnq c (by rw [he]; simp)) c
        | divide d => exact calm_expandDivide S cfg C1 node hn hnq d
        | merge t => exact calm_expandMerge S C1 node hn hnq t
        | split c => exact calm_expandSplit S C1 node hn hnq c
      refine step.bind ?_
      rintro ⟨h₂, u⟩ ⟨C2, n2⟩
      refine (ih h₂ C2 (hn.mono n2)).bind ?_
      rintro ⟨h₃, us⟩ ⟨C3, n3⟩
      exact Yields.pure ⟨C3, n2.trans n3⟩

theorem calm_visit (S : Still Q E h₀ U) (cfg : Config) (F : Nat) (s : Marked ℚ × List (Int × Int)) (a : Addr) (C : Calm Q R E h₀ U s.1.1)
    (ha : Within h₀ U s.1.1 a) : Yields (fun s' => Calm Q R E h₀ U s'.1.1 ∧ s.1.1.next ≤ s'.1.1.next) (expandVisit cfg F s a) := by
  unfold expandVisit
  by_cases hq : Q a
  · have : runExpands cfg F s.1.1 a = .ok (s.1.1, []) := by
      rw [runExpands.eq_def]
      simp only [C.keep_expands S hq]
    rw [this]
    exact Yields.pure ⟨C, le_rfl⟩
  · refine (calm_runExpands S cfg a hq F s.1.1 C ha).bind ?_
    rintro ⟨h₂, us⟩ ⟨C2, n2⟩
    exact Yields.pure ⟨C2, n2⟩

theorem Calm.child (S : Still Q E h₀ U) (C : Calm Q R E h₀ U h) {a c : Addr} (ha : Within h₀ U h a) (hc : c ∈ (h.get a).children) : Within h₀ U h c := by
  by_cases hq : Q a
  · rw [C.keep_children hq] at hc
    exact .inl (S.quiet c (S.below a hq c hc))
  · exact (C.down a ha hq c hc).1

theorem calm_walk (S : Still Q E h₀ U) (cfg : Config) (F : Nat) : ∀ (fuel : Nat) (s : Marked ℚ × List (Int × Int)) (stack : List (Addr × Nat)),
    Calm Q R E h₀ U s.1.1 → (∀ f ∈ stack, Within h₀ U s.1.1 f.1) →
    Yields (fun s' => Calm Q R E h₀ U s'.1.1 ∧ s.1.1.next ≤ s'.1.1.next) (expandWalk cfg F fuel s stack) := by
  intro fuel
  induction fuel with
  | zero =>
    intro s stack C hst
    cases stack with
    | nil => exact Yields.pure ⟨C, le_rfl⟩
    | cons f stack => intro x hx; cases hx
  | succ fuel ih =>
    intro s stack C hst
    cases stack with
    | nil => exact Yields.pure ⟨C, le_rfl⟩
    | cons f stack =>
      obtain ⟨a, i⟩ := f
      have ha := hst (a, i) (by simp)
      have hst' : ∀ f ∈ stack, Within h₀ U s.1.1 f.1 := fun f hf => hst f (List.mem_cons_of_mem _ hf)
      have hst1 : ∀ f ∈ (a, i + 1) :: stack, Within h₀ U s.1.1 f.1 := fun f hf => by
        rcases List.mem_cons.1 hf with rfl | hf
        · exact ha
        · exact hst' f hf
      rw [expandWalk, walk]
      split
      · exact ih s stack C hst'
      · next c hc =>
        split
        · exact ih s _ C hst1
        · have hcw : Within h₀ U s.1.1 c := C.child S ha (List.mem_of_getElem? hc)
          have v := calm_visit S cfg F s c C hcw
          split
          · intro x hx
            cases hx
          · next s' e =>
            obtain ⟨C', n'⟩ := v s' e
            have := ih s' ((c, 0) :: (a, i + 1) :: stack) C' fun f hf => by
              rcases List.mem_cons.1 hf with rfl | hf
              · exact hcw.mono n'
              · exact (hst1 f hf).mono n'
            intro x hx
            obtain ⟨w1, w2⟩ := this x hx
            exact ⟨w1, n'.trans w2⟩

theorem calm_expandAll (S : Still Q E h₀ U) (cfg : Config) (fuel : Nat) (C : Calm Q R E h₀ U h) (roots : List Addr) (hr : ∀ r ∈ roots, Within h₀ U h r)
    (us : List (Int × Int)) : Yields (fun x => Calm Q R E h₀ U x.1) (expandAll cfg fuel h roots us) := by
  unfold expandAll walkAll
  have key : ∀ (roots : List Addr) (s : Marked ℚ × List (Int × Int)), Calm Q R E h₀ U s.1.1 → (∀ r ∈ roots, Within h₀ U s.1.1 r) →
      Yields (fun s' => Calm Q R E h₀ U s'.1.1)
        (roots.foldlM (fun s a => walkFrom (expandVisit cfg fuel) (fun s a => s.1.kids a) (fun s a => s.1.seen a) fuel s a) s) := by
    intro roots
    induction roots with
    | nil => exact fun s C _ => Yields.pure C
    | cons r roots ih =>
      intro s C hr
      rw [List.foldlM_cons]
      have hw := hr r (by simp)
      refine Yields.bind (P := fun s' => Calm Q R E h₀ U s'.1.1 ∧ s.1.1.next ≤ s'.1.1.next) ?_ fun s' hs' =>
        ih s' hs'.1 fun x hx => (hr x (List.mem_cons_of_mem _ hx)).mono hs'.2
      unfold walkFrom
      split
      · exact Yields.pure ⟨C, le_rfl⟩
      · have v := calm_visit S cfg fuel s r C hw
        split
        · intro x hx
          cases hx
        · next s' e =>
          obtain ⟨C', n'⟩ := v s' e
          have := calm_walk S cfg fuel fuel s' [(r, 0)] C' fun f hf => by
            rw [List.mem_singleton.1 hf]
            exact hw.mono n'
          intro x hx
          obtain ⟨w1, w2⟩ := this x hx
          exact ⟨w1, n'.trans w2⟩
  refine (key roots _ C hr).bind fun s hs => Yields.pure hs

end Satis.Graph
