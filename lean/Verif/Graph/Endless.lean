import Verif.Graph.LaneLevels
import Verif.Graph.Relevel
import Verif.Graph.Conclude
import Mathlib.Logic.Relation
/-!
# Ways through a network that expanding keeps

A node that is only divided or merged keeps its ways: what it led to directly it leads to over new nodes afterwards.
-/

namespace Satis.Graph
open Satis Satis.Cost Relation

/-- Merges, and divisions by at least two. -/
def Mild (e : Expand ℚ) : Prop := (∃ t, e = .merge t) ∨ ∃ d, e = .divide d ∧ 2 ≤ d

/-- The node is one of those made so far, and only merges and divisions are pending at it. -/
def Meek (h : Heap ℚ) (a : Addr) : Prop := a < h.next ∧ ∀ e ∈ (h.get a).expands, Mild e

/-- A belt from such a node. -/
def Hop (h : Heap ℚ) (a b : Addr) : Prop := Meek h a ∧ b ∈ (h.get a).children

/-- Children and pending expansions are added only, other than at the node `N`, which may lose children; what is added is mild. -/
structure Adds (N : Option Addr) (h h' : Heap ℚ) : Prop where
  next : h.next ≤ h'.next
  kids : ∀ a, a < h.next → N ≠ some a → ∀ c ∈ (h.get a).children, c ∈ (h'.get a).children
  keep : ∀ a, a < h.next → ∀ e ∈ (h.get a).expands, e ∈ (h'.get a).expands
  mild : ∀ a, a < h'.next → ∀ e ∈ (h'.get a).expands, (a < h.next ∧ e ∈ (h.get a).expands) ∨ Mild e

theorem Adds.refl (N : Option Addr) (h : Heap ℚ) : Adds N h h :=
  ⟨le_rfl, fun _ _ _ _ hc => hc, fun _ _ _ he => he, fun _ ha _ he => .inl ⟨ha, he⟩⟩

theorem Adds.trans {N : Option Addr} {h₁ h₂ h₃ : Heap ℚ} (A : Adds N h₁ h₂) (B : Adds N h₂ h₃) : Adds N h₁ h₃ := by
  have := A.next
  have := B.next
  refine ⟨by omega, fun a ha hN c hc => B.kids a (by omega) hN c (A.kids a ha hN c hc), fun a ha e he => B.keep a (by omega) e (A.keep a ha e he),
    fun a ha e he => ?_⟩
  rcases B.mild a ha e he with ⟨h1, h2⟩ | w
  · exact A.mild a h1 e h2
  · exact .inr w

theorem Adds.meek {N : Option Addr} {h h' : Heap ℚ} (A : Adds N h h') {a : Addr} (ha : Meek h a) : Meek h' a := by
  refine ⟨lt_of_lt_of_le ha.1 A.next, fun e he => ?_⟩
  rcases A.mild a (lt_of_lt_of_le ha.1 A.next) e he with ⟨-, h2⟩ | w
  · exact ha.2 e h2
  · exact w

theorem Adds.hop {h h' : Heap ℚ} (A : Adds none h h') {a b : Addr} (hab : Hop h a b) : Hop h' a b :=
  ⟨A.meek hab.1, A.kids a hab.1.1 (by simp) b hab.2⟩

theorem Adds.weaken {h h' : Heap ℚ} (A : Adds none h h') (N : Option Addr) : Adds N h h' :=
  ⟨A.next, fun a ha _ => A.kids a ha (by simp), A.keep, A.mild⟩

theorem Adds.modify {N : Option Addr} {h : Heap ℚ} {a : Addr} {f : NodeObj ℚ → NodeObj ℚ} (he : (f (h.get a)).expands = (h.get a).expands)
    (hc : N ≠ some a → ∀ c ∈ (h.get a).children, c ∈ (f (h.get a)).children) : Adds N h (h.modify a f) := by
  have e : ∀ x, ((h.modify a f).get x).expands = (h.get x).expands := by
    intro x
    rw [Heap.get_modify]
    split
    · next e => rw [e, he]
    · rfl
  refine ⟨le_rfl, fun x hx hN c hcx => ?_, fun x hx y hy => ?_, fun x hx y hy => ?_⟩
  · rw [Heap.get_modify]
    split
    · next e => subst e; exact hc hN c hcx
    · exact hcx
  · rw [e]; exact hy
  · rw [e] at hy; exact .inl ⟨hx, hy⟩

theorem Adds.tag {N : Option Addr} (h : Heap ℚ) (a : Addr) {y : Expand ℚ} (hy : Mild y) : Adds N h (tagExpand h a y) := by
  unfold tagExpand
  refine ⟨le_rfl, fun x hx hN c hcx => ?_, fun x hx z hz => ?_, fun x hx z hz => ?_⟩
  · rw [Heap.get_modify]
    split
    · next e => subst e; exact hcx
    · exact hcx
  · rw [Heap.get_modify]
    split
    · next e => subst e; exact List.mem_append_left _ hz
    · exact hz
  · rw [Heap.get_modify] at hz
    split at hz
    · next e =>
      subst e
      rcases List.mem_append.1 hz with w | w
      · exact .inl ⟨hx, w⟩
      · rw [List.mem_singleton.1 w]
        exact .inr hy
    · exact .inl ⟨hx, hz⟩

theorem adds_tagMerge (N : Option Addr) (h : Heap ℚ) (a : Addr) (t : Nat) : Adds N h (tagMerge h a t) := by
  unfold tagMerge
  split
  · exact Adds.tag h a (.inl ⟨t, rfl⟩)
  · exact Adds.refl N h

theorem adds_newNode (h : Heap ℚ) (v : ℚ) (p : List ℚ) (l : Option Int) :
    Yields (fun x => Adds none h x.1 ∧ x.2 = h.next ∧ x.1.next = h.next + 1 ∧ (x.1.get x.2).expands = [] ∧ (x.1.get x.2).children = [])
      (newNode h v p none l) := by
  unfold newNode
  split
  · intro x hx; cases hx
  refine Yields.pure ⟨⟨?_, ?_, ?_, ?_⟩, rfl, rfl, ?_, ?_⟩
  · show h.next ≤ h.next + 1
    omega
  · intro x hx _ c hc
    simp only [Heap.get_alloc, hx.ne, if_false]
    exact hc
  · intro x hx c hc
    simp only [Heap.get_alloc, hx.ne, if_false]
    exact hc
  · intro x hx e he
    have hx : x < h.next + 1 := hx
    simp only [Heap.get_alloc] at he
    split at he
    · simp at he
    · exact .inl ⟨by omega, he⟩
  · simp [Heap.alloc]
  · simp [Heap.alloc]

theorem adds_addChild (N : Option Addr) (h : Heap ℚ) (p c : Addr) : Adds N h (h.modify p fun o => { o with children := o.children ++ [c] }) :=
  Adds.modify rfl fun _ x hx => List.mem_append_left _ hx

theorem adds_parents (N : Option Addr) (h : Heap ℚ) (a : Addr) (f : NodeObj ℚ → List Addr) : Adds N h (h.modify a fun o => { o with parents := f o }) :=
  Adds.modify rfl fun _ _ hx => hx

theorem adds_link (N : Option Addr) (h : Heap ℚ) (p c : Addr) : Adds N h (link h p c) :=
  (adds_addChild N h p c).trans (adds_parents N _ c _)

theorem adds_adopt (N : Option Addr) (h : Heap ℚ) (p c : Addr) : Adds N h (adopt p h c) :=
  (adds_addChild N h p c).trans (adds_parents N _ c _)

theorem adopt_child (h : Heap ℚ) (p c : Addr) : c ∈ ((adopt p h c).get p).children := by
  unfold adopt
  rw [Heap.get_modify]
  split
  · next e => subst e; simp [Heap.get_modify]
  · simp [Heap.get_modify]

/-- The node can be reached from `node` on such ways, and goes on with one. -/
def Close (node : Addr) (h : Heap ℚ) (a : Addr) : Prop := Meek h a ∧ ReflTransGen (Hop h) node a

theorem Close.keep {node : Addr} {h h' : Heap ℚ} (K : Adds none h h') {a : Addr} (w : Close node h a) : Close node h' a :=
  ⟨K.meek w.1, ReflTransGen.mono (fun _ _ => K.hop) _ _ w.2⟩

theorem adds_newLayer (node : Addr) (q off : Nat) (value : ℚ) (lvl depth : Int) (cur : List Addr) (h : Heap ℚ) : ∀ j,
    Yields (fun x => Adds none h x.1 ∧ ((∀ a ∈ cur, Close node h a) → ∀ a ∈ x.2, Close node x.1 a)) (newLayer q off value lvl depth cur h j) := by
  intro j
  induction j with
  | zero => exact Yields.pure ⟨Adds.refl none h, by simp⟩
  | succ j ih =>
    rw [newLayer]
    refine ih.bind ?_
    rintro ⟨h₂, as⟩ ⟨K2, w2⟩
    refine (adds_newNode h₂ value [] (some lvl)).bind ?_
    rintro ⟨h₃, a⟩ ⟨K3, ea, n3, e3, -⟩
    refine (yields_item cur _).bind ?_
    intro p hp
    have n3 : h₃.next = h₂.next + 1 := n3
    have ea : a = h₂.next := ea
    have e3 : (h₃.get a).expands = [] := e3
    have Ka : Adds none h₃ (h₃.modify a fun o => { o with levelsToAdd := -depth }) := Adds.modify rfl fun _ _ hx => hx
    have Kb := adds_addChild none (h₃.modify a fun o => { o with levelsToAdd := -depth }) p a
    have Kc := adds_parents none ((h₃.modify a fun o => { o with levelsToAdd := -depth }).modify p fun o => { o with children := o.children ++ [a] }) a
      fun _ => [p]
    have K := ((K3.trans Ka).trans Kb).trans Kc
    refine Yields.pure ⟨K2.trans K, fun hcur x hx => ?_⟩
    rcases List.mem_append.1 hx with hx | hx
    · exact (w2 hcur x hx).keep K
    · rw [List.mem_singleton.1 hx]
      have hp' : Close node ((h₃.modify a fun o => { o with levelsToAdd := -depth }).modify p fun o => { o with children := o.children ++ [a] }) p :=
        (hcur p hp).keep ((K2.trans (K3.trans Ka)).trans Kb)
      have ha : Meek h₃ a := ⟨by omega, by rw [e3]; simp⟩
      refine Close.keep Kc ⟨(Ka.trans Kb).meek ha, hp'.2.tail ⟨hp'.1, ?_⟩⟩
      rw [Heap.get_modify, if_pos rfl]
      simp

theorem adds_hangChildren (node : Addr) (q off : Nat) (cur : List Addr) : ∀ (cs : List Addr) (h : Heap ℚ) (j : Nat),
    Yields (fun h' => Adds none h h' ∧ ((∀ a ∈ cur, Close node h a) → ∀ c ∈ cs, TransGen (Hop h') node c)) (hangChildren q off cur h j cs) := by
  intro cs
  induction cs with
  | nil => exact fun h j => Yields.pure ⟨Adds.refl none h, by simp⟩
  | cons c cs ih =>
    intro h j
    rw [hangChildren]
    refine (yields_item cur _).bind fun p hp => ?_
    intro x hx
    obtain ⟨K, w⟩ := ih _ _ x hx
    have K1 := adds_adopt none h p c
    refine ⟨K1.trans K, fun hcur y hy => ?_⟩
    rcases List.mem_cons.1 hy with rfl | hy
    · have wp := ((hcur p hp).keep K1)
      exact TransGen.tail' ((wp.keep K).2) (K.hop ⟨wp.1, adopt_child h p y⟩)
    · exact w (fun a ha => (hcur a ha).keep K1) y hy

theorem adds_reroute (node : Addr) (q off : Nat) (target : Addr) (cur : List Addr) (h : Heap ℚ) : ∀ j,
    Yields (fun h' => Adds none h h' ∧ (0 < j → (∀ a ∈ cur, Close node h a) → TransGen (Hop h') node target))
      (reroute q off target cur h j) := by
  intro j
  induction j with
  | zero => exact Yields.pure ⟨Adds.refl none h, by simp⟩
  | succ j ih =>
    rw [reroute]
    refine ih.bind ?_
    rintro h₂ ⟨K2, -⟩
    refine (yields_item cur _).bind fun p hp => ?_
    refine Yields.pure ⟨K2.trans (adds_link none h₂ p target), fun _ hcur => ?_⟩
    have wp := (hcur p hp).keep (K2.trans (adds_link none h₂ p target))
    exact TransGen.tail' wp.2 ⟨wp.1, link_child h₂ p target⟩

/-- What holds of the state of the loops over the depths of a division, after a depth that was the `last` or not; `only` tells that nothing but merges and
divisions is pending at the node. -/
structure Sown (only : Prop) (node loop : Addr) (original : List Addr) (h : Heap ℚ) (looped last : Prop) (s : Heap ℚ × Int × List Addr) : Prop where
  keep : Adds none h s.1
  near : only → ¬ last → ∀ a ∈ s.2.2, Close node s.1 a
  hung : only → last → ∀ c ∈ original, TransGen (Hop s.1) node c
  loop : only → looped → TransGen (Hop s.1) node loop ∨ TransGen (Hop s.1) node node

theorem Adds.way {h h' : Heap ℚ} (K : Adds none h h') {a b : Addr} (w : TransGen (Hop h) a b) : TransGen (Hop h') a b := TransGen.mono (fun _ _ => K.hop) _ _ w

theorem adds_divideLayer (only : Prop) (node loop : Addr) (q width : Nat) (plan : Nat × Nat) (value : ℚ) (depth : Int) (target : Addr)
    (ht : target = loop ∨ target = node) (last : Bool) (original : List Addr)
    (h : Heap ℚ) (looped : Prop) (s : Heap ℚ × Int × List Addr) (S : Sown only node loop original h looped False s) :
    Yields (Sown only node loop original h (looped ∨ 0 < plan.1) (last = true)) (divideLayer q width plan value depth target last original s) := by
  obtain ⟨h₁, lvl, cur⟩ := s
  have hcur : only → ∀ a ∈ cur, Close node h₁ a := fun w => S.near w id
  have cont : ∀ x : Heap ℚ × List Addr, (Adds none h₁ x.1 ∧ (only → ¬ last = true → ∀ a ∈ x.2, Close node x.1 a) ∧
      (only → last = true → ∀ c ∈ original, TransGen (Hop x.1) node c)) →
      Yields (Sown only node loop original h (looped ∨ 0 < plan.1) (last = true))
        (reroute q 0 target cur x.1 plan.1 >>= fun h' => Pure.pure (h', lvl + 1, x.2)) := by
    rintro ⟨h₂, new⟩ ⟨K2, w2, v2⟩
    refine (adds_reroute node q 0 target cur h₂ plan.1).bind ?_
    rintro h₃ ⟨K3, w3⟩
    refine Yields.pure ⟨(S.keep.trans K2).trans K3, fun ho hl a ha => (w2 ho hl a ha).keep K3, fun ho hl c hc => K3.way (v2 ho hl c hc), ?_⟩
    rintro ho (w | w)
    · exact (S.loop ho w).imp (K2.trans K3).way (K2.trans K3).way
    · have := w3 w fun a ha => (hcur ho a ha).keep K2
      rcases ht with rfl | rfl
      · exact .inl this
      · exact .inr this
  unfold divideLayer
  cases last
  · exact (adds_newLayer node q plan.1 value (lvl + 1) depth cur h₁ _).bind fun x hx => cont x ⟨hx.1, fun ho _ => hx.2 (hcur ho), by simp⟩
  · refine Yields.bind ((adds_hangChildren node q plan.1 cur original h₁ 0).map (P' := fun x : Heap ℚ × List Addr =>
      Adds none h₁ x.1 ∧ (only → ¬ true = true → ∀ a ∈ x.2, Close node x.1 a) ∧ (only → true = true → ∀ c ∈ original, TransGen (Hop x.1) node c)) ?_) cont
    exact fun h₂ K2 => ⟨K2.1, by simp, fun ho _ => K2.2 (hcur ho)⟩


theorem adds_joinLoop (h : Heap ℚ) (node loop : Addr) :
    Adds none h (joinLoop h node loop) ∧ (loop < h.next → ∀ c ∈ (h.get node).children, c ∈ ((joinLoop h node loop).get loop).children) := by
  unfold joinLoop
  have : ∀ (cs : List Addr) (h₁ : Heap ℚ), Adds none h₁ (cs.foldl (fun h c => link h loop c) h₁) ∧
      (loop < h₁.next → ∀ c ∈ cs, c ∈ ((cs.foldl (fun h c => link h loop c) h₁).get loop).children) := by
    intro cs
    induction cs with
    | nil => exact fun h₁ => ⟨Adds.refl _ h₁, by simp⟩
    | cons c cs ih =>
      intro h₁
      obtain ⟨K, w⟩ := ih (link h₁ loop c)
      refine ⟨(adds_link none h₁ loop c).trans K, fun hl y hy => ?_⟩
      rcases List.mem_cons.1 hy with rfl | hy
      · exact K.kids loop hl (by simp) y (link_child h₁ loop y)
      · exact w hl y hy
  exact this (h.get node).children h

/-- There is a way from the node into a circle. -/
def Circling (h : Heap ℚ) (a : Addr) : Prop := ∃ c, ReflTransGen (Hop h) a c ∧ TransGen (Hop h) c c

theorem Adds.circling {h h' : Heap ℚ} (K : Adds none h h') {a : Addr} (w : Circling h a) : Circling h' a := by
  obtain ⟨c, h1, h2⟩ := w
  exact ⟨c, ReflTransGen.mono (fun _ _ => K.hop) _ _ h1, K.way h2⟩

/-- `divide` makes a tree of some depth if it divides by two or more. -/
theorem findNML_deep {d n m l k : Nat} (h : findNML d = .ok (n, m, l, k)) (hd : 2 ≤ d) : 0 < n + m := by
  obtain ⟨n', m', e, hb, -⟩ := findNML_core d (by omega)
  rw [h] at e
  cases e
  by_contra hc
  have h1 : n = 0 := by omega
  have h2 : m = 0 := by omega
  subst h1 h2
  simp [L] at hb
  omega

/-- **`expand_divide`** leaves the ways through the node open, over new nodes; and if it sends something back there is a circle. -/
theorem adds_expandDivide (cfg : Config) (h : Heap ℚ) (node : Addr) (hnode : node < h.next) (d : Nat) :
    Yields (fun x => Adds (some node) h x.1 ∧ (Meek h node → 2 ≤ d → (∀ c ∈ (h.get node).children, TransGen (Hop x.1) node c) ∧
      ∀ n m l k, findNML d = .ok (n, m, l, k) → 0 < l → Circling x.1 node)) (expandDivide cfg h node d) := by
  unfold expandDivide
  refine (Yields.self (findNML d)).bind ?_
  rintro ⟨n, m, l, ns⟩ hfr
  have cont : ∀ (over : Bool) (x : Heap ℚ × Addr), (Adds none h x.1 ∧ x.2 < x.1.next ∧ (∀ c ∈ (h.get node).children, c ∈ (x.1.get node).children) ∧
        (over = true → x.2 ≠ node ∧ (x.1.get x.2).expands = []) ∧ (over = false → x.2 = node)) →
      Yields (fun y : Heap ℚ × (Int × Int) => Adds (some node) h y.1 ∧ (Meek h node → 2 ≤ d → (∀ c ∈ (h.get node).children, TransGen (Hop y.1) node c) ∧
      ∀ n m l k, findNML d = .ok (n, m, l, k) → 0 < l → Circling y.1 node)) (do
        let isRoot := decide ((x.1.get x.2).parents = [])
        let plan ← loopingBranches n m l (branchesCount n m)
        let values := layerValues ((h.get node).value + (l * (h.get node).value) / d) n m
        let lvl ← levelSucc (x.1.get node)
        let original := (x.1.get node).children
        let h := x.1.modify node fun o => { o with children := [] }
        let s ← (List.range n).foldlM (fun s i =>
          divideLayer 2 (2 ^ (i + 1)) (plan (i + 1, 0)) (values.getD (i + 1) 0) (n + m) x.2 (decide (i + 1 = n ∧ m = 0)) original s) (h, lvl, [node])
        let s ← (List.range m).foldlM (fun s i =>
          divideLayer 3 (2 ^ n * 3 ^ (i + 1)) (plan (n, i + 1)) (values.getD (n + i + 1) 0) (n + m) node (decide (i + 1 = m)) original s) s
        let h := if over then joinLoop s.1 node x.2 else s.1
        let h := tagMerge h x.2 (if isRoot then 2 else 3)
        return (h, (lvl, n + m))) := by
    rintro over ⟨h₁, loop⟩ ⟨K1, hl1, hkids, hover, hself⟩
    have hl1 : loop < h₁.next := hl1
    have hkids : ∀ c ∈ (h.get node).children, c ∈ (h₁.get node).children := hkids
    have hover : over = true → loop ≠ node ∧ (h₁.get loop).expands = [] := hover
    have hself : over = false → loop = node := hself
    have n1 : h.next ≤ h₁.next := K1.next
    refine (Yields.self (loopingBranches n m l (branchesCount n m))).bind ?_
    intro plan hpl
    refine Yields.any fun lvl => ?_
    have K2 : Adds (some node) h₁ (h₁.modify node fun o => { o with children := [] }) := Adds.modify rfl fun w => absurd rfl w
    simp only
    generalize hor : (h₁.get node).children = original at hkids ⊢
    generalize hb : (h₁.modify node fun o => { o with children := [] }) = hB at K2 ⊢
    have nB : hB.next = h₁.next := by rw [← hb]; rfl
    have hbase : Meek h node → Close node hB node := fun w => ⟨K2.meek (K1.meek w), .refl⟩
    let I : Nat → Prop := fun i => ∃ j, j < i ∧ 0 < (plan (j + 1, 0)).1
    let J : Nat → Prop := fun i => I n ∨ ∃ j, j < i ∧ 0 < (plan (n, j + 1)).1
    have start : Sown (Meek h node) node loop original hB (I 0) (0 = n ∧ m = 0 ∧ 0 < n) (hB, lvl, [node]) :=
      ⟨Adds.refl none hB, fun w _ a ha => by
        have ha : a ∈ [node] := ha
        rw [List.mem_singleton.1 ha]
        exact hbase w, fun _ w => absurd w (by omega), fun _ ⟨j, hj, _⟩ => absurd hj (by omega)⟩
    refine (yields_foldlM (fun i s => Sown (Meek h node) node loop original hB (I i) (i = n ∧ m = 0 ∧ 0 < n) s) n _
      start ?_).bind ?_
    · intro i hi s S s' hs'
      have S0 : Sown (Meek h node) node loop original hB (I i) False s := ⟨S.keep, fun w _ => S.near w (by omega), fun _ w => w.elim, S.loop⟩
      have := adds_divideLayer _ node loop _ _ _ _ _ loop (.inl rfl) _ _ hB (I i) s S0 s' hs'
      refine ⟨this.keep, fun w hw => this.near w ?_, fun w hw => this.hung w ?_, fun w hw => this.loop w ?_⟩
      · rw [decide_eq_true_eq]
        omega
      · rw [decide_eq_true_eq]
        omega
      · obtain ⟨j, hj, hp⟩ := hw
        rcases Nat.lt_or_ge j i with h | h
        · exact .inl ⟨j, h, hp⟩
        · have : j = i := by omega
          subst this
          exact .inr hp
    intro s S
    refine (yields_foldlM (fun i s => Sown (Meek h node) node loop original hB (J i) ((m = 0 ∧ 0 < n) ∨ i = m ∧ 0 < m) s) m _
      ⟨S.keep, fun w hw => S.near w (by omega), fun w hw => S.hung w (by omega), fun w hw => S.loop w (by
        rcases hw with hw | ⟨j, hj, _⟩
        · exact hw
        · omega)⟩ ?_).bind ?_
    · intro i hi s S s' hs'
      have S0 : Sown (Meek h node) node loop original hB (J i) False s := ⟨S.keep, fun w _ => S.near w (by omega), fun _ w => w.elim, S.loop⟩
      have := adds_divideLayer _ node loop _ _ _ _ _ node (.inr rfl) _ _ hB (J i) s S0 s' hs'
      refine ⟨this.keep, fun w hw => this.near w ?_, fun w hw => this.hung w ?_, fun w hw => this.loop w ?_⟩
      · rw [decide_eq_true_eq]
        omega
      · rw [decide_eq_true_eq]
        omega
      · rcases hw with hw | ⟨j, hj, hp⟩
        · exact .inl (.inl hw)
        rcases Nat.lt_or_ge j i with h | h
        · exact .inl (.inr ⟨j, h, hp⟩)
        · have : j = i := by omega
          subst this
          exact .inr hp
    intro s S
    have K4 : Adds none s.1 (tagMerge (if over then joinLoop s.1 node loop else s.1) loop
        (if decide ((h₁.get loop).parents = []) = true then 2 else 3)) := by
      cases over
      · exact adds_tagMerge none _ _ _
      · exact (adds_joinLoop _ _ _).1.trans (adds_tagMerge none _ _ _)
    have K := K2.trans (S.keep.weaken (some node))
    refine Yields.pure ⟨((K1.weaken _).trans K).trans (K4.weaken _), fun w hd => ⟨fun c hc => K4.way (S.hung w (by have := findNML_deep hfr hd; omega) c (hkids c hc)), ?_⟩⟩
    intro n' m' l' k' e hl
    rw [hfr] at e
    cases e
    have hloop := S.loop w (by
      rcases plan_pos hl (findNML_loops hfr) hpl with w | w
      · exact .inl w
      · exact .inr w)
    have own : TransGen (Hop s.1) node node → Circling s.1 node := fun q => ⟨node, .refl, q⟩
    cases over with
    | false =>
      rw [hself rfl] at hloop
      exact K4.circling (own (hloop.elim id id))
    | true =>
      rcases hloop with q | q
      swap
      · exact K4.circling (own q)
      obtain ⟨y, q1, q2⟩ := TransGen.head'_iff.1 q
      obtain ⟨Kj, wj⟩ := adds_joinLoop s.1 node loop
      refine (adds_tagMerge none _ _ _).circling ⟨y, .single (Kj.hop q1), ?_⟩
      have hls : loop < s.1.next := by have := S.keep.next; omega
      have ml : Meek s.1 loop := K.meek (h := h₁) ⟨hl1, by rw [(hover rfl).2]; simp⟩
      exact TransGen.tail' (ReflTransGen.mono (fun _ _ => Kj.hop) _ _ q2) ⟨Kj.meek ml, wj hls y q1.2⟩
  by_cases hover : (h.get node).value + (l * (h.get node).value) / d > (cfg.limit : ℚ)
  · simp only [hover, decide_true, if_true]
    refine (adds_newNode h _ [] none).bind ?_
    rintro ⟨h₂, a⟩ ⟨w1, w2, w3, w4, w5⟩
    have w2 : a = h.next := w2
    have w3 : h₂.next = h.next + 1 := w3
    exact cont true (h₂, a) ⟨w1, by show a < h₂.next; omega, w1.kids node hnode (by simp), fun _ => ⟨by show a ≠ node; omega, w4⟩, by simp⟩
  · simp only [hover, decide_false]
    exact cont false (h, node) ⟨Adds.refl none h, hnode, fun _ hc => hc, by simp, by simp⟩

theorem adds_extractLayer (node : Addr) (q width : Nat) (p₁ p₂ p₃ : Nat × Nat) (value : ℚ) (depth : Int) (loop extracted overflow : Addr) (last : Bool)
    (original : List Addr) (s : Heap ℚ × Int × List Addr) :
    Yields (fun s' => Adds none s.1 s'.1) (extractLayer q width p₁ p₂ p₃ value depth loop extracted overflow last original s) := by
  obtain ⟨h₁, lvl, cur⟩ := s
  have cont : ∀ x : Heap ℚ × List Addr, Adds none h₁ x.1 →
      Yields (fun s' : Heap ℚ × Int × List Addr => Adds none h₁ s'.1)
        (reroute q 0 loop cur x.1 p₁.1 >>= fun h' => reroute q p₁.1 extracted cur h' p₂.1 >>= fun h' =>
          reroute q (p₁.1 + p₂.1) overflow cur h' p₃.1 >>= fun h' => Pure.pure (h', lvl + 1, x.2)) := by
    rintro ⟨h₂, new⟩ K2
    refine (adds_reroute node q 0 loop cur h₂ p₁.1).bind ?_
    rintro h₃ ⟨K3, -⟩
    refine (adds_reroute node q p₁.1 extracted cur h₃ p₂.1).bind ?_
    rintro h₄ ⟨K4, -⟩
    refine (adds_reroute node q (p₁.1 + p₂.1) overflow cur h₄ p₃.1).bind ?_
    rintro h₅ ⟨K5, -⟩
    exact Yields.pure (((K2.trans K3).trans K4).trans K5)
  unfold extractLayer
  cases last
  · exact (adds_newLayer node q (p₁.1 + p₂.1 + p₃.1) value (lvl + 1) depth cur h₁ _).bind fun x hx => cont x hx.1
  · exact cont (h₁, original) (Adds.refl none h₁)

/-- **`expand_extract`** leaves the ways past the node as they are. -/
theorem adds_expandExtract (cfg : Config) (h : Heap ℚ) (node : Addr) (c : ℚ) :
    Yields (fun x => Adds (some node) h x.1) (expandExtract cfg h node c) := by
  unfold expandExtract
  refine Yields.any fun g => ?_
  by_cases hg0 : g = 0
  · simp only [hg0, if_true]
    intro y hy
    cases hy
  simp only [hg0, if_false]
  refine Yields.any fun x => ?_
  obtain ⟨n, m, l, ns⟩ := x
  have cont : ∀ (over : Bool) (x : Heap ℚ × Addr), Adds none h x.1 →
      Yields (fun y : Heap ℚ × (Int × Int) => Adds (some node) h y.1) (do
        let isRoot := decide ((x.1.get x.2).parents = [])
        let nExtract : Int := ⌊c / ((h.get node).value / ((h.get node).value.num / (g : Int)).toNat)⌋
        let p ← loopingBranches n m l (branchesCount n m)
        let q ← loopingBranches n m nExtract (branchesCount n m)
        let r ← loopingBranches n m (((h.get node).value.num / (g : Int)).toNat - nExtract) (branchesCount n m)
        let values := layerValues ((h.get node).value + l * g) n m
        let lvl ← levelSucc (x.1.get node)
        let c0 ← item (x.1.get node).children 0
        let c1 ← item (x.1.get node).children 1
        let extracted := if (x.1.get c0).value = c then c0 else c1
        let overflow := if (x.1.get c0).value = c then c1 else c0
        let h := x.1.modify extracted fun o => { o with parents := [] }
        let h := h.modify overflow fun o => { o with parents := [] }
        let original := (h.get node).children
        let h := h.modify node fun o => { o with children := [] }
        let s ← (List.range n).foldlM (fun s i =>
          extractLayer 2 (2 ^ (i + 1)) (p (i + 1, 0)) (q (i + 1, 0)) (r (i + 1, 0)) (values.getD (i + 1) 0) (n + m) x.2 extracted overflow
            (decide (i + 1 = n ∧ m = 0)) original s) (h, lvl, [node])
        let s ← (List.range m).foldlM (fun s i =>
          extractLayer 3 (2 ^ n * 3 ^ (i + 1)) (p (n, i + 1)) (q (n, i + 1)) (r (n, i + 1)) (values.getD (n + i + 1) 0) (n + m) x.2 extracted
            overflow (decide (i + 1 = m)) original s) s
        let h := if over then joinLoop s.1 node x.2 else s.1
        let h := tagMerge h x.2 (if isRoot then 2 else 3)
        let h := tagMerge h extracted 3
        let h := tagMerge h overflow 3
        return (h, (lvl, n + m))) := by
    rintro over ⟨h₁, loop⟩ K1
    refine Yields.any fun p => ?_
    refine Yields.any fun q => ?_
    refine Yields.any fun r => ?_
    refine Yields.any fun lvl => ?_
    refine Yields.any fun c0 => ?_
    refine Yields.any fun c1 => ?_
    simp only
    generalize (if (h₁.get c0).value = c then c0 else c1) = extracted
    generalize (if (h₁.get c0).value = c then c1 else c0) = overflow
    have Ka := adds_parents (some node) h₁ extracted fun _ => []
    have Kb := adds_parents (some node) (h₁.modify extracted fun o => { o with parents := [] }) overflow fun _ => []
    have Kc : Adds (some node) ((h₁.modify extracted fun o => { o with parents := [] }).modify overflow fun o => { o with parents := [] })
      (((h₁.modify extracted fun o => { o with parents := [] }).modify overflow fun o => { o with parents := [] }).modify node
        fun o => { o with children := [] }) := Adds.modify rfl fun w => absurd rfl w
    have K2 := (Ka.trans Kb).trans Kc
    generalize (((h₁.modify extracted fun o => { o with parents := [] }).modify overflow fun o => { o with parents := [] }).get
        node).children = original
    generalize (((h₁.modify extracted fun o => { o with parents := [] }).modify overflow fun o => { o with parents := [] }).modify node
        fun o => { o with children := [] }) = hB at K2 ⊢
    refine (yields_foldlM (fun i s => Adds none hB s.1) n _ (Adds.refl none hB) ?_).bind ?_
    · intro i hi s S s' hs'
      exact S.trans (adds_extractLayer node _ _ _ _ _ _ _ loop _ _ _ _ s s' hs')
    intro s S
    refine (yields_foldlM (fun i s => Adds none hB s.1) m _ S ?_).bind ?_
    · intro i hi s S s' hs'
      exact S.trans (adds_extractLayer node _ _ _ _ _ _ _ loop _ _ _ _ s s' hs')
    intro s S
    have K4 : Adds none s.1 (tagMerge (tagMerge (tagMerge (if over then joinLoop s.1 node loop else s.1) loop
        (if decide ((h₁.get loop).parents = []) = true then 2 else 3)) extracted 3) overflow 3) := by
      refine Adds.trans (Adds.trans ?_ (adds_tagMerge none _ _ _)) (adds_tagMerge none _ _ _)
      cases over
      · exact adds_tagMerge none _ _ _
      · exact (adds_joinLoop _ _ _).1.trans (adds_tagMerge none _ _ _)
    exact Yields.pure (((K1.weaken _).trans K2).trans ((S.trans K4).weaken _))
  by_cases hover : (h.get node).value + l * g > (cfg.limit : ℚ)
  · simp only [hover, decide_true, if_true]
    exact (adds_newNode h _ [] none).bind fun x w => cont true x w.1
  · simp only [hover, decide_false]
    exact cont false (h, node) (Adds.refl none h)

/-- **`expand_split`** too. -/
theorem adds_expandSplit (h : Heap ℚ) (node : Addr) (c : ℚ) : Yields (fun x => Adds (some node) h x.1) (expandSplit h node c) := by
  unfold expandSplit
  refine Yields.any fun lvl => ?_
  refine (adds_newNode h (c / 3 * 2) [] (some lvl)).bind ?_
  rintro ⟨h₂, new⟩ ⟨K2, -, -, -, hnew⟩
  have hnew : (h₂.get new).children = [] := hnew
  have key : ∀ (cs : List Addr) (h : Heap ℚ), Adds (some node) h (cs.foldl (fun h x => if (h.get x).value = c / 3 then
        (h.modify new fun o => { o with children := o.children ++ [x] }).modify x fun o => { o with parents := [new] }
        else h.modify node fun o => { o with children := o.children ++ [x] }) h) := by
    intro cs
    induction cs with
    | nil => exact fun h => Adds.refl _ h
    | cons x cs ih =>
      intro h
      rw [List.foldl_cons]
      refine Adds.trans ?_ (ih _)
      split
      · exact (adds_addChild _ _ _ _).trans (adds_parents _ _ _ _)
      · exact adds_addChild _ _ _ _
  have K3 : Adds (some node) h₂ (h₂.modify new fun o => { o with levelsToAdd := -1, children := [new], parents := [node] }) :=
    Adds.modify rfl fun _ x hx => by rw [hnew] at hx; simp at hx
  have K4 : Adds (some node) (h₂.modify new fun o => { o with levelsToAdd := -1, children := [new], parents := [node] })
      ((h₂.modify new fun o => { o with levelsToAdd := -1, children := [new], parents := [node] }).modify node fun o => { o with children := [new] }) :=
    Adds.modify rfl fun w => absurd rfl w
  exact Yields.pure ((((K2.weaken _).trans K3).trans K4).trans (key _ _))

/-- What held of ways still does: nodes at which only merges and divisions are pending are such still, and where there was a belt there is a way. -/
structure Trail (h h' : Heap ℚ) : Prop where
  next : h.next ≤ h'.next
  meek : ∀ a, Meek h a → Meek h' a
  way : ∀ a b, Hop h a b → TransGen (Hop h') a b

theorem Trail.refl (h : Heap ℚ) : Trail h h := ⟨le_rfl, fun _ w => w, fun _ _ w => .single w⟩

theorem Trail.ways {h h' : Heap ℚ} (T : Trail h h') {a b : Addr} (w : TransGen (Hop h) a b) : TransGen (Hop h') a b := by
  induction w with
  | single w => exact T.way _ _ w
  | tail _ w ih => exact ih.trans (T.way _ _ w)

theorem Trail.trans {h₁ h₂ h₃ : Heap ℚ} (A : Trail h₁ h₂) (B : Trail h₂ h₃) : Trail h₁ h₃ :=
  ⟨A.next.trans B.next, fun a w => B.meek a (A.meek a w), fun a b w => B.ways (A.way a b w)⟩

theorem Trail.circling {h h' : Heap ℚ} (T : Trail h h') {a : Addr} (w : Circling h a) : Circling h' a := by
  obtain ⟨c, h1, h2⟩ := w
  refine ⟨c, ?_, T.ways h2⟩
  rcases reflTransGen_iff_eq_or_transGen.1 h1 with rfl | h1
  · exact .refl
  · exact (T.ways h1).to_reflTransGen

theorem Adds.trail {h h' : Heap ℚ} (A : Adds none h h') : Trail h h' := ⟨A.next, fun _ => A.meek, fun _ _ w => .single (A.hop w)⟩

theorem adds_mergeLink (N : Option Addr) (h : Heap ℚ) (m a : Addr) : Adds N h (mergeLink m h a) := by
  unfold mergeLink
  exact (adds_link N h a m).trans (Adds.modify rfl fun _ _ hx => hx)

theorem adds_merge3 (h : Heap ℚ) (a b c : Addr) :
    Yields (fun x => Adds none h x.1 ∧ h.next ≤ x.2 ∧ Meek x.1 x.2 ∧ ∀ y ∈ [a, b, c], x.2 ∈ (x.1.get y).children)
      (merge (fun (v : ℚ) k => v / k) h [a, b, c]) := by
  unfold merge
  refine Yields.any fun lvl => ?_
  refine (adds_newNode h _ [] (some lvl)).bind ?_
  rintro ⟨h₂, m⟩ ⟨K2, em, n2, e2, -⟩
  have em : m = h.next := em
  have n2 : h₂.next = h.next + 1 := n2
  have e2 : (h₂.get m).expands = [] := e2
  simp only [List.length_cons, List.length_nil, Nat.reduceAdd, Nat.reduceLeDiff, gt_iff_lt, Nat.lt_irrefl, if_false, List.foldl_cons,
    List.foldl_nil]
  have K := ((adds_mergeLink none h₂ m a).trans (adds_mergeLink none _ m b)).trans (adds_mergeLink none _ m c)
  refine Yields.pure ⟨K2.trans K, by show h.next ≤ m; omega, K.meek ⟨by omega, by rw [e2]; simp⟩, ?_⟩
  intro y hy
  simp only [List.mem_cons, List.not_mem_nil, or_false] at hy
  rcases hy with rfl | rfl | rfl
  · exact mergeLink_more _ _ _ _ _ (mergeLink_more _ _ _ _ _ (mergeLink_child _ _ _))
  · exact mergeLink_more _ _ _ _ _ (mergeLink_child _ _ _)
  · exact mergeLink_child _ _ _

theorem trail_mergeRounds (node : Addr) (t : Nat) : ∀ (fuel : Nat) (todo : List Addr) (h : Heap ℚ), node < h.next →
    Yields (fun x => Trail h x.1 ∧ ∀ a, a < h.next → ∀ e ∈ (h.get a).expands, e ∈ (x.1.get a).expands) (mergeRounds node t fuel h todo) := by
  intro fuel
  induction fuel with
  | zero =>
    intro todo h hn
    unfold mergeRounds
    split
    · exact Yields.pure ⟨Trail.refl h, fun _ _ _ he => he⟩
    · intro x hx
      cases hx
  | succ fuel ih =>
    intro todo h hn
    rw [mergeRounds.eq_def]
    by_cases hle : todo.length ≤ t
    · simp only [hle, if_true]
      exact Yields.pure ⟨Trail.refl h, fun _ _ _ he => he⟩
    · simp only [hle, if_false]
      clear hle
      match todo with
      | a :: b :: c :: rest =>
        refine (adds_merge3 h a b c).bind ?_
        rintro ⟨h₂, m⟩ ⟨K2, lm, em, cm⟩
        have lm : h.next ≤ m := lm
        have em : Meek h₂ m := em
        have cm : ∀ y ∈ [a, b, c], m ∈ (h₂.get y).children := cm
        have hne : m ≠ node := by omega
        obtain ⟨f1, f2⟩ := filter_fold node [a, b, c] h₂
        simp only
        generalize [a, b, c].foldl (fun h x => h.modify x fun o => { o with children := o.children.filter fun y => decide (y ≠ node) }) h₂ = h₃ at f1 f2 ⊢
        generalize (h₃.get node).level = lv
        have ex : ∀ y, ((h₃.modify m fun o => { o with level := lv, children := o.children ++ [node] }).get y).expands = (h₂.get y).expands := by
          intro y
          rw [Heap.get_modify]
          split
          · next e => rw [e]; exact (f2 m).2.2.1
          · exact (f2 y).2.2.1
        have meek : ∀ y, Meek h₂ y → Meek (h₃.modify m fun o => { o with level := lv, children := o.children ++ [node] }) y := fun y w =>
          ⟨by show y < h₃.next; have := w.1; omega, by rw [ex]; exact w.2⟩
        have keepm : ∀ y k, k ∈ (h₃.get y).children →
            k ∈ ((h₃.modify m fun o => { o with level := lv, children := o.children ++ [node] }).get y).children := by
          intro y k hk
          rw [Heap.get_modify]
          split
          · next e => subst e; exact List.mem_append_left _ hk
          · exact hk
        have K4 : Trail h₂ (h₃.modify m fun o => { o with level := lv, children := o.children ++ [node] }) := by
          refine ⟨f1.ge, meek, fun x k ⟨w, hk⟩ => ?_⟩
          by_cases hd : k ≠ node ∨ x ∉ [a, b, c]
          · exact .single ⟨meek x w, keepm x k ((f2 x).2.2.2 k hk hd)⟩
          · push Not at hd
            obtain ⟨rfl, hx⟩ := hd
            refine (TransGen.single ⟨meek x w, keepm x m ((f2 x).2.2.2 m (cm x hx) (.inl hne))⟩).tail ⟨meek m em, ?_⟩
            rw [Heap.get_modify, if_pos rfl]
            simp
        intro x hx
        have n2 : h.next ≤ h₂.next := K2.next
        obtain ⟨T, q⟩ := ih (m :: rest) _ (by show node < h₃.next; omega) x hx
        refine ⟨(K2.trail.trans K4).trans T, fun y hy e he => q y (by show y < h₃.next; omega) e ?_⟩
        rw [ex]
        exact K2.keep y hy e he
      | [] => intro x hx; cases hx
      | [_] => intro x hx; cases hx
      | [_, _] => intro x hx; cases hx

/-- **`expand_merge`**: ways through the node and its parents stay open. -/
theorem trail_expandMerge (h : Heap ℚ) (node : Addr) (hnode : node < h.next) (t : Nat) :
    Yields (fun x => Trail h x.1 ∧ ∀ a, a < h.next → ∀ e ∈ (h.get a).expands, e ∈ (x.1.get a).expands) (expandMerge h node t) := by
  unfold expandMerge
  split
  · exact Yields.pure ⟨Trail.refl h, fun _ _ _ he => he⟩
  · refine (trail_mergeRounds node t _ _ h hnode).bind ?_
    rintro ⟨h₂, todo⟩ ⟨K, q⟩
    have K : Trail h h₂ := K
    have q : ∀ a, a < h.next → ∀ e ∈ (h.get a).expands, e ∈ (h₂.get a).expands := q
    have K2 : Adds none h₂ (h₂.modify node fun o => { o with parents := todo.reverse }) := adds_parents none h₂ node fun _ => todo.reverse
    exact Yields.pure ⟨K.trans K2.trail, fun a ha e he => K2.keep a (by have := K.next; omega) e (q a ha e he)⟩

/-- The division sends part of the flow back. -/
def LoopsBack (d : Nat) : Prop := ∃ n m l k, findNML d = .ok (n, m, l, k) ∧ 0 < l

/-- What `expand` has done so far: ways are open as before; a division that sends something back is pending still, or there is a circle. -/
structure Routes (h : Heap ℚ) (U : Addr → Prop) (h' : Heap ℚ) : Prop where
  evolved : Evolved False 0 h U h'
  trail : Trail h h'
  fate : ∀ a, Meek h a → ∀ d, LoopsBack d → .divide d ∈ (h.get a).expands → .divide d ∈ (h'.get a).expands ∨ Circling h' a

theorem Region.routes {h : Heap ℚ} {U : Addr → Prop} (H : Region h U) : Routes h U h := ⟨H.evolved False, Trail.refl h, fun _ _ _ _ he => .inl he⟩

theorem Routes.trans {h h₁ h₂ : Heap ℚ} {U : Addr → Prop} (hU : ∀ a, U a → a < h.next) (A : Routes h U h₁) (B : Routes h₁ (Within h U h₁) h₂) :
    Routes h U h₂ := by
  refine ⟨A.evolved.trans hU B.evolved, A.trail.trans B.trail, fun a ha d hd he => ?_⟩
  rcases A.fate a ha d hd he with w | w
  · exact B.fate a (A.trail.meek a ha) d hd w
  · exact .inr (B.trail.circling w)

/-- One pending expansion. -/
theorem routes_runExpand (cfg : Config) {h : Heap ℚ} {U : Addr → Prop} (H : Region h U) (node : Addr) (hnode : U node)
    (e : Expand ℚ) (es : List (Expand ℚ)) (he : (h.get node).expands = e :: es) :
    Yields (fun x => Routes h U x.1) (runExpand cfg (h.modify node fun o => { o with expands := es }) node e) := by
  intro x hx
  have E : Evolved False 0 h U x.1 := ((Ends.iff.1 (ends_runExpand (strict := False) cfg H (fun w => w.elim) node hnode e es he)).2 x hx).1
  have hlt := H.inside node hnode
  generalize hg : (h.modify node fun o => { o with expands := es }) = g at hx
  have gn : g.next = h.next := by rw [← hg]; rfl
  have gc : ∀ y, (g.get y).children = (h.get y).children := fun y => by
    rw [← hg, Heap.get_modify]; split
    · next e => rw [e]
    · rfl
  have ge : ∀ y, y ≠ node → (g.get y).expands = (h.get y).expands := fun y hy => by
    rw [← hg, Heap.get_modify, if_neg hy]
  have gn' : (g.get node).expands = es := by
    rw [← hg, Heap.get_modify, if_pos rfl]
  have gmeek : ∀ a, Meek h a → Meek g a := by
    intro a ⟨w1, w2⟩
    refine ⟨by omega, fun y hy => w2 y ?_⟩
    by_cases ea : a = node
    · subst ea
      rw [gn'] at hy
      rw [he]
      exact List.mem_cons_of_mem _ hy
    · rwa [ge a ea] at hy
  have ghop : ∀ a b, Hop h a b → Hop g a b := fun a b ⟨w1, w2⟩ => ⟨gmeek a w1, by rw [gc]; exact w2⟩
  have gtrail : Trail h g := ⟨gn.ge, gmeek, fun a b w => .single (ghop a b w)⟩
  have gfate : (∀ d, e ≠ .divide d) → (∀ a, a < g.next → ∀ y ∈ (g.get a).expands, y ∈ (x.1.get a).expands) →
      ∀ a, Meek h a → ∀ d, LoopsBack d → .divide d ∈ (h.get a).expands → .divide d ∈ (x.1.get a).expands ∨ Circling x.1 a := by
    intro hne q a ha d _ hd
    left
    refine q a (by have := ha.1; omega) _ ?_
    by_cases ea : a = node
    · subst ea
      rw [gn']
      rw [he] at hd
      rcases List.mem_cons.1 hd with w | w
      · exact absurd w.symm (hne d)
      · exact w
    · rw [ge a ea]
      exact hd
  -- what is neither a merge nor a division
  have wild : Adds (some node) g x.1 → ¬ Mild e → (∀ d, e ≠ .divide d) → Routes h U x.1 := by
    intro K hm hd
    refine ⟨E, ⟨by have := K.next; omega, fun a w => K.meek (gmeek a w), fun a b w => ?_⟩, gfate hd K.keep⟩
    · have hne : a ≠ node := by
        rintro rfl
        exact hm (w.1.2 e (by rw [he]; simp))
      exact .single ⟨K.meek (gmeek a w.1), K.kids a (by have := w.1.1; omega) (by simpa using Ne.symm hne) b (by rw [gc]; exact w.2)⟩
  have hlt' : node < g.next := by omega
  cases e with
  | extract c => exact wild (adds_expandExtract cfg g node c x hx) (by simp [Mild]) (by simp)
  | split c => exact wild (adds_expandSplit g node c x hx) (by simp [Mild]) (by simp)
  | merge t =>
    obtain ⟨T, q⟩ := trail_expandMerge g node hlt' t x hx
    exact ⟨E, gtrail.trans T, gfate (by simp) q⟩
  | divide d =>
    obtain ⟨K, w⟩ := adds_expandDivide cfg g node hlt' d x hx
    have hd2 : Meek h node → 2 ≤ d := fun q => by
      rcases q.2 (.divide d) (by rw [he]; simp) with ⟨t, e⟩ | ⟨d', e, h2⟩
      · cases e
      · cases e; exact h2
    refine ⟨E, ⟨by have := K.next; omega, fun a w => K.meek (gmeek a w), fun a b q => ?_⟩, fun a ha d' hl hd => ?_⟩
    · by_cases ea : a = node
      · subst ea
        exact (w (gmeek a q.1) (hd2 q.1)).1 b (by rw [gc]; exact q.2)
      · exact .single ⟨K.meek (gmeek a q.1), K.kids a (by have := q.1.1; omega) (by simpa using Ne.symm ea) b (by rw [gc]; exact q.2)⟩
    · by_cases ea : a = node
      · subst ea
        rw [he] at hd
        rcases List.mem_cons.1 hd with q | q
        · cases q
          obtain ⟨n, m, l, k, e, h0⟩ := hl
          exact .inr ((w (gmeek a ha) (hd2 ha)).2 n m l k e h0)
        · exact .inl (K.keep a hlt' _ (by rw [gn']; exact q))
      · exact .inl (K.keep a (by have := ha.1; omega) _ (by rw [ge a ea]; exact hd))

theorem routes_runExpands (cfg : Config) (node : Addr) : ∀ (fuel : Nat) (h : Heap ℚ) (U : Addr → Prop), Region h U → U node →
    Yields (fun x => Routes h U x.1) (runExpands cfg fuel h node) := by
  intro fuel
  induction fuel with
  | zero =>
    intro h U H hn
    unfold runExpands
    split
    · exact Yields.pure H.routes
    · intro x hx
      cases hx
  | succ fuel ih =>
    intro h U H hn
    unfold runExpands
    split
    · exact Yields.pure H.routes
    · next e es he =>
      refine (routes_runExpand cfg H node hn e es he).bind ?_
      rintro ⟨h₂, u⟩ R2
      refine (ih h₂ _ R2.evolved.region (.inl hn)).bind ?_
      rintro ⟨h₃, us⟩ R3
      exact Yields.pure (R2.trans H.inside R3)

theorem routes_visit (cfg : Config) (F : Nat) (s : Marked ℚ × List (Int × Int)) (a : Addr) {U : Addr → Prop} (H : Region s.1.1 U) (ha : U a) :
    Yields (fun s' => Routes s.1.1 U s'.1.1) (expandVisit cfg F s a) := by
  unfold expandVisit
  refine (routes_runExpands cfg a F s.1.1 U H ha).bind ?_
  rintro ⟨h₂, us⟩ R
  exact Yields.pure R

theorem routes_walk (cfg : Config) (F : Nat) : ∀ (fuel : Nat) (s : Marked ℚ × List (Int × Int)) (U : Addr → Prop)
    (stack : List (Addr × Nat)), Region s.1.1 U → (∀ f ∈ stack, U f.1) →
    Yields (fun s' => Routes s.1.1 U s'.1.1) (expandWalk cfg F fuel s stack) := by
  intro fuel
  induction fuel with
  | zero =>
    intro s U stack H hst
    cases stack with
    | nil => exact Yields.pure H.routes
    | cons f stack => intro x hx; cases hx
  | succ fuel ih =>
    intro s U stack H hst
    cases stack with
    | nil => exact Yields.pure H.routes
    | cons f stack =>
      obtain ⟨a, i⟩ := f
      have ua := hst (a, i) (by simp)
      have hst' : ∀ f ∈ stack, U f.1 := fun f hf => hst f (List.mem_cons_of_mem _ hf)
      have hst1 : ∀ f ∈ (a, i + 1) :: stack, U f.1 := fun f hf => by
        rcases List.mem_cons.1 hf with rfl | hf
        · exact ua
        · exact hst' f hf
      rw [expandWalk, walk]
      split
      · exact ih s U stack H hst'
      · next c hc =>
        split
        · exact ih s U _ H hst1
        · have uc := H.children a ua c (List.mem_of_getElem? hc)
          have v := routes_visit cfg F s c H uc
          split
          · intro x hx
            cases hx
          · next s' e =>
            have R := v s' e
            have := ih s' _ ((c, 0) :: (a, i + 1) :: stack) R.evolved.region fun f hf => by
              rcases List.mem_cons.1 hf with rfl | hf
              · exact .inl uc
              · exact .inl (hst1 f hf)
            intro x hx
            exact R.trans H.inside (this x hx)

/-- **`expand` on all roots.** -/
theorem routes_expandAll (cfg : Config) (fuel : Nat) {h : Heap ℚ} {U : Addr → Prop} (H : Region h U) (roots : List Addr) (hr : ∀ r ∈ roots, U r)
    (us : List (Int × Int)) : Yields (fun x => Routes h U x.1) (expandAll cfg fuel h roots us) := by
  unfold expandAll walkAll
  have key : ∀ (rs : List Addr) (s : Marked ℚ × List (Int × Int)) (U : Addr → Prop), Region s.1.1 U → (∀ r ∈ rs, U r) →
      Yields (fun s' => Routes s.1.1 U s'.1.1)
        (rs.foldlM (fun s a => walkFrom (expandVisit cfg fuel) (fun s a => s.1.kids a) (fun s a => s.1.seen a) fuel s a) s) := by
    intro rs
    induction rs with
    | nil => exact fun s U H _ => Yields.pure H.routes
    | cons r rs ih =>
      intro s U H hrs
      have ur := hrs r (by simp)
      rw [List.foldlM_cons]
      have first : Yields (fun s' => Routes s.1.1 U s'.1.1)
          (walkFrom (expandVisit cfg fuel) (fun s a => s.1.kids a) (fun s a => s.1.seen a) fuel s r) := by
        unfold walkFrom
        split
        · exact Yields.pure H.routes
        · have v := routes_visit cfg fuel s r H ur
          split
          · intro x hx
            cases hx
          · next s' e =>
            have R := v s' e
            intro x hx
            exact R.trans H.inside (routes_walk cfg fuel fuel s' _ [(r, 0)] R.evolved.region (fun f hf => by
              rw [List.mem_singleton.1 hf]
              exact .inl ur) x hx)
      refine first.bind fun s' R => ?_
      intro x hx
      exact R.trans H.inside (ih s' _ R.evolved.region (fun y hy => .inl (hrs y (List.mem_cons_of_mem _ hy))) x hx)
  refine (key roots ((h, []), us) U H hr).bind ?_
  rintro s R
  exact Yields.pure R

/-- What has become of a division that sends something back. -/
def Fated (h h' : Heap ℚ) : Prop :=
  Trail h h' ∧ ∀ a, Meek h a → ∀ d, LoopsBack d → .divide d ∈ (h.get a).expands → .divide d ∈ (h'.get a).expands ∨ Circling h' a

theorem Fated.trans {h₁ h₂ h₃ : Heap ℚ} (A : Fated h₁ h₂) (B : Fated h₂ h₃) : Fated h₁ h₃ := by
  refine ⟨A.1.trans B.1, fun a ha d hd he => ?_⟩
  rcases A.2 a ha d hd he with w | w
  · exact B.2 a (A.1.meek a ha) d hd w
  · exact .inr (B.1.circling w)

/-- Nothing but levels changes. -/
theorem fated_same {h h' : Heap ℚ} (hn : h'.next = h.next) (hc : ∀ a, (h'.get a).children = (h.get a).children)
    (he : ∀ a, (h'.get a).expands = (h.get a).expands) : Fated h h' := by
  have m : ∀ a, Meek h a → Meek h' a := fun a w => ⟨by have := w.1; omega, by rw [he]; exact w.2⟩
  exact ⟨⟨hn.ge, m, fun a b w => .single ⟨m a w.1, by rw [hc]; exact w.2⟩⟩, fun a _ d _ w => .inl (by rw [he]; exact w)⟩

theorem Adds.fated {h h' : Heap ℚ} (A : Adds none h h') : Fated h h' := ⟨A.trail, fun a ha _ _ w => .inl (A.keep a ha.1 _ w)⟩

/-- **`expand_roots`** keeps ways, and makes circles. -/
theorem fated_expandRoots (cfg : Config) {h : Heap ℚ} {U : Addr → Prop} (H : Region h U) (roots : List Addr) (hr : ∀ r ∈ roots, U r) {h' : Heap ℚ}
    (hs : Settles (fun fuel => expandRoots cfg fuel h roots) (.ok h')) : Fated h h' := by
  obtain ⟨F, hF⟩ := hs
  obtain ⟨rl, -, B1, hB1⟩ := minLevel_settles H roots hr
  cases rl with
  | error err =>
    have := hF (max F B1) (le_max_left _ _)
    have h1 := hB1 (max F B1) (le_max_right _ _)
    simp only at this h1
    unfold expandRoots at this
    rw [h1] at this
    cases this
  | ok low =>
    obtain ⟨B, r, q1, q2⟩ := expandAll_ends (strict := False) cfg h U roots [(1, 1 - low)] H False.elim hr
    cases r with
    | error err =>
      have := hF (max F (max B1 B)) (le_max_left _ _)
      have h1 := hB1 (max F (max B1 B)) (le_trans (le_max_left _ _) (le_max_right _ _))
      have h2 := q2 (max F (max B1 B)) (le_trans (le_max_right _ _) (le_max_right _ _))
      simp only at this h1
      unfold expandRoots at this
      rw [h1] at this
      have this : (expandAll cfg (max F (max B1 B)) h roots [(1, 1 - low)] >>= _) = _ := this
      rw [h2] at this
      cases this
    | ok x =>
      obtain ⟨h₁, us⟩ := x
      have E : Evolved False 0 h U h₁ := (Ends.iff.1 q1).2 _ rfl
      obtain ⟨G, hG⟩ : ∃ G, G = max (max F B1) (max B (childFuel h₁ (Within h U h₁))) := ⟨_, rfl⟩
      have this := hF G (by rw [hG]; exact le_trans (le_max_left _ _) (le_max_left _ _))
      have h1 := hB1 G (by rw [hG]; exact le_trans (le_max_right _ _) (le_max_left _ _))
      have h2 := q2 G (by rw [hG]; exact le_trans (le_max_left _ _) (le_max_right _ _))
      have h3 : childFuel h₁ (Within h U h₁) ≤ G := by rw [hG]; exact le_trans (le_max_right _ _) (le_max_right _ _)
      simp only at this h1
      unfold expandRoots at this
      rw [h1] at this
      have this : (expandAll cfg G h roots [(1, 1 - low)] >>= fun x => x.2.foldlM (tagLevels G roots) x.1 >>= applyLevels G roots) = _ := this
      rw [h2] at this
      have this : (us.foldlM (tagLevels G roots) h₁ >>= applyLevels G roots) = .ok h' := this
      have hr' : ∀ r ∈ roots, Within h U h₁ r := fun r hm => .inl (hr r hm)
      have lv := levels_some E.region roots hr' G h3 us this
      have R : Routes h U h₁ := routes_expandAll cfg G H roots hr _ (h₁, us) h2
      obtain ⟨h'', e1, e2, e3⟩ := levels_spec roots hr' G us h₁ E.region lv h3
      rw [this] at e1
      cases e1
      refine Fated.trans ⟨R.trail, R.fate⟩ (fated_same e2.next e2.children fun a => ?_)
      by_cases hra : Reach h₁ roots a
      · rw [(e3 a).1 hra]
        unfold raised
        split <;> rfl
      · rw [(e3 a).2 hra]

/-- **`Tree.save`** too. -/
theorem fated_saveTree (cfg : Config) {h : Heap ℚ} {roots : List Addr} (H : Region h (Reach h roots)) {n : Nat} {x : Heap ℚ × Saved ℚ × Saved ℚ}
    (e : saveTree cfg n h roots = .ok x) : Fated h x.1 := by
  have nodes : ∀ (g : Heap ℚ), Yields (fun y => Relevelled g y.1) (saveNodes n g roots) := by
    intro g
    unfold saveNodes
    cases roots with
    | nil => intro y hy; cases hy
    | cons r rs =>
      simp only
      refine Yields.any fun d => ?_
      refine Yields.any fun w => ?_
      exact Yields.pure (setLevels_relevelled g _ 0)
  have lev : ∀ {g g' : Heap ℚ}, Relevelled g g' → Fated g g' := fun R => fated_same R.next R.children R.expands
  refine (show Yields (fun x => Fated h x.1) (saveTree cfg n h roots) from ?_) x e
  unfold saveTree
  refine (nodes h).bind ?_
  rintro ⟨h₁, before⟩ R1
  have R1 : Relevelled h h₁ := R1
  refine (Yields.self (expandRoots cfg n h₁ roots)).bind ?_
  intro h₂ e2
  have H1 : Region h₁ (Reach h roots) := R1.toSameGraph.region H
  have F2 := fated_expandRoots cfg H1 roots (fun r hr => .root hr) ((expandRoots_stable cfg h₁ roots).settles (by simp) e2)
  refine (nodes h₂).bind ?_
  rintro ⟨h₃, after⟩ R3
  exact Yields.pure (((lev R1).trans F2).trans (lev R3))

theorem adds_attachFold : ∀ (ps : List (Addr × Addr)) (s : Heap ℚ × List (List Addr)), Adds none s.1 (ps.foldl attachOne s).1 ∧
    (∀ l ∈ s.2, l ∈ (ps.foldl attachOne s).2) ∧ ((∀ l ∈ s.2, l ≠ []) → ∀ l ∈ (ps.foldl attachOne s).2, l ≠ []) ∧
    ∀ p ∈ ps, p.1 < s.1.next → p.2 < s.1.next → ∀ b ∈ (s.1.get p.2).children, ∃ l ∈ (ps.foldl attachOne s).2, b ∈ l := by
  have adopts : ∀ (p : Addr) (cs : List Addr) (h : Heap ℚ), Adds none h (cs.foldl (adopt p) h) ∧
      (p < h.next → ∀ c ∈ cs, c ∈ ((cs.foldl (adopt p) h).get p).children) := by
    intro p cs
    induction cs with
    | nil => exact fun h => ⟨Adds.refl _ h, by simp⟩
    | cons c cs ih =>
      intro h
      obtain ⟨K, w⟩ := ih (adopt p h c)
      refine ⟨(adds_adopt none h p c).trans K, fun hp y hy => ?_⟩
      rcases List.mem_cons.1 hy with rfl | hy
      · exact K.kids p hp (by simp) y (adopt_child h p y)
      · exact w hp y hy
  have one : ∀ (p : Addr × Addr) (s : Heap ℚ × List (List Addr)), Adds none s.1 (attachOne s p).1 ∧
      (∀ l ∈ s.2, l ∈ (attachOne s p).2) ∧ ((∀ l ∈ s.2, l ≠ []) → ∀ l ∈ (attachOne s p).2, l ≠ []) ∧
      (p.1 < s.1.next → ∀ b ∈ (s.1.get p.2).children, ∃ l ∈ (attachOne s p).2, b ∈ l) := by
    rintro ⟨src, r⟩ ⟨h, ls⟩
    unfold attachOne
    obtain ⟨K, w⟩ := adopts src (h.get r).children h
    simp only
    generalize (h.get r).children.foldl (adopt src) h = h₂ at K w ⊢
    by_cases hcs : (h₂.get src).children = []
    · rw [if_pos hcs]
      refine ⟨K, fun _ hl => hl, id, fun hp b hb => ?_⟩
      have := w hp b hb
      rw [hcs] at this
      simp at this
    · rw [if_neg hcs]
      refine ⟨?_, fun _ hl => List.mem_append_left _ hl, fun q l hl => ?_, fun hp b hb => ⟨_, List.mem_append_right _ (List.mem_singleton_self _), w hp b hb⟩⟩
      · split
        · exact K.trans (Adds.tag _ _ (.inr ⟨_, rfl, by omega⟩))
        · exact K
      · rcases List.mem_append.1 hl with hl | hl
        · exact q l hl
        · rw [List.mem_singleton.1 hl]; exact hcs
  intro ps
  induction ps with
  | nil => exact fun s => ⟨Adds.refl _ _, fun _ h => h, id, by simp⟩
  | cons p ps ih =>
    intro s
    obtain ⟨a1, a2, a3, a4⟩ := one p s
    obtain ⟨b1, b2, b3, b4⟩ := ih (attachOne s p)
    refine ⟨a1.trans b1, fun l hl => b2 l (a2 l hl), fun q => b3 (a3 q), fun y hy h1 h2 b hb => ?_⟩
    have := a1.next
    rcases List.mem_cons.1 hy with rfl | hy
    · obtain ⟨l, hl, hbl⟩ := a4 h1 b hb
      exact ⟨l, b2 l hl, hbl⟩
    · exact b4 y hy (by omega) (by omega) b (a1.kids y.2 h2 (by simp) b hb)

/-- Attaching adds children. -/
theorem fated_attachLeaves {h : Heap ℚ} {t : TreeObj ℚ} {leaves : List Addr} {n : Nat} {x : Heap ℚ × TreeObj ℚ}
    (e : t.attachLeaves n h leaves = .ok x) : Fated h x.1 := by
  have loop : ∀ (fuel : Nat) (h : Heap ℚ) (t : TreeObj ℚ) (ls : List (List Addr)), Yields (fun x => Fated h x.1) (attachLoop fuel h t ls) := by
    intro fuel
    induction fuel with
    | zero =>
      intro h t ls
      cases ls with
      | nil => exact Yields.pure (Adds.refl none h).fated
      | cons l ls => intro x hx; cases hx
    | succ fuel ih =>
      intro h t ls
      cases ls with
      | nil => exact Yields.pure (Adds.refl none h).fated
      | cons l ls =>
        unfold attachLoop
        have add : Yields (fun x => Fated h x.1) (t.add h l 0) := by
          unfold TreeObj.add
          split
          · intro x hx; cases hx
          · split
            · intro x hx; cases hx
            · have := setLevels_relevelled h
              exact Yields.pure (fated_same (this _ _).next (this _ _).children (this _ _).expands)
        cases ha : t.add h l 0 with
        | error er => intro x hx; cases hx
        | ok y =>
          intro x hx
          exact (add y ha).trans (ih _ _ _ x hx)
  unfold TreeObj.attachLeaves at e
  split at e
  · cases e
  split at e
  · cases e
  exact (adds_attachFold _ (h, [])).1.fated.trans (loop _ _ _ _ x e)

/-- The loop that adds the levels below the sources does not end if it runs into nodes each of which has a child among them. -/
theorem attachLoop_endless (C : Addr → Prop) : ∀ (fuel : Nat) (h : Heap ℚ) (t : TreeObj ℚ) (levels : List (List Addr)),
    (∀ a, C a → ∃ b ∈ (h.get a).children, C b) → t.levels ≠ [] → (∀ l ∈ levels, l ≠ []) → (∃ l ∈ levels, ∃ a ∈ l, C a) →
    attachLoop fuel h t levels = .error .diverge := by
  intro fuel
  induction fuel with
  | zero =>
    intro h t levels _ _ _ hex
    cases levels with
    | nil => obtain ⟨l, hl, -⟩ := hex; simp at hl
    | cons l ls => rfl
  | succ fuel ih =>
    intro h t levels hC ht hne hex
    cases levels with
    | nil => obtain ⟨l, hl, -⟩ := hex; simp at hl
    | cons l ls =>
      obtain ⟨h', t', e, ht', S⟩ := add_ok h t (hne l (by simp)) ht 0
      unfold attachLoop
      rw [e]
      simp only
      refine ih h' t' _ (fun a ha => by rw [S.children]; exact hC a ha) ht' ?_ ?_
      · intro l' hl'
        rcases List.mem_append.1 hl' with hl' | hl'
        · exact hne l' (List.mem_cons_of_mem _ hl')
        · exact of_decide_eq_true (List.mem_filter.1 hl').2
      · obtain ⟨l', hl', a, ha, haC⟩ := hex
        rcases List.mem_cons.1 hl' with rfl | hl'
        · obtain ⟨b, hb, hbC⟩ := hC a haC
          rw [← S.children] at hb
          refine ⟨(h'.get a).children, List.mem_append_right _ (List.mem_filter.2 ⟨List.mem_map_of_mem ha, ?_⟩), b, hb, hbC⟩
          exact decide_eq_true (List.ne_nil_of_mem hb)
        · exact ⟨l', List.mem_append_left _ hl', a, ha, haC⟩

/-- **Attaching** does not end if there is a way from one of the leaves into a circle. -/
theorem attachLeaves_endless {h : Heap ℚ} {t : TreeObj ℚ} {leaves : List Addr} (h1 : leaves.length = t.nSources) (h2 : t.nSources ≤ t.sources.length)
    (h3 : t.levels ≠ []) (h4 : ∀ a ∈ t.sources, a < h.next) {r x : Addr} (hr : r ∈ leaves) (hx : TransGen (Hop h) r x) (hc : Circling h x) (fuel : Nat) :
    t.attachLeaves fuel h leaves = .error .diverge := by
  unfold TreeObj.attachLeaves
  rw [if_neg (by simpa using h1), if_neg (by omega)]
  obtain ⟨K, -, a3, a4⟩ := adds_attachFold ((t.sources.take t.nSources).zip leaves) (h, [])
  have hlen : (t.sources.take t.nSources).length = leaves.length := by rw [List.length_take]; omega
  obtain ⟨src, hp⟩ : ∃ src, (src, r) ∈ (t.sources.take t.nSources).zip leaves := by
    obtain ⟨i, hi, rfl⟩ := List.getElem_of_mem hr
    refine ⟨(t.sources.take t.nSources)[i]'(by omega), ?_⟩
    rw [List.mem_iff_getElem]
    exact ⟨i, by rw [List.length_zip]; omega, by simp⟩
  obtain ⟨c, w1, w2⟩ := hc
  obtain ⟨b, q1, q2⟩ := TransGen.head'_iff.1 hx
  obtain ⟨l, hl, hbl⟩ := a4 (src, r) hp (h4 src (List.mem_of_mem_take (List.of_mem_zip hp).1)) q1.1.1 b q1.2
  refine attachLoop_endless (fun a => TransGen (Hop (((t.sources.take t.nSources).zip leaves).foldl attachOne (h, [])).1) a c) fuel _ t _ ?_ h3
    (a3 (by simp)) ⟨l, hl, b, hbl, ?_⟩
  · intro a ha
    obtain ⟨b, v1, v2⟩ := TransGen.head'_iff.1 ha
    refine ⟨b, v1.2, ?_⟩
    exact TransGen.trans_right v2 (K.way w2)
  · exact K.way (TransGen.trans_right (q2.trans w1) w2)

end Satis.Graph
