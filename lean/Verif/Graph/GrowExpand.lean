import Verif.Graph.Grow
import Verif.Cost.Unique
import Verif.Cost.Looping
/-!
# The expansions stay inside of their part of the heap and end
-/

namespace Satis.Graph
open Satis Satis.Cost

/-- The call ends; if it returns, then with something that meets `P`. -/
def Ends {α : Type} (P : α → Prop) : Py α → Prop
  | .ok x => P x
  | .error e => e ≠ .diverge

theorem Ends.bind {α β : Type} {P : α → Prop} {Q : β → Prop} {r : Py α} {f : α → Py β} (hr : Ends P r) (hf : ∀ x, P x → Ends Q (f x)) :
    Ends Q (r >>= f) := by
  cases r with
  | error e => exact hr
  | ok x => exact hf x hr

theorem Ends.mono {α : Type} {P Q : α → Prop} {r : Py α} (hr : Ends P r) (hf : ∀ x, P x → Q x) : Ends Q r := by
  cases r with
  | error e => exact hr
  | ok x => exact hf x hr

theorem Ends.map {α β : Type} {P : α → Prop} {Q : β → Prop} {r : Py α} {f : α → β} (hr : Ends P r) (hf : ∀ x, P x → Q (f x)) :
    Ends Q (r.map f) := by
  cases r with
  | error e => exact hr
  | ok x => exact hf x hr

theorem Ends.iff {α : Type} {P : α → Prop} {r : Py α} : Ends P r ↔ r ≠ .error .diverge ∧ ∀ x, r = .ok x → P x := by
  cases r with
  | error e => simp [Ends]
  | ok x => simp [Ends]

theorem Ends.self {α : Type} {r : Py α} (hr : Ends (fun _ => True) r) : Ends (fun x => r = .ok x) r := by
  cases r with
  | error e => exact hr
  | ok x => rfl

theorem ends_item (l : List Addr) (i : Nat) : Ends (fun a => a ∈ l) (item l i) := by
  unfold item
  cases h : l[i]? with
  | none => simp [Ends]
  | some a => exact List.mem_of_getElem? h

theorem ends_levelSucc (o : NodeObj ℚ) : Ends (fun l => o.level = some (l - 1)) (levelSucc o) := by
  unfold levelSucc
  cases h : o.level with
  | none => simp [Ends]
  | some a => simp [Ends]

section
variable {strict : Prop} {k : Nat} {h : Heap ℚ} {U : Addr → Prop} {h₁ : Heap ℚ}

theorem ends_newNode (G : Evolved strict k h U h₁) (hU : ∀ a, U a → a < h.next) (v : ℚ) (p : List ℚ) {l : Option Int} (hl : strict → l ≠ none) :
    Ends (fun x => Evolved strict k h U x.1 ∧ x.1.next = h₁.next + 1 ∧ Within h U x.1 x.2 ∧ h.next ≤ x.2 ∧ ¬ U x.2 ∧
      ∀ a, Within h U h₁ a → Within h U x.1 a) (newNode h₁ v p none l) := by
  rw [Ends.iff]
  constructor
  · unfold newNode
    split <;> simp
  · rintro ⟨h₂, a⟩ hn
    obtain ⟨G1, e1, e2, e3, e4, e5⟩ := G.newNode hU hl hn
    exact ⟨G1, e2, e3, e4, e5, fun a ha => ha.mono (show h₁.next ≤ h₂.next by omega)⟩

theorem ends_newLayer (q off : Nat) (value : ℚ) (lvl depth : Int) (cur : List Addr) (G : Evolved strict k h U h₁)
    (hU : ∀ a, U a → a < h.next) (hcur : ∀ a ∈ cur, Within h U h₁ a) : ∀ j, Ends (fun x => Evolved strict k h U x.1 ∧
      (∀ a ∈ x.2, Within h U x.1 a) ∧ h₁.next ≤ x.1.next) (newLayer q off value lvl depth cur h₁ j) := by
  intro j
  induction j with
  | zero => exact ⟨G, by simp, le_rfl⟩
  | succ j ih =>
    rw [newLayer]
    refine ih.bind ?_
    rintro ⟨h₂, as⟩ ⟨G2, h2, n2⟩
    refine (ends_newNode G2 hU value [] (l := some lvl) (fun _ => by simp)).bind ?_
    rintro ⟨h₃, a⟩ ⟨G3, n3, w3, -, -, m3⟩
    have n3 : h₃.next = h₂.next + 1 := n3
    have n2 : h₁.next ≤ h₂.next := n2
    have G4 : Evolved strict k h U (h₃.modify a fun o => { o with levelsToAdd := -depth }) :=
      G3.modify w3 (fun _ => rfl) (fun _ => rfl) (fun _ => rfl) (fun _ => rfl) (G3.region.children a w3) (G3.region.parents a w3)
    refine (ends_item cur _).bind ?_
    intro p hp
    have wp : Within h U h₃ p := m3 p ((hcur p hp).mono n2)
    have G5 : Evolved strict k h U ((h₃.modify a fun o => { o with levelsToAdd := -depth }).modify p
        fun o => { o with children := o.children ++ [a] }) :=
      G4.modify (a := p) wp (fun _ => rfl) (fun _ => rfl) (fun _ => rfl) (fun _ => rfl) (fun x hx => by
        rcases List.mem_append.1 hx with hx | hx
        · exact G4.region.children p wp x hx
        · rw [List.mem_singleton] at hx
          exact hx ▸ w3) (G4.region.parents p wp)
    refine ⟨G5.modify (a := a) (f := fun o => { o with parents := [p] }) w3 (fun _ => rfl) (fun _ => rfl) (fun _ => rfl) (fun _ => rfl) (G5.region.children a w3) (fun x hx => ?_), ?_, ?_⟩
    · rw [List.mem_singleton] at hx
      exact hx ▸ wp
    · intro x hx
      rcases List.mem_append.1 hx with hx | hx
      · exact m3 x (h2 x hx)
      · rw [List.mem_singleton] at hx
        exact hx ▸ w3
    · show h₁.next ≤ h₃.next
      omega

theorem ends_hangChildren (q off : Nat) (cur : List Addr) : ∀ (cs : List Addr) (h₁ : Heap ℚ) (j : Nat), Evolved strict k h U h₁ →
    (∀ a ∈ cur, Within h U h₁ a) → (∀ a ∈ cs, Within h U h₁ a) →
    Ends (fun h₂ => Evolved strict k h U h₂ ∧ h₂.next = h₁.next) (hangChildren q off cur h₁ j cs) := by
  intro cs
  induction cs with
  | nil => exact fun h₁ j G _ _ => ⟨G, rfl⟩
  | cons c cs ih =>
    intro h₁ j G hcur hcs
    rw [hangChildren]
    refine (ends_item cur _).bind fun p hp => ?_
    exact ih (adopt p h₁ c) (j + 1) (G.adopt (hcur p hp) (hcs c (by simp))) hcur (fun a ha => hcs a (List.mem_cons_of_mem _ ha))

theorem ends_reroute (q off : Nat) (target : Addr) (cur : List Addr) (G : Evolved strict k h U h₁) (hcur : ∀ a ∈ cur, Within h U h₁ a)
    (ht : Within h U h₁ target) : ∀ j, Ends (fun h₂ => Evolved strict k h U h₂ ∧ h₂.next = h₁.next) (reroute q off target cur h₁ j) := by
  intro j
  induction j with
  | zero => exact ⟨G, rfl⟩
  | succ j ih =>
    rw [reroute]
    refine ih.bind ?_
    rintro h₂ ⟨G2, e2⟩
    refine (ends_item cur _).bind fun p hp => ?_
    exact ⟨G2.link ((hcur p hp).mono e2.ge) (ht.mono e2.ge), e2⟩

/-- What holds of the state of the loops over the depths. -/
def LayerOK (strict : Prop) (k : Nat) (h : Heap ℚ) (U : Addr → Prop) (s : Heap ℚ × Int × List Addr) : Prop :=
  Evolved strict k h U s.1 ∧ ∀ a ∈ s.2.2, Within h U s.1 a

theorem ends_divideLayer (q width : Nat) (plan : Nat × Nat) (value : ℚ) (depth : Int) (target : Addr) (last : Bool) (original : List Addr)
    (hU : ∀ a, U a → a < h.next) (s : Heap ℚ × Int × List Addr) (hs : LayerOK strict k h U s) (ht : Within h U s.1 target)
    (ho : ∀ a ∈ original, Within h U s.1 a) : Ends (fun s' => LayerOK strict k h U s' ∧ s.1.next ≤ s'.1.next)
      (divideLayer q width plan value depth target last original s) := by
  obtain ⟨h₁, lvl, cur⟩ := s
  obtain ⟨G, hcur⟩ := hs
  have cont : ∀ x : Heap ℚ × List Addr, (Evolved strict k h U x.1 ∧ (∀ a ∈ x.2, Within h U x.1 a) ∧ h₁.next ≤ x.1.next) →
      Ends (fun s' => LayerOK strict k h U s' ∧ h₁.next ≤ s'.1.next)
        (reroute q 0 target cur x.1 plan.1 >>= fun h' => pure (h', lvl + 1, x.2)) := by
    rintro ⟨h₂, new⟩ ⟨G2, w2, n2⟩
    refine (ends_reroute q 0 target cur G2 (fun a ha => (hcur a ha).mono n2) (ht.mono n2) plan.1).bind ?_
    rintro h₃ ⟨G3, e3⟩
    exact ⟨⟨G3, fun a ha => (w2 a ha).mono e3.ge⟩, n2.trans e3.ge⟩
  unfold divideLayer
  cases last
  · exact (ends_newLayer q plan.1 value (lvl + 1) depth cur G hU hcur _).bind cont
  · refine Ends.bind ((ends_hangChildren q plan.1 cur original h₁ 0 G hcur ho).map (Q := fun x : Heap ℚ × List Addr =>
      Evolved strict k h U x.1 ∧ (∀ a ∈ x.2, Within h U x.1 a) ∧ h₁.next ≤ x.1.next) ?_) cont
    rintro h₂ ⟨G2, e2⟩
    exact ⟨G2, fun a ha => (ho a ha).mono e2.ge, e2.ge⟩

theorem ends_extractLayer (q width : Nat) (p₁ p₂ p₃ : Nat × Nat) (value : ℚ) (depth : Int) (loop extracted overflow : Addr) (last : Bool)
    (original : List Addr) (hU : ∀ a, U a → a < h.next) (s : Heap ℚ × Int × List Addr) (hs : LayerOK strict k h U s)
    (h₀₁ : Within h U s.1 loop) (h₀₂ : Within h U s.1 extracted) (h₀₃ : Within h U s.1 overflow)
    (ho : ∀ a ∈ original, Within h U s.1 a) : Ends (fun s' => LayerOK strict k h U s' ∧ s.1.next ≤ s'.1.next)
      (extractLayer q width p₁ p₂ p₃ value depth loop extracted overflow last original s) := by
  obtain ⟨h₁, lvl, cur⟩ := s
  obtain ⟨G, hcur⟩ := hs
  have cont : ∀ x : Heap ℚ × List Addr, (Evolved strict k h U x.1 ∧ (∀ a ∈ x.2, Within h U x.1 a) ∧ h₁.next ≤ x.1.next) →
      Ends (fun s' => LayerOK strict k h U s' ∧ h₁.next ≤ s'.1.next)
        (reroute q 0 loop cur x.1 p₁.1 >>= fun h' => reroute q p₁.1 extracted cur h' p₂.1 >>= fun h' =>
          reroute q (p₁.1 + p₂.1) overflow cur h' p₃.1 >>= fun h' => pure (h', lvl + 1, x.2)) := by
    rintro ⟨h₂, new⟩ ⟨G2, w2, n2⟩
    refine (ends_reroute q 0 loop cur G2 (fun a ha => (hcur a ha).mono n2) (h₀₁.mono n2) p₁.1).bind ?_
    rintro h₃ ⟨G3, e3⟩
    have n3 := n2.trans e3.ge
    refine (ends_reroute q p₁.1 extracted cur G3 (fun a ha => (hcur a ha).mono n3) (h₀₂.mono n3) p₂.1).bind ?_
    rintro h₄ ⟨G4, e4⟩
    have n4 := n3.trans e4.ge
    refine (ends_reroute q (p₁.1 + p₂.1) overflow cur G4 (fun a ha => (hcur a ha).mono n4) (h₀₃.mono n4) p₃.1).bind ?_
    rintro h₅ ⟨G5, e5⟩
    exact ⟨⟨G5, fun a ha => (w2 a ha).mono ((e3.ge.trans e4.ge).trans e5.ge)⟩, n4.trans e5.ge⟩
  unfold extractLayer
  cases last
  · exact (ends_newLayer q (p₁.1 + p₂.1 + p₃.1) value (lvl + 1) depth cur G hU hcur _).bind cont
  · exact cont (h₁, original) ⟨G, ho, le_rfl⟩

theorem ends_foldlM {α β : Type} {f : β → α → Py β} (P : β → Prop) : ∀ (l : List α) (s : β), P s →
    (∀ s x, P s → Ends P (f s x)) → Ends P (l.foldlM f s) := by
  intro l
  induction l with
  | nil => exact fun s hs _ => hs
  | cons x l ih =>
    intro s hs hf
    rw [List.foldlM_cons]
    exact (hf s x hs).bind fun s' hs' => ih s' hs' hf

theorem evolved_joinLoop (G : Evolved strict k h U h₁) {node loop : Addr} (hn : Within h U h₁ node) (hl : Within h U h₁ loop) :
    Evolved strict k h U (joinLoop h₁ node loop) := by
  unfold joinLoop
  have : ∀ (cs : List Addr) (h₁ : Heap ℚ), Evolved strict k h U h₁ → (∀ c ∈ cs, Within h U h₁ c) → Within h U h₁ loop →
      Evolved strict k h U (cs.foldl (fun h c => link h loop c) h₁) := by
    intro cs
    induction cs with
    | nil => exact fun _ G _ _ => G
    | cons c cs ih =>
      intro h₁ G hcs hl
      exact ih _ (G.link hl (hcs c (by simp))) (fun x hx => hcs x (List.mem_cons_of_mem _ hx)) hl
  exact this _ _ G (G.region.children node hn) hl

theorem joinLoop_next (h : Heap ℚ) (node loop : Addr) : (joinLoop h node loop).next = h.next := by
  unfold joinLoop
  have : ∀ (cs : List Addr) (h₁ : Heap ℚ), (cs.foldl (fun h c => link h loop c) h₁).next = h₁.next := by
    intro cs
    induction cs with
    | nil => exact fun _ => rfl
    | cons c cs ih => exact fun h₁ => ih _
  exact this _ _

theorem evolved_tagMerge (G : Evolved strict k h U h₁) {a : Addr} (ha : Within h U h₁ a) (t : Nat) :
    Evolved strict (k + 1) h U (tagMerge h₁ a t) := by
  unfold tagMerge
  split
  · exact G.tag ha t
  · exact G.weaken (by omega)

theorem loopingBranches_ends (n m : Nat) (l : Int) : Ends (fun _ => True) (loopingBranches n m l (branchesCount n m)) := by
  rcases lt_or_ge l 0 with hl | hl
  · unfold loopingBranches
    obtain ⟨j, hj⟩ : ∃ j, l.natAbs = j + 1 := ⟨l.natAbs - 1, by omega⟩
    have hd : ∀ (bs : List Nat) (cn cm : Nat), descend n l bs cn cm = none := by
      intro bs
      induction bs with
      | nil => exact fun _ _ => rfl
      | cons b bs ih =>
        intro cn cm
        rw [descend, if_pos (by omega)]
        split
        · exact ih _ _
        · exact ih _ _
    rw [hj, planLoop, if_neg (by omega), hd]
    simp [Ends]
  · obtain ⟨i, rfl⟩ := Int.eq_ofNat_of_zero_le hl
    obtain ⟨p, hp, -⟩ := loopingBranches_eq n m i
    rw [hp]
    trivial

theorem findNML_ends (d : Nat) : Ends (fun _ => True) (findNML d) := by
  by_cases hd : d = 0
  · rw [findNML, if_pos hd]
    simp [Ends]
  · obtain ⟨n, m, e, -⟩ := findNML_best d hd
    rw [e]
    trivial

/-- The flow through the node with the looped part added, as `expand_divide` computes it. -/
def divideTotal (v : ℚ) (d : Nat) : Py ℚ := do
  let (_, _, l, _) ← findNML d
  return v + (l * v) / d

/-- **`expand_divide`** works inside of the part of the heap its node is in. -/
theorem ends_expandDivide (cfg : Config) (H : Region h U) (node : Addr) (hnode : U node) (d : Nat)
    (hs : strict → ∀ x, divideTotal (h.get node).value d = .ok x → x ≤ (cfg.limit : ℚ)) :
    Ends (fun x => Evolved strict 1 h U x.1) (expandDivide cfg h node d) := by
  have hU := H.inside
  unfold expandDivide
  cases hf : findNML d with
  | error e =>
    have := findNML_ends d
    rw [hf] at this
    exact this
  | ok r =>
    obtain ⟨n, m, l, ns⟩ := r
    have G0 := H.evolved strict
    have hs' : strict → (h.get node).value + (l * (h.get node).value) / d ≤ (cfg.limit : ℚ) := fun x => hs x _ (by
      unfold divideTotal
      rw [hf]
      rfl)
    -- everything after the choice of the loop node
    have cont : ∀ (over : Bool) (x : Heap ℚ × Addr), (Evolved strict 0 h U x.1 ∧ Within h U x.1 x.2) →
        Ends (fun y : Heap ℚ × (Int × Int) => Evolved strict 1 h U y.1) (do
          let isRoot := decide ((x.1.get x.2).parents = [])
          let plan ← loopingBranches n m l (branchesCount n m)
          let values := layerValues ((h.get node).value + (l * (h.get node).value) / d) n m
          let lvl ← levelSucc (x.1.get node)
          let original := (x.1.get node).children
          let h := x.1.modify node fun o => { o with children := [] }
          let s ← (List.range n).foldlM (fun s i =>
            divideLayer 2 (2 ^ (i + 1)) (plan (i + 1, 0)) (values.getD (i + 1) 0) (n + m) x.2 (decide (i + 1 = n ∧ m = 0)) original s) (h, lvl, [node])
          let s ← (List.range m).foldlM (fun s i =>
            divideLayer 3 (2 ^ n * 3 ^ (i + 1)) (plan (n, i + 1)) (values.getD (n + i + 1) 0) (n + m) node (decide (i + 1 = m)) original s) s
          let h := if over then joinLoop s.1 node x.2 else s.1
          let h := tagMerge h x.2 (if isRoot then 2 else 3)
          return (h, (lvl, n + m))) := by
      rintro over ⟨h₁, loop⟩ ⟨G1, wl⟩
      have wn : Within h U h₁ node := .inl hnode
      refine (loopingBranches_ends n m l).bind fun plan _ => ?_
      refine (ends_levelSucc _).bind fun lvl _ => ?_
      have G2 : Evolved strict 0 h U (h₁.modify node fun o => { o with children := [] }) :=
        G1.modify wn (fun _ => rfl) (fun _ => rfl) (fun _ => rfl) (fun _ => rfl) (by simp) (G1.region.parents node wn)
      have ho : ∀ a ∈ (h₁.get node).children, Within h U h₁ a := G1.region.children node wn
      refine (ends_foldlM (fun s : Heap ℚ × Int × List Addr => LayerOK strict 0 h U s ∧ h₁.next ≤ s.1.next) _ _
        ⟨⟨G2, fun a ha => by rw [List.mem_singleton.1 ha]; exact wn⟩, le_rfl⟩ ?_).bind ?_
      · rintro s i ⟨hs, hn⟩
        exact (ends_divideLayer _ _ _ _ _ _ _ _ hU s hs (wl.mono hn) (fun a ha => (ho a ha).mono hn)).mono fun s' hs' =>
          ⟨hs'.1, hn.trans hs'.2⟩
      rintro s ⟨hs, hn⟩
      refine (ends_foldlM (fun s : Heap ℚ × Int × List Addr => LayerOK strict 0 h U s ∧ h₁.next ≤ s.1.next) _ _ ⟨hs, hn⟩ ?_).bind ?_
      · rintro s i ⟨hs, hn⟩
        exact (ends_divideLayer _ _ _ _ _ _ _ _ hU s hs (wn.mono hn) (fun a ha => (ho a ha).mono hn)).mono fun s' hs' =>
          ⟨hs'.1, hn.trans hs'.2⟩
      rintro s ⟨hs, hn⟩
      cases over
      · exact evolved_tagMerge hs.1 (wl.mono hn) _
      · exact evolved_tagMerge (evolved_joinLoop hs.1 (wn.mono hn) (wl.mono hn)) ((wl.mono hn).mono (joinLoop_next _ _ _).ge) _
    refine Ends.bind (P := fun r => r = (n, m, l, ns)) rfl ?_
    rintro _ rfl
    by_cases hover : (h.get node).value + (l * (h.get node).value) / d > (cfg.limit : ℚ)
    · have hst : ¬ strict := fun x => absurd (hs' x) (not_le.2 hover)
      simp only [hover, decide_true, if_true]
      refine Ends.bind (ends_newNode G0 hU _ [] (l := none) fun x => absurd x hst) ?_
      rintro x ⟨G1, -, w1, -⟩
      exact cont true x ⟨G1, w1⟩
    · simp only [hover, decide_false, if_false]
      exact cont false (h, node) ⟨G0, .inl hnode⟩

theorem pyGcd_ends (v w : ℚ) : Ends (fun _ => True) (pyGcd v w) := by
  unfold pyGcd
  split <;> simp [Ends]

/-- The flow through the node with the looped part added, as `expand_extract` computes it. -/
def extractTotal (v c : ℚ) : Py ℚ := do
  let g ← pyGcd v (v - c)
  if g = 0 then .error .zeroDivision
  let (_, _, l, _) ← findNML (v.num / (g : Int)).toNat
  return v + l * g

/-- **`expand_extract`** works inside of the part of the heap its node is in. -/
theorem ends_expandExtract (cfg : Config) (H : Region h U) (node : Addr) (hnode : U node) (c : ℚ)
    (hs : strict → ∀ x, extractTotal (h.get node).value c = .ok x → x ≤ (cfg.limit : ℚ)) :
    Ends (fun x => Evolved strict 3 h U x.1) (expandExtract cfg h node c) := by
  have hU := H.inside
  unfold expandExtract
  refine Ends.bind (pyGcd_ends (h.get node).value ((h.get node).value - c)).self ?_
  intro g hg
  by_cases hg0 : g = 0
  · simp only [hg0, if_true]
    show PyErr.zeroDivision ≠ .diverge
    decide
  simp only [hg0, if_false]
  refine Ends.bind (findNML_ends ((h.get node).value.num / (g : Int)).toNat).self ?_
  rintro ⟨n, m, l, ns⟩ hf
  have G0 := H.evolved strict
  have hs' : strict → (h.get node).value + l * g ≤ (cfg.limit : ℚ) := fun x => hs x _ (by
    unfold extractTotal
    rw [hg]
    show (if g = 0 then _ else _) = _
    rw [if_neg hg0]
    show (findNML _ >>= _) = _
    rw [hf]
    rfl)
  have cont : ∀ (over : Bool) (x : Heap ℚ × Addr), (Evolved strict 0 h U x.1 ∧ Within h U x.1 x.2) →
      Ends (fun y : Heap ℚ × (Int × Int) => Evolved strict 3 h U y.1) (do
        let isRoot := decide ((x.1.get x.2).parents = [])
        let nExtract : Int := ⌊c / ((h.get node).value / ((h.get node).value.num / (g : Int)).toNat)⌋
        let p ← loopingBranches n m l (branchesCount n m)
        let q ← loopingBranches n m nExtract (branchesCount n m)
        let r ← loopingBranches n m (((h.get node).value.num / (g : Int)).toNat - nExtract) (branchesCount n m)
        let values := layerValues ((h.get node).value + l * g) n m
        let lvl ← levelSucc (x.1.get node)
        let c0 ← item (x.1.get node).children 0
        let c1 ← item (x.1.get node).children 1
        let extracted := if (x.1.get c0).value = c then c0 else c1
        let overflow := if (x.1.get c0).value = c then c1 else c0
        let h := x.1.modify extracted fun o => { o with parents := [] }
        let h := h.modify overflow fun o => { o with parents := [] }
        let original := (h.get node).children
        let h := h.modify node fun o => { o with children := [] }
        let s ← (List.range n).foldlM (fun s i =>
          extractLayer 2 (2 ^ (i + 1)) (p (i + 1, 0)) (q (i + 1, 0)) (r (i + 1, 0)) (values.getD (i + 1) 0) (n + m) x.2 extracted overflow
            (decide (i + 1 = n ∧ m = 0)) original s) (h, lvl, [node])
        let s ← (List.range m).foldlM (fun s i =>
          extractLayer 3 (2 ^ n * 3 ^ (i + 1)) (p (n, i + 1)) (q (n, i + 1)) (r (n, i + 1)) (values.getD (n + i + 1) 0) (n + m) x.2 extracted
            overflow (decide (i + 1 = m)) original s) s
        let h := if over then joinLoop s.1 node x.2 else s.1
        let h := tagMerge h x.2 (if isRoot then 2 else 3)
        let h := tagMerge h extracted 3
        let h := tagMerge h overflow 3
        return (h, (lvl, n + m))) := by
    rintro over ⟨h₁, loop⟩ ⟨G1, wl⟩
    have wn : Within h U h₁ node := .inl hnode
    refine (loopingBranches_ends n m l).bind fun p _ => ?_
    refine (loopingBranches_ends n m _).bind fun q _ => ?_
    refine (loopingBranches_ends n m _).bind fun r _ => ?_
    refine (ends_levelSucc _).bind fun lvl _ => ?_
    refine (ends_item _ 0).bind fun c0 hc0 => ?_
    refine (ends_item _ 1).bind fun c1 hc1 => ?_
    have w0 : Within h U h₁ c0 := G1.region.children node wn c0 hc0
    have w1 : Within h U h₁ c1 := G1.region.children node wn c1 hc1
    simp only
    generalize hex : (if (h₁.get c0).value = c then c0 else c1) = extracted
    generalize hov : (if (h₁.get c0).value = c then c1 else c0) = overflow
    have we : Within h U h₁ extracted := by rw [← hex]; split <;> assumption
    have wo : Within h U h₁ overflow := by rw [← hov]; split <;> assumption
    have G2 : Evolved strict 0 h U (h₁.modify extracted fun o => { o with parents := [] }) :=
      G1.modify we (fun _ => rfl) (fun _ => rfl) (fun _ => rfl) (fun _ => rfl) (G1.region.children extracted we) (by simp)
    have G3 := G2.modify (a := overflow) (f := fun o => { o with parents := [] }) wo (fun _ => rfl) (fun _ => rfl) (fun _ => rfl)
      (fun _ => rfl) (G2.region.children overflow wo) (by simp)
    have ho : ∀ a ∈ (((h₁.modify extracted fun o => { o with parents := [] }).modify overflow fun o => { o with parents := [] }).get
        node).children, Within h U h₁ a := G3.region.children node wn
    have G4 := G3.modify (a := node) (f := fun o => { o with children := [] }) wn (fun _ => rfl) (fun _ => rfl) (fun _ => rfl)
      (fun _ => rfl) (by simp) (G3.region.parents node wn)
    refine (ends_foldlM (fun s : Heap ℚ × Int × List Addr => LayerOK strict 0 h U s ∧ h₁.next ≤ s.1.next) _ _
      ⟨⟨G4, fun a ha => by rw [List.mem_singleton.1 ha]; exact wn⟩, le_rfl⟩ ?_).bind ?_
    · rintro s i ⟨hs, hn⟩
      exact (ends_extractLayer _ _ _ _ _ _ _ _ _ _ _ _ hU s hs (wl.mono hn) (we.mono hn) (wo.mono hn)
        (fun a ha => (ho a ha).mono hn)).mono fun s' hs' => ⟨hs'.1, hn.trans hs'.2⟩
    rintro s ⟨hs, hn⟩
    refine (ends_foldlM (fun s : Heap ℚ × Int × List Addr => LayerOK strict 0 h U s ∧ h₁.next ≤ s.1.next) _ _ ⟨hs, hn⟩ ?_).bind ?_
    · rintro s i ⟨hs, hn⟩
      exact (ends_extractLayer _ _ _ _ _ _ _ _ _ _ _ _ hU s hs (wl.mono hn) (we.mono hn) (wo.mono hn)
        (fun a ha => (ho a ha).mono hn)).mono fun s' hs' => ⟨hs'.1, hn.trans hs'.2⟩
    rintro s ⟨hs, hn⟩
    have tagNext : ∀ (g : Heap ℚ) (a : Addr) (t : Nat), (tagMerge g a t).next = g.next := fun g a t => by
      unfold tagMerge
      split <;> rfl
    have last : ∀ g : Heap ℚ, Evolved strict 0 h U g → h₁.next ≤ g.next → ∀ t, Evolved strict 3 h U
        (tagMerge (tagMerge (tagMerge g loop t) extracted 3) overflow 3) := fun g Gg hn t =>
      evolved_tagMerge (evolved_tagMerge (evolved_tagMerge Gg (wl.mono hn) t) ((we.mono hn).mono (tagNext _ _ _).ge) 3)
        ((wo.mono hn).mono (by rw [tagNext, tagNext])) 3
    cases over
    · exact last _ hs.1 hn _
    · exact last _ (evolved_joinLoop hs.1 (wn.mono hn) (wl.mono hn)) (by rw [joinLoop_next]; exact hn) _
  by_cases hover : (h.get node).value + l * g > (cfg.limit : ℚ)
  · have hst : ¬ strict := fun x => absurd (hs' x) (not_le.2 hover)
    simp only [hover, decide_true, if_true]
    refine Ends.bind (ends_newNode G0 hU _ [] (l := none) fun x => absurd x hst) ?_
    rintro x ⟨G1, -, w1, -⟩
    exact cont true x ⟨G1, w1⟩
  · simp only [hover, decide_false, if_false]
    exact cont false (h, node) ⟨G0, .inl hnode⟩

theorem maxLevelSucc_ends (h : Heap ℚ) (l : List Addr) : Ends (fun _ => True) (maxLevelSucc h l) := by
  unfold maxLevelSucc
  cases l with
  | nil => simp [Ends]
  | cons a l =>
    refine (ends_levelSucc _).bind fun x _ => ?_
    exact ends_foldlM (fun _ => True) l x trivial fun s y _ => (ends_levelSucc _).bind fun _ _ => trivial

theorem evolved_mergeLink (G : Evolved strict k h U h₁) {m a : Addr} (hm : Within h U h₁ m) (ha : Within h U h₁ a) :
    Evolved strict k h U (mergeLink m h₁ a) := by
  have G1 := G.link ha hm
  exact G1.modify (a := m) (f := fun o => { o with past := o.past.extend ((link h₁ a m).get a).past.items }) hm (fun _ => rfl) (fun _ => rfl) (fun _ => rfl) (fun _ => rfl) (G1.region.children m hm) (G1.region.parents m hm)

theorem evolved_filter (node : Addr) : ∀ (l : List Addr) (h₁ : Heap ℚ), Evolved strict k h U h₁ →
    (∀ a ∈ l, Within h U h₁ a) → Evolved strict k h U
      (l.foldl (fun h x => h.modify x fun o => { o with children := o.children.filter fun y => decide (y ≠ node) }) h₁) ∧
      (l.foldl (fun h x => h.modify x fun o => { o with children := o.children.filter fun y => decide (y ≠ node) }) h₁).next = h₁.next := by
  intro l
  induction l with
  | nil => exact fun _ G _ => ⟨G, rfl⟩
  | cons x l ih =>
    intro h₁ G hl
    have wx := hl x (by simp)
    exact ih (h₁.modify x fun o => { o with children := o.children.filter fun y => decide (y ≠ node) })
      (G.modify wx (fun _ => rfl) (fun _ => rfl) (fun _ => rfl) (fun _ => rfl)
        (fun y hy => G.region.children x wx y (List.mem_of_mem_filter hy)) (G.region.parents x wx))
      (fun a ha => hl a (List.mem_cons_of_mem _ ha))

theorem ends_merge3 (G : Evolved strict k h U h₁) (hU : ∀ a, U a → a < h.next) {a b c : Addr} (ha : Within h U h₁ a) (hb : Within h U h₁ b)
    (hc : Within h U h₁ c) : Ends (fun x => Evolved strict k h U x.1 ∧ h₁.next ≤ x.1.next ∧ Within h U x.1 x.2 ∧ h.next ≤ x.2 ∧ ¬ U x.2)
      (merge (fun (v : ℚ) k => v / k) h₁ [a, b, c]) := by
  unfold merge
  refine (maxLevelSucc_ends _ _).bind fun lvl _ => ?_
  refine (ends_newNode G hU _ [] (l := some lvl) (fun _ => by simp)).bind ?_
  rintro ⟨h₂, m⟩ ⟨G2, n2, w2, l2, u2, m2⟩
  have w2 : Within h U h₂ m := w2
  simp only [List.length_cons, List.length_nil, Nat.reduceAdd, Nat.reduceLeDiff, gt_iff_lt, Nat.lt_irrefl, if_false, List.foldl_cons,
    List.foldl_nil]
  have n2 : h₂.next = h₁.next + 1 := n2
  exact ⟨evolved_mergeLink (evolved_mergeLink (evolved_mergeLink G2 w2 (m2 a ha)) w2 (m2 b hb)) w2 (m2 c hc),
    show h₁.next ≤ h₂.next by omega, w2, l2, u2⟩

theorem ends_mergeRounds (hU : ∀ a, U a → a < h.next) (node : Addr) (hnode : U node) (t : Nat)
    (hl : strict → (h.get node).level ≠ none) : ∀ (fuel : Nat) (todo : List Addr) (h₁ : Heap ℚ), todo.length ≤ fuel → Evolved strict k h U h₁ →
    (∀ a ∈ todo, Within h U h₁ a) →
    Ends (fun x => Evolved strict k h U x.1 ∧ ∀ a ∈ x.2, Within h U x.1 a) (mergeRounds node t fuel h₁ todo) := by
  intro fuel
  induction fuel with
  | zero =>
    intro todo h₁ hlen G hw
    rw [mergeRounds, if_pos (by omega)]
    exact ⟨G, hw⟩
  | succ fuel ih =>
    intro todo h₁ hlen G hw
    by_cases hle : todo.length ≤ t
    · rw [mergeRounds.eq_def]
      simp only
      rw [if_pos hle]
      exact ⟨G, hw⟩
    · rw [mergeRounds.eq_def]
      simp only
      rw [if_neg hle]
      match todo, hlen, hw with
      | [], _, _ => simp [Ends]
      | [_], _, _ => simp [Ends]
      | [_, _], _, _ => simp [Ends]
      | a :: b :: c :: rest, hlen, hw =>
        refine (ends_merge3 G hU (hw a (by simp)) (hw b (by simp)) (hw c (by simp))).bind ?_
        rintro ⟨h₂, m⟩ ⟨G2, n2, w2, l2, u2⟩
        have n2 : h₁.next ≤ h₂.next := n2
        have hw2 : ∀ x ∈ [a, b, c], Within h U h₂ x := fun x hx => (hw x (by
          simp only [List.mem_cons, List.not_mem_nil, or_false] at hx ⊢
          tauto)).mono n2
        obtain ⟨G3, n3⟩ := evolved_filter node [a, b, c] h₂ G2 hw2
        simp only
        generalize hh : [a, b, c].foldl (fun h x => h.modify x fun o => { o with children := o.children.filter fun y => decide (y ≠ node) }) h₂ = h₃
          at G3 n3 ⊢
        have w3 : Within h U h₃ m := w2.mono n3.ge
        have hlv : strict → (h₃.get node).level ≠ none := fun hs => by rw [G3.level node hnode]; exact hl hs
        have G4 := G3.setLevel l2 (G3.inside w3) hlv u2
        have G5 := G4.modify (a := m) (f := fun o => { o with children := o.children ++ [node] }) w3 (fun _ => rfl) (fun _ => rfl) (fun _ => rfl)
          (fun _ => rfl) (fun y hy => by
            rcases List.mem_append.1 hy with hy | hy
            · exact G4.region.children m w3 y hy
            · rw [List.mem_singleton.1 hy]
              exact .inl hnode) (G4.region.parents m w3)
        have heq : (h₃.modify m fun o => { o with level := (h₃.get node).level }).modify m (fun o => { o with children := o.children ++ [node] }) =
            h₃.modify m fun o => { o with level := (h₃.get node).level, children := o.children ++ [node] } := by
          unfold Heap.modify Heap.set
          simp only [if_true]
          congr 1
          funext x
          split <;> rfl
        rw [heq] at G5
        refine ih (m :: rest) _ ?_ G5 ?_
        · simp only [List.length_cons] at hlen ⊢
          omega
        · intro x hx
          rcases List.mem_cons.1 hx with rfl | hx
          · exact w3
          · exact ((hw x (by simp [hx])).mono n2).mono n3.ge

/-- **`expand_merge`** works inside of the part of the heap its node is in. -/
theorem ends_expandMerge (H : Region h U) (node : Addr) (hnode : U node) (t : Nat) (hl : strict → (h.get node).level ≠ none) :
    Ends (fun x => Evolved strict 0 h U x.1) (expandMerge h node t) := by
  unfold expandMerge
  split
  · exact H.evolved strict
  · refine (ends_mergeRounds H.inside node hnode t hl _ _ h (by simp) (H.evolved strict)
      (fun a ha => .inl (H.parents node hnode a (List.mem_reverse.1 ha)))).bind ?_
    rintro ⟨h₂, todo⟩ ⟨G2, w2⟩
    exact G2.modify (a := node) (f := fun o => { o with parents := todo.reverse }) (.inl hnode) (fun _ => rfl) (fun _ => rfl) (fun _ => rfl) (fun _ => rfl)
      (G2.region.children node (.inl hnode)) (fun x hx => w2 x (List.mem_reverse.1 hx))

/-- **`expand_split`** works inside of the part of the heap its node is in. -/
theorem ends_expandSplit (H : Region h U) (node : Addr) (hnode : U node) (c : ℚ) :
    Ends (fun x => Evolved strict 0 h U x.1) (expandSplit h node c) := by
  unfold expandSplit
  refine (ends_levelSucc _).bind fun lvl _ => ?_
  refine (ends_newNode (H.evolved strict) H.inside _ [] (l := some lvl) (fun _ => by simp)).bind ?_
  rintro ⟨h₂, new⟩ ⟨G2, n2, w2, l2, u2, m2⟩
  have w2 : Within h U h₂ new := w2
  have wn : Within h U h₂ node := .inl hnode
  have G3 := G2.modify (a := new) (f := fun o => { o with levelsToAdd := -1, children := [new], parents := [node] }) w2 (fun _ => rfl)
    (fun _ => rfl) (fun _ => rfl) (fun _ => rfl) (fun x hx => by rw [List.mem_singleton.1 hx]; exact w2)
    (fun x hx => by rw [List.mem_singleton.1 hx]; exact wn)
  have G4 := G3.modify (a := node) (f := fun o => { o with children := [new] }) wn (fun _ => rfl)
    (fun _ => rfl) (fun _ => rfl) (fun _ => rfl) (fun x hx => by rw [List.mem_singleton.1 hx]; exact w2) (G3.region.parents node wn)
  have ho : ∀ x ∈ (h₂.get node).children, Within h U h₂ x := G2.region.children node wn
  have key : ∀ (cs : List Addr) (h₃ : Heap ℚ), Evolved strict 0 h U h₃ → h₃.next = h₂.next → (∀ x ∈ cs, Within h U h₂ x) →
      Evolved strict 0 h U (cs.foldl (fun h x =>
        if (h.get x).value = c / 3 then
          (h.modify new fun o => { o with children := o.children ++ [x] }).modify x fun o => { o with parents := [new] }
        else h.modify node fun o => { o with children := o.children ++ [x] }) h₃) := by
    intro cs
    induction cs with
    | nil => exact fun _ G _ _ => G
    | cons x cs ih =>
      intro h₃ G e hcs
      have wx : Within h U h₃ x := (hcs x (by simp)).mono e.ge
      have wnew : Within h U h₃ new := w2.mono e.ge
      have wnode : Within h U h₃ node := .inl hnode
      rw [List.foldl_cons]
      split
      · have G5 := G.modify (a := new) (f := fun o => { o with children := o.children ++ [x] }) wnew (fun _ => rfl)
          (fun _ => rfl) (fun _ => rfl) (fun _ => rfl) (fun y hy => by
            rcases List.mem_append.1 hy with hy | hy
            · exact G.region.children new wnew y hy
            · rw [List.mem_singleton.1 hy]
              exact wx) (G.region.parents new wnew)
        exact ih _ (G5.modify (a := x) (f := fun o => { o with parents := [new] }) wx (fun _ => rfl) (fun _ => rfl) (fun _ => rfl)
          (fun _ => rfl) (G5.region.children x wx) (fun y hy => by rw [List.mem_singleton.1 hy]; exact wnew)) e
          (fun y hy => hcs y (List.mem_cons_of_mem _ hy))
      · exact ih _ (G.modify (a := node) (f := fun o => { o with children := o.children ++ [x] }) wnode (fun _ => rfl)
          (fun _ => rfl) (fun _ => rfl) (fun _ => rfl) (fun y hy => by
            rcases List.mem_append.1 hy with hy | hy
            · exact G.region.children node wnode y hy
            · rw [List.mem_singleton.1 hy]
              exact wx) (G.region.parents node wnode)) e
          (fun y hy => hcs y (List.mem_cons_of_mem _ hy))
  exact key _ _ G4 rfl ho

theorem Evolved.trans {k' : Nat} {h₂ : Heap ℚ} (hU : ∀ a, U a → a < h.next) (A : Evolved strict k h U h₁)
    (B : Evolved strict k' h₁ (Within h U h₁) h₂) : Evolved strict (k + k') h U h₂ := by
  have hW : Within h₁ (Within h U h₁) h₂ = Within h U h₂ := by
    funext a
    have := A.next
    have := B.next
    unfold Within
    apply propext
    constructor
    · rintro ((h | ⟨h1, h2⟩) | ⟨h1, h2⟩)
      · exact .inl h
      · exact .inr ⟨h1, by omega⟩
      · exact .inr ⟨by omega, h2⟩
    · rintro (h | ⟨h1, h2⟩)
      · exact .inl (.inl h)
      · rcases Nat.lt_or_ge a h₁.next with h | h
        · exact .inl (.inr ⟨h1, h⟩)
        · exact .inr ⟨h, h2⟩
  refine ⟨A.next.trans B.next, A.uid.trans B.uid, ?_, ?_, ?_, ?_, ?_, ?_, ?_, hW ▸ B.region⟩
  · intro a ha hn
    rw [B.outside a (ha.trans_le A.next) (by rintro (h | h); exact hn h; omega)]
    exact A.outside a ha hn
  · exact fun a ha => (B.id a (.inl ha)).trans (A.id a ha)
  · exact fun a ha => (B.value a (.inl ha)).trans (A.value a ha)
  · exact fun a ha => (B.level a (.inl ha)).trans (A.level a ha)
  · intro hs a h1 h2
    rcases Nat.lt_or_ge a h₁.next with h | h
    · rw [B.level a (.inr ⟨h1, h⟩)]
      exact A.new hs a h1 h
    · exact B.new hs a h h2
  · intro a ha e he
    rcases B.expands a ha e he with ⟨h1, h2⟩ | h
    · exact A.expands a h1 e h2
    · exact .inr h
  · have := A.pending
    have := B.pending
    omega

/-- The next expansion is taken from the list. -/
theorem evolved_pop (H : Region h U) (node : Addr) (hnode : U node) (e : Expand ℚ) (es : List (Expand ℚ)) (he : (h.get node).expands = e :: es) :
    Evolved strict 0 h U (h.modify node fun o => { o with expands := es }) ∧
      pendingWeight (h.modify node fun o => { o with expands := es }) + weight e = pendingWeight h := by
  have hlt := H.inside node hnode
  have hp : pendingWeight (h.modify node fun o => { o with expands := es }) + weight e = pendingWeight h := by
    unfold pendingWeight
    have : (h.modify node fun o => { o with expands := es }).next = h.next := rfl
    rw [this, ← Finset.add_sum_erase _ _ (Finset.mem_range.2 hlt), ← Finset.add_sum_erase (Finset.range h.next) _ (Finset.mem_range.2 hlt)]
    have e2 : ∑ x ∈ (Finset.range h.next).erase node, (((h.modify node fun o => { o with expands := es }).get x).expands.map weight).sum =
        ∑ x ∈ (Finset.range h.next).erase node, ((h.get x).expands.map weight).sum :=
      Finset.sum_congr rfl fun x hx => by
        rw [Heap.get_modify, if_neg (Finset.ne_of_mem_erase hx)]
    rw [e2, Heap.get_modify, if_pos rfl, he]
    simp only [List.map_cons, List.sum_cons]
    omega
  have g : ∀ x, ((h.modify node fun o => { o with expands := es }).get x).id = (h.get x).id ∧
      ((h.modify node fun o => { o with expands := es }).get x).children = (h.get x).children ∧
      ((h.modify node fun o => { o with expands := es }).get x).parents = (h.get x).parents ∧
      ((h.modify node fun o => { o with expands := es }).get x).value = (h.get x).value ∧
      ((h.modify node fun o => { o with expands := es }).get x).level = (h.get x).level := fun x => by
    rw [Heap.get_modify]
    split
    · next e => rw [e]; exact ⟨rfl, rfl, rfl, rfl, rfl⟩
    · exact ⟨rfl, rfl, rfl, rfl, rfl⟩
  have hW : Within h U (h.modify node fun o => { o with expands := es }) = U := by
    funext a
    unfold Within
    simp only [eq_iff_iff, or_iff_left_iff_imp, Heap.next_modify]
    intro hx
    omega
  refine ⟨⟨le_rfl, le_rfl, ?_, fun a _ => (g a).1, fun a _ => (g a).2.2.2.1, fun a _ => (g a).2.2.2.2, ?_, ?_, by omega, ?_⟩, hp⟩
  · intro a _ hn
    rw [Heap.get_modify, if_neg (fun e : a = node => hn (e ▸ hnode))]
  · intro _ a h1 h2
    have h2 : a < h.next := h2
    omega
  · intro a ha x hx
    rw [Heap.get_modify] at hx
    split at hx
    · next e' =>
      subst e'
      exact .inl ⟨ha, by rw [he]; exact List.mem_cons_of_mem _ hx⟩
    · exact .inl ⟨ha, hx⟩
  · rw [hW]
    refine ⟨H.inside, ?_, ?_, ?_, ?_⟩
    · intro b hb c
      rw [(g b).2.1]
      exact H.children b hb c
    · intro b hb c
      rw [(g b).2.2.1]
      exact H.parents b hb c
    · intro b c hb hcc
      rw [(g b).1, (g c).1]
      exact H.ids b c hb hcc
    · intro b hb
      rw [(g b).1]
      exact H.fresh b hb

/-- All nodes have levels, and no pending expansion would put more than the limit on its node. -/
structure Tame (cfg : Config) (h : Heap ℚ) (U : Addr → Prop) : Prop where
  levels : ∀ a, U a → (h.get a).level ≠ none
  divide : ∀ a, U a → ∀ d, .divide d ∈ (h.get a).expands → ∀ x, divideTotal (h.get a).value d = .ok x → x ≤ (cfg.limit : ℚ)
  extract : ∀ a, U a → ∀ c, .extract c ∈ (h.get a).expands → ∀ x, extractTotal (h.get a).value c = .ok x → x ≤ (cfg.limit : ℚ)

theorem Tame.evolved {cfg : Config} (T : Tame cfg h U) (hs : strict) (A : Evolved strict k h U h₁) : Tame cfg h₁ (Within h U h₁) := by
  have old : ∀ a, Within h U h₁ a → ∀ e ∈ (h₁.get a).expands, (∀ t, e ≠ .merge t) → U a ∧ e ∈ (h.get a).expands := by
    intro a ha e he hne
    rcases A.expands a (A.inside ha) e he with ⟨h1, h2⟩ | ⟨t, h⟩
    · rcases ha with ha | ha
      · exact ⟨ha, h2⟩
      · omega
    · exact absurd h (hne t)
  refine ⟨?_, ?_, ?_⟩
  · rintro a (ha | ⟨h1, h2⟩)
    · rw [A.level a ha]
      exact T.levels a ha
    · exact A.new hs a h1 h2
  · intro a ha d hd x hx
    obtain ⟨hU, he⟩ := old a ha _ hd (by simp)
    rw [A.value a hU] at hx
    exact T.divide a hU d he x hx
  · intro a ha c hc x hx
    obtain ⟨hU, he⟩ := old a ha _ hc (by simp)
    rw [A.value a hU] at hx
    exact T.extract a hU c he x hx

/-- One pending expansion is done: less is pending afterwards. -/
theorem ends_runExpand (cfg : Config) (H : Region h U) (T : strict → Tame cfg h U) (node : Addr) (hnode : U node) (e : Expand ℚ)
    (es : List (Expand ℚ)) (he : (h.get node).expands = e :: es) :
    Ends (fun x => Evolved strict 0 h U x.1 ∧ pendingWeight x.1 < pendingWeight h)
      (runExpand cfg (h.modify node fun o => { o with expands := es }) node e) := by
  obtain ⟨A, hp⟩ := evolved_pop (strict := strict) H node hnode e es he
  have hW : Within h U (h.modify node fun o => { o with expands := es }) = U := by
    funext a
    unfold Within
    simp only [eq_iff_iff, or_iff_left_iff_imp, Heap.next_modify]
    intro hx
    omega
  have R1 : Region (h.modify node fun o => { o with expands := es }) U := hW ▸ A.region
  have hv : ((h.modify node fun o => { o with expands := es }).get node).value = (h.get node).value := A.value node hnode
  have hl : ((h.modify node fun o => { o with expands := es }).get node).level = (h.get node).level := A.level node hnode
  have fin : ∀ {k : Nat} (x : Heap ℚ × (Int × Int)), k + 1 ≤ weight e → Evolved strict k (h.modify node fun o => { o with expands := es }) U x.1 →
      Evolved strict 0 h U x.1 ∧ pendingWeight x.1 < pendingWeight h := fun {k} x hk B => by
    have hb := B.pending
    have C : Evolved strict (0 + k) h U x.1 := A.trans H.inside (hW.symm ▸ B)
    exact ⟨{ C with pending := by omega }, by omega⟩
  cases e with
  | extract c =>
    refine (ends_expandExtract cfg R1 node hnode c fun hs x hx => ?_).mono fun x hx => fin x (by simp [weight]) hx
    rw [hv] at hx
    exact (T hs).extract node hnode c (by rw [he]; simp) x hx
  | divide d =>
    refine (ends_expandDivide cfg R1 node hnode d fun hs x hx => ?_).mono fun x hx => fin x (by simp [weight]) hx
    rw [hv] at hx
    exact (T hs).divide node hnode d (by rw [he]; simp) x hx
  | merge t =>
    refine (ends_expandMerge R1 node hnode t fun hs => ?_).mono fun x hx => fin x (by simp [weight]) hx
    rw [hl]
    exact (T hs).levels node hnode
  | split c => exact (ends_expandSplit R1 node hnode c).mono fun x hx => fin x (by simp [weight]) hx

/-- **All pending expansions of a node** are done: they end, whatever the fuel beyond what is pending. -/
theorem ends_runExpands (cfg : Config) (node : Addr) : ∀ (fuel : Nat) (h : Heap ℚ) (U : Addr → Prop), Region h U → (strict → Tame cfg h U) →
    U node → pendingWeight h ≤ fuel →
    Ends (fun x => Evolved strict 0 h U x.1 ∧ (x.1.get node).expands = [] ∧ ((h.get node).expands = [] ∧ x = (h, []) ∨
      pendingWeight x.1 < pendingWeight h)) (runExpands cfg fuel h node) ∧
    ∀ fuel', pendingWeight h ≤ fuel' → runExpands cfg fuel' h node = runExpands cfg fuel h node := by
  intro fuel
  induction fuel with
  | zero =>
    intro h U H T hnode hf
    have hlt := H.inside node hnode
    have he : (h.get node).expands = [] := by
      have h0 : pendingWeight h = 0 := by omega
      unfold pendingWeight at h0
      have := Finset.sum_eq_zero_iff.1 h0 node (Finset.mem_range.2 hlt)
      cases hx : (h.get node).expands with
      | nil => rfl
      | cons e es =>
        rw [hx] at this
        simp only [List.map_cons, List.sum_cons] at this
        have : 0 < weight e := by cases e <;> simp [weight]
        omega
    have hr : ∀ f, runExpands cfg f h node = .ok (h, []) := fun f => by
      rw [runExpands.eq_def]
      simp only [he]
    rw [hr]
    exact ⟨⟨H.evolved strict, he, .inl ⟨he, rfl⟩⟩, fun f _ => hr f⟩
  | succ fuel ih =>
    intro h U H T hnode hf
    cases hx : (h.get node).expands with
    | nil =>
      have hr : ∀ f, runExpands cfg f h node = .ok (h, []) := fun f => by
        rw [runExpands.eq_def]
        simp only [hx]
      rw [hr]
      exact ⟨⟨H.evolved strict, hx, .inl ⟨rfl, rfl⟩⟩, fun f _ => hr f⟩
    | cons e es =>
      have hrun := ends_runExpand (strict := strict) cfg H T node hnode e es hx
      have hr : ∀ f, runExpands cfg (f + 1) h node = (do
          let (h, u) ← runExpand cfg (h.modify node fun o => { o with expands := es }) node e
          let (h, us) ← runExpands cfg f h node
          return (h, u :: us)) := fun f => by
        rw [runExpands.eq_def]
        simp only [hx]
      have hpos : 0 < pendingWeight h := by
        have := (evolved_pop (strict := strict) H node hnode e es hx).2
        have : 0 < weight e := by cases e <;> simp [weight]
        omega
      constructor
      · rw [hr]
        refine hrun.bind ?_
        rintro ⟨h₁, u⟩ ⟨A, hlt⟩
        obtain ⟨B, -⟩ := ih h₁ (Within h U h₁) A.region (fun hs => (T hs).evolved hs A) (.inl hnode) (by
          have hlt : pendingWeight h₁ < pendingWeight h := hlt
          omega)
        refine B.bind ?_
        rintro ⟨h₂, us⟩ ⟨C, e2, hor⟩
        refine ⟨A.trans H.inside C, e2, .inr ?_⟩
        have := C.pending
        have hlt : pendingWeight h₁ < pendingWeight h := hlt
        show pendingWeight h₂ < pendingWeight h
        have : pendingWeight h₂ ≤ pendingWeight h₁ + 0 := this
        omega
      · intro f hf'
        obtain ⟨j, rfl⟩ : ∃ j, f = j + 1 := ⟨f - 1, by omega⟩
        rw [hr, hr]
        cases hre : runExpand cfg (h.modify node fun o => { o with expands := es }) node e with
        | error e => rfl
        | ok x =>
          rw [hre] at hrun
          obtain ⟨A, hlt⟩ := hrun
          obtain ⟨-, B⟩ := ih x.1 (Within h U x.1) A.region (fun hs => (T hs).evolved hs A) (.inl hnode) (by omega)
          show (runExpands cfg j x.1 node >>= _) = (runExpands cfg fuel x.1 node >>= _)
          rw [B j (by omega)]

end

end Satis.Graph
