import Verif.Graph.Traverse
import Verif.Graph.Moves
import Mathlib.Algebra.BigOperators.Group.Finset.Basic
/-!
# What an expansion leaves alone

An expansion works inside of a part `U` of the heap that is closed under parents and children; it changes references there, makes new
nodes and tags merges, and keeps identities, values and levels.
-/

namespace Satis.Graph
open Satis Satis.Cost

/-- A part of the heap that is closed under references and in which nodes have different ids. -/
structure Region (h : Heap ℚ) (U : Addr → Prop) : Prop where
  inside : ∀ a, U a → a < h.next
  children : ∀ a, U a → ∀ c ∈ (h.get a).children, U c
  parents : ∀ a, U a → ∀ p ∈ (h.get a).parents, U p
  ids : ∀ a b, U a → U b → (h.get a).id = (h.get b).id → a = b
  fresh : ∀ a, U a → (h.get a).id < h.nextUid

/-- The whole heap, by computation. -/
theorem region_all {h : Heap ℚ} (H : ∀ a, a < h.next → (∀ c ∈ (h.get a).children, c < h.next) ∧ (∀ p ∈ (h.get a).parents, p < h.next) ∧
    (∀ b, b < h.next → (h.get a).id = (h.get b).id → a = b) ∧ (h.get a).id < h.nextUid) : Region h (· < h.next) :=
  ⟨fun _ h => h, fun a ha => (H a ha).1, fun a ha => (H a ha).2.1, fun a b ha hb e => (H a ha).2.2.1 b hb e, fun a ha => (H a ha).2.2.2⟩

/-- `U` and everything made since `h`. -/
def Within (h : Heap ℚ) (U : Addr → Prop) (h' : Heap ℚ) (a : Addr) : Prop := U a ∨ h.next ≤ a ∧ a < h'.next

/-- How much a pending expansion may bring about: extractions tag at most three merges. -/
def weight : Expand ℚ → Nat
  | .extract _ => 4
  | .divide _ => 2
  | .merge _ => 1
  | .split _ => 1

/-- All that is pending. -/
def pendingWeight (h : Heap ℚ) : Nat := ∑ a ∈ Finset.range h.next, ((h.get a).expands.map weight).sum

/-- `h'` comes from `h` by work inside of `U`, with at most `k` more merges pending. If `strict` then all new nodes have a level. -/
structure Evolved (strict : Prop) (k : Nat) (h : Heap ℚ) (U : Addr → Prop) (h' : Heap ℚ) : Prop where
  next : h.next ≤ h'.next
  uid : h.nextUid ≤ h'.nextUid
  outside : ∀ a, a < h.next → ¬ U a → h'.get a = h.get a
  id : ∀ a, U a → (h'.get a).id = (h.get a).id
  value : ∀ a, U a → (h'.get a).value = (h.get a).value
  level : ∀ a, U a → (h'.get a).level = (h.get a).level
  new : strict → ∀ a, h.next ≤ a → a < h'.next → (h'.get a).level ≠ none
  expands : ∀ a, a < h'.next → ∀ e ∈ (h'.get a).expands, (a < h.next ∧ e ∈ (h.get a).expands) ∨ ∃ t, e = .merge t
  pending : pendingWeight h' ≤ pendingWeight h + k
  region : Region h' (Within h U h')

theorem Region.evolved {h : Heap ℚ} {U : Addr → Prop} (H : Region h U) (strict : Prop) : Evolved strict 0 h U h := by
  have hW : Within h U h = U := by
    funext a
    unfold Within
    simp only [eq_iff_iff, or_iff_left_iff_imp]
    intro hx
    omega
  exact ⟨le_rfl, le_rfl, fun _ _ _ => rfl, fun _ _ => rfl, fun _ _ => rfl, fun _ _ => rfl, fun _ a h1 h2 => by omega,
    fun a ha e he => .inl ⟨ha, he⟩, le_rfl, by rw [hW]; exact H⟩

section
variable {strict : Prop} {k : Nat} {h : Heap ℚ} {U : Addr → Prop} {h₁ : Heap ℚ}

theorem Evolved.inside (G : Evolved strict k h U h₁) {a : Addr} (ha : Within h U h₁ a) : a < h₁.next := G.region.inside a ha

theorem Within.mono {h₂ : Heap ℚ} (hn : h₁.next ≤ h₂.next) {a : Addr} (ha : Within h U h₁ a) : Within h U h₂ a :=
  ha.imp _root_.id fun ⟨x, y⟩ => ⟨x, y.trans_le hn⟩

theorem Evolved.weaken (G : Evolved strict k h U h₁) {k' : Nat} (hk : k ≤ k') : Evolved strict k' h U h₁ :=
  { G with pending := G.pending.trans (by omega) }

theorem pendingWeight_modify (h : Heap ℚ) (a : Addr) (f : NodeObj ℚ → NodeObj ℚ) (hf : ∀ o, (f o).expands = o.expands) :
    pendingWeight (h.modify a f) = pendingWeight h := by
  unfold pendingWeight
  refine Finset.sum_congr rfl fun b _ => ?_
  rw [Heap.get_modify]
  split
  · next e => rw [hf, e]
  · rfl

/-- Changing references (to nodes of the part) and the like. -/
theorem Evolved.modify (G : Evolved strict k h U h₁) {a : Addr} {f : NodeObj ℚ → NodeObj ℚ} (ha : Within h U h₁ a)
    (hid : ∀ o, (f o).id = o.id) (hv : ∀ o, (f o).value = o.value) (hl : ∀ o, (f o).level = o.level) (he : ∀ o, (f o).expands = o.expands)
    (hc : ∀ c ∈ (f (h₁.get a)).children, Within h U h₁ c) (hp : ∀ c ∈ (f (h₁.get a)).parents, Within h U h₁ c) :
    Evolved strict k h U (h₁.modify a f) := by
  have hlt := G.inside ha
  have hnU : ∀ b, b < h.next → ¬ U b → b ≠ a := by
    rintro b h1 h2 rfl
    rcases ha with h | h
    · exact h2 h
    · omega
  have hW : Within h U (h₁.modify a f) = Within h U h₁ := rfl
  refine ⟨G.next, G.uid, ?_, ?_, ?_, ?_, ?_, ?_, by rw [pendingWeight_modify h₁ a f he]; exact G.pending, ?_⟩
  · intro b h1 h2
    rw [Heap.get_modify, if_neg (hnU b h1 h2)]
    exact G.outside b h1 h2
  · intro b hb
    rw [Heap.get_modify]
    split
    · next e => rw [hid, ← e]; exact G.id b hb
    · exact G.id b hb
  · intro b hb
    rw [Heap.get_modify]
    split
    · next e => rw [hv, ← e]; exact G.value b hb
    · exact G.value b hb
  · intro b hb
    rw [Heap.get_modify]
    split
    · next e => rw [hl, ← e]; exact G.level b hb
    · exact G.level b hb
  · intro hs b h1 h2
    rw [Heap.get_modify]
    split
    · next e => rw [hl, ← e]; exact G.new hs b h1 h2
    · exact G.new hs b h1 h2
  · intro b hb e hmem
    rw [Heap.get_modify] at hmem
    split at hmem
    · next e' =>
      rw [he, ← e'] at hmem
      exact G.expands b hb e hmem
    · exact G.expands b hb e hmem
  · rw [hW]
    refine ⟨G.region.inside, ?_, ?_, ?_, ?_⟩
    · intro b hb c
      rw [Heap.get_modify]
      split
      · exact hc c
      · exact G.region.children b hb c
    · intro b hb c
      rw [Heap.get_modify]
      split
      · exact hp c
      · exact G.region.parents b hb c
    · intro b c hb hcc
      have e : ∀ x, ((h₁.modify a f).get x).id = (h₁.get x).id := fun x => by
        rw [Heap.get_modify]
        split
        · next e => rw [hid, e]
        · rfl
      rw [e, e]
      exact G.region.ids b c hb hcc
    · intro b hb
      show ((h₁.modify a f).get b).id < h₁.nextUid
      rw [Heap.get_modify]
      split
      · next e => rw [hid, ← e]; exact G.region.fresh b hb
      · exact G.region.fresh b hb

/-- Changing the level of a new node. -/
theorem Evolved.setLevel (G : Evolved strict k h U h₁) {a : Addr} (h1 : h.next ≤ a) (h2 : a < h₁.next) {l : Option Int} (hl : strict → l ≠ none)
    (hU : ¬ U a) : Evolved strict k h U (h₁.modify a fun o => { o with level := l }) := by
  have hW : Within h U (h₁.modify a fun o => { o with level := l }) = Within h U h₁ := rfl
  refine ⟨G.next, G.uid, ?_, ?_, ?_, ?_, ?_, ?_, ?_, ?_⟩
  · intro b hb hb'
    rw [Heap.get_modify, if_neg (by omega)]
    exact G.outside b hb hb'
  · intro b hb
    rw [Heap.get_modify]
    split
    · next e => exact absurd (e ▸ hb) hU
    · exact G.id b hb
  · intro b hb
    rw [Heap.get_modify]
    split
    · next e => exact absurd (e ▸ hb) hU
    · exact G.value b hb
  · intro b hb
    rw [Heap.get_modify]
    split
    · next e => exact absurd (e ▸ hb) hU
    · exact G.level b hb
  · intro hs b h3 h4
    rw [Heap.get_modify]
    split
    · exact hl hs
    · exact G.new hs b h3 h4
  · intro b hb e hmem
    rw [Heap.get_modify] at hmem
    split at hmem
    · next e' => exact G.expands b hb e (e' ▸ hmem)
    · exact G.expands b hb e hmem
  · rw [pendingWeight_modify h₁ a (fun o => { o with level := l }) (fun _ => rfl)]
    exact G.pending
  · rw [hW]
    have e : ∀ x, ((h₁.modify a fun o => { o with level := l }).get x).id = (h₁.get x).id ∧
        ((h₁.modify a fun o => { o with level := l }).get x).children = (h₁.get x).children ∧
        ((h₁.modify a fun o => { o with level := l }).get x).parents = (h₁.get x).parents := fun x => by
      rw [Heap.get_modify]
      split
      · next e => rw [e]; exact ⟨rfl, rfl, rfl⟩
      · exact ⟨rfl, rfl, rfl⟩
    refine ⟨G.region.inside, ?_, ?_, ?_, ?_⟩
    · intro b hb c
      rw [(e b).2.1]
      exact G.region.children b hb c
    · intro b hb c
      rw [(e b).2.2]
      exact G.region.parents b hb c
    · intro b c hb hcc
      rw [(e b).1, (e c).1]
      exact G.region.ids b c hb hcc
    · intro b hb
      rw [(e b).1]
      exact G.region.fresh b hb

/-- A merge is tagged. -/
theorem Evolved.tag (G : Evolved strict k h U h₁) {a : Addr} (ha : Within h U h₁ a) (t : Nat) :
    Evolved strict (k + 1) h U (tagExpand h₁ a (.merge t)) := by
  have hlt := G.inside ha
  have hnU : ∀ b, b < h.next → ¬ U b → b ≠ a := by
    rintro b h1 h2 rfl
    rcases ha with h | h
    · exact h2 h
    · omega
  have hW : Within h U (tagExpand h₁ a (.merge t)) = Within h U h₁ := rfl
  have e : ∀ x, ((tagExpand h₁ a (.merge t)).get x).id = (h₁.get x).id ∧ ((tagExpand h₁ a (.merge t)).get x).children = (h₁.get x).children ∧
      ((tagExpand h₁ a (.merge t)).get x).parents = (h₁.get x).parents ∧ ((tagExpand h₁ a (.merge t)).get x).value = (h₁.get x).value ∧
      ((tagExpand h₁ a (.merge t)).get x).level = (h₁.get x).level := fun x => by
    rw [tagExpand, Heap.get_modify]
    split
    · next e => rw [e]; exact ⟨rfl, rfl, rfl, rfl, rfl⟩
    · exact ⟨rfl, rfl, rfl, rfl, rfl⟩
  refine ⟨G.next, G.uid, ?_, ?_, ?_, ?_, ?_, ?_, ?_, ?_⟩
  · intro b h1 h2
    rw [tagExpand, Heap.get_modify, if_neg (hnU b h1 h2)]
    exact G.outside b h1 h2
  · intro b hb
    rw [(e b).1]
    exact G.id b hb
  · intro b hb
    rw [(e b).2.2.2.1]
    exact G.value b hb
  · intro b hb
    rw [(e b).2.2.2.2]
    exact G.level b hb
  · intro hs b h1 h2
    rw [(e b).2.2.2.2]
    exact G.new hs b h1 h2
  · intro b hb x hx
    rw [tagExpand, Heap.get_modify] at hx
    split at hx
    · next e' =>
      rcases List.mem_append.1 hx with hx | hx
      · exact G.expands b hb x (e' ▸ hx)
      · rw [List.mem_singleton] at hx
        exact .inr ⟨t, hx⟩
    · exact G.expands b hb x hx
  · have : pendingWeight (tagExpand h₁ a (.merge t)) = pendingWeight h₁ + 1 := by
      unfold pendingWeight
      have : (tagExpand h₁ a (.merge t)).next = h₁.next := rfl
      rw [this, ← Finset.add_sum_erase _ _ (Finset.mem_range.2 hlt), ← Finset.add_sum_erase (Finset.range h₁.next) _ (Finset.mem_range.2 hlt)]
      have e1 : (((tagExpand h₁ a (.merge t)).get a).expands.map weight).sum = ((h₁.get a).expands.map weight).sum + 1 := by
        simp [tagExpand, Heap.get_modify, weight]
      have e2 : ∑ x ∈ (Finset.range h₁.next).erase a, (((tagExpand h₁ a (.merge t)).get x).expands.map weight).sum =
          ∑ x ∈ (Finset.range h₁.next).erase a, ((h₁.get x).expands.map weight).sum :=
        Finset.sum_congr rfl fun x hx => by
          rw [tagExpand, Heap.get_modify, if_neg (Finset.ne_of_mem_erase hx)]
      rw [e1, e2]
      omega
    rw [this]
    have := G.pending
    omega
  · rw [hW]
    refine ⟨G.region.inside, ?_, ?_, ?_, ?_⟩
    · intro b hb c
      rw [(e b).2.1]
      exact G.region.children b hb c
    · intro b hb c
      rw [(e b).2.2.1]
      exact G.region.parents b hb c
    · intro b c hb hcc
      rw [(e b).1, (e c).1]
      exact G.region.ids b c hb hcc
    · intro b hb
      rw [(e b).1]
      exact G.region.fresh b hb

/-- A node is made. -/
theorem Evolved.newNode (G : Evolved strict k h U h₁) (hU : ∀ a, U a → a < h.next) {v : ℚ} {p : List ℚ} {l : Option Int} (hl : strict → l ≠ none)
    {h₂ : Heap ℚ} {a : Addr} (hn : newNode h₁ v p none l = .ok (h₂, a)) :
    Evolved strict k h U h₂ ∧ a = h₁.next ∧ h₂.next = h₁.next + 1 ∧ Within h U h₂ a ∧ h.next ≤ a ∧ ¬ U a := by
  unfold Graph.newNode at hn
  split at hn
  · cases hn
  simp only [Except.ok.injEq, Heap.alloc, Prod.mk.injEq] at hn
  obtain ⟨e1, e2⟩ := hn
  have hnext : h₂.next = h₁.next + 1 := by rw [← e1]
  have huid : h₂.nextUid = h₁.nextUid + 1 := by rw [← e1]
  have hold : ∀ b, b ≠ h₁.next → h₂.get b = h₁.get b := fun b hb => by rw [← e1]; simp [hb]
  have hne : (h₂.get h₁.next).expands = [] ∧ (h₂.get h₁.next).children = [] ∧ (h₂.get h₁.next).parents = [] ∧
      (h₂.get h₁.next).id = h₁.nextUid ∧ (h₂.get h₁.next).level = l := by
    rw [← e1]
    simp
  have hlt : ∀ b, Within h U h₁ b → b ≠ h₁.next := fun b hb => (G.inside hb).ne
  have hUlt : ∀ b, U b → b ≠ h₁.next := fun b hb => hlt b (.inl hb)
  have hsplit : ∀ b, Within h U h₂ b → Within h U h₁ b ∨ b = h₁.next := by
    rintro b (hb | ⟨h1, h2⟩)
    · exact .inl (.inl hb)
    · rcases Nat.lt_or_ge b h₁.next with h | h
      · exact .inl (.inr ⟨h1, h⟩)
      · exact .inr (by omega)
  have hmono : ∀ b, Within h U h₁ b → Within h U h₂ b := fun b hb => hb.mono (by omega)
  subst e2
  have hnn := G.next
  refine ⟨⟨by omega, by have := G.uid; omega, ?_, ?_, ?_, ?_, ?_, ?_, ?_, ?_⟩, rfl, hnext, .inr ⟨G.next, by omega⟩, G.next,
    fun h => by have := hU _ h; omega⟩
  · intro b h1 h2
    rw [hold b (by omega)]
    exact G.outside b h1 h2
  · intro b hb
    rw [hold b (hUlt b hb)]
    exact G.id b hb
  · intro b hb
    rw [hold b (hUlt b hb)]
    exact G.value b hb
  · intro b hb
    rw [hold b (hUlt b hb)]
    exact G.level b hb
  · intro hs b h1 h2
    by_cases e : b = h₁.next
    · subst e
      rw [hne.2.2.2.2]
      exact hl hs
    · rw [hold b e]
      exact G.new hs b h1 (by omega)
  · intro b hb x hx
    by_cases e : b = h₁.next
    · subst e
      rw [hne.1] at hx
      simp at hx
    · rw [hold b e] at hx
      exact G.expands b (by omega) x hx
  · have : pendingWeight h₂ = pendingWeight h₁ := by
      unfold pendingWeight
      rw [hnext, Finset.sum_range_succ, hne.1]
      simp only [List.map_nil, List.sum_nil, add_zero]
      exact Finset.sum_congr rfl fun b hb => by rw [hold b (Finset.mem_range.1 hb).ne]
    rw [this]
    exact G.pending
  · refine ⟨?_, ?_, ?_, ?_, ?_⟩
    · intro b hb
      rcases hsplit b hb with h | h
      · have := G.inside h
        omega
      · omega
    · intro b hb c hc
      rcases hsplit b hb with h | h
      · rw [hold b (hlt b h)] at hc
        exact hmono c (G.region.children b h c hc)
      · rw [h, hne.2.1] at hc
        simp at hc
    · intro b hb c hc
      rcases hsplit b hb with h | h
      · rw [hold b (hlt b h)] at hc
        exact hmono c (G.region.parents b h c hc)
      · rw [h, hne.2.2.1] at hc
        simp at hc
    · intro b c hb hc he
      rcases hsplit b hb with h | h <;> rcases hsplit c hc with h' | h'
      · rw [hold b (hlt b h), hold c (hlt c h')] at he
        exact G.region.ids b c h h' he
      · rw [hold b (hlt b h), h', hne.2.2.2.1] at he
        have := G.region.fresh b h
        omega
      · rw [hold c (hlt c h'), h, hne.2.2.2.1] at he
        have := G.region.fresh c h'
        omega
      · rw [h, h']
    · intro b hb
      rcases hsplit b hb with h | h
      · rw [hold b (hlt b h)]
        have := G.region.fresh b h
        omega
      · rw [h, hne.2.2.2.1]
        omega

theorem Evolved.link (G : Evolved strict k h U h₁) {p c : Addr} (hp : Within h U h₁ p) (hc : Within h U h₁ c) :
    Evolved strict k h U (link h₁ p c) := by
  have G1 : Evolved strict k h U (h₁.modify p fun o => { o with children := o.children ++ [c] }) :=
    G.modify hp (fun _ => rfl) (fun _ => rfl) (fun _ => rfl) (fun _ => rfl) (by
      intro x hx
      rcases List.mem_append.1 hx with hx | hx
      · exact G.region.children p hp x hx
      · rw [List.mem_singleton] at hx
        exact hx ▸ hc) (fun x hx => G.region.parents p hp x hx)
  refine G1.modify (a := c) hc (fun _ => rfl) (fun _ => rfl) (fun _ => rfl) (fun _ => rfl) (fun x hx => G1.region.children c hc x hx) ?_
  intro x hx
  rcases List.mem_append.1 hx with hx | hx
  · exact G1.region.parents c hc x hx
  · rw [List.mem_singleton] at hx
    exact hx ▸ hp

theorem Evolved.adopt (G : Evolved strict k h U h₁) {p c : Addr} (hp : Within h U h₁ p) (hc : Within h U h₁ c) :
    Evolved strict k h U (adopt p h₁ c) := by
  have G1 : Evolved strict k h U (h₁.modify p fun o => { o with children := o.children ++ [c] }) :=
    G.modify hp (fun _ => rfl) (fun _ => rfl) (fun _ => rfl) (fun _ => rfl) (by
      intro x hx
      rcases List.mem_append.1 hx with hx | hx
      · exact G.region.children p hp x hx
      · rw [List.mem_singleton] at hx
        exact hx ▸ hc) (fun x hx => G.region.parents p hp x hx)
  refine G1.modify (a := c) hc (fun _ => rfl) (fun _ => rfl) (fun _ => rfl) (fun _ => rfl) (fun x hx => G1.region.children c hc x hx) ?_
  intro x hx
  rw [List.mem_singleton] at hx
  exact hx ▸ hp

end

end Satis.Graph
