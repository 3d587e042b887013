import Verif.Graph.AttachLemmas
import Verif.Graph.Relevel
import Verif.Sorted
/-!
# Attaching the targets once more

`attach_leaves` hangs the same nodes below every solution, one solution after the other. Here: the second time it makes the same network as the first time, if the
nodes have not been expanded in the meantime.
-/

namespace Satis.Graph
open Satis Satis.Cost

/-- The node `a` looks the same in both heaps, apart from its level. -/
def Twin (h g : Heap ℚ) (a : Addr) : Prop := g.get a = { h.get a with level := (g.get a).level }

theorem Twin.value {h g : Heap ℚ} {a : Addr} (T : Twin h g a) : (g.get a).value = (h.get a).value := by rw [T]
theorem Twin.id {h g : Heap ℚ} {a : Addr} (T : Twin h g a) : (g.get a).id = (h.get a).id := by rw [T]
theorem Twin.children {h g : Heap ℚ} {a : Addr} (T : Twin h g a) : (g.get a).children = (h.get a).children := by rw [T]
theorem Twin.parents {h g : Heap ℚ} {a : Addr} (T : Twin h g a) : (g.get a).parents = (h.get a).parents := by rw [T]
theorem Twin.expands {h g : Heap ℚ} {a : Addr} (T : Twin h g a) : (g.get a).expands = (h.get a).expands := by rw [T]

/-- If the levels are the same too then everything is. -/
theorem Twin.eq {h g : Heap ℚ} {a : Addr} (T : Twin h g a) (hl : (g.get a).level = (h.get a).level) : g.get a = h.get a := by
  rw [T.trans (by rw [hl])]

/-- The nodes of the part `W` look the same in both heaps, also their levels, as far as the first heap has one. -/
def Alike (W : Addr → Prop) (h g : Heap ℚ) : Prop :=
  ∀ a, W a → Twin h g a ∧ ((g.get a).level = (h.get a).level ∨ (h.get a).level = none)

variable {W : Addr → Prop} {h g : Heap ℚ}

theorem Alike.setLevels (A : Alike W h g) (l : List Addr) (k : Int) : Alike W (setLevels h l k) (setLevels g l k) := by
  intro a ha
  obtain ⟨T, L⟩ := A a ha
  by_cases hm : a ∈ l
  · refine ⟨?_, .inl ?_⟩
    · unfold Twin at T ⊢
      rw [setLevels_get, setLevels_get, if_pos hm, if_pos hm]
      generalize g.get a = o at T ⊢
      rw [T]
    · rw [setLevels_get, setLevels_get, if_pos hm, if_pos hm]
  · unfold Twin
    rw [setLevels_get, setLevels_get, if_neg hm, if_neg hm]
    exact ⟨T, L⟩

/-- Nodes from which no belt leads out, in neither direction. -/
def Closed (h : Heap ℚ) (W : Addr → Prop) : Prop := ∀ a, W a → (∀ c ∈ (h.get a).children, W c) ∧ ∀ p ∈ (h.get a).parents, W p

/-- `g'` is `g` with other levels, in the part `W`. -/
structure Moved (W : Addr → Prop) (g g' : Heap ℚ) : Prop where
  next : g'.next = g.next
  nextUid : g'.nextUid = g.nextUid
  get : ∀ a, g'.get a = { g.get a with level := (g'.get a).level }
  frame : ∀ a, ¬ W a → g'.get a = g.get a

theorem Moved.refl (W : Addr → Prop) (g : Heap ℚ) : Moved W g g := ⟨rfl, rfl, fun _ => rfl, fun _ _ => rfl⟩

theorem Moved.trans {g g' g'' : Heap ℚ} (a : Moved W g g') (b : Moved W g' g'') : Moved W g g'' where
  next := b.next.trans a.next
  nextUid := b.nextUid.trans a.nextUid
  get x := by
    have h1 := a.get x
    have h2 := b.get x
    rw [h1] at h2
    exact h2
  frame x hx := (b.frame x hx).trans (a.frame x hx)

theorem setLevels_moved (g : Heap ℚ) (l : List Addr) (k : Int) (hl : ∀ a ∈ l, W a) : Moved W g (setLevels g l k) where
  next := (setLevels_same g l k).next
  nextUid := (setLevels_same g l k).nextUid
  get x := by rw [setLevels_get]; split <;> rfl
  frame x hx := by rw [setLevels_get, if_neg fun w => hx (hl x w)]

theorem Closed.moved {h' : Heap ℚ} (C : Closed h W) (M : Moved W h h') : Closed h' W := fun a ha => by
  rw [M.get a]
  exact C a ha

theorem mem_alike (A : Alike W h g) {s : Addr} (hs : W s) : ∀ {ps : List Addr}, (∀ p ∈ ps, W p) → g.mem s ps = h.mem s ps := by
  intro ps hps
  unfold Heap.mem Heap.same
  rw [(A s hs).1.id]
  refine Bool.eq_iff_iff.2 ?_
  simp only [List.any_eq_true]
  refine exists_congr fun p => and_congr_right fun hp => ?_
  rw [(A p (hps p hp)).1.id]

/-- **`Tree.add`** in both heaps. -/
theorem add_alike (A : Alike W h g) (C : Closed h W) {t t' : TreeObj ℚ} {nodes : List Addr} {h' : Heap ℚ} (hn : ∀ a ∈ nodes, W a)
    (hl : ∀ last, t.levels.getLast? = some last → ∀ a ∈ last, W a) (e : t.add h nodes 0 = .ok (h', t')) :
    ∃ g', t.add g nodes 0 = .ok (g', t') ∧ Alike W h' g' ∧ Moved W h h' ∧ Moved W g g' ∧ ∀ last, t'.levels.getLast? = some last → ∀ a ∈ last, W a := by
  unfold TreeObj.add at e ⊢
  match nodes, hn, e with
  | n0 :: ns, hn, e =>
    simp only at e ⊢
    cases hlast : t.levels.getLast? with
    | none => rw [hlast] at e; cases e
    | some last =>
      rw [hlast] at e
      simp only at e ⊢
      have hlw := hl last hlast
      have h0 : W n0 := hn n0 (by simp)
      have hk : (last.filter fun s => !g.mem s (g.get n0).parents) = last.filter fun s => !h.mem s (h.get n0).parents := by
        refine List.filter_congr fun s hs => ?_
        rw [(A n0 h0).1.parents, mem_alike A (hlw s hs) (C n0 h0).2]
      have hw : ∀ y, y ∈ n0 :: ns ∨ y ∈ (last.filter fun s => !h.mem s (h.get n0).parents) → W y := fun y hy => by
        rcases hy with hy | hy
        · exact hn y hy
        · exact hlw y (List.mem_of_mem_filter hy)
      have hi : insortAll (fun a => (g.get a).value) (last.filter fun s => !h.mem s (h.get n0).parents) (n0 :: ns) =
          insortAll (fun a => (h.get a).value) (last.filter fun s => !h.mem s (h.get n0).parents) (n0 :: ns) :=
        insortAll_congr _ _ _ _ fun y hy => (A y (hw y hy)).1.value
      rw [hk, hi]
      have hsw : ∀ a ∈ insortAll (fun a => (h.get a).value) (last.filter fun s => !h.mem s (h.get n0).parents) (n0 :: ns), W a := fun a ha => by
        rw [(insortAll_perm _ _ _).mem_iff, List.mem_append] at ha
        exact hw a ha
      generalize insortAll (fun a => (h.get a).value) (last.filter fun s => !h.mem s (h.get n0).parents) (n0 :: ns) = src at e hsw ⊢
      have A' := A.setLevels src (t.currentLevel + 1)
      have hv : valuesOf (setLevels g src (t.currentLevel + 1)) src = valuesOf (setLevels h src (t.currentLevel + 1)) src :=
        List.map_congr_left fun a ha => (A' a (hsw a ha)).1.value
      simp only [Except.ok.injEq, Prod.mk.injEq] at e
      obtain ⟨rfl, rfl⟩ := e
      refine ⟨_, by rw [hv], A', setLevels_moved _ _ _ hsw, setLevels_moved _ _ _ hsw, fun last' e' a ha => ?_⟩
      simp only [List.getLast?_append, List.getLast?_singleton, Option.some_or, Option.some.injEq] at e'
      subst e'
      exact hsw a ha

/-- The loop of `attach_leaves` in both heaps. -/
theorem attachLoop_alike : ∀ (fuel : Nat) (h g : Heap ℚ) (t : TreeObj ℚ) (ls : List (List Addr)) (h' : Heap ℚ) (t' : TreeObj ℚ), Alike W h g → Closed h W →
    (∀ l ∈ ls, ∀ a ∈ l, W a) → (∀ last, t.levels.getLast? = some last → ∀ a ∈ last, W a) → attachLoop fuel h t ls = .ok (h', t') →
    ∃ g', attachLoop fuel g t ls = .ok (g', t') ∧ Alike W h' g' ∧ Moved W h h' ∧ Moved W g g' := by
  intro fuel
  induction fuel with
  | zero =>
    intro h g t ls h' t' A C hls hl e
    cases ls with
    | nil =>
      simp only [attachLoop, Except.ok.injEq, Prod.mk.injEq] at e
      obtain ⟨rfl, rfl⟩ := e
      exact ⟨g, rfl, A, .refl _ _, .refl _ _⟩
    | cons l ls => cases e
  | succ fuel ih =>
    intro h g t ls h' t' A C hls hl e
    cases ls with
    | nil =>
      simp only [attachLoop, Except.ok.injEq, Prod.mk.injEq] at e
      obtain ⟨rfl, rfl⟩ := e
      exact ⟨g, rfl, A, .refl _ _, .refl _ _⟩
    | cons l ls =>
      rw [attachLoop] at e ⊢
      cases hadd : t.add h l 0 with
      | error er => rw [hadd] at e; cases e
      | ok x =>
        obtain ⟨h₂, t₂⟩ := x
        obtain ⟨g₂, q1, q2, q3, q4, q5⟩ := add_alike A C (hls l (by simp)) hl hadd
        rw [hadd] at e
        rw [q1]
        simp only at e ⊢
        have hk : (l.map fun a => (g₂.get a).children) = l.map fun a => (h₂.get a).children :=
          List.map_congr_left fun a ha => (q2 a (hls l (by simp) a ha)).1.children
        rw [hk]
        obtain ⟨g', w1, w2, w3, w4⟩ := ih h₂ g₂ t₂ _ h' t' q2 (C.moved q3) (fun l' hl' a ha => by
          rcases List.mem_append.1 hl' with w | w
          · exact hls l' (List.mem_cons_of_mem _ w) a ha
          · obtain ⟨b, hb, rfl⟩ := List.mem_map.1 (List.mem_of_mem_filter w)
            exact ((C.moved q3) b (hls l (by simp) b hb)).1 a ha) q5 e
        exact ⟨g', w1, w2, q3.trans w3, q4.trans w4⟩

/-- The nodes `B`, below the nodes `tops`, are as they were, apart from what leads to those that were attached. -/
structure Resting (tops : List Addr) (B : Addr → Prop) (h g : Heap ℚ) : Prop where
  next : h.next ≤ g.next
  nextUid : h.nextUid ≤ g.nextUid
  top : ∀ a ∈ tops, g.get a = h.get a
  keep : ∀ a, B a → g.get a = { h.get a with level := (g.get a).level, parents := (g.get a).parents }
  parents : ∀ a, B a → (∀ r ∈ tops, a ∉ (h.get r).children) → (g.get a).parents = (h.get a).parents

theorem Resting.children {tops : List Addr} {B : Addr → Prop} (K : Resting tops B h g) {a : Addr} (ha : B a) : (g.get a).children = (h.get a).children := by
  rw [K.keep a ha]

theorem Resting.expands {tops : List Addr} {B : Addr → Prop} (K : Resting tops B h g) {a : Addr} (ha : B a) : (g.get a).expands = (h.get a).expands := by
  rw [K.keep a ha]

theorem Resting.refl (tops : List Addr) (B : Addr → Prop) (h : Heap ℚ) : Resting tops B h h :=
  ⟨le_rfl, le_rfl, fun _ _ => rfl, fun _ _ => rfl, fun _ _ _ => rfl⟩

theorem Resting.trans {tops : List Addr} {B : Addr → Prop} {h g k : Heap ℚ} (a : Resting tops B h g) (b : Resting tops B g k) : Resting tops B h k :=
  ⟨a.next.trans b.next, a.nextUid.trans b.nextUid, fun x hx => (b.top x hx).trans (a.top x hx), fun x hx => by
      have h1 := a.keep x hx
      have h2 := b.keep x hx
      generalize g.get x = o at h1 h2
      generalize k.get x = o' at h2 ⊢
      rw [h2, h1],
    fun x hx hr => (b.parents x hx fun r hr' => by rw [a.top r hr']; exact hr r hr').trans (a.parents x hx hr)⟩

/-- The tree `t`, with nodes `X`, and the nodes `B` below `tops` do not touch. -/
structure Ready (h : Heap ℚ) (t : TreeObj ℚ) (tops : List Addr) (X B : Addr → Prop) : Prop where
  apart : Apart h (t.sources.zip tops)
  count : t.nSources = t.sources.length
  disjoint : ∀ a, X a → ¬ B a
  topB : ∀ a ∈ tops, ¬ B a
  topX : ∀ a ∈ tops, ¬ X a
  sources : ∀ a ∈ t.sources, X a
  closed : Closed h X
  hung : ∀ r ∈ tops, ∀ c ∈ (h.get r).children, B c
  below : ∀ a, B a → ∀ c ∈ (h.get a).children, B c
  above : ∀ a, B a → (∀ r ∈ tops, a ∉ (h.get r).children) → ∀ p ∈ (h.get a).parents, B p
  noLevel : ∀ a, B a → (h.get a).level = none
  last : ∀ last, t.levels.getLast? = some last → ∀ a ∈ last, X a

/-- **`attach_leaves`** in both heaps. -/
theorem attachLeaves_alike {t t' : TreeObj ℚ} {tops : List Addr} {X B : Addr → Prop} (D : Ready h t tops X B) (K : Resting tops B h g)
    (hX : ∀ a, X a → g.get a = h.get a) {fuel : Nat} {h' : Heap ℚ} (e : t.attachLeaves fuel h tops = .ok (h', t')) :
    ∃ g', t.attachLeaves fuel g tops = .ok (g', t') ∧ Alike (fun a => X a ∨ B a) h' g' ∧ Resting tops B g g' ∧
      (∀ a, ¬ X a → ¬ B a → g'.get a = g.get a) ∧ Resting tops B h h' ∧
      (∀ a, X a → (h'.get a).parents = (h.get a).parents) ∧ (∀ a, X a → a ∉ t.sources → (h'.get a).children = (h.get a).children) ∧
      (∀ a ∈ t.sources, (∀ c ∈ (h'.get a).children, c ∈ (h.get a).children ∨ ∃ r ∈ tops, c ∈ (h.get r).children) ∧
        ∀ x, .extract x ∈ (h'.get a).expands → .extract x ∈ (h.get a).expands) := by
  unfold TreeObj.attachLeaves at e ⊢
  by_cases hlen : tops.length ≠ t.nSources
  · rw [if_pos hlen] at e; cases e
  rw [if_neg hlen] at e ⊢
  have hlt : ¬ t.sources.length < t.nSources := by rw [D.count]; exact lt_irrefl _
  rw [if_neg hlt] at e ⊢
  have hlen' : tops.length = t.sources.length := by rw [← D.count]; exact not_not.1 hlen
  have htake : t.sources.take t.nSources = t.sources := by rw [D.count]; exact List.take_length
  rw [htake] at e ⊢
  have hps : ∀ p ∈ t.sources.zip tops, p.1 ∈ t.sources ∧ p.2 ∈ tops := fun p hp => List.of_mem_zip hp
  have hfst : (t.sources.zip tops).map Prod.fst = t.sources := List.map_fst_zip hlen'.ge
  have htopg : ∀ p ∈ t.sources.zip tops, g.get p.2 = h.get p.2 := fun p hp => K.top _ (hps p hp).2
  have hsrcg : ∀ p ∈ t.sources.zip tops, g.get p.1 = h.get p.1 := fun p hp => hX _ (D.sources _ (hps p hp).1)
  have Ag : Apart g (t.sources.zip tops) := by
    refine ⟨D.apart.srcs, D.apart.leaf, fun p hp q hq => ?_, D.apart.kids.imp_of_mem fun {p q} hp hq w => ?_⟩
    · rw [htopg q hq]
      exact D.apart.below p hp q hq
    · rw [htopg p hp, htopg q hq]
      exact w
  obtain ⟨H, hls⟩ := attachOne_all (t.sources.zip tops) h [] D.apart
  obtain ⟨G, gls⟩ := attachOne_all (t.sources.zip tops) g [] Ag
  have els : ((t.sources.zip tops).foldl attachOne (g, [])).2 = ((t.sources.zip tops).foldl attachOne (h, [])).2 := by
    rw [gls, hls]
    congr 2
    exact List.map_congr_left fun p hp => by rw [htopg p hp, hsrcg p hp]
  simp only at e ⊢
  rw [els]
  have hpair : ∀ r ∈ tops, ∃ a, (a, r) ∈ t.sources.zip tops := by
    intro r hr
    obtain ⟨i, hi, rfl⟩ := List.getElem_of_mem hr
    exact ⟨t.sources[i]'(by omega), List.mem_iff_getElem.2 ⟨i, by rw [List.length_zip]; omega, by simp⟩⟩
  have hpair' : ∀ a ∈ t.sources, ∃ r, (a, r) ∈ t.sources.zip tops := by
    intro a ha
    obtain ⟨i, hi, rfl⟩ := List.getElem_of_mem ha
    exact ⟨tops[i]'(by omega), List.mem_iff_getElem.2 ⟨i, by rw [List.length_zip]; omega, by simp⟩⟩
  have hBsrc : ∀ a, B a → a ∉ t.sources := fun a ha hs => D.disjoint a (D.sources a hs) ha
  have hXkid : ∀ a, X a → ∀ p ∈ t.sources.zip tops, a ∉ (h.get p.2).children := fun a ha p hp hc => D.disjoint a ha (D.hung _ (hps p hp).2 a hc)
  have hls' : ∀ l ∈ ((t.sources.zip tops).foldl attachOne (h, [])).2, ∀ a ∈ l, X a ∨ B a := by
    rw [hls, List.nil_append]
    intro l hl a ha
    obtain ⟨p, hp, rfl⟩ := List.mem_map.1 (List.mem_of_mem_filter hl)
    rcases List.mem_append.1 ha with w | w
    · exact .inl ((D.closed _ (D.sources _ (hps p hp).1)).1 a w)
    · exact .inr (D.hung _ (hps p hp).2 a w)
  generalize ((t.sources.zip tops).foldl attachOne (h, [])).2 = ls at *
  generalize ((t.sources.zip tops).foldl attachOne (h, [])).1 = h₁ at *
  generalize ((t.sources.zip tops).foldl attachOne (g, [])).1 = g₁ at *
  -- what the first stage does to the nodes
  have hsrc : ∀ a ∈ t.sources, ∃ r ∈ tops, h₁.get a = grownSource (h.get a) (h.get r).children ∧ g₁.get a = grownSource (h.get a) (h.get r).children :=
    fun a ha => by
      obtain ⟨r, hr⟩ := hpair' a ha
      refine ⟨r, (hps _ hr).2, H.src _ hr, ?_⟩
      rw [G.src _ hr, hsrcg _ hr, htopg _ hr]
  have hXo : ∀ a, X a → a ∉ t.sources → h₁.get a = h.get a ∧ g₁.get a = h.get a := fun a ha hs => by
    refine ⟨H.frame a (by rw [hfst]; exact hs) (hXkid a ha), ?_⟩
    rw [G.frame a (by rw [hfst]; exact hs) fun p hp => by rw [htopg p hp]; exact hXkid a ha p hp]
    exact hX a ha
  have hBk : ∀ a, B a → (∀ r ∈ tops, a ∉ (h.get r).children) → h₁.get a = h.get a ∧ g₁.get a = g.get a := fun a ha hn =>
    ⟨H.frame a (by rw [hfst]; exact hBsrc a ha) fun p hp => hn _ (hps p hp).2,
      G.frame a (by rw [hfst]; exact hBsrc a ha) fun p hp => by rw [htopg p hp]; exact hn _ (hps p hp).2⟩
  have hBh : ∀ a, B a → (∃ r ∈ tops, a ∈ (h.get r).children) → ∃ p ∈ t.sources, h₁.get a = { h.get a with parents := [p] } ∧
      g₁.get a = { g.get a with parents := [p] } := fun a ha hn => by
    obtain ⟨r, hr, hc⟩ := hn
    obtain ⟨p, hp⟩ := hpair r hr
    refine ⟨p, (hps _ hp).1, H.kid _ hp a hc, G.kid _ hp a ?_⟩
    rw [htopg _ hp]
    exact hc
  have hBcases : ∀ a, B a → (∃ ps, h₁.get a = { h.get a with parents := ps } ∧ g₁.get a = { g.get a with parents := ps }) := fun a ha => by
    by_cases hn : ∃ r ∈ tops, a ∈ (h.get r).children
    · obtain ⟨p, -, w1, w2⟩ := hBh a ha hn
      exact ⟨_, w1, w2⟩
    · simp only [not_exists, not_and] at hn
      obtain ⟨w1, w2⟩ := hBk a ha hn
      refine ⟨(h.get a).parents, w1, ?_⟩
      rw [w2, ← K.parents a ha hn]
  have A₁ : Alike (fun a => X a ∨ B a) h₁ g₁ := by
    rintro a (ha | ha)
    · by_cases hs : a ∈ t.sources
      · obtain ⟨r, -, w1, w2⟩ := hsrc a hs
        rw [← w1] at w2
        exact ⟨by unfold Twin; rw [w2], .inl (by rw [w2])⟩
      · obtain ⟨w1, w2⟩ := hXo a ha hs
        rw [← w1] at w2
        exact ⟨by unfold Twin; rw [w2], .inl (by rw [w2])⟩
    · obtain ⟨ps, w1, w2⟩ := hBcases a ha
      refine ⟨?_, .inr (by rw [w1]; exact D.noLevel a ha)⟩
      have := K.keep a ha
      unfold Twin
      rw [w1, w2]
      generalize g.get a = o at this ⊢
      rw [this]
  have C₁ : Closed h₁ fun a => X a ∨ B a := by
    rintro a (ha | ha)
    · by_cases hs : a ∈ t.sources
      · obtain ⟨r, hr, w1, -⟩ := hsrc a hs
        rw [w1]
        refine ⟨fun c hc => ?_, fun p hp => .inl ((D.closed a ha).2 p hp)⟩
        rcases List.mem_append.1 hc with w | w
        · exact .inl ((D.closed a ha).1 c w)
        · exact .inr (D.hung r hr c w)
      · rw [(hXo a ha hs).1]
        exact ⟨fun c hc => .inl ((D.closed a ha).1 c hc), fun p hp => .inl ((D.closed a ha).2 p hp)⟩
    · refine ⟨fun c hc => .inr (D.below a ha c ?_), fun p hp => ?_⟩
      · obtain ⟨ps, w1, -⟩ := hBcases a ha
        rw [w1] at hc
        exact hc
      · by_cases hn : ∃ r ∈ tops, a ∈ (h.get r).children
        · obtain ⟨q, hq, w1, -⟩ := hBh a ha hn
          rw [w1] at hp
          rw [List.mem_singleton.1 hp]
          exact .inl (D.sources q hq)
        · simp only [not_exists, not_and] at hn
          rw [(hBk a ha hn).1] at hp
          exact .inr (D.above a ha hn p hp)
  obtain ⟨g', w1, w2, w3, w4⟩ := attachLoop_alike fuel h₁ g₁ t ls h' t' A₁ C₁ hls' (fun last hl a ha => .inl (D.last last hl a ha)) e
  have htop₁ : ∀ a ∈ tops, h₁.get a = h.get a ∧ g₁.get a = g.get a := fun a ha => by
    have hs : a ∉ t.sources := fun w => D.topX a ha (D.sources a w)
    have hk : ∀ p ∈ t.sources.zip tops, a ∉ (h.get p.2).children := fun p hp w => D.topB a ha (D.hung _ (hps p hp).2 a w)
    exact ⟨H.frame a (by rw [hfst]; exact hs) hk, G.frame a (by rw [hfst]; exact hs) fun p hp => by rw [htopg p hp]; exact hk p hp⟩
  have hout : ∀ a ∈ tops, ¬ (X a ∨ B a) := fun a ha => not_or.2 ⟨D.topX a ha, D.topB a ha⟩
  refine ⟨g', w1, w2, ?_, fun a ha hb => ?_, ?_, fun a ha => ?_, fun a ha hs => ?_, fun a ha => ?_⟩
  · refine ⟨(G.next.symm.trans w4.next.symm).le, (G.nextUid.symm.trans w4.nextUid.symm).le, fun a ha => ?_, fun a ha => ?_, fun a ha hn => ?_⟩
    · rw [w4.frame a (hout a ha), (htop₁ a ha).2]
    · obtain ⟨ps, -, k⟩ := hBcases a ha
      rw [w4.get a, k]
    · rw [w4.get a, (hBk a ha fun r hr => by rw [← K.top r hr]; exact hn r hr).2]
  · have hs : a ∉ t.sources := fun w => ha (D.sources a w)
    have hk : ∀ p ∈ t.sources.zip tops, a ∉ (g.get p.2).children := fun p hp w => hb (D.hung _ (hps p hp).2 a (by rw [← htopg p hp]; exact w))
    rw [w4.frame a (not_or.2 ⟨ha, hb⟩), G.frame a (by rw [hfst]; exact hs) hk]
  · refine ⟨(H.next.symm.trans w3.next.symm).le, (H.nextUid.symm.trans w3.nextUid.symm).le, fun a ha => ?_, fun a ha => ?_, fun a ha hn => ?_⟩
    · rw [w3.frame a (hout a ha), (htop₁ a ha).1]
    · obtain ⟨ps, k, -⟩ := hBcases a ha
      rw [w3.get a, k]
    · rw [w3.get a, (hBk a ha hn).1]
  · rw [w3.get a]
    by_cases hs : a ∈ t.sources
    · obtain ⟨r, -, k, -⟩ := hsrc a hs
      rw [k]
      rfl
    · rw [(hXo a ha hs).1]
  · rw [w3.get a, (hXo a ha hs).1]
  · obtain ⟨r, hr, k, -⟩ := hsrc a ha
    rw [w3.get a, k]
    refine ⟨fun c hc => ?_, fun x hx => ?_⟩
    · exact (List.mem_append.1 hc).imp_right fun w => ⟨r, hr, w⟩
    · rcases List.mem_append.1 hx with w | w
      · exact w
      · split at w <;> simp at w

end Satis.Graph
