import Verif.Graph.Group
import Verif.Graph.GroupSpec
import Verif.Graph.Moves
import Verif.Cost.Costs
/-!
# `group_values` builds a forest
-/

namespace Satis.Graph
open Satis Satis.Cost

/-! ### Groups -/

/-- What the dictionary `groups` contains. -/
structure Groups (h : Heap Int) (nodes : List Addr) (d : Dict Int (List Addr)) : Prop where
  keys : d.keys.Nodup
  nonempty : ∀ kv ∈ d, kv.2 ≠ []
  value : ∀ kv ∈ d, ∀ a ∈ kv.2, (h.get a).value = kv.1
  perm : (d.flatMap Prod.snd).Perm nodes

theorem flatMap_set_perm (d : Dict Int (List Addr)) (hd : d.keys.Nodup) (k : Int) (a : Addr) :
    ((d.set k ((d.get? k).getD [] ++ [a])).flatMap Prod.snd).Perm (d.flatMap Prod.snd ++ [a]) := by
  induction d with
  | nil => simp [Dict.set, Dict.get?]
  | cons kv d ih =>
    obtain ⟨k', v⟩ := kv
    simp only [Dict.keys, List.map_cons, List.nodup_cons] at hd
    simp only [Dict.set, Dict.get?]
    by_cases h : k' = k
    · rw [if_pos h, if_pos h]
      simp only [Option.getD_some, List.flatMap_cons, List.append_assoc]
      exact List.Perm.append_left _ List.perm_append_comm
    · rw [if_neg h, if_neg h]
      simp only [List.flatMap_cons, List.append_assoc]
      exact List.Perm.append_left _ (ih hd.2)

theorem mem_set_cases {K W : Type} [DecidableEq K] (d : Dict K W) (k : K) (v : W) (kv : K × W) (h : kv ∈ d.set k v) :
    kv = (k, v) ∨ kv ∈ d := by
  induction d with
  | nil => simp only [Dict.set, List.mem_singleton] at h; exact Or.inl h
  | cons e d ih =>
    obtain ⟨k', v'⟩ := e
    simp only [Dict.set] at h
    by_cases hk : k' = k
    · rw [if_pos hk] at h
      rcases List.mem_cons.1 h with h | h
      · exact Or.inl (by rw [h, hk])
      · exact Or.inr (by simp [h])
    · rw [if_neg hk] at h
      rcases List.mem_cons.1 h with h | h
      · exact Or.inr (by simp [h])
      · rcases ih h with h | h
        · exact Or.inl h
        · exact Or.inr (by simp [h])

theorem groupBy_spec (h : Heap Int) (nodes : List Addr) : Groups h nodes (groupBy h nodes) := by
  induction nodes using List.reverseRecOn with
  | nil => exact ⟨by simp [groupBy, Dict.keys], by simp [groupBy], by simp [groupBy], by simp [groupBy]⟩
  | append_singleton l a ih =>
    have e : groupBy h (l ++ [a]) =
        (groupBy h l).set (h.get a).value (((groupBy h l).get? (h.get a).value).getD [] ++ [a]) := by simp [groupBy]
    rw [e]
    refine ⟨Dict.keys_nodup_set _ _ _ ih.keys, ?_, ?_, ?_⟩
    · intro kv hkv
      rcases mem_set_cases _ _ _ _ hkv with rfl | hkv
      · simp
      · exact ih.nonempty kv hkv
    · intro kv hkv b hb
      rcases mem_set_cases _ _ _ _ hkv with rfl | hkv
      · dsimp only at hb ⊢
        rcases List.mem_append.1 hb with hb | hb
        · cases hg : (groupBy h l).get? (h.get a).value with
          | none => rw [hg] at hb; simp at hb
          | some v =>
            rw [hg] at hb
            exact ih.value _ (Dict.mem_of_get? _ _ _ hg) b hb
        · rw [List.mem_singleton.1 hb]
      · exact ih.value kv hkv b hb
    · exact (flatMap_set_perm _ ih.keys _ _).trans (ih.perm.append_right _)

theorem flatMap_length_le {α β : Type} (d : List (α × List β)) (hne : ∀ kv ∈ d, kv.2 ≠ []) :
    d.length ≤ (d.flatMap Prod.snd).length ∧
    (d.length = (d.flatMap Prod.snd).length → ∀ kv ∈ d, ∃ a, kv.2 = [a]) := by
  induction d with
  | nil => simp
  | cons kv d ih =>
    obtain ⟨i1, i2⟩ := ih (fun x hx => hne x (by simp [hx]))
    have h1 : 1 ≤ kv.2.length := List.length_pos_iff.2 (hne kv (by simp))
    simp only [List.length_cons, List.flatMap_cons, List.length_append, List.mem_cons, forall_eq_or_imp]
    refine ⟨by omega, fun he => ⟨List.length_eq_one_iff.1 (by omega), i2 (by omega)⟩⟩

/-! ### Adoption -/

theorem adoptAll (p : Addr) (cs : List Addr) (h : Heap Int) (hp : p ∉ cs) :
    (cs.foldl (adopt p) h).next = h.next ∧ (cs.foldl (adopt p) h).nextUid = h.nextUid ∧
    (cs.foldl (adopt p) h).get p = { h.get p with children := (h.get p).children ++ cs } ∧
    (∀ c ∈ cs, (cs.foldl (adopt p) h).get c = { h.get c with parents := [p] }) ∧
    ∀ b, b ≠ p → b ∉ cs → (cs.foldl (adopt p) h).get b = h.get b := by
  induction cs generalizing h with
  | nil => exact ⟨rfl, rfl, by simp, by simp, fun _ _ _ => rfl⟩
  | cons c cs ih =>
    simp only [List.mem_cons, not_or] at hp
    obtain ⟨i1, i2, i3, i4, i5⟩ := ih (adopt p h c) hp.2
    have g1 : (adopt p h c).get p = { h.get p with children := (h.get p).children ++ [c] } := by
      simp [adopt, Heap.modify, Heap.set, hp.1]
    have g2 : (adopt p h c).get c = { h.get c with parents := [p] } := by
      simp [adopt, Heap.modify, Heap.set, Ne.symm hp.1]
    have g3 : ∀ b, b ≠ p → b ≠ c → (adopt p h c).get b = h.get b := by
      intro b hb hc; simp [adopt, Heap.modify, Heap.set, hb, hc]
    simp only [List.foldl_cons]
    refine ⟨i1, i2, ?_, ?_, ?_⟩
    · rw [i3, g1]; simp
    · intro x hx
      by_cases hxc : x ∈ cs
      · rw [i4 x hxc]
        by_cases hx2 : x = c
        · subst hx2; rw [g2]
        · rw [g3 x (fun e => hp.2 (e ▸ hxc)) hx2]
      · have : x = c := by rcases List.mem_cons.1 hx with h | h; exacts [h, absurd h hxc]
        subst this
        rw [i5 x (Ne.symm hp.1) hxc, g2]
    · intro b hb hbc
      simp only [List.mem_cons, not_or] at hbc
      rw [i5 b hb hbc.2, g3 b hb hbc.1]

/-! ### Invariant -/

/-- What holds of the nodes made so far, when the nodes `tops` are those without a parent; the first nodes carry the values `vs`. -/
structure GroupInv (cfg : Config) (h0 : Heap Int) (vs : List Int) (h : Heap Int) (tops inner : List Addr) (cost : Int) : Prop where
  ext : Heap.Ext h0 h
  uid : h.nextUid + h0.next = h0.nextUid + h.next
  range : h.next = h0.next + vs.length + inner.length
  inner_eq : inner = List.range' (h0.next + vs.length) inner.length
  tops_nodup : tops.Nodup
  tops_range : ∀ a ∈ tops, h0.next ≤ a ∧ a < h.next
  id : ∀ a, h0.next ≤ a → a < h.next → (h.get a).id + h0.next = h0.nextUid + a
  bare : ∀ a, h0.next ≤ a → a < h.next → (h.get a).level = none ∧ (h.get a).levelsToAdd = 0
  nonneg : ∀ a, h0.next ≤ a → a < h.next → 0 ≤ (h.get a).value
  posInner : ∀ a ∈ inner, 0 < (h.get a).value
  leaf : ∀ a, h0.next ≤ a → a < h0.next + vs.length → (h.get a).children = [] ∧ (h.get a).expands = []
  values : (List.range' h0.next vs.length).map (fun a => (h.get a).value) = vs
  fan : ∀ a ∈ inner, 2 ≤ (h.get a).children.length ∧ (h.get a).children.Nodup
  below : ∀ a ∈ inner, ∀ c ∈ (h.get a).children, h0.next ≤ c ∧ c < a
  equal : ∀ a ∈ inner, ∀ c ∈ (h.get a).children, (h.get a).value = ((h.get a).children.length : Int) * (h.get c).value
  parent : ∀ a ∈ inner, ∀ c ∈ (h.get a).children, (h.get c).parents = [a]
  top : ∀ a ∈ tops, (h.get a).parents = []
  up : ∀ a, h0.next ≤ a → a < h.next → a ∉ tops → ∃ p ∈ inner, a ∈ (h.get p).children
  tags : ∀ a ∈ inner, (h.get a).expands =
    if 3 < (h.get a).children.length then [Expand.divide (h.get a).children.length] else []
  costs : DivideCosts cfg h inner cost
  total : (tops.map fun a => (h.get a).value).sum = vs.sum

theorem GroupInv.perm {cfg : Config} {h0 h : Heap Int} {vs : List Int} {tops tops' inner : List Addr} {cost : Int}
    (I : GroupInv cfg h0 vs h tops inner cost) (hp : tops'.Perm tops) : GroupInv cfg h0 vs h tops' inner cost :=
  { I with
    tops_nodup := hp.nodup_iff.2 I.tops_nodup
    tops_range := fun a ha => I.tops_range a (hp.mem_iff.1 ha)
    top := fun a ha => I.top a (hp.mem_iff.1 ha)
    up := fun a h1 h2 h3 => I.up a h1 h2 (fun h => h3 (hp.mem_iff.2 h))
    total := by rw [(hp.map _).sum_eq]; exact I.total }

theorem GroupInv.inner_range {cfg : Config} {h0 h : Heap Int} {vs : List Int} {tops inner : List Addr} {cost : Int}
    (I : GroupInv cfg h0 vs h tops inner cost) {a : Addr} : a ∈ inner ↔ h0.next + vs.length ≤ a ∧ a < h.next := by
  rw [I.inner_eq, List.mem_range', I.range]
  constructor
  · rintro ⟨i, hi, rfl⟩; omega
  · rintro ⟨h1, h2⟩; exact ⟨a - (h0.next + vs.length), by omega, by omega⟩

theorem GroupInv.positive {cfg : Config} {h0 h : Heap Int} {vs : List Int} {tops inner : List Addr} {cost : Int}
    (I : GroupInv cfg h0 vs h tops inner cost) (hpos : ∀ v ∈ vs, 0 < v) (a : Addr) (h1 : h0.next ≤ a) (h2 : a < h.next) :
    0 < (h.get a).value := by
  by_cases hi : h0.next + vs.length ≤ a
  · exact I.posInner a (I.inner_range.2 ⟨hi, h2⟩)
  · apply hpos
    have : (h.get a).value ∈ (List.range' h0.next vs.length).map (fun a => (h.get a).value) :=
      List.mem_map.2 ⟨a, List.mem_range'.2 ⟨a - h0.next, by omega, by omega⟩, rfl⟩
    rwa [I.values] at this

/-- Two nodes of value zero cannot be grouped. -/
theorem groupStep_zero (cfg : Config) (s : Heap Int × List Addr × Int) (ns : List Addr) (hn : 1 < ns.length) :
    groupStep cfg s (0, ns) = .error .valueError := by
  unfold groupStep
  rw [if_pos hn]
  simp only [zero_mul]
  simp [newNode, divideCost]

/-- Giving a common parent to some nodes of equal value. -/
theorem GroupInv.group {cfg : Config} {h0 h : Heap Int} {vs : List Int} {ns rest inner : List Addr} {cost : Int}
    (I : GroupInv cfg h0 vs h (ns ++ rest) inner cost) (w : Int) (hwpos : 0 < w) (hn : 1 < ns.length) (hw : ∀ a ∈ ns, (h.get a).value = w)
    (next : List Addr) :
    ∃ h' c, groupStep cfg (h, next, cost) (w, ns) = .ok (h', insort (fun a => (h'.get a).value) next h.next, cost + c) ∧
      GroupInv cfg h0 vs h' (h.next :: rest) (inner ++ [h.next]) (cost + c) ∧ h'.next = h.next + 1 ∧
      ∀ a, a < h.next → (h'.get a).value = (h.get a).value := by
  have hin : ∀ a ∈ ns, h0.next ≤ a ∧ a < h.next := fun a ha => I.tops_range a (by simp [ha])
  have hge : (ns.length : Int) ≤ w * ns.length := by nlinarith
  obtain ⟨-, -, c, -, -, -, -, hc, -⟩ := divideCost_core cfg (w * ns.length) ns.length (by omega) (by omega) hge
  have hpn : h.next ∉ ns := fun e => absurd (hin _ e).2 (lt_irrefl _)
  obtain ⟨h1, h1eq⟩ : ∃ h1, h1 = (({ h with nextUid := h.nextUid + 1 } : Heap Int).alloc
      (freshNode (w * ns.length) h.nextUid [] none)).1 := ⟨_, rfl⟩
  have hnew : newNode h (w * (ns.length : Int)) [] none none = .ok (h1, h.next) := by
    unfold newNode
    rw [if_neg (by omega), h1eq]; rfl
  have g1 : h1.get h.next = freshNode (w * ns.length) h.nextUid [] none := by rw [h1eq]; simp [Heap.alloc]
  have g2 : ∀ a, a ≠ h.next → h1.get a = h.get a := by intro a ha; rw [h1eq]; simp [Heap.alloc, ha]
  have g3 : h1.next = h.next + 1 := by rw [h1eq]; rfl
  have g4 : h1.nextUid = h.nextUid + 1 := by rw [h1eq]; rfl
  obtain ⟨b1, b2, b3, b4, b5⟩ := adoptAll h.next ns h1 hpn
  generalize hh2 : ns.foldl (adopt h.next) h1 = h2 at b1 b2 b3 b4 b5
  obtain ⟨h3, h3eq⟩ : ∃ h3, h3 = if ns.length > 3 then tagExpand h2 h.next (.divide ns.length) else h2 := ⟨_, rfl⟩
  have c0 : h3.next = h.next + 1 ∧ h3.nextUid = h.nextUid + 1 := by
    rw [h3eq]; split <;> simp [tagExpand, Heap.modify, Heap.set, b1, b2, g3, g4]
  have c1 : h3.get h.next = { freshNode (w * ns.length) h.nextUid [] none with
      children := ns, expands := if 3 < ns.length then [Expand.divide ns.length] else [] } := by
    rw [h3eq]
    split
    · simp [tagExpand, Heap.modify, Heap.set, b3, g1, freshNode]
    · rw [b3, g1]; simp [freshNode]
  have c2 : ∀ a ∈ ns, h3.get a = { h.get a with parents := [h.next] } := by
    intro a ha
    have hne : a ≠ h.next := fun e => hpn (e ▸ ha)
    rw [h3eq]
    split
    · simp only [tagExpand, Heap.modify, Heap.set, if_neg hne]; rw [b4 a ha, g2 a hne]
    · rw [b4 a ha, g2 a hne]
  have c3 : ∀ a, a ≠ h.next → a ∉ ns → h3.get a = h.get a := by
    intro a hne ha
    rw [h3eq]
    split
    · simp only [tagExpand, Heap.modify, Heap.set, if_neg hne]; rw [b5 a hne ha, g2 a hne]
    · rw [b5 a hne ha, g2 a hne]
  have c4 : ∀ a, a ≠ h.next → h3.get a = { h.get a with parents := (h3.get a).parents } := by
    intro a hne
    by_cases ha : a ∈ ns
    · rw [c2 a ha]
    · rw [c3 a hne ha]
  have cval : ∀ a, a ≠ h.next → (h3.get a).value = (h.get a).value := fun a hne => by rw [c4 a hne]
  have cch : ∀ a, a ≠ h.next → (h3.get a).children = (h.get a).children := fun a hne => by rw [c4 a hne]
  have cex : ∀ a, a ≠ h.next → (h3.get a).expands = (h.get a).expands := fun a hne => by rw [c4 a hne]
  have hinner : ∀ a ∈ inner, a ≠ h.next := fun a ha e => by
    have := (I.inner_range.1 ha).2; omega
  have hn0 : h0.next ≤ h.next := I.ext.next
  have hnd := List.nodup_append.1 I.tops_nodup
  have hkid : ∀ a ∈ inner, ∀ x ∈ (h.get a).children, x ∉ ns ++ rest := by
    intro a ha x hx hmem
    have h1 := I.parent a ha x hx
    rw [I.top x hmem] at h1
    simp at h1
  refine ⟨h3, c, ?_, ?_, c0.1, fun a ha => cval a (by omega)⟩
  · unfold groupStep
    rw [if_pos hn]
    dsimp only
    rw [hnew]
    dsimp only
    rw [hc]
    dsimp only
    rw [hh2, ← h3eq]
  · refine ⟨?_, ?_, ?_, ?_, ?_, ?_, ?_, ?_, ?_, ?_, ?_, ?_, ?_, ?_, ?_, ?_, ?_, ?_, ?_, ?_, ?_⟩
    · refine ⟨?_, by omega, by have := I.ext.nextUid; omega⟩
      intro a ha
      rw [c3 a (by omega) (fun e => absurd (hin a e).1 (by omega))]
      exact I.ext.get a ha
    · have := I.uid; omega
    · have := I.range; rw [List.length_append]; simp; omega
    · rw [List.length_append, List.length_singleton, List.range'_concat, ← I.inner_eq, I.range]
      simp
    · rw [List.nodup_cons]
      refine ⟨fun e => ?_, hnd.2.1⟩
      have := (I.tops_range h.next (by simp [e])).2; omega
    · intro a ha
      rcases List.mem_cons.1 ha with rfl | ha
      · omega
      · have := I.tops_range a (by simp [ha]); omega
    · intro a ha1 ha2
      by_cases e : a = h.next
      · subst e; rw [c1]; have := I.uid; simp only [freshNode]; omega
      · rw [c4 a e]; exact I.id a ha1 (by omega)
    · intro a ha1 ha2
      by_cases e : a = h.next
      · subst e; rw [c1]; exact ⟨rfl, rfl⟩
      · rw [c4 a e]; exact I.bare a ha1 (by omega)
    · intro a ha1 ha2
      by_cases e : a = h.next
      · subst e; rw [c1]; simp only [freshNode]; omega
      · rw [c4 a e]; exact I.nonneg a ha1 (by omega)
    · intro a ha
      rcases List.mem_append.1 ha with ha | ha
      · rw [cval a (hinner a ha)]; exact I.posInner a ha
      · rw [List.mem_singleton.1 ha, c1]; simp only [freshNode]; omega
    · intro a ha1 ha2
      have := I.range
      have e : a ≠ h.next := by omega
      rw [c4 a e]; exact I.leaf a ha1 ha2
    · have e : (List.range' h0.next vs.length).map (fun a => (h3.get a).value) =
          (List.range' h0.next vs.length).map (fun a => (h.get a).value) := by
        apply List.map_congr_left
        intro a ha
        rw [List.mem_range'] at ha
        obtain ⟨i, hi, rfl⟩ := ha
        have := I.range
        exact cval _ (by omega)
      rw [e]; exact I.values
    · intro a ha
      rcases List.mem_append.1 ha with ha | ha
      · rw [cch a (hinner a ha)]; exact I.fan a ha
      · rw [List.mem_singleton.1 ha, c1]; exact ⟨hn, hnd.1⟩
    · intro a ha x hx
      rcases List.mem_append.1 ha with ha | ha
      · rw [cch a (hinner a ha)] at hx; exact I.below a ha x hx
      · rw [List.mem_singleton.1 ha, c1] at hx; rw [List.mem_singleton.1 ha]; exact hin x hx
    · intro a ha x hx
      rcases List.mem_append.1 ha with ha | ha
      · rw [cch a (hinner a ha)] at hx ⊢
        have hlt := (I.below a ha x hx).2
        have := (I.inner_range.1 ha).2
        rw [cval a (hinner a ha), cval x (by omega)]
        exact I.equal a ha x hx
      · have e := List.mem_singleton.1 ha
        subst e
        rw [c1] at hx ⊢
        have hx : x ∈ ns := hx
        rw [cval x (fun e => hpn (e ▸ hx)), hw x hx]
        simp only [freshNode]; ring
    · intro a ha x hx
      rcases List.mem_append.1 ha with ha | ha
      · rw [cch a (hinner a ha)] at hx
        have hlt := (I.below a ha x hx).2
        have := (I.inner_range.1 ha).2
        rw [c3 x (by omega) (fun e => hkid a ha x hx (by simp [e]))]
        exact I.parent a ha x hx
      · have e := List.mem_singleton.1 ha
        subst e
        rw [c1] at hx
        rw [c2 x hx]
    · intro a ha
      rcases List.mem_cons.1 ha with rfl | ha
      · rw [c1]; rfl
      · rw [c3 a (fun e => ?_) (fun e => hnd.2.2 a e a ha rfl)]
        · exact I.top a (by simp [ha])
        · have := (I.tops_range a (by simp [ha])).2; omega
    · intro a ha1 ha2 ha3
      simp only [List.mem_cons, not_or] at ha3
      by_cases e : a ∈ ns
      · exact ⟨h.next, by simp, by rw [c1]; exact e⟩
      · obtain ⟨p, hp1, hp2⟩ := I.up a ha1 (by omega) (by simp [e, ha3.2])
        exact ⟨p, by simp [hp1], by rw [cch p (hinner p hp1)]; exact hp2⟩
    · intro a ha
      rcases List.mem_append.1 ha with ha | ha
      · rw [cch a (hinner a ha), cex a (hinner a ha)]; exact I.tags a ha
      · rw [List.mem_singleton.1 ha, c1]
    · obtain ⟨cs, e1, e2⟩ := I.costs
      refine ⟨cs ++ [c], ?_, by simp [e2]⟩
      rw [List.map_append, List.map_append, ← e1]
      congr 1
      · apply List.map_congr_left
        intro a ha
        rw [cval a (hinner a ha), cch a (hinner a ha)]
      · simp only [List.map_cons, List.map_nil]
        rw [c1]
        simp only [freshNode]
        rw [hc]
    · have e1 : rest.map (fun a => (h3.get a).value) = rest.map (fun a => (h.get a).value) := by
        apply List.map_congr_left
        intro a ha
        exact cval a (fun e => by have := (I.tops_range a (by simp [ha])).2; omega)
      have e2 : ns.map (fun a => (h.get a).value) = List.replicate ns.length w := by
        rw [List.eq_replicate_iff]
        refine ⟨by simp, ?_⟩
        intro b hb
        obtain ⟨a, ha, rfl⟩ := List.mem_map.1 hb
        exact hw a ha
      have e3 := I.total
      rw [List.map_append, List.sum_append, e2, List.sum_replicate] at e3
      rw [List.map_cons, List.sum_cons, e1, c1, ← e3]
      simp only [freshNode, nsmul_eq_mul]
      ring

/-! ### Rounds -/

theorem GroupInv.fold {cfg : Config} {h0 : Heap Int} {vs : List Int} :
    ∀ (d : Dict Int (List Addr)) (h : Heap Int) (next inner : List Addr) (cost : Int),
    GroupInv cfg h0 vs h (d.flatMap Prod.snd ++ next) inner cost → (∀ kv ∈ d, kv.2 ≠ []) →
    (∀ kv ∈ d, ∀ a ∈ kv.2, (h.get a).value = kv.1) → next.Pairwise (fun a b => (h.get a).value ≤ (h.get b).value) →
    (d.foldlM (groupStep cfg) (h, next, cost) = .error .valueError ∧ ¬ ∀ v ∈ vs, 0 < v) ∨
    ∃ h' next' inner' cost', d.foldlM (groupStep cfg) (h, next, cost) = .ok (h', next', cost') ∧
      GroupInv cfg h0 vs h' next' inner' cost' ∧ next'.Pairwise (fun a b => (h'.get a).value ≤ (h'.get b).value) ∧
      next'.length = next.length + d.length ∧
      ((∀ kv ∈ d, ∃ a, kv.2 = [a]) → h' = h ∧ cost' = cost ∧ inner' = inner) := by
  intro d
  induction d with
  | nil =>
    intro h next inner cost I _ _ hs
    exact Or.inr ⟨h, next, inner, cost, rfl, by simpa using I, hs, by simp, fun _ => ⟨rfl, rfl, rfl⟩⟩
  | cons kv d ih =>
    obtain ⟨w, ns⟩ := kv
    intro h next inner cost I hne hval hs
    rw [List.foldlM_cons]
    have hw : ∀ a ∈ ns, (h.get a).value = w := fun a ha => hval (w, ns) (by simp) a ha
    simp only [List.flatMap_cons, List.append_assoc] at I
    by_cases hn : 1 < ns.length
    · obtain ⟨a0, ha0⟩ : ∃ a, a ∈ ns := by
        cases ns with
        | nil => simp at hn
        | cons a l => exact ⟨a, by simp⟩
      have ha0r := I.tops_range a0 (by simp [ha0])
      have hw0 : 0 ≤ w := by rw [← hw a0 ha0]; exact I.nonneg a0 ha0r.1 ha0r.2
      rcases eq_or_lt_of_le hw0 with hz | hwpos
      · subst hz
        refine Or.inl ⟨by rw [groupStep_zero cfg _ ns hn]; rfl, fun hall => ?_⟩
        have := I.positive hall a0 ha0r.1 ha0r.2
        rw [hw a0 ha0] at this
        exact lt_irrefl _ this
      obtain ⟨h1, c, e1, I1, hnx, hv⟩ := I.group w hwpos hn hw next
      rw [e1]
      have hlt : ∀ a, a ∈ d.flatMap Prod.snd ++ next → a < h.next := fun a ha =>
        (I.tops_range a (by simp only [List.mem_append] at ha ⊢; exact Or.inr ha)).2
      have hmem : ∀ kv ∈ d, ∀ a ∈ kv.2, a < h.next := fun kv hkv a ha => hlt a (by
        simp only [List.mem_append, List.mem_flatMap]; exact Or.inl ⟨kv, hkv, ha⟩)
      rcases ih h1 (insort (fun a => (h1.get a).value) next h.next)
        (inner ++ [h.next]) (cost + c)
        (I1.perm (by
          refine (List.Perm.append_left _ (insort_perm _ next h.next)).trans ?_
          exact List.perm_middle))
        (fun kv hkv => hne kv (by simp [hkv]))
        (fun kv hkv a ha => by rw [hv a (hmem kv hkv a ha)]; exact hval kv (by simp [hkv]) a ha)
        (insort_sorted _ _ (by
          refine hs.imp_of_mem ?_
          intro a b ha hb hab
          rw [hv a (hlt a (by simp [ha])), hv b (hlt b (by simp [hb]))]; exact hab) _) with
        herr | ⟨h2, next2, inner2, cost2, e2, I2, hs2, hl2, hsing⟩
      · exact Or.inl herr
      refine Or.inr ⟨h2, next2, inner2, cost2, e2, I2, hs2, ?_, ?_⟩
      · rw [hl2, insort_length]; simp; omega
      · intro hall
        obtain ⟨a, ha⟩ := hall (w, ns) (by simp)
        dsimp only at ha
        rw [ha] at hn; simp at hn
    · obtain ⟨a, rfl⟩ : ∃ a, ns = [a] := by
        have h0 := hne (w, ns) (by simp)
        have : 1 ≤ ns.length := List.length_pos_iff.2 h0
        exact List.length_eq_one_iff.1 (by omega)
      have e1 : groupStep cfg (h, next, cost) (w, [a]) = .ok (h, insort (fun a => (h.get a).value) next a, cost) := by
        unfold groupStep
        rw [if_neg (by simp)]
      rw [e1]
      rcases ih h (insort (fun a => (h.get a).value) next a) inner cost
        (I.perm (by
          refine (List.Perm.append_left _ (insort_perm _ next a)).trans ?_
          simp))
        (fun kv hkv => hne kv (by simp [hkv])) (fun kv hkv a ha => hval kv (by simp [hkv]) a ha)
        (insort_sorted _ _ hs _) with herr | ⟨h2, next2, inner2, cost2, e2, I2, hs2, hl2, hsing⟩
      · exact Or.inl herr
      refine Or.inr ⟨h2, next2, inner2, cost2, e2, I2, hs2, ?_, ?_⟩
      · rw [hl2, insort_length]; simp; omega
      · intro hall
        exact hsing (fun kv hkv => hall kv (by simp [hkv]))

theorem groupLoop_spec {cfg : Config} {h0 : Heap Int} {vs : List Int} :
    ∀ (fuel : Nat) (h : Heap Int) (nodes inner : List Addr) (cost : Int), nodes.length < fuel →
    GroupInv cfg h0 vs h nodes inner cost → nodes.Pairwise (fun a b => (h.get a).value ≤ (h.get b).value) →
    (groupLoop cfg fuel h nodes cost = .error .valueError ∧ ¬ ∀ v ∈ vs, 0 < v) ∨
    ∃ h' roots inner' cost', groupLoop cfg fuel h nodes cost = .ok (h', roots, cost') ∧
      GroupInv cfg h0 vs h' roots inner' cost' ∧ roots.Pairwise (fun a b => (h'.get a).value < (h'.get b).value) := by
  intro fuel
  induction fuel with
  | zero => intro h nodes inner cost hf; omega
  | succ fuel ih =>
    intro h nodes inner cost hf I hs
    have G := groupBy_spec h nodes
    rcases GroupInv.fold (groupBy h nodes) h [] inner cost
      (by rw [List.append_nil]; exact I.perm G.perm) G.nonempty G.value List.Pairwise.nil with
      ⟨herr, hz⟩ | ⟨h1, next, inner1, cost1, e1, I1, hs1, hl1, hsing⟩
    · refine Or.inl ⟨?_, hz⟩
      have e2 : groupRound cfg h nodes cost = .error .valueError := herr
      unfold groupLoop
      rw [e2]
    have hle := flatMap_length_le _ G.nonempty
    rw [G.perm.length_eq] at hle
    have e2 : groupRound cfg h nodes cost = .ok (h1, next, cost1) := e1
    unfold groupLoop
    rw [e2]
    dsimp only
    simp only [List.length_nil, Nat.zero_add] at hl1
    by_cases hlen : next.length = nodes.length
    · rw [if_pos hlen]
      have hone := hle.2 (by omega)
      obtain ⟨rfl, rfl, rfl⟩ := hsing hone
      refine Or.inr ⟨h1, nodes, inner1, cost1, rfl, I, ?_⟩
      have hdist : ∀ a ∈ nodes, ∀ b ∈ nodes, (h1.get a).value = (h1.get b).value → a = b := by
        intro a ha b hb hab
        obtain ⟨kv, hkv, ha'⟩ := List.mem_flatMap.1 (G.perm.mem_iff.2 ha)
        obtain ⟨kv', hkv', hb'⟩ := List.mem_flatMap.1 (G.perm.mem_iff.2 hb)
        have hk : kv.1 = kv'.1 := by rw [← G.value kv hkv a ha', ← G.value kv' hkv' b hb', hab]
        have h1 := Dict.get?_of_mem _ G.keys kv.1 kv.2 hkv
        have h2 := Dict.get?_of_mem _ G.keys kv'.1 kv'.2 hkv'
        rw [hk, h2] at h1
        simp only [Option.some.injEq] at h1
        obtain ⟨x, hx⟩ := hone kv hkv
        rw [hx, List.mem_singleton] at ha'
        rw [h1, hx, List.mem_singleton] at hb'
        rw [ha', hb']
      have hboth := List.Pairwise.and hs I.tops_nodup
      refine hboth.imp_of_mem ?_
      intro a b ha hb hab
      exact lt_of_le_of_ne hab.1 (fun e => hab.2 (hdist a ha b hb e))
    · rw [if_neg hlen]
      exact ih h1 next inner1 cost1 (by omega) I1 hs1

/-! ### Result -/

theorem GroupInv.forest {cfg : Config} {h0 h : Heap Int} {vs : List Int} {tops inner : List Addr} {cost : Int}
    (I : GroupInv cfg h0 vs h tops inner cost) (hpos : ∀ v ∈ vs, 0 < v) : Forest h tops inner (List.range' h0.next vs.length) := by
  have hmem : ∀ a, a ∈ inner ++ List.range' h0.next vs.length ↔ h0.next ≤ a ∧ a < h.next := by
    intro a
    rw [List.mem_append, I.inner_range, List.mem_range']
    have := I.range
    constructor
    · rintro (h | ⟨i, hi, rfl⟩) <;> omega
    · intro h
      by_cases h2 : h0.next + vs.length ≤ a
      · exact Or.inl ⟨h2, h.2⟩
      · exact Or.inr ⟨a - h0.next, by omega, by omega⟩
  have hleaf : ∀ a ∈ List.range' h0.next vs.length, (h.get a).children = [] ∧ (h.get a).expands = [] := by
    intro a ha
    rw [List.mem_range'] at ha
    obtain ⟨i, hi, rfl⟩ := ha
    exact I.leaf _ (by omega) (by omega)
  refine ⟨?_, ?_, ?_, fun a ha => (hleaf a ha).1, I.fan, I.equal, I.parent, I.top⟩
  · rw [List.nodup_append]
    refine ⟨by rw [I.inner_eq]; exact List.nodup_range', List.nodup_range', ?_⟩
    rintro a ha b hb rfl
    rw [List.mem_range'] at hb
    obtain ⟨i, hi, rfl⟩ := hb
    have := (I.inner_range.1 ha).1
    omega
  · intro a
    rw [hmem]
    constructor
    · intro hr
      induction hr with
      | root ht => exact I.tops_range _ ht
      | @child a b _ hb ih =>
        by_cases hi : a ∈ inner
        · have h1 := I.below a hi b hb
          omega
        · have h1 : a ∈ List.range' h0.next vs.length := by
            have := (hmem a).2 ih
            rcases List.mem_append.1 this with h | h
            · exact absurd h hi
            · exact h
          rw [(hleaf a h1).1] at hb; simp at hb
    · rintro ⟨h1, h2⟩
      have key : ∀ n a, h.next - a = n → h0.next ≤ a → a < h.next → Reach h tops a := by
        intro n
        induction n using Nat.strong_induction_on with
        | _ n ih =>
          intro a hn h1 h2
          by_cases ht : a ∈ tops
          · exact .root ht
          · obtain ⟨p, hp1, hp2⟩ := I.up a h1 h2 ht
            have hlt := (I.below p hp1 a hp2).2
            have hp3 := (I.inner_range.1 hp1).2
            exact .child (a := p) (ih (h.next - p) (by omega) p rfl (by omega) hp3) hp2
      exact key _ a rfl h1 h2
  · intro a ha
    rw [hmem] at ha
    exact I.positive hpos a ha.1 ha.2

/-- Everything about `group_values`. -/
theorem groupValues_spec (cfg : Config) (h : Heap Int) (values : List Int) (hnn : ∀ v ∈ values, 0 ≤ v) :
    (groupValues cfg h values = .error .valueError ∧ ¬ ∀ v ∈ values, 0 < v) ∨
    ∃ h' roots inner cost, groupValues cfg h values = .ok (h', roots, cost) ∧
      GroupInv cfg h (values.insertionSort (· ≤ ·)) h' roots inner cost ∧
      roots.Pairwise (fun a b => (h'.get a).value < (h'.get b).value) := by
  set vs := values.insertionSort (· ≤ ·) with hvs
  have hperm : vs.Perm values := List.perm_insertionSort _ _
  have hpos' : ∀ v ∈ vs, 0 ≤ v := fun v hv => hnn v (hperm.mem_iff.1 hv)
  obtain ⟨h1, e1, e2, e3, e4, e5⟩ := newNodes_spec [] none vs h hpos'
  have hget : ∀ a, h.next ≤ a → a < h.next + vs.length →
      ∃ i, ∃ hi : i < vs.length, a = h.next + i ∧ h1.get a = freshNode vs[i] (h.nextUid + i) [] none := by
    intro a ha1 ha2
    refine ⟨a - h.next, by omega, by omega, ?_⟩
    have := e5 (a - h.next) (by omega)
    rwa [show h.next + (a - h.next) = a by omega] at this
  have hvals : (List.range' h.next vs.length).map (fun a => (h1.get a).value) = vs := by
    apply List.ext_getElem
    · simp
    · intro i hi1 hi2
      simp only [List.getElem_map, List.getElem_range', one_mul]
      rw [e5 i hi2]; rfl
  have I : GroupInv cfg h vs h1 (List.range' h.next vs.length) [] 0 := by
    refine ⟨⟨e4, by omega, by omega⟩, by omega, by simp [e2], by simp, List.nodup_range', ?_, ?_, ?_, ?_, by simp, ?_, hvals, by simp,
      by simp, by simp, by simp, ?_, ?_, by simp, ⟨[], rfl, rfl⟩, by rw [hvals]⟩
    · intro a ha
      rw [List.mem_range'] at ha
      obtain ⟨i, hi, rfl⟩ := ha
      omega
    · intro a ha1 ha2
      obtain ⟨i, hi, rfl, hg⟩ := hget a ha1 (by omega)
      rw [hg]; simp only [freshNode]; omega
    · intro a ha1 ha2
      obtain ⟨i, hi, rfl, hg⟩ := hget a ha1 (by omega)
      rw [hg]; exact ⟨rfl, rfl⟩
    · intro a ha1 ha2
      obtain ⟨i, hi, rfl, hg⟩ := hget a ha1 (by omega)
      rw [hg]; exact hpos' _ (List.getElem_mem _)
    · intro a ha1 ha2
      obtain ⟨i, hi, rfl, hg⟩ := hget a ha1 (by omega)
      rw [hg]; exact ⟨rfl, rfl⟩
    · intro a ha
      rw [List.mem_range'] at ha
      obtain ⟨i, hi, rfl⟩ := ha
      obtain ⟨j, hj, -, hg⟩ := hget (h.next + 1 * i) (by omega) (by omega)
      rw [hg]; rfl
    · intro a ha1 ha2 ha3
      exact absurd (List.mem_range'.2 ⟨a - h.next, by omega, by omega⟩) ha3
  have hsorted : (List.range' h.next vs.length).Pairwise (fun a b => (h1.get a).value ≤ (h1.get b).value) := by
    have := List.pairwise_insertionSort (· ≤ ·) values
    rw [← hvs, ← hvals, List.pairwise_map] at this
    exact this
  have hall : groupValues cfg h values = groupLoop cfg (values.length + 1) h1 (List.range' h.next vs.length) 0 := by
    unfold groupValues
    rw [← hvs, e1]
  rcases groupLoop_spec (values.length + 1) h1 (List.range' h.next vs.length) [] 0
    (by simp [hperm.length_eq]) I hsorted with ⟨k1, k2⟩ | ⟨h2, roots, inner, cost, k1, k2, k3⟩
  · exact Or.inl ⟨hall.trans k1, fun hp => k2 (fun v hv => hp v (hperm.mem_iff.1 hv))⟩
  · exact Or.inr ⟨h2, roots, inner, cost, hall.trans k1, k2, k3⟩

/-- A negative value is refused by the constructor of `Node`. -/
theorem newNodes_negative (past : List Int) (level : Option Int) : ∀ (vs : List Int) (h : Heap Int), (∃ v ∈ vs, v < 0) →
    newNodes h past level vs = .error .valueError := by
  intro vs
  induction vs with
  | nil => simp
  | cons v vs ih =>
    rintro h ⟨x, hx, hneg⟩
    unfold newNodes
    by_cases hv : v < 0
    · simp only [newNode, if_pos hv]; rfl
    · have hvs : ∃ v ∈ vs, v < 0 := by
        rcases List.mem_cons.1 hx with rfl | hx
        · exact absurd hneg hv
        · exact ⟨x, hx, hneg⟩
      simp only [newNode, if_neg hv]
      change (newNodes _ past level vs >>= _) = _
      rw [ih _ hvs]; rfl

theorem groupValues_negative (cfg : Config) (h : Heap Int) (values : List Int) (hv : ∃ v ∈ values, v < 0) :
    groupValues cfg h values = .error .valueError := by
  unfold groupValues
  rw [newNodes_negative]
  obtain ⟨v, hv, hneg⟩ := hv
  exact ⟨v, (List.perm_insertionSort _ _).mem_iff.2 hv, hneg⟩

end Satis.Graph
