import Verif.Solver.LoadSmall
import Verif.Solver.Spec
import Verif.Props.Utils
/-!
# What a loaded problem gives the search
-/

namespace Satis.Graph
open Satis Satis.Cost

/-- Objects created later do not change a forest. -/
theorem Forest.ext {h h' : Heap Int} {roots inner leaves : List Addr} (F : Forest h roots inner leaves) (e : Heap.Ext h h')
    (hlt : ∀ a ∈ inner ++ leaves, a < h.next) : Forest h' roots inner leaves := by
  have hget : ∀ a ∈ inner ++ leaves, h'.get a = h.get a := fun a ha => e.get a (hlt a ha)
  have hin : ∀ a ∈ inner, h'.get a = h.get a := fun a ha => hget a (List.mem_append_left _ ha)
  have hroots : ∀ a ∈ roots, h'.get a = h.get a := fun a ha => hget a ((F.nodes a).1 (.root ha))
  have hkid : ∀ a ∈ inner, ∀ c ∈ (h.get a).children, c ∈ inner ++ leaves := fun a ha c hc =>
    (F.nodes c).1 (((F.nodes a).2 (List.mem_append_left _ ha)).child hc)
  have r1 : ∀ a, Reach h roots a → Reach h' roots a := by
    intro a ha
    induction ha with
    | root hr => exact .root hr
    | @child x y hx hy ih => exact ih.child (by rw [hget x ((F.nodes x).1 hx)]; exact hy)
  have r2 : ∀ a, Reach h' roots a → Reach h roots a := by
    intro a ha
    induction ha with
    | root hr => exact .root hr
    | @child x y hx hy ih => exact ih.child (by rw [hget x ((F.nodes x).1 ih)] at hy; exact hy)
  refine ⟨F.distinct, fun a => ⟨fun ha => (F.nodes a).1 (r2 a ha), fun ha => r1 a ((F.nodes a).2 ha)⟩, ?_, ?_, ?_, ?_, ?_, ?_⟩
  · intro a ha; rw [hget a ha]; exact F.positive a ha
  · intro a ha; rw [hget a (List.mem_append_right _ ha)]; exact F.leaf a ha
  · intro a ha; rw [hin a ha]; exact F.fan a ha
  · intro a ha c hc; rw [hin a ha] at hc ⊢; rw [hget c (hkid a ha c hc)]; exact F.equal a ha c hc
  · intro a ha c hc; rw [hin a ha] at hc; rw [hget c (hkid a ha c hc)]; exact F.parent a ha c hc
  · intro a ha; rw [hroots a ha]; exact F.top a ha

theorem Tagged.ext {h h' : Heap Int} {inner leaves : List Addr} (T : Tagged h inner leaves)
    (hget : ∀ a ∈ inner ++ leaves, h'.get a = h.get a) : Tagged h' inner leaves :=
  ⟨fun a ha => by rw [hget a (List.mem_append_left _ ha)]; exact T.1 a ha,
    fun a ha => by rw [hget a (List.mem_append_right _ ha)]; exact T.2 a ha⟩

theorem DivideCosts.ext {cfg : Config} {h h' : Heap Int} {inner : List Addr} {cost : Int} (D : DivideCosts cfg h inner cost)
    (hget : ∀ a ∈ inner, h'.get a = h.get a) : DivideCosts cfg h' inner cost := by
  obtain ⟨cs, h1, h2⟩ := D
  refine ⟨cs, ?_, h2⟩
  rw [← h1]
  exact List.map_congr_left (fun a ha => by rw [hget a ha])

theorem GroupInv.node_range {cfg : Config} {h0 h : Heap Int} {vs : List Int} {tops inner : List Addr} {cost : Int}
    (I : GroupInv cfg h0 vs h tops inner cost) : ∀ a ∈ inner ++ List.range' h0.next vs.length, h0.next ≤ a ∧ a < h.next := by
  intro a ha
  have hr := I.range
  rcases List.mem_append.1 ha with ha | ha
  · have := I.inner_range.1 ha; omega
  · rw [List.mem_range'] at ha
    obtain ⟨i, hi, rfl⟩ := ha
    omega

theorem GroupInv.tagged {cfg : Config} {h0 h : Heap Int} {vs : List Int} {tops inner : List Addr} {cost : Int}
    (I : GroupInv cfg h0 vs h tops inner cost) : Tagged h inner (List.range' h0.next vs.length) := by
  refine ⟨I.tags, ?_⟩
  intro a ha
  rw [List.mem_range'] at ha
  obtain ⟨i, hi, rfl⟩ := ha
  exact (I.leaf _ (by omega) (by omega)).2

end Satis.Graph

namespace Satis.Solver
open Satis Satis.Graph Satis.Utils Satis.Cost

variable {cfg : Config} {s t : List ℚ} {h : Heap Int} {r : After}

/-- An accepted input has been parsed, and everything known about `loadValues` holds. -/
theorem load_accepted {input : Str} {a : Attrs} (e : (load cfg input a h).result = .ok true) :
    ∃ s t, parseUserInput input = .ok (some (s, t)) ∧ s ≠ [] ∧ t ≠ [] ∧ load cfg input a h = loadValues cfg s t a h ∧
      Loads cfg s t h (load cfg input a h) := by
  unfold load at e ⊢
  split at e
  · simp at e
  · simp at e
  · rename_i s t hp
    refine ⟨s, t, hp, ?_⟩
    split at e
    · simp at e
    · rename_i hne
      rw [not_or] at hne
      rw [if_neg (by simp [hne])]
      refine ⟨hne.1, hne.2, rfl, ?_⟩
      rcases loadValues_spec cfg s t a h with ⟨_, _, _, ⟨_, h1⟩ | ⟨_, h1⟩⟩ | ⟨_, h1, _⟩ | h1
      · rw [h1] at e; simp at e
      · rw [h1] at e; simp at e
      · rw [h1] at e; simp at e
      · exact h1

theorem load_parsed {input : Str} {a : Attrs} (hp : parseUserInput input = .ok (some (s, t))) (hs : s ≠ []) (ht : t ≠ []) :
    load cfg input a h = loadValues cfg s t a h := by
  unfold load
  rw [hp]
  dsimp only
  rw [if_neg (by simp [hs, ht])]

theorem Loads.source (L : Loads cfg s t h r) (hs : ∀ v ∈ s, 0 < v) (ht : ∀ v ∈ t, 0 < v) :
    Source r.heap r.attrs.treeSource (scaledSources s t) := by
  obtain ⟨hg, inner, _, _, _, _, h1, roots, e1, e2⟩ := L.grouped
  refine ⟨?_, (scaled_sorted s t).1, (scaled_pos hs ht).1, hg, h1, roots, e1, e2⟩
  intro hnil
  have := (scaled_length s t).1
  rw [hnil] at this
  exact L.nonempty (List.length_eq_zero_iff.1 this.symm)

theorem Loads.targets_pos (L : Loads cfg s t h r) (hs : ∀ v ∈ s, 0 < v) (ht : ∀ v ∈ t, 0 < v) : ∀ v ∈ r.attrs.targetValues, 0 < v := by
  obtain ⟨hg, inner, I, _, e, _⟩ := L.grouped
  intro v hv
  rw [e] at hv
  obtain ⟨a, ha, rfl⟩ := List.mem_map.1 hv
  exact I.positive (scaled_pos hs ht).2 a (I.tops_range a ha).1 (I.tops_range a ha).2

theorem Loads.targets_sorted (L : Loads cfg s t h r) : r.attrs.targetValues.Pairwise (· < ·) := by
  obtain ⟨hg, inner, I, h1, e, _⟩ := L.grouped
  rw [e, List.pairwise_map]
  exact h1

theorem Loads.targets_sum (L : Loads cfg s t h r) : r.attrs.targetValues.sum = (scaledSources s t).sum := by
  obtain ⟨hg, inner, I, h1, e, _⟩ := L.grouped
  rw [e, I.total, scaled_sum]

theorem Loads.gcd_pos (L : Loads cfg s t h r) (hs : ∀ v ∈ s, 0 < v) (ht : ∀ v ∈ t, 0 < v) :
    1 ≤ r.attrs.gcd ∧ (∀ v ∈ scaledSources s t, r.attrs.gcd ∣ v) ∧ ∀ v ∈ r.attrs.targetValues, r.attrs.gcd ∣ v := by
  have hsrc := L.source hs ht
  obtain ⟨g, e, h0, h1, -⟩ := C19_gcd_filter (scaledSources s t ++ r.attrs.targetValues) (by simp [hsrc.nonempty])
    (by
      intro v hv
      rcases List.mem_append.1 hv with hv | hv
      · exact (hsrc.pos v hv).le
      · exact (L.targets_pos hs ht v hv).le)
  rw [L.gcd] at e
  simp only [Except.ok.injEq] at e
  rw [e]
  refine ⟨?_, fun v hv => h1 v (by simp [hv]), fun v hv => h1 v (by simp [hv])⟩
  obtain ⟨x, xs, hx⟩ := List.exists_cons_of_ne_nil hsrc.nonempty
  have hx0 := hsrc.pos x (by simp [hx])
  have hx1 := h1 x (by simp [hx])
  rcases h0.lt_or_eq with h | h
  · omega
  · rw [← h] at hx1
    have := Int.zero_dvd.1 hx1
    omega

theorem Loads.wf (L : Loads cfg s t h r) (hcfg : cfg.speeds.Pairwise (· ≤ ·)) (hs : ∀ v ∈ s, 0 < v) (ht : ∀ v ∈ t, 0 < v) :
    (r.attrs.problem cfg).WF :=
  ⟨(L.gcd_pos hs ht).1, hcfg, L.counts⟩

theorem Loads.cost_nonneg (L : Loads cfg s t h r) (hs : ∀ v ∈ s, 0 < v) (ht : ∀ v ∈ t, 0 < v) : 0 ≤ r.attrs.sizeOffset := by
  obtain ⟨hg, inner, I, _⟩ := L.grouped
  have hvs := (scaled_pos hs ht).2
  obtain ⟨cs, h1, h2⟩ := I.costs
  rw [← h2]
  apply List.sum_nonneg
  intro c hc
  have hmem : (Except.ok c : Py Int) ∈ inner.map (fun a => divideCost cfg (hg.get a).value (hg.get a).children.length) := by
    rw [h1]; exact List.mem_map.2 ⟨c, hc, rfl⟩
  obtain ⟨a, ha, e⟩ := List.mem_map.1 hmem
  have hpos := I.posInner a ha
  have hfan := I.fan a ha
  obtain ⟨k, ks, hk⟩ : ∃ k ks, (hg.get a).children = k :: ks := by
    cases hc : (hg.get a).children with
    | nil => rw [hc] at hfan; simp at hfan
    | cons k ks => exact ⟨k, ks, rfl⟩
  have hkm : k ∈ (hg.get a).children := by rw [hk]; simp
  have heq := I.equal a ha k hkm
  have hkr := I.below a ha k hkm
  have hkpos := I.positive hvs k hkr.1 (by have := (I.inner_range.1 ha).2; omega)
  have hle : ((hg.get a).children.length : Int) ≤ (hg.get a).value := by rw [heq]; nlinarith
  have h2 : (2 : Int) ≤ ((hg.get a).children.length : Int) := by exact_mod_cast hfan.1
  obtain ⟨_, _, c', _, _, _, _, e', h1', _⟩ := divideCost_core cfg (hg.get a).value (hg.get a).children.length (by omega) hfan.1 hle
  rw [e'] at e
  simp only [Except.ok.injEq] at e
  omega

/-! ### What is left after cancelling is determined -/

theorem reduced_remains (s t : List ℚ) : Remains s t (reduced s t).1 (reduced s t).2 :=
  ⟨(reduced_spec s t).1, (reduced_spec s t).2.2.2.2⟩

theorem perm_of_disjoint {A B S T S' T' c c' : List ℚ} (h1 : (S ++ c).Perm A) (h2 : (T ++ c).Perm B) (hd : ∀ v ∈ S, v ∉ T)
    (h1' : (S' ++ c').Perm A) (h2' : (T' ++ c').Perm B) (hd' : ∀ v ∈ S', v ∉ T') : S.Perm S' ∧ T.Perm T' := by
  have key : ∀ x, S.count x = S'.count x ∧ T.count x = T'.count x := by
    intro x
    have e1 := h1.count_eq x
    have e2 := h2.count_eq x
    have e1' := h1'.count_eq x
    have e2' := h2'.count_eq x
    rw [List.count_append] at e1 e2 e1' e2'
    have z : S.count x = 0 ∨ T.count x = 0 := by
      by_cases hx : x ∈ S
      · exact Or.inr (List.count_eq_zero.2 (hd x hx))
      · exact Or.inl (List.count_eq_zero.2 hx)
    have z' : S'.count x = 0 ∨ T'.count x = 0 := by
      by_cases hx : x ∈ S'
      · exact Or.inr (List.count_eq_zero.2 (hd' x hx))
      · exact Or.inl (List.count_eq_zero.2 hx)
    omega
  exact ⟨List.perm_iff_count.2 fun x => (key x).1, List.perm_iff_count.2 fun x => (key x).2⟩

theorem Remains.perm {S T S' T' : List ℚ} (h : Remains s t S T) (h' : Remains s t S' T') : S.Perm S' ∧ T.Perm T' := by
  obtain ⟨⟨c, h1, h2⟩, hd⟩ := h
  obtain ⟨⟨c', h1', h2'⟩, hd'⟩ := h'
  exact perm_of_disjoint h1 h2 hd h1' h2' hd'

theorem eq_of_perm_sorted {l m : List ℚ} (h : l.Perm m) (hl : l.Pairwise (· ≤ ·)) (hm : m.Pairwise (· ≤ ·)) : l = m :=
  h.eq_of_pairwise (fun _ _ _ _ h1 h2 => le_antisymm h1 h2) hl hm

theorem Remains.eq {S T : List ℚ} (h : Remains s t S T) (hS : S.Pairwise (· ≤ ·)) (hT : T.Pairwise (· ≤ ·)) :
    (reduced s t).1 = S ∧ (reduced s t).2 = T := by
  obtain ⟨p1, p2⟩ := (reduced_remains s t).perm h
  exact ⟨eq_of_perm_sorted p1 (reduced_spec s t).2.1 hS, eq_of_perm_sorted p2 (reduced_spec s t).2.2.1 hT⟩

/-! ### Units -/

theorem of_cast {l : List Int} {m : List ℚ} {r : ℚ} (hr : 0 < r) (h : l.map (fun (z : ℤ) => (z : ℚ)) = m.map (fun f => f * r)) :
    m = l.map fun (z : ℤ) => (z : ℚ) * (1 / r) := by
  have : l.map (fun (z : ℤ) => (z : ℚ) * (1 / r)) = (l.map (fun (z : ℤ) => (z : ℚ))).map (fun f => f * (1 / r)) := by
    rw [List.map_map]; rfl
  rw [this, h, List.map_map]
  conv_lhs => rw [← List.map_id m]
  apply List.map_congr_left
  intro f _
  have := hr.ne'
  simp only [Function.comp, id]
  field_simp

/-- Values that are small multiples of `1 / n`, one of them `1 / n` or two of them, are scaled by `n`. -/
theorem ratio_unit {n : Nat} (hn : 1 ≤ n) (hi : ∀ f ∈ (reduced s t).1 ++ (reduced s t).2, ∃ k : ℤ, f = k * (1 / n : ℚ))
    (hu : (1 / n : ℚ) ∈ (reduced s t).1 ++ (reduced s t).2) : ratio s t = n := by
  obtain ⟨_, h2, h3, h4⟩ := C12_scaling_exact ((reduced s t).1 ++ (reduced s t).2)
  have hn' : (n : ℚ) ≠ 0 := by positivity
  apply Nat.dvd_antisymm
  · apply h4
    intro f hf
    obtain ⟨k, rfl⟩ := hi f hf
    exact ⟨k, by field_simp⟩
  · obtain ⟨i, hi'⟩ := List.mem_iff_getElem?.1 hu
    obtain ⟨z, _, hz⟩ := h2 i _ hi'
    change n ∣ (fractionsToIntegers ((reduced s t).1 ++ (reduced s t).2)).2
    have : (z : ℚ) * n = (fractionsToIntegers ((reduced s t).1 ++ (reduced s t).2)).2 := by
      rw [hz]; field_simp
    have h5 : z * (n : ℤ) = ((fractionsToIntegers ((reduced s t).1 ++ (reduced s t).2)).2 : ℤ) := by exact_mod_cast this
    exact_mod_cast (Dvd.intro_left z h5 : (n : ℤ) ∣ _)

theorem cast_inj {l m : List Int} (h : l.map (fun (z : ℤ) => (z : ℚ)) = m.map (fun (z : ℤ) => (z : ℚ))) : l = m :=
  (List.map_injective_iff.2 Int.cast_injective) h

/-- A forest over the leaves 1 and 2 has no root above 2. -/
theorem group_one_two {hg : Heap Int} {roots inner : List Addr} {cost : Int} (I : GroupInv cfg h [1, 2] hg roots inner cost) :
    ∀ a ∈ roots, (hg.get a).value ≤ 2 := by
  intro a ha
  by_contra hcon
  push Not at hcon
  have hvs : ∀ v ∈ ([1, 2] : List Int), 0 < v := by decide
  have hr := I.tops_range a ha
  have hle : (hg.get a).value ≤ 3 := by
    have h1 := I.total
    have h2 : (hg.get a).value ≤ (roots.map fun a => (hg.get a).value).sum := mem_le_sum
      (by intro v hv; obtain ⟨b, hb, rfl⟩ := List.mem_map.1 hv; exact I.nonneg b (I.tops_range b hb).1 (I.tops_range b hb).2)
      (List.mem_map.2 ⟨a, ha, rfl⟩)
    rw [h1] at h2
    simpa using h2
  have hv := I.values
  have hlen : ([1, 2] : List Int).length = 2 := rfl
  rw [hlen] at hv
  have hin : a ∈ inner := by
    rw [I.inner_range]
    refine ⟨?_, hr.2⟩
    by_contra hlt
    have : (hg.get a).value ∈ (List.range' h.next 2).map (fun a => (hg.get a).value) :=
      List.mem_map.2 ⟨a, by rw [List.mem_range']; exact ⟨a - h.next, by simp at hlt; omega, by omega⟩, rfl⟩
    rw [hv] at this
    simp at this
    omega
  have hkid : ∀ c ∈ (hg.get a).children, (hg.get c).value = 1 := by
    intro c hc
    have h1 := I.equal a hin c hc
    have h2 := (I.fan a hin).1
    have h3 := I.below a hin c hc
    have h4 := I.positive hvs c h3.1 (by omega)
    have h5 : (2 : Int) ≤ ((hg.get a).children.length : Int) := by exact_mod_cast h2
    have h6 : (hg.get a).value = 3 := by omega
    by_contra hne
    have h7 : 2 ≤ (hg.get c).value := by omega
    have : 4 ≤ ((hg.get a).children.length : Int) * (hg.get c).value := by nlinarith
    omega
  have hleaf : ∀ c ∈ (hg.get a).children, c < h.next + 2 := by
    intro c hc
    by_contra hge
    have hcr := I.below a hin c hc
    have hci : c ∈ inner := by rw [I.inner_range]; simp; omega
    have h2 := (I.fan c hci).1
    obtain ⟨k, ks, hk⟩ : ∃ k ks, (hg.get c).children = k :: ks := by
      cases hcc : (hg.get c).children with
      | nil => rw [hcc] at h2; simp at h2
      | cons k ks => exact ⟨k, ks, rfl⟩
    have hkm : k ∈ (hg.get c).children := by rw [hk]; simp
    have h1 := I.equal c hci k hkm
    have h3 := I.below c hci k hkm
    have h4 := I.positive hvs k h3.1 (by omega)
    have h5 : (2 : Int) ≤ ((hg.get c).children.length : Int) := by exact_mod_cast h2
    have h6 := hkid c hc
    rw [h6] at h1
    nlinarith
  obtain ⟨k, ks, hk⟩ : ∃ k ks, (hg.get a).children = k :: ks := by
    cases hcc : (hg.get a).children with
    | nil => have := (I.fan a hin).1; rw [hcc] at this; simp at this
    | cons k ks => exact ⟨k, ks, rfl⟩
  have hkm : k ∈ (hg.get a).children := by rw [hk]; simp
  have h1 := I.equal a hin k hkm
  rw [hkid k hkm] at h1
  have hsub : (hg.get a).children ⊆ List.range' h.next 2 := by
    intro c hc
    rw [List.mem_range']
    have := hleaf c hc
    have := (I.below a hin c hc).1
    exact ⟨c - h.next, by omega, by omega⟩
  have := (List.Nodup.subperm (I.fan a hin).2 hsub).length_le
  simp at this
  omega

/-- On positive values that do not cancel out `load` raises exactly on the tiny problems. -/
theorem loadValues_raises (a : Attrs) (hs : ∀ v ∈ s, 0 < v) (ht : ∀ v ∈ t, 0 < v) (hne : (reduced s t).1 ≠ []) :
    ((loadValues cfg s t a h).result = .ok true ∨ (loadValues cfg s t a h).result = .error .valueError) ∧
    ((loadValues cfg s t a h).result = .error .valueError ↔
      ∃ n : Nat, 1 ≤ n ∧ Tiny (reduced s t).1 (reduced s t).2 (1 / n : ℚ)) := by
  have hp := scaled_pos hs ht
  have hso := scaled_sorted s t
  have hne' : scaledSources s t ≠ [] := by
    intro hnil
    have := (scaled_length s t).1
    rw [hnil] at this
    exact hne (List.length_eq_zero_iff.1 this.symm)
  rcases loadValues_spec cfg s t a h with ⟨h1, _⟩ | ⟨_, h1, h2⟩ | L
  · exact absurd h1 hne
  · refine ⟨Or.inr h1, ⟨fun _ => ?_, fun _ => h1⟩⟩
    obtain ⟨hg, roots, inner, cost, ge, I, st, le2⟩ := h2 hs ht
    have hc := small_cases cfg h hp.1 hp.2 hso.1 hso.2 hne' (scaled_sum s t) (scaled_disjoint s t) ge I st le2
    have e1 := of_cast (ratio_pos' s t) (scaled_cast s t).1
    have e2 := of_cast (ratio_pos' s t) (scaled_cast s t).2
    refine ⟨ratio s t, ratio_pos s t, ?_⟩
    rw [e1, e2]
    unfold Tiny
    rcases hc with ⟨c1, c2⟩ | ⟨c1, c2⟩ | ⟨c1, c2⟩ <;> rw [c1, c2]
    · left; simp
    · right; left; simp
    · right; right; simp
  · refine ⟨Or.inl L.ok, ⟨fun hh => by rw [L.ok] at hh; simp at hh, ?_⟩⟩
    rintro ⟨n, hn, htiny⟩
    exfalso
    have hn' : (n : ℚ) ≠ 0 := by positivity
    have hr : ratio s t = n := by
      apply ratio_unit hn
      · intro f hf
        rcases htiny with ⟨c1, c2⟩ | ⟨c1, c2⟩ | ⟨c1, c2⟩ <;> rw [c1, c2] at hf <;> simp only [List.cons_append, List.nil_append,
          List.mem_cons, List.not_mem_nil, or_false] at hf
        · rcases hf with rfl | rfl | rfl
          · exact ⟨1, by push_cast; ring⟩
          · exact ⟨1, by push_cast; ring⟩
          · exact ⟨2, by push_cast; ring⟩
        · rcases hf with rfl | rfl | rfl
          · exact ⟨2, by push_cast; ring⟩
          · exact ⟨1, by push_cast; ring⟩
          · exact ⟨1, by push_cast; ring⟩
        · rcases hf with rfl | rfl | rfl
          · exact ⟨3, by push_cast; ring⟩
          · exact ⟨1, by push_cast; ring⟩
          · exact ⟨2, by push_cast; ring⟩
      · rcases htiny with ⟨c1, c2⟩ | ⟨c1, c2⟩ | ⟨c1, c2⟩ <;> rw [c1, c2] <;> simp
    obtain ⟨k1, k2⟩ := scaled_cast s t
    rw [hr] at k1 k2
    obtain ⟨m, hm, hbig⟩ := L.big
    have hsum := L.targets_sum
    have hpos := L.targets_pos hs ht
    have hm2 : m ≤ (loadValues cfg s t a h).attrs.targetValues.sum := mem_le_sum (fun v hv => (hpos v hv).le) hm
    rcases htiny with ⟨c1, c2⟩ | ⟨c1, c2⟩ | ⟨c1, c2⟩ <;> rw [c1] at k1 <;> rw [c2] at k2
    · have e1 : scaledSources s t = [1, 1] := cast_inj (by rw [k1]; simp; field_simp)
      rw [hsum, e1] at hm2
      simp at hm2; omega
    · have e1 : scaledSources s t = [2] := cast_inj (by rw [k1]; simp; field_simp)
      rw [hsum, e1] at hm2
      simp at hm2; omega
    · have e2 : scaledTargets s t = [1, 2] := cast_inj (by rw [k2]; simp; constructor <;> field_simp)
      obtain ⟨hg, inner, I, _, etv, _⟩ := L.grouped
      rw [e2] at I
      rw [etv] at hm
      obtain ⟨b, hb, rfl⟩ := List.mem_map.1 hm
      have := group_one_two I b hb
      omega

end Satis.Solver
