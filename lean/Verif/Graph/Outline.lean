import Verif.Graph.Picture
import Verif.Graph.OutlineSpec
/-!
# The picture of a sound network
-/

namespace Satis.Graph
open Satis

variable {h : Heap ℚ} {roots : List Addr} {speeds : List Nat}

theorem sum_of_share {l : List Addr} {F : Addr → ℚ} {v : ℚ} {d : Nat} (hd : l.length = d) (h0 : d ≠ 0) (H : ∀ c ∈ l, F c = v / d) : (l.map F).sum = v := by
  have : l.map F = List.replicate d (v / d) := by
    rw [List.eq_replicate_iff]
    refine ⟨by rw [List.length_map, hd], fun x hx => ?_⟩
    obtain ⟨c, hc, rfl⟩ := List.mem_map.1 hx
    exact H c hc
  rw [this, List.sum_replicate, nsmul_eq_mul]
  have : (d : ℚ) ≠ 0 := by exact_mod_cast h0
  field_simp

/-- A node with several children divides its value among them. -/
theorem Sound.shares (P : Sound speeds h roots) {a : Addr} (ha : Reach h roots a) (h2 : 2 ≤ (h.get a).children.length) :
    ((h.get a).children.map fun c => (h.get c).value).sum = (h.get a).value := by
  obtain ⟨es, J | ⟨c, -, -, p⟩, -⟩ := P.jobs a ha
  · cases J with
    | leaf w => simp [w] at h2
    | pass c w => simp [w] at h2
    | few w w2 => exact sum_of_share rfl (by omega) w2
    | belt x y w w2 w3 => rw [w]; simpa using w2
    | divide d D => exact sum_of_share D.count (by have := D.two; omega) D.share
    | extract v c x y E =>
      rw [E.children, E.value]
      rcases E.share with ⟨w1, w2⟩ | ⟨w1, w2⟩ <;> simp only [List.map_cons, List.map_nil, List.sum_cons, List.sum_nil, w1, w2] <;> ring
  · rw [p.sum_eq]
    simp only [List.sum_cons, List.sum_nil]
    ring

/-- The picture of a sound network. -/
theorem Sound.outline (P : Sound speeds h roots) (hrn : roots.Nodup) {order sources : List Addr} {k : Nat} {S T : List ℚ} (hk : 0 < k)
    (hnd : order.Nodup) (ho : ∀ a, a ∈ order ↔ Reach h roots a) (hsn : sources.Nodup)
    (hsrc : ∀ x, x ∈ sources ↔ Reach h roots x ∧ (h.get x).children = []) (hS : (roots.map fun x => (h.get x).value / (k : ℚ)).Perm S)
    (hT : (sources.map fun x => (h.get x).value / (k : ℚ)).Perm T) : ∃ flow, Outline (drawing h order) k S T flow := by
  have hcl : ∀ a, Reach h roots a → ∀ p ∈ (h.get a).parents, Reach h roots p := fun a ha p hp => P.region.parents a ha p hp
  obtain ⟨ψ, R⟩ := drawing_renamed (γ := id) P.region (fun _ _ e => e) hnd ho (fun _ w => w) hcl P.links
  rw [Drawing.rename_id] at R
  simp only [id] at R
  have hnames : (drawing h order).names = order.map fun a => (h.get a).id := by simp [Drawing.names, drawing]
  have hinj : ∀ a ∈ order, ∀ b ∈ order, (h.get a).id = (h.get b).id → a = b := fun a ha b hb e => R.inj ((ho a).1 ha) ((ho b).1 hb) e
  have houts : ∀ a, Reach h roots a → (drawing h order).outs (h.get a).id = (h.get a).children.map fun c => (h.get c).id := R.children
  have hins : ∀ a, Reach h roots a → ((drawing h order).ins (h.get a).id).Perm ((h.get a).parents.map fun c => (h.get c).id) := R.parents
  have hflow : ∀ a, Reach h roots a → (fun i => (h.get (ψ i)).value / (k : ℚ)) (h.get a).id = (h.get a).value / (k : ℚ) := fun a ha => by
    have := R.back a ha
    simp only at this ⊢
    rw [this]
  have hkq : (0 : ℚ) < k := by exact_mod_cast hk
  have hkid : ∀ a, Reach h roots a → ∀ c ∈ (h.get a).children, Reach h roots c := fun a ha c hc => .child ha hc
  have hsum : ∀ l : List Addr, (∀ a ∈ l, Reach h roots a) → ((l.map fun a => (h.get a).id).map fun i => (h.get (ψ i)).value / (k : ℚ)).sum =
      (l.map fun a => (h.get a).value).sum / k := by
    intro l hl
    induction l with
    | nil => simp
    | cons a l ih =>
      have := hflow a (hl a List.mem_cons_self)
      simp only at this
      simp only [List.map_cons, List.sum_cons, this, ih fun b hb => hl b (List.mem_cons_of_mem _ hb)]
      ring
  refine ⟨fun i => (h.get (ψ i)).value / (k : ℚ), ?_, ?_, ?_, ?_, ?_, ?_, ?_⟩
  · rw [hnames]
    exact hnd.map_on hinj
  · intro i v l hm
    simp only [drawing, List.mem_map] at hm
    obtain ⟨a, ha, e⟩ := hm
    simp only [Prod.mk.injEq] at e
    obtain ⟨rfl, rfl, -⟩ := e
    exact hflow a ((ho a).1 ha)
  · intro i hi
    rw [hnames] at hi
    obtain ⟨a, ha, rfl⟩ := List.mem_map.1 hi
    have := hflow a ((ho a).1 ha)
    simp only at this ⊢
    rw [this]
    exact div_pos (P.positive a ((ho a).1 ha)) hkq
  · intro e he
    simp only [drawing, List.mem_flatMap, List.mem_map] at he
    obtain ⟨a, ha, c, hc, rfl⟩ := he
    obtain ⟨l, m, w1, w2, w3⟩ := P.down a ((ho a).1 ha) c hc
    refine ⟨(h.get a).value, l, (h.get c).value, m, ?_, ?_, w3⟩
    · exact List.mem_map.2 ⟨a, ha, by rw [w1]⟩
    · exact List.mem_map.2 ⟨c, (ho c).2 (.child ((ho a).1 ha) hc), by rw [w2]⟩
  · rw [hnames, List.filter_map, List.map_map]
    have e2 : (order.filter ((fun i => decide ((drawing h order).ins i = [])) ∘ fun a => (h.get a).id)).Perm roots := by
      refine (List.perm_ext_iff_of_nodup (hnd.filter _) hrn).2 fun a => ?_
      rw [List.mem_filter, Function.comp, decide_eq_true_eq, ho]
      constructor
      · rintro ⟨w1, w2⟩
        rw [P.root_iff w1]
        have := hins a w1
        rw [w2] at this
        simpa using this.symm.eq_nil
      · intro w
        refine ⟨.root w, ?_⟩
        have := hins a (.root w)
        rw [P.top a w] at this
        exact this.eq_nil
    refine (List.Perm.of_eq (List.map_congr_left fun a ha => ?_)).trans ((e2.map _).trans hS)
    exact hflow a ((ho a).1 (List.mem_filter.1 ha).1)
  · rw [hnames, List.filter_map, List.map_map]
    have e2 : (order.filter ((fun i => decide ((drawing h order).outs i = [])) ∘ fun a => (h.get a).id)).Perm sources := by
      refine (List.perm_ext_iff_of_nodup (hnd.filter _) hsn).2 fun a => ?_
      rw [List.mem_filter, Function.comp, decide_eq_true_eq, ho, hsrc]
      refine and_congr_right fun w => ?_
      rw [houts a w, List.map_eq_nil_iff]
    refine (List.Perm.of_eq (List.map_congr_left fun a ha => ?_)).trans ((e2.map _).trans hT)
    exact hflow a ((ho a).1 (List.mem_filter.1 ha).1)
  · intro i hi hne
    rw [hnames] at hi
    obtain ⟨a, ha', rfl⟩ := List.mem_map.1 hi
    have ha := (ho a).1 ha'
    rw [houts a ha] at hne ⊢
    rcases Nat.lt_or_ge (h.get a).children.length 2 with w | w
    · right
      obtain ⟨c, hc⟩ : ∃ c, (h.get a).children = [c] := by
        match hl : (h.get a).children with
        | [] => rw [hl] at hne; exact absurd rfl hne
        | [c] => exact ⟨c, rfl⟩
        | _ :: _ :: l => exact absurd w (by rw [hl]; simp only [List.length_cons]; omega)
      have hcm : c ∈ (h.get a).children := by simp [hc]
      have hcr := hkid a ha c hcm
      have hap : a ∈ (h.get c).parents := by
        have := P.links a c ha hcr
        rw [hc] at this
        rw [← List.count_pos_iff, ← this]
        simp
      have hroot : c ∉ roots := fun w => by rw [P.top c w] at hap; simp at hap
      rcases P.merge c hcr hroot with ⟨p, w1, w2⟩ | ⟨w1, w2, w3⟩
      · rw [w1, List.mem_singleton] at hap
        rw [← hap, hc] at w2
        simp at w2
      · have hpi := hins c hcr
        refine ⟨(h.get c).id, by rw [hc]; rfl, ?_, ?_, ?_⟩
        · rw [hpi.nodup_iff]
          exact w1.map_on fun x hx y hy e => R.inj (hcl c hcr x hx) (hcl c hcr y hy) e
        · intro p hp
          obtain ⟨q, hq, rfl⟩ := List.mem_map.1 (hpi.mem_iff.1 hp)
          rw [houts q (hcl c hcr q hq), (w2 q hq).2.1]
          rfl
        · rw [(hpi.map _).sum_eq, hsum _ (hcl c hcr), ← w3]
          exact (hflow c hcr).symm
    · left
      refine ⟨fun j hj => ?_, ?_⟩
      · obtain ⟨c, hc, rfl⟩ := List.mem_map.1 hj
        have := hins c (hkid a ha c hc)
        rw [P.tree a ha w c hc] at this
        simpa using this
      · rw [hsum _ (hkid a ha), P.shares ha w]
        exact (hflow a ha).symm

end Satis.Graph
