import Verif.Graph.Expanded
import Verif.Props.Machines
import Verif.Solver.Fees
/-!
# What a node costs is what is made for it
-/

namespace Satis.Solver
open Satis Satis.Graph Satis.Cost Satis.Spec

theorem places_length (n m : Nat) (before sel : List Nat) (hs : ∀ i ∈ sel, 1 ≤ i ∧ i ≤ n + m) : (places n m before sel).length = sel.length := by
  unfold places
  rw [List.length_flatMap]
  simp only [List.length_map, List.length_range]
  induction sel with
  | nil => simp
  | cons i sel ih =>
    obtain ⟨h1, h2⟩ := hs i (by simp)
    rw [List.length_cons, ← ih fun j hj => hs j (by simp [hj])]
    have : (List.range (n + m)).map (fun j => (i :: sel).count (j + 1)) =
        (List.range (n + m)).map (fun j => sel.count (j + 1) + if i - 1 = j then 1 else 0) := by
      refine List.map_congr_left fun j _ => ?_
      rw [List.count_cons]
      congr 1
      by_cases w : i = j + 1
      · rw [if_pos (by simpa using w), if_pos (by omega)]
      · rw [if_neg (by simpa using w), if_neg (by omega)]
    rw [this, List.sum_map_add]
    congr 1
    rw [← List.sum_toFinset _ List.nodup_range, Finset.sum_ite_eq, if_pos]
    rw [List.mem_toFinset, List.mem_range]
    omega

theorem saved_le_all (n m : Nat) (sel : List Nat) (hs : ∀ i ∈ sel, 1 ≤ i ∧ i ≤ n + m) (ht : tot (Lat n m) sel ≤ L n m) :
    savedSplitters n m sel ≤ S n m := by
  rw [savedSplitters_eq]
  by_cases h : sel = []
  · subst h
    simp
  · have := saved_lt n m sel hs h (by rw [Lat0]; exact ht)
    rw [Sat0] at this
    exact this.le

/-- The price of a division within the limit. -/
theorem divide_price {cfg : Config} {x : Int} {d : Nat} (hx : 2 ≤ x) (hd : 2 ≤ d) (hdx : (d : Int) ∣ x)
    (hW : ∀ n m, BestShape d n m → (x : ℚ) * (2 ^ n * 3 ^ m) / d ≤ cfg.limit) :
    divideCost cfg x d = .ok ((splits (x : ℚ) (.divide d) + toOne (1 + (backs (x : ℚ) (.divide d)).length) : ℕ) : Int) := by
  obtain ⟨n, m, hf, hb⟩ := findNML_best d (by omega)
  have hL := ((bestShape_iff d n m).1 hb).1
  have hu : realBelt (x : ℚ) d (L n m - d) ≤ cfg.limit := by
    refine le_trans (le_of_eq ?_) (hW n m hb)
    have h2 : (d : ℚ) ≠ 0 := by
      have : 0 < (d : ℚ) := by exact_mod_cast (by omega : 0 < d)
      exact this.ne'
    unfold realBelt
    rw [Nat.cast_sub hL]
    unfold L
    push_cast
    field_simp
    ring
  have hc := C09_divide_surcharge_partial cfg x d hx hd hdx n m
    (gsel n m (L n m - d) (L n m - d)) hb (by rw [complete_leaves]; exact gsel_fewest _ _ _) (by
    right; left
    rw [complete_leaves]
    exact hu)
  rw [hc, complete_leaves, complete_splitters]
  have hdep := gsel_depth n m (L n m - d) (by omega)
  have hs := saved_le_all n m _ hdep (by rw [gsel_total]; omega)
  have h0 : ¬ realBelt (x : ℚ) d (L n m - d) > cfg.limit := not_lt.2 hu
  unfold feedBack
  rw [if_neg h0]
  unfold splits backs
  simp only [hf]
  rw [places_length _ _ _ _ hdep]
  congr 1
  by_cases hz : L n m = d
  · rw [if_pos hz]
    rw [hz, Nat.sub_self] at hs ⊢
    simp only [gsel_zero, List.length_nil, toOne] at hs ⊢
    push_cast
    omega
  · rw [if_neg hz, Nat.add_comm (List.length _) 1]
    push_cast
    omega

/-- The price of an extraction within the limit. -/
theorem extract_price {cfg : Config} {v c : Nat} (hc0 : 0 < c) (hcv : 2 * c < v) (hs : c ∉ cfg.speeds)
    (hW : ∀ n m, BestShape (v / Nat.gcd v c) n m → ((Nat.gcd v c * (2 ^ n * 3 ^ m) : ℕ) : ℚ) ≤ cfg.limit) :
    extractCost cfg v c = .ok ((splits (v : ℚ) (.extract c) + toOne (1 + (backs (v : ℚ) (.extract c)).length) +
      (toOne (forth v c c).length + toOne (forth v c ((v : ℚ) - c)).length) : ℕ) : Int) := by
  obtain ⟨d, e, g, n, m, l, s, K⟩ := ExtractNumbers.of hc0 (by omega : c < v)
  have hg := K.hg
  have helt := K.elt
  have hd0 : d ≠ 0 := by omega
  have hb : BestShape d n m := by
    obtain ⟨n', m', hf, hb⟩ := findNML_best d hd0
    rw [K.find] at hf
    simp only [Except.ok.injEq, Prod.mk.injEq] at hf
    rw [hf.1, hf.2.1]
    exact hb
  have hdiv : v / Nat.gcd v c = d := by
    rw [← hg, K.hv]
    exact Nat.mul_div_cancel _ K.gpos
  have hdive : c / Nat.gcd v c = e := by
    rw [← hg, K.hc]
    exact Nat.mul_div_cancel _ K.gpos
  have htot := K.total
  have hl : L n m - d = l := by omega
  have hdq : (0 : ℚ) < d := by exact_mod_cast Nat.pos_of_ne_zero hd0
  have hu : realBelt (v : ℚ) d l ≤ cfg.limit := by
    refine le_trans (le_of_eq ?_) (hW n m (by rw [hdiv]; exact hb))
    have hvq : (v : ℚ) = d * g := by exact_mod_cast K.hv
    have hlq : (d : ℚ) + l = 2 ^ n * 3 ^ m := by
      have : ((d + l : ℕ) : ℚ) = (L n m : ℕ) := by rw [htot]
      unfold L at this
      push_cast at this
      exact this
    unfold realBelt
    rw [← hg]
    push_cast
    rw [← hlq, hvq]
    field_simp
  have hgi : (g : ℕ) = Int.gcd (v : Int) ((v : Int) - c) := by
    have : (v : Int) - c = ((v - c : ℕ) : Int) := by omega
    rw [this, Int.gcd_natCast_natCast, hg]
    exact (Nat.gcd_self_sub_right (by omega)).symm
  have hc := extract_cost_formula cfg (v : Int) (c : Int) (by omega) (by omega) (by omega)
    (by
      intro q
      simp only [List.mem_map] at q
      obtain ⟨s, hs', q⟩ := q
      exact hs (by rw [← show s = c by omega]; exact hs')) g d e n m (gsel n m l l) (gsel n m (d - e) (d - e)) (gsel n m e e) hgi
    (by rw [K.hv]; push_cast; ring) (by rw [K.hc]; push_cast; ring) hb (by rw [complete_leaves, hl]; exact gsel_fewest _ _ _)
    (gsel_fewest _ _ _) (gsel_fewest _ _ _)
  rw [hc, complete_leaves, hl]
  have h0 : ¬ codeBelt' (v : Int) d l > cfg.limit := by
    rw [not_lt]
    refine le_trans (code_le_real (v : Int) d l (by omega) (Nat.pos_of_ne_zero hd0)) ?_
    simpa using hu
  have hne : ((v : ℚ) - c) ≠ c := by
    intro w
    have : (v : ℚ) = ((2 * c : ℕ) : ℚ) := by push_cast; linarith
    have : v = 2 * c := by exact_mod_cast this
    omega
  have k1 := gsel_depth n m l (by omega)
  have k2 := gsel_depth n m e (by omega)
  have k3 := gsel_depth n m (d - e) (by have := K.epos; omega)
  have hs := saved_le_all n m (gsel n m l l ++ gsel n m e e ++ gsel n m (d - e) (d - e)) (by
      intro i hi
      simp only [List.mem_append] at hi
      rcases hi with (w | w) | w
      · exact k1 i w
      · exact k2 i w
      · exact k3 i w) (by
      rw [tot_append, tot_append, gsel_total, gsel_total, gsel_total]
      omega)
  rw [savedSplitters_eq, tot_append, tot_append, ← savedSplitters_eq, ← savedSplitters_eq, ← savedSplitters_eq] at hs
  congr 1
  unfold uniformExtractCost feedBack splits backs forth
  simp only [Rat.num_natCast, Int.toNat_natCast, hdiv, hdive, K.find]
  rw [if_neg h0, complete_splitters, if_pos trivial, if_neg hne, places_length _ _ _ _ k1, places_length _ _ _ _ k2, places_length _ _ _ _ k3, Nat.add_comm (List.length _) 1]
  push_cast
  omega

/-- What a node costs is what is made for it. -/
theorem own_fee {cfg : Config} {h : Heap Int} {roots : List Addr} (S : Sound cfg.speeds h.toRat roots)
    (U : ∀ a, Reach h.toRat roots a → ∀ c, .split c ∉ (h.toRat.get a).expands) (W : WithinLimit cfg h.toRat (Reach h.toRat roots))
    (T : TypedH cfg h (Reach h roots)) (hpos : ∀ a, Reach h roots a → 0 < (h.get a).value) {a : Addr} (ha : Reach h roots a) :
    ((own h.toRat a : ℕ) : Int) = fee cfg (h.get a).value (h.get a).children.length (h.get a).expands := by
  obtain ⟨hnd, es, J, he⟩ := T a ha
  have har : Reach h.toRat roots a := reach_toRat.2 ha
  have hp := hpos a ha
  have hv : (h.toRat.get a).value = ((h.get a).value : ℚ) := rfl
  have hk : (h.toRat.get a).children = (h.get a).children := rfl
  have hx : (h.toRat.get a).expands = (mergeTag (h.get a).parents.length).map ratExpand ++ es.map ratExpand := by
    rw [← List.map_append, ← he]
    exact toRat_expands _
  have hm : ∀ e ∈ (mergeTag (h.get a).parents.length).map ratExpand, ∃ t, e = .merge t := by
    intro e he
    unfold mergeTag at he
    split at he
    · exact ⟨3, by simpa [ratExpand] using he⟩
    · simp at he
  have hb : ∀ l : List (Expand ℚ), (∀ e ∈ l, ∃ t, e = .merge t) → l.flatMap (backs (h.toRat.get a).value) = [] := fun l hl => by
    rw [List.flatMap_eq_nil_iff]
    intro x hx
    obtain ⟨t, rfl⟩ := hl x hx
    rfl
  have h1 : (h.toRat.get a).expands.filter outward = (es.map ratExpand).filter outward := by
    have := outward_merge (es := es.map ratExpand) (post := []) hm (by simp)
    rw [List.append_nil] at this
    rw [hx, this]
  have h2 : (h.toRat.get a).expands.findSome? cut = (es.map ratExpand).findSome? cut := by
    have := cut_merge (es := es.map ratExpand) (post := []) hm (by simp)
    rw [List.append_nil] at this
    rw [hx, this]
  have h3 : loops h.toRat a = (es.map ratExpand).flatMap (backs (h.toRat.get a).value) := by
    unfold loops
    rw [hx, List.flatMap_append, hb _ hm, List.nil_append]
  have hplain : es = [] → ((own h.toRat a : ℕ) : Int) = fee cfg (h.get a).value (h.get a).children.length (h.get a).expands := by
    rintro rfl
    rw [he, fee_tag]
    unfold own outlay
    rw [h1, h2, h3]
    simp [fee, toOne, hk]
  rw [he, fee_tag]
  rw [he, fee_tag] at hplain
  have hlen : ((h.get a).children.map fun c => (h.get c).value).length = (h.get a).children.length := List.length_map _
  generalize hvs : ((h.get a).children.map fun c => (h.get c).value) = vs at J hlen
  cases J with
  | leaf => exact hplain rfl
  | pass => exact hplain rfl
  | share d q hd hq =>
    by_cases h4 : d > 3
    · rw [if_pos h4] at h1 h2 h3 hx ⊢
      obtain ⟨-, w⟩ := W.divide a har d (by rw [hx]; simp [ratExpand])
      have hq0 : 0 < q := by
        by_contra w
        have : (d : Int) * q ≤ 0 := mul_nonpos_of_nonneg_of_nonpos (by omega) (by omega)
        omega
      have hv2 : 2 ≤ (h.get a).value := by
        rw [← hq]
        nlinarith
      have := divide_price (cfg := cfg) hv2 hd ⟨q, hq.symm⟩ w
      have ho : [Expand.divide (V := ℚ) d].filter outward = [.divide d] := rfl
      unfold fee own outlay
      rw [this, h1, h2, h3]
      simp [Except.toOption, ratExpand, ho, cut, hv]
    · rw [if_neg h4] at hplain ⊢
      exact hplain rfl
  | split c _ q =>
    exact absurd (by rw [hx]; simp [ratExpand]) (U a har c)
  | cut c _ q hc0 hcv =>
    by_cases hs : isSpeed cfg c = true
    · rw [if_pos hs] at hplain ⊢
      exact hplain rfl
    · rw [if_neg hs] at h1 h2 h3 hx ⊢
      have hsp : c ∉ cfg.speeds.map (fun (s : Nat) => (s : Int)) := fun w => hs ((isSpeed_iff cfg c).2 (by simpa using w))
      obtain ⟨v', c', e1, e2, -, -, w⟩ := W.extract a har c (by rw [hx]; simp [ratExpand])
      have e1 : (h.get a).value = (v' : Int) := by
        rw [hv] at e1
        exact_mod_cast e1
      have e2 : c = (c' : Int) := by exact_mod_cast e2
      subst e2
      rw [e1] at q hcv ⊢
      have := extract_price (cfg := cfg) (v := v') (c := c') (by omega) (by omega) (fun w => hsp (List.mem_map.2 ⟨c', w, rfl⟩)) (fun n m hb => by
        exact_mod_cast w n m hb)
      have hcm : ∀ z ∈ (h.get a).children, comes h.toRat z = (forth v' c' (h.get z).value).length := fun z hz => by
        have hpar := S.tree a har (by rw [hk, ← hlen, q.length_eq]; simp) z hz
        unfold comes
        rw [hpar]
        simp only [h2]
        show (forth ((h.get a).value : ℚ) c' _).length = _
        rw [e1]
        rfl
      have hsum : ((h.get a).children.map fun z => toOne (comes h.toRat z)).sum = toOne (forth v' c' c').length + toOne (forth v' c' ((v' : ℚ) - c')).length := by
        rw [List.map_congr_left (g := (fun w : Int => toOne (forth v' c' w).length) ∘ fun z => (h.get z).value) fun z hz => by rw [hcm z hz]; rfl,
          ← List.map_map, hvs, (q.map _).sum_eq]
        simp
      have ho : [Expand.extract (c' : ℚ)].filter outward = [.extract (c' : ℚ)] := rfl
      unfold fee own outlay
      rw [this, h1, h2, h3, hk, hsum]
      simp [Except.toOption, ratExpand, ho, cut, hv, e1]

open Classical in
/-- The price of a network is what is made for its nodes. -/
theorem dues_own {cfg : Config} {h : Heap Int} {roots : List Addr} (S : Sound cfg.speeds h.toRat roots)
    (U : ∀ a, Reach h.toRat roots a → ∀ c, .split c ∉ (h.toRat.get a).expands) (W : WithinLimit cfg h.toRat (Reach h.toRat roots))
    (T : TypedH cfg h (Reach h roots)) (hpos : ∀ a, Reach h roots a → 0 < (h.get a).value) :
    ((∑ a ∈ Finset.range h.toRat.next with Reach h.toRat roots a, (own h.toRat a + toOne (h.toRat.get a).parents.length) : ℕ) : Int) = dues cfg h roots := by
  unfold dues
  rw [Nat.cast_sum, funext fun a => propext (reach_toRat (h := h) (roots := roots) (a := a))]
  refine Finset.sum_congr rfl fun a ha => ?_
  rw [Nat.cast_add, own_fee S U W T hpos (Finset.mem_filter.1 ha).2]
  rfl

end Satis.Solver
