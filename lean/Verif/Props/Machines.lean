import Verif.Props.Expand
/-!
# C63 — what a move costs is what its expansion builds

`cost.py` prices a move with arithmetic; `node.py` builds the machines much later. The machines are counted in the graphs before and
after the expansion (`Verif/Graph/MachineSpec.lean`).
-/

namespace Satis
open Satis.Graph Satis.Cost Satis.Spec Satis.Graph.Example

/-- C63 for divisions. Missing: belts over the limit, for which the claim is false (`C63_divide_over`). -/
theorem C63_divide_partial (cfg : Config) (h : Heap ℚ) (node : Addr) (d x : Nat) (lvl : Int) (H : DivideInput h node d)
    (hlevel : (h.get node).level = some lvl) (hx : (h.get node).value = x) (hx2 : 2 ≤ x) (hd : d ∣ x)
    (hunder : ∀ n m, BestShape d n m → realBelt x d ((complete n m).leaves - d) ≤ cfg.limit) :
    ∃ h' u, expandDivide cfg h node d = .ok (h', u) ∧ divideCost cfg x d = .ok (machines h h' node (h.get node).children) := by
  have hd2 := H.two
  obtain ⟨n, m, hf, hb⟩ := findNML_best d (by omega)
  have hL := ((bestShape_iff d n m).1 hb).1
  have hu := hunder n m hb
  rw [complete_leaves] at hu
  obtain ⟨h', e, -, -, -, -, -, hm, -⟩ := expandDivide_under (cfg := cfg) H hf (by omega) hlevel (by
    unfold realBelt at hu
    rw [hx, mul_div_assoc]
    exact hu)
  refine ⟨h', _, e, ?_⟩
  have hc := C09_divide_surcharge_partial cfg (x : Int) d (by omega) hd2 (by exact_mod_cast hd) n m
    (gsel n m (L n m - d) (L n m - d)) hb (by rw [complete_leaves]; exact gsel_fewest _ _ _) (by
    right; left
    rw [complete_leaves]
    simpa using hu)
  rw [hc, complete_leaves, complete_splitters]
  congr 1
  have h0 : ¬ realBelt ((x : Int) : ℚ) d (L n m - d) > cfg.limit := by
    rw [not_lt]
    simpa using hu
  unfold feedBack
  rw [if_neg h0]
  by_cases hz : L n m = d
  · rw [if_pos hz]
    rw [hz, Nat.sub_self] at hm ⊢
    simp only [gsel_zero, savedSplitters, List.map_nil, List.sum_nil, List.length_nil, toOne] at hm ⊢
    push_cast
    omega
  · rw [if_neg hz, Nat.add_comm (List.length _) 1]
    omega

/-- C63 for extractions, unless the belt does the work. Missing: belts over the limit, for which the claim is false
(`C63_extract_over`). -/
theorem C63_extract_partial (cfg : Config) (h : Heap ℚ) (node x y : Addr) (v c : Nat) (lvl : Int) (H : ExtractInput h node x y v c)
    (hlevel : (h.get node).level = some lvl) (hv : 3 ≤ v) (hs : c ∉ cfg.speeds)
    (hunder : ∀ n m, BestShape (v / Nat.gcd v c) n m →
      realBelt v (v / Nat.gcd v c) ((complete n m).leaves - v / Nat.gcd v c) ≤ cfg.limit) :
    ∃ h' u, expandExtract cfg h node c = .ok (h', u) ∧ extractCost cfg v c = .ok (machines h h' node [x, y]) := by
  obtain ⟨d, e, g, n, m, l, s, K⟩ := ExtractNumbers.of H.pos H.lt
  have hg := K.hg
  have hd0 : d ≠ 0 := by have := K.elt; omega
  have hb : BestShape d n m := by
    obtain ⟨n', m', hf, hb⟩ := findNML_best d hd0
    rw [K.find] at hf
    simp only [Except.ok.injEq, Prod.mk.injEq] at hf
    rw [hf.1, hf.2.1]
    exact hb
  have hdiv : v / Nat.gcd v c = d := by
    rw [← hg, K.hv]
    exact Nat.mul_div_cancel _ K.gpos
  have hl : L n m - d = l := by have := K.total; omega
  have hu := hunder n m (by rw [hdiv]; exact hb)
  rw [hdiv, complete_leaves, hl] at hu
  have hdq : (0 : ℚ) < d := by exact_mod_cast Nat.pos_of_ne_zero hd0
  have hvq : (v : ℚ) = d * g := by exact_mod_cast K.hv
  have hlg : realBelt (v : ℚ) d l = (v : ℚ) + l * g := by
    unfold realBelt
    rw [hvq]
    field_simp
  obtain ⟨h', e1, -, -, -, -, -, -, hm, -⟩ := expandExtract_under (cfg := cfg) K H hlevel (by rw [← hlg]; exact hu)
  refine ⟨h', _, e1, ?_⟩
  have hgi : (g : ℕ) = Int.gcd (v : Int) ((v : Int) - c) := by
    have : (v : Int) - c = ((v - c : ℕ) : Int) := by have := H.lt; omega
    rw [this, Int.gcd_natCast_natCast, hg]
    exact (Nat.gcd_self_sub_right H.lt.le).symm
  have hc := extract_cost_formula cfg (v : Int) (c : Int) (by omega) (by have := H.pos; omega) (by have := H.lt; omega)
    (by
      intro q
      simp only [List.mem_map] at q
      obtain ⟨s, hs', q⟩ := q
      exact hs (by rw [← show s = c by omega]; exact hs')) g d e n m (gsel n m l l) (gsel n m (d - e) (d - e)) (gsel n m e e) hgi
    (by rw [K.hv]; push_cast; ring) (by rw [K.hc]; push_cast; ring) hb (by rw [complete_leaves, hl]; exact gsel_fewest _ _ _)
    (gsel_fewest _ _ _) (gsel_fewest _ _ _)
  rw [hc, complete_leaves, hl]
  congr 1
  have h0 : ¬ codeBelt' (v : Int) d l > cfg.limit := by
    rw [not_lt]
    refine le_trans (code_le_real (v : Int) d l (by omega) (Nat.pos_of_ne_zero hd0)) ?_
    simpa using hu
  unfold uniformExtractCost feedBack
  rw [if_neg h0, complete_splitters, Nat.add_comm (List.length _) 1]
  push_cast
  omega

/-- What divisions cost when at most two branches loop: the limit is never looked at. -/
theorem divide_cost_formula (cfg : Config) (x : Int) (d : Nat) (hx : 2 ≤ x) (hd : 2 ≤ d) (hdx : (d : Int) ∣ x) (n m : Nat) (hb : BestShape d n m)
    (h0 : (complete n m).leaves ≠ d) :
    divideCost cfg x d = .ok (((complete n m).splitters : Int) - savedSplitters n m (gsel n m (L n m - d) (L n m - d)) +
      feedBack (d + 3 ≤ (complete n m).leaves ∧ codeBelt' x d ((complete n m).leaves - d) > cfg.limit) (gsel n m (L n m - d) (L n m - d)).length n) := by
  have hL := complete_leaves n m
  rw [hL] at h0 ⊢
  have hen := hb.enough
  rw [hL] at hen
  by_cases h3 : d + 3 ≤ L n m
  · rw [C08_divide_uniform_partial cfg x d hx hd hdx (fun n' m' hb' => by
      obtain ⟨rfl, rfl⟩ := bestShape_unique hb hb'
      right; left; rw [hL]; exact h3) n m (gsel n m (L n m - d) (L n m - d)) hb (by rw [hL]; exact gsel_fewest _ _ _)]
    unfold uniformDivideCost
    simp only [hL, h3, true_and]
    rw [if_neg (by omega)]
  · obtain ⟨n', m', r, -, k2, k3, k4, h1, -, -, h2⟩ := divideCost_core cfg x d hx hd (Int.le_of_dvd (by omega) hdx)
    have hb' : BestShape d n' m' := (bestShape_iff _ _ _).2 ⟨k2, k3, findNML_min_loop d n' m' k2 k3 k4⟩
    obtain ⟨rfl, rfl⟩ := bestShape_unique hb hb'
    obtain ⟨m', rfl⟩ : ∃ m', m = m' + 1 := by
      rcases m with _ | m'
      · have := no_ternary d n (by omega) k2 k3; omega
      · exact ⟨m', rfl⟩
    rw [h1, h2 (by omega) (by omega)]
    congr 1
    unfold feedBack
    rw [if_neg fun q => h3 q.1, complete_splitters, savedSplitters_eq]
    obtain ⟨a, b⟩ := gsel_small n m'
    have hcases : L n (m' + 1) - d = 1 ∨ L n (m' + 1) - d = 2 := by omega
    rcases hcases with h | h
    · rw [h, a]
      simp only [tot_cons, tot_nil, Sat_last, List.length_cons, List.length_nil, toOne]
      push_cast
      omega
    · rw [h, b]
      simp only [tot_cons, tot_nil, Sat_last, List.length_cons, List.length_nil, toOne]
      push_cast
      omega

/-- C63 for divisions over the limit: the exact difference between price and machines. `back`: belts into the node for the loop;
`again`: belts that lead to the node itself although there is a node for the loop (the splitters in three send theirs there). -/
theorem C63_divide_over (cfg : Config) (h : Heap ℚ) (node : Addr) (d x n m : Nat) (lvl : Int) (H : DivideInput h node d)
    (hlevel : (h.get node).level = some lvl) (hx : (h.get node).value = x) (hx2 : 2 ≤ x) (hd : d ∣ x) (hlimit : x ≤ cfg.limit)
    (hb : BestShape d n m) (hover : realBelt x d ((complete n m).leaves - d) > cfg.limit) :
    ∃ h' u p, expandDivide cfg h node d = .ok (h', u) ∧ divideCost cfg x d = .ok p ∧
      (let back := belts h' (made h h' node) h.next
       let again := belts h' (made h h' node) node
       p + feedBack True back n + toOne (1 + again) = machines h h' node (h.get node).children +
         feedBack (d + 3 ≤ (complete n m).leaves ∧ codeBelt' x d ((complete n m).leaves - d) > cfg.limit) (back + again) n) ∧
      (d + 3 ≤ (complete n m).leaves ∧ codeBelt' x d ((complete n m).leaves - d) > cfg.limit →
        p ≤ machines h h' node (h.get node).children ∧ machines h h' node (h.get node).children ≤ p + 1) ∧
      (¬ (d + 3 ≤ (complete n m).leaves ∧ codeBelt' x d ((complete n m).leaves - d) > cfg.limit) →
        p < machines h h' node (h.get node).children) := by
  have hd2 := H.two
  obtain ⟨n', m', hf, hb'⟩ := findNML_best d (by omega)
  obtain ⟨rfl, rfl⟩ := bestShape_unique hb hb'
  have hL := ((bestShape_iff d n m).1 hb).1
  have hLc := complete_leaves n m
  have h0 : (complete n m).leaves ≠ d := fun q => by
    rw [q, Nat.sub_self] at hover
    unfold realBelt at hover
    have : (x : ℚ) ≤ cfg.limit := by exact_mod_cast hlimit
    simp at hover
    omega
  have hc := divide_cost_formula cfg (x : Int) d (by omega) hd2 (by exact_mod_cast hd) n m hb h0
  rw [hLc] at hover
  obtain ⟨h', e, hk, hm⟩ := expandDivide_over_machines (cfg := cfg) H hf (by omega) hlevel (by rw [hx]; exact_mod_cast hlimit) (by
    unfold realBelt at hover
    rw [hx, mul_div_assoc]
    exact hover)
  refine ⟨h', _, _, e, hc, ?_⟩
  rw [← hk]
  have hfan : (if n > 0 then 2 else 3) = fan n 0 := rfl
  have hf2 : fan n 0 = 2 ∨ fan n 0 = 3 := fan_cases n 0
  rw [← complete_splitters] at hm
  simp only
  generalize (complete n m).splitters = s0 at *
  generalize savedSplitters n m (gsel n m (L n m - d) (L n m - d)) = s1 at *
  generalize belts h' (made h h' node) h.next = a at *
  generalize belts h' (made h h' node) node = b at *
  by_cases q : d + 3 ≤ (complete n m).leaves ∧ codeBelt' x d ((complete n m).leaves - d) > cfg.limit
  all_goals
    simp only [feedBack, q, hfan, if_true, if_false, not_true_eq_false, not_false_eq_true, false_implies, true_implies, and_true, true_and]
    unfold toOne at *
    push_cast
    omega

/-- The parity of a selection of odd subtrees. -/
theorem gsel_parity (m k : Nat) : (gsel 0 m k k).length % 2 = k % 2 := by
  have h := (gsel_fewest 0 m k).leaves
  have hall : ∀ sel : List Nat, ((sel.map fun i => (subtreeAt 0 m i).leaves).sum) % 2 = sel.length % 2 := by
    intro sel
    induction sel with
    | nil => rfl
    | cons i sel ih =>
      have h1 : (subtreeAt 0 m i).leaves % 2 = 1 := by
        rw [subtreeAt_leaves]
        unfold Lat L
        rw [Nat.zero_sub, pow_zero, one_mul]
        exact three_pow_odd _
      rw [List.map_cons, List.sum_cons, List.length_cons]
      omega
  rw [← hall, h]

/-- C63 for extractions over the limit: the exact difference between price and machines. The price forgets that an output right below the
node shares the merger of the belt that comes back; if the code believes the belt within the limit, the price is that of another network.
`k`: belts into the node for the loop; `n`: as in the tree. -/
theorem C63_extract_over (cfg : Config) (h : Heap ℚ) (node x y : Addr) (v c n m : Nat) (lvl : Int) (H : ExtractInput h node x y v c)
    (hlevel : (h.get node).level = some lvl) (hv : 3 ≤ v) (hs : c ∉ cfg.speeds) (hlimit : v ≤ cfg.limit)
    (hb : BestShape (v / Nat.gcd v c) n m)
    (hover : realBelt v (v / Nat.gcd v c) ((complete n m).leaves - v / Nat.gcd v c) > cfg.limit) :
    ∃ h' u p, expandExtract cfg h node c = .ok (h', u) ∧ extractCost cfg v c = .ok p ∧
      (let below z := (h'.get node).children.count z
       let all z := belts h' (made h h' node) z
       let k := all h.next
       (∀ z ∈ [x, y], below z ≤ all z) ∧
       p + toOne (all x) + toOne (all y) + feedBack True k n = machines h h' node [x, y] + below x + below y + toOne (all x - below x) +
         toOne (all y - below y) + feedBack (codeBelt' v (v / Nat.gcd v c) ((complete n m).leaves - v / Nat.gcd v c) > cfg.limit) k n) ∧
      (codeBelt' v (v / Nat.gcd v c) ((complete n m).leaves - v / Nat.gcd v c) > cfg.limit →
        machines h h' node [x, y] ≤ p ∧ p ≤ machines h h' node [x, y] + 1) ∧
      (codeBelt' v (v / Nat.gcd v c) ((complete n m).leaves - v / Nat.gcd v c) ≤ cfg.limit → p < machines h h' node [x, y]) := by
  obtain ⟨d, e, g, n', m', l, s, K⟩ := ExtractNumbers.of H.pos H.lt
  have hg := K.hg
  have hd0 : d ≠ 0 := by have := K.elt; omega
  have hdiv : v / Nat.gcd v c = d := by
    rw [← hg, K.hv]
    exact Nat.mul_div_cancel _ K.gpos
  rw [hdiv] at hb hover ⊢
  obtain ⟨rfl, rfl⟩ : n' = n ∧ m' = m := by
    have h1 := bestShape_unique K.best hb
    exact h1
  have hl : L n' m' - d = l := by have := K.total; omega
  rw [complete_leaves, hl] at hover ⊢
  have hdq : (0 : ℚ) < d := by exact_mod_cast Nat.pos_of_ne_zero hd0
  have hvq : (v : ℚ) = d * g := by exact_mod_cast K.hv
  have hlg : realBelt (v : ℚ) d l = (v : ℚ) + l * g := by
    unfold realBelt
    rw [hvq]
    field_simp
  rw [hlg] at hover
  obtain ⟨h', e1, hm, hbz, hk, hfew⟩ := expandExtract_over_machines (cfg := cfg) K H hlevel (by exact_mod_cast hlimit) hover
  have hgi : (g : ℕ) = Int.gcd (v : Int) ((v : Int) - c) := by
    have : (v : Int) - c = ((v - c : ℕ) : Int) := by have := H.lt; omega
    rw [this, Int.gcd_natCast_natCast, hg]
    exact (Nat.gcd_self_sub_right H.lt.le).symm
  have hc := extract_cost_formula cfg (v : Int) (c : Int) (by omega) (by have := H.pos; omega) (by have := H.lt; omega)
    (by
      intro q
      simp only [List.mem_map] at q
      obtain ⟨s, hs', q⟩ := q
      exact hs (by rw [← show s = c by omega]; exact hs')) g d e n' m' (gsel n' m' l l) (gsel n' m' (d - e) (d - e)) (gsel n' m' e e) hgi
    (by rw [K.hv]; push_cast; ring) (by rw [K.hc]; push_cast; ring) hb (by rw [complete_leaves, hl]; exact gsel_fewest _ _ _)
    (gsel_fewest _ _ _) (gsel_fewest _ _ _)
  rw [complete_leaves, hl] at hc
  refine ⟨h', _, _, e1, hc, ?_⟩
  have hbx := hbz x (by simp)
  have hby := hbz y (by simp)
  have hcop : ¬ (e % 2 = 0 ∧ (d - e) % 2 = 0) := by
    rintro ⟨q1, q2⟩
    have h1 : 2 * g ∣ Nat.gcd v c := Nat.dvd_gcd (by rw [K.hv]; exact Nat.mul_dvd_mul_right (by have := K.elt; omega) g)
      (by rw [K.hc]; exact Nat.mul_dvd_mul_right (by omega) g)
    have h2 := Nat.le_of_dvd (by rw [← hg]; exact K.gpos) h1
    have h3 := K.gpos
    omega
  have hpar : n' = 0 → ¬ ((gsel n' m' e e).length % 2 = 0 ∧ (gsel n' m' (d - e) (d - e)).length % 2 = 0) := by
    rintro rfl
    rwa [gsel_parity, gsel_parity]
  have hxy : (if (h.get x).value = c then (gsel n' m' e e).length else (gsel n' m' (d - e) (d - e)).length) = (gsel n' m' e e).length ∧
      (if (h.get y).value = c then (gsel n' m' e e).length else (gsel n' m' (d - e) (d - e)).length) = (gsel n' m' (d - e) (d - e)).length ∨
      (if (h.get x).value = c then (gsel n' m' e e).length else (gsel n' m' (d - e) (d - e)).length) = (gsel n' m' (d - e) (d - e)).length ∧
      (if (h.get y).value = c then (gsel n' m' e e).length else (gsel n' m' (d - e) (d - e)).length) = (gsel n' m' e e).length := by
    have hsame : (v : ℚ) - c = c → d - e = e := fun q => by
      rw [sub_eq_iff_eq_add] at q
      have h1 : v = c + c := by exact_mod_cast q
      have h3 : d * g = (e + e) * g := by rw [← K.hv, h1, K.hc, Nat.add_mul]
      have := Nat.eq_of_mul_eq_mul_right K.gpos h3
      omega
    rcases H.share with ⟨q1, q2⟩ | ⟨q1, q2⟩
    · left
      rw [if_pos q1]
      refine ⟨rfl, ?_⟩
      split
      · rename_i q; rw [hsame (q2 ▸ q)]
      · rfl
    · right
      rw [if_pos q1]
      refine ⟨?_, rfl⟩
      split
      · rename_i q; rw [hsame (q2 ▸ q)]
      · rfl
  have hfan : (if n' > 0 then 2 else 3) = fan n' 0 := rfl
  have hf2 : fan n' 0 = 2 ∨ n' = 0 ∧ fan n' 0 = 3 := by
    unfold fan
    split
    · exact .inl rfl
    · exact .inr ⟨by omega, rfl⟩
  rw [← complete_splitters] at hm
  unfold uniformExtractCost
  obtain ⟨T, hT⟩ : ∃ T, belts h' (made h h' node) = T := ⟨_, rfl⟩
  rw [hT] at hm hbx hby hk ⊢
  obtain ⟨R, hR⟩ : ∃ R : Addr → Nat, (fun z => (h'.get node).children.count z) = R := ⟨_, rfl⟩
  have hR' : ∀ z, (h'.get node).children.count z = R z := fun z => congrFun hR z
  simp only [hR'] at hm hbx hby hfew hbz ⊢
  rw [hT] at hbz
  refine ⟨⟨fun z hz => by rw [hbz z hz]; omega, ?_⟩, ?_, ?_⟩
  · rw [hk, hbx, hby, Nat.add_sub_cancel_left, Nat.add_sub_cancel_left]
    rw [hbx, hby] at hm
    generalize (complete n' m').splitters = s0 at *
    generalize savedSplitters n' m' (gsel n' m' l l) = s1 at *
    generalize savedSplitters n' m' (gsel n' m' (d - e) (d - e)) = s2 at *
    generalize savedSplitters n' m' (gsel n' m' e e) = s3 at *
    generalize (gsel n' m' e e).length = ke at *
    generalize (gsel n' m' (d - e) (d - e)).length = ko at *
    simp only [feedBack, if_true, hfan]
    by_cases hq : codeBelt' (v : Int) d l > cfg.limit
    all_goals
      simp only [hq, if_true, if_false]
      rcases hxy with ⟨a1, a2⟩ | ⟨a1, a2⟩ <;> rw [a1, a2] at hm ⊢ <;> push_cast <;> omega
  · intro q
    rw [hbx, hby] at hm
    generalize (complete n' m').splitters = s0 at *
    generalize savedSplitters n' m' (gsel n' m' l l) = s1 at *
    generalize savedSplitters n' m' (gsel n' m' (d - e) (d - e)) = s2 at *
    generalize savedSplitters n' m' (gsel n' m' e e) = s3 at *
    generalize (gsel n' m' e e).length = ke at *
    generalize (gsel n' m' (d - e) (d - e)).length = ko at *
    simp only [feedBack, if_pos q, hfan]
    unfold toOne at *
    rcases hxy with ⟨a1, a2⟩ | ⟨a1, a2⟩ <;> rw [a1, a2] at hm <;> push_cast <;> rcases hf2 with z | ⟨z, z'⟩
    · omega
    · have := hpar z
      omega
    · omega
    · have := hpar z
      omega
  · intro q
    rw [hbx, hby] at hm
    generalize (complete n' m').splitters = s0 at *
    generalize savedSplitters n' m' (gsel n' m' l l) = s1 at *
    generalize savedSplitters n' m' (gsel n' m' (d - e) (d - e)) = s2 at *
    generalize savedSplitters n' m' (gsel n' m' e e) = s3 at *
    generalize (gsel n' m' e e).length = ke at *
    generalize (gsel n' m' (d - e) (d - e)).length = ko at *
    simp only [feedBack, if_neg (not_lt.2 q)]
    unfold toOne at *
    rcases hxy with ⟨a1, a2⟩ | ⟨a1, a2⟩ <;> rw [a1, a2] at hm <;> push_cast <;> rcases hf2 with z | ⟨z, z'⟩
    · omega
    · have := hpar z
      omega
    · omega
    · have := hpar z
      omega

/-- C63 for splits: two splitters and the merger in front of the second. -/
theorem C63_split (h : Heap ℚ) (node x₁ x₂ y : Addr) (c : ℚ) (lvl : Int) (H : SplitInput h node x₁ x₂ y c)
    (hlevel : (h.get node).level = some lvl) :
    ∃ h' u, expandSplit h node c = .ok (h', u) ∧ machines h h' node [x₁, x₂, y] = splitCost := by
  obtain ⟨h', e, q1, -, -, q4, -, q5, -⟩ := expandSplit_run H hlevel
  refine ⟨h', _, e, ?_⟩
  obtain ⟨n1, n2, n3, n4, n5, n6⟩ := H.ne
  obtain ⟨l1, l2, l3⟩ := H.lt
  have hin := H.inside
  have m1 : h.next ≠ x₁ := by omega
  have m2 : h.next ≠ x₂ := by omega
  have m3 : h.next ≠ y := by omega
  have m4 : h.next ≠ node := by omega
  unfold machines belts made
  rw [q1, show h.next + 1 - h.next = 1 by omega]
  simp [q4, q5, toOne, splitCost, List.count_cons, n1, n2, n3, n4, n5, n6, m1, m2, m3, m4, n4.symm, n5.symm, n6.symm, m1.symm, m2.symm, m3.symm]

/-- C63 for merges: the node is a merger too, the last one. -/
theorem C63_merge (h : Heap ℚ) (node : Addr) (hn : node < h.next) (hl : (h.get node).level ≠ none)
    (hp : ∀ p ∈ (h.get node).parents, p < h.next ∧ (h.get p).level ≠ none ∧ 0 ≤ (h.get p).value) (h2 : 2 ≤ (h.get node).parents.length) :
    ∃ h' u, expandMerge h node 3 = .ok (h', u) ∧ mergeCost (h.get node).parents.length 1 = h'.next - h.next + 1 := by
  obtain ⟨h', e, -, -, hc⟩ := C44_merge_inputs h node 3 (by decide) hn hl hp
  refine ⟨h', _, e, ?_⟩
  rw [hc, mergeCost_eq]
  omega

/-- `5` in five parts: three splitters and a merger; `5` out of `8`: two splitters, a merger for the loop, one for the `5`. -/
example : machines (divided 5 5) (after (divided 5 5) (expandDivide config (divided 5 5) 0 5)) 0 [1, 2, 3, 4, 5] = 4 ∧
    divideCost config 5 5 = .ok 4 ∧
    machines (extracted 8 5) (after (extracted 8 5) (expandExtract config (extracted 8 5) 0 5)) 0 [1, 2] = 4 ∧
    extractCost config 8 5 = .ok 4 := by decide +kernel

/-- Over the limit. Noticed: `88` out of `1144` is priced `8` and takes seven; `1190` in fourteen parts is priced what it takes, twelve;
`1200` in fifteen is priced `11` and takes twelve. Not noticed: `201` out of `1005` is priced `4` and takes five. -/
example : (machines (extracted 1144 88) (after (extracted 1144 88) (expandExtract config (extracted 1144 88) 0 88)) 0 [1, 2] = 7 ∧
    extractCost config 1144 88 = .ok 8) ∧
    (machines (divided 1190 14) (after (divided 1190 14) (expandDivide config (divided 1190 14) 0 14)) 0 (List.range' 1 14) = 12 ∧
      divideCost config 1190 14 = .ok 12) ∧
    (machines (divided 1200 15) (after (divided 1200 15) (expandDivide config (divided 1200 15) 0 15)) 0 (List.range' 1 15) = 12 ∧
      divideCost config 1200 15 = .ok 11) ∧
    machines (extracted 1005 201) (after (extracted 1005 201) (expandExtract config (extracted 1005 201) 0 201)) 0 [1, 2] = 5 ∧
    extractCost config 1005 201 = .ok 4 ∧ codeBelt' 1005 5 1 ≤ config.limit ∧ realBelt 1005 5 1 > config.limit := by decide +kernel

example : machines (splitted 100 60) (after (splitted 100 60) (expandSplit (splitted 100 60) 0 60)) 0 [1, 2, 3] = 3 := by decide +kernel

/-- The property for divisions and extractions whose value is within the limit. -/
def PricedRight (cfg : Config) : Prop :=
  (∀ (h : Heap ℚ) (node : Addr) (d x : Nat), DivideInput h node d → (h.get node).level ≠ none → (h.get node).value = x → 2 ≤ x → d ∣ x →
    x ≤ cfg.limit → ∃ h' u, expandDivide cfg h node d = .ok (h', u) ∧
      divideCost cfg x d = .ok (machines h h' node (h.get node).children)) ∧
  ∀ (h : Heap ℚ) (node x y : Addr) (v c : Nat), ExtractInput h node x y v c → (h.get node).level ≠ none → 3 ≤ v → c ∉ cfg.speeds →
    v ≤ cfg.limit → ∃ h' u, expandExtract cfg h node c = .ok (h', u) ∧ extractCost cfg v c = .ok (machines h h' node [x, y])

/-- C63 is false over the limit, in both directions: `1200` in five parts is priced `4` but takes seven machines. -/
theorem C63_divide_false : ¬ PricedRight config := by
  intro hall
  obtain ⟨h', u, e, hc⟩ := hall.1 (divided 1200 5) 0 5 1200 ⟨by decide +kernel, by decide +kernel, by decide, by decide +kernel, by decide +kernel,
    by decide +kernel, by decide +kernel, by decide +kernel⟩ (by decide +kernel) (by decide +kernel) (by decide) (by decide) (by decide +kernel)
  have h1 : machines (divided 1200 5) (after (divided 1200 5) (expandDivide config (divided 1200 5) 0 5)) 0 ((divided 1200 5).get 0).children = 7 := by
    decide +kernel
  rw [e] at h1
  have h2 : divideCost config 1200 5 = .ok 4 := by decide +kernel
  have h3 : machines (divided 1200 5) h' 0 ((divided 1200 5).get 0).children = 7 := h1
  rw [h3] at hc
  have := h2.symm.trans hc
  simp at this

/-- `171` out of `1197` is priced `8` and takes seven: the belt that comes back enters the merger in front of an output. -/
theorem C63_extract_false : ¬ PricedRight config := by
  intro hall
  obtain ⟨h', u, e, hc⟩ := hall.2 (extracted 1197 171) 0 1 2 1197 171 ⟨by decide +kernel, by decide +kernel, by decide, by decide, by decide +kernel,
    by decide +kernel, by decide +kernel, by decide, by decide +kernel⟩ (by decide +kernel) (by decide) (by decide +kernel) (by decide +kernel)
  have h1 : machines (extracted 1197 171) (after (extracted 1197 171) (expandExtract config (extracted 1197 171) 0 171)) 0 [1, 2] = 7 := by
    decide +kernel
  have e' : expandExtract config (extracted 1197 171) 0 171 = .ok (h', u) := e
  rw [e'] at h1
  have h2 : extractCost config 1197 171 = .ok 8 := by decide +kernel
  have h3 : machines (extracted 1197 171) h' 0 [1, 2] = 7 := h1
  rw [h3] at hc
  have := h2.symm.trans hc
  simp at this

end Satis
