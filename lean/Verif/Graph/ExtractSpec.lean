import Verif.Graph.Extract
/-!
# `expand_extract` as a whole
-/

namespace Satis.Graph
open Satis Satis.Cost Spec

section
variable {cfg : Config} {h : Heap ℚ} {node x y : Addr} {v c d e g n m l s : Nat} {lvl : Int}

theorem pyGcd_nat (hc : c ≤ v) (hg : g = Nat.gcd v c) : pyGcd (v : ℚ) ((v : ℚ) - c) = .ok g := by
  have h1 : (v : ℚ) - c = ((v - c : ℕ) : ℚ) := by push_cast [Nat.cast_sub hc]; rfl
  unfold pyGcd
  rw [h1, if_pos ⟨Rat.den_natCast _, Rat.den_natCast _⟩, Rat.num_natCast, Rat.num_natCast]
  have : Nat.gcd v (v - c) = g := by
    rw [hg]
    exact Nat.gcd_self_sub_right hc
  rw [← this]
  rfl

/-- The two roles. -/
theorem roles (H : ExtractInput h node x y v c) : ∃ ex ov, (if (h.get x).value = (c : ℚ) then x else y) = ex ∧
    (if (h.get x).value = (c : ℚ) then y else x) = ov ∧ (ex = x ∧ ov = y ∨ ex = y ∧ ov = x) ∧ (h.get ex).value = c ∧
    (h.get ov).value = (v : ℚ) - c := by
  by_cases q : (h.get x).value = (c : ℚ)
  · refine ⟨x, y, if_pos q, if_pos q, .inl ⟨rfl, rfl⟩, q, ?_⟩
    rcases H.share with s | s
    · exact s.2
    · rw [s.1]
      linarith [s.2]
  · refine ⟨y, x, if_neg q, if_neg q, .inr ⟨rfl, rfl⟩, ?_⟩
    rcases H.share with s | s
    · exact absurd s.1 q
    · exact s

theorem clear_roles {ex ov : Addr} (hr : ex = x ∧ ov = y ∨ ex = y ∧ ov = x) (hx : x ≠ node) (hy : y ≠ node) (g : Heap ℚ) :
    ((g.modify ex fun o => { o with parents := [] }).modify ov fun o => { o with parents := [] }).modify node
      (fun o => { o with children := [] }) = detach g node [x, y] := by
  have : ∀ (a b : Heap ℚ), a.next = b.next → a.nextUid = b.nextUid → (∀ z, a.get z = b.get z) → a = b := by
    rintro ⟨a1, a2, a3⟩ ⟨b1, b2, b3⟩ q1 q2 q3
    simp only at q1 q2 q3
    obtain rfl : a1 = b1 := funext q3
    rw [q1, q2]
  apply this
  · rfl
  · rfl
  · intro z
    rw [detach_get]
    unfold Heap.modify
    rcases hr with ⟨rfl, rfl⟩ | ⟨rfl, rfl⟩ <;> by_cases h1 : z = node <;> by_cases h2 : z = ex <;> by_cases h3 : z = ov <;> simp_all

/-- Everything before the choice of the node for the loop and the depths. -/
structure ExtractNumbers (v c d e g n m l s : Nat) : Prop where
  hg : g = Nat.gcd v c
  gpos : 0 < g
  hv : v = d * g
  hc : c = e * g
  epos : 0 < e
  elt : e < d
  find : findNML d = .ok (n, m, l, s)
  total : d + l = L n m

theorem ExtractNumbers.of (hc0 : 0 < c) (hcv : c < v) : ∃ d e g n m l s, ExtractNumbers v c d e g n m l s := by
  have hg0 : 0 < Nat.gcd v c := Nat.gcd_pos_of_pos_right v hc0
  obtain ⟨d, hd⟩ := Nat.gcd_dvd_left v c
  obtain ⟨e, he⟩ := Nat.gcd_dvd_right v c
  have hd0 : d ≠ 0 := by rintro rfl; omega
  obtain ⟨n, m, h1, h2, -⟩ := findNML_core d hd0
  refine ⟨d, e, Nat.gcd v c, n, m, _, _, rfl, hg0, by rw [Nat.mul_comm]; exact hd, by rw [Nat.mul_comm]; exact he, ?_, ?_, h1, by omega⟩
  · rcases Nat.eq_zero_or_pos e with q | q
    · rw [q, Nat.mul_zero] at he; omega
    · exact q
  · have : Nat.gcd v c * e < Nat.gcd v c * d := by omega
    exact Nat.lt_of_mul_lt_mul_left this

theorem ExtractNumbers.best (K : ExtractNumbers v c d e g n m l s) : BestShape d n m := by
  obtain ⟨n', m', hf, hb⟩ := findNML_best d (by have := K.elt; omega)
  rw [K.find] at hf
  simp only [Except.ok.injEq, Prod.mk.injEq] at hf
  rw [hf.1, hf.2.1]
  exact hb

theorem ExtractNumbers.loop_lt_first (K : ExtractNumbers v c d e g n m l s) (hnm : 0 < n + m) : l < Lat n m 1 := by
  have h1 := bestShape_spare K.best hnm
  have h2 := K.total
  omega

/-- The places of all the branches of an extraction. -/
def allPlaces (n m l e o : Nat) : List (Nat × Nat) :=
  places n m [] (gsel n m l l) ++ (places n m (gsel n m l l) (gsel n m e e) ++ places n m (gsel n m l l ++ gsel n m e e) (gsel n m o o))

theorem ExtractNumbers.run (K : ExtractNumbers v c d e g n m l s) (H : ExtractInput h node x y v c) (hlevel : (h.get node).level = some lvl)
    {g0 : Heap ℚ} {loop : Addr} (hg0 : ∀ a, a < h.next → g0.get a = h.get a) (hn0 : h.next ≤ g0.next) (hloop : loop < g0.next)
    (hnew : (if decide ((v : ℚ) + (l : ℚ) * (g : ℚ) > (cfg.limit : ℚ)) then newNode h ((l : ℚ) * (g : ℚ)) [] none none else .ok (h, node)) = .ok (g0, loop)) :
    ∃ ex ov s2 E S, (ex = x ∧ ov = y ∨ ex = y ∧ ov = x) ∧ (h.get ex).value = c ∧ (h.get ov).value = (v : ℚ) - c ∧
      expandExtract cfg h node c = .ok (tagMerge (tagMerge (tagMerge (if (v : ℚ) + (l : ℚ) * (g : ℚ) > (cfg.limit : ℚ) then
        joinLoop s2 node loop else s2) loop (if (g0.get loop).parents = [] then 2 else 3)) ex 3) ov 3, (lvl + 1, n + m)) ∧
      (Net (detach g0 node [x, y]) s2 node ((v : ℚ) + (l : ℚ) * (g : ℚ)) [loop, ex, ov] E S [] g fun z =>
        (if loop = z then (l : ℚ) * g else 0) + (if ex = z then (c : ℚ) else 0) + if ov = z then (v : ℚ) - c else 0) ∧
      s2.next + 1 + (savedSplitters n m (gsel n m l l) + savedSplitters n m (gsel n m e e) + savedSplitters n m (gsel n m (d - e) (d - e))) =
        g0.next + Cost.S n m ∧
      (∀ z, z < g0.next → (insOf E z).length = (if loop = z then (gsel n m l l).length else 0) +
        (if ex = z then (gsel n m e e).length else 0) + if ov = z then (gsel n m (d - e) (d - e)).length else 0) ∧
      (outsOf E node).length = fan n 0 ∧ (∀ z, z < g0.next → z ≠ ex → z ≠ ov → (outsOf E node).count z = 0) ∧
      (outsOf E node).count ex + (outsOf E node).count ov < fan n 0 + (if l = 0 then 1 else 0) ∧
      (loop ≠ x → loop ≠ y → ∃ at_ : Nat × Nat → Addr, insOf E loop = (places n m [] (gsel n m l l)).map at_ ∧
        insOf E ex = (places n m (gsel n m l l) (gsel n m e e)).map at_ ∧
        insOf E ov = (places n m (gsel n m l l ++ gsel n m e e) (gsel n m (d - e) (d - e))).map at_ ∧
        ∀ a ∈ allPlaces n m l e (d - e), at_ a ∈ S ∧ (at_ a = node → a = (0, 0)) ∧ ∀ b ∈ allPlaces n m l e (d - e), at_ a = at_ b → a = b) ∧
      (loop ≠ ov → ∀ a, Trails (fun _ => False) ov (outsOf E a)) := by
  have hlL : l < L n m := by have := K.elt; have := K.total; omega
  have heL : e < L n m := by have := K.elt; have := K.total; omega
  have hoL : d - e < L n m := by have := K.epos; have := K.elt; have := K.total; omega
  obtain ⟨p, ep, P⟩ := loopingBranches_plan n m l hlL
  obtain ⟨q, eq, Q⟩ := loopingBranches_plan n m e heL
  obtain ⟨r, er, R⟩ := loopingBranches_plan n m (d - e) hoL
  have hgq : (0 : ℚ) < g := by exact_mod_cast K.gpos
  have hdq : (0 : ℚ) < d := by have := K.elt; exact_mod_cast (by omega : 0 < d)
  have hLQ : (L n m : ℚ) = d + l := by exact_mod_cast K.total.symm
  have hvq : (v : ℚ) = d * g := by exact_mod_cast K.hv
  have hcq : (c : ℚ) = e * g := by exact_mod_cast K.hc
  have hL0 : (0 : ℚ) < L n m := by rw [hLQ]; positivity
  have hVL : (v : ℚ) + (l : ℚ) * (g : ℚ) = (L n m : ℚ) * g := by rw [hLQ, hvq]; ring
  obtain ⟨ex, ov, hex, hov, hr, hexv, hovv⟩ := roles H
  have hexlt : ex < h.next ∧ ex ≠ node := by
    rcases hr with ⟨rfl, -⟩ | ⟨rfl, -⟩
    · exact H.left
    · exact H.right
  have hovlt : ov < h.next ∧ ov ≠ node := by
    rcases hr with ⟨-, rfl⟩ | ⟨-, rfl⟩
    · exact H.right
    · exact H.left
  obtain ⟨s1, s2, E, S, e1, e2, I, hnx, hct, hroot, htr, lay, hrows, hlay0, hord⟩ := extract_layers (hb := detach g0 node [x, y]) (node := node) (loop := loop) (extracted := ex) (overflow := ov)
    (V := (v : ℚ) + (l : ℚ) * (g : ℚ)) P Q R (by have := K.elt; have := K.total; omega) (by positivity)
    (show node < g0.next by have := H.inside; omega) hloop (show ex < g0.next by omega) (show ov < g0.next by omega) [x, y] (n + m) (lvl + 1)
  obtain ⟨p1, p2⟩ := loopingBranches_counts ep
  obtain ⟨q1, q2⟩ := loopingBranches_counts eq
  obtain ⟨r1, r2⟩ := loopingBranches_counts er
  rw [p1, q1, r1] at hct
  have hsp := ((P.add Q).add R).splitters (by have := K.elt; have := K.total; omega)
  simp only [Nat.add_mul, Finset.sum_add_distrib, p2, q2, r2] at hsp
  have hnx' : s2.1.next + 1 = g0.next + ∑ j ∈ Finset.range (n + m), (width n j - ((p (key n j)).1 + (q (key n j)).1 + (r (key n j)).1 +
    ((p (key n j)).2 + (q (key n j)).2 + (r (key n j)).2))) := hnx
  have hnm : 0 < n + m := by
    rcases Nat.eq_zero_or_pos (n + m) with q | q
    · obtain ⟨rfl, rfl⟩ : n = 0 ∧ m = 0 := by omega
      have h1 := K.total
      have h2 := K.elt
      have h3 := K.epos
      simp [L] at h1
      omega
    · exact q
  have hpart : ∀ {k : Nat} {t : Nat × Nat → Nat × Nat}, PlanOK n m k (fun j => (t (key n j)).1) (fun j => (t (key n j)).2) →
      (t (key n 1)).1 * Lat n m 1 ≤ k := fun {k t} T => by
    rw [← T.total]
    exact Finset.single_le_sum (f := fun j => (t (key n (j + 1))).1 * Lat n m (j + 1)) (fun _ _ => Nat.zero_le _) (Finset.mem_range.2 hnm)
  have hfirst : (p (key n 1)).1 = 0 := by
    have h1 := K.loop_lt_first hnm
    have h3 := hpart P
    rcases Nat.eq_zero_or_pos (p (key n 1)).1 with q | q
    · exact q
    · have := Nat.le_mul_of_pos_left (Lat n m 1) q
      omega
  have hne : ex ≠ ov := by
    rcases hr with ⟨rfl, rfl⟩ | ⟨rfl, rfl⟩
    · exact H.ne
    · exact H.ne.symm
  have hfew : (q (key n 1)).1 + (r (key n 1)).1 < fan n 0 + (if l = 0 then 1 else 0) := by
    have h1 := hpart Q
    have h2 := hpart R
    have h3 : fan n 0 * Lat n m 1 = L n m := by
      have := Lat_zero n m
      unfold fan
      split
      · rename_i h; rw [← Lat_succ_n n m 0 h, this]; rfl
      · rename_i h; rw [← Lat_succ_m n m 0 (by omega) hnm, this]; rfl
    have h4 := K.total
    have h5 := K.elt
    have h6 : ((q (key n 1)).1 + (r (key n 1)).1) * Lat n m 1 ≤ d := by rw [Nat.add_mul]; omega
    by_contra hge
    rw [not_lt] at hge
    have h7 := Nat.mul_le_mul_right (Lat n m 1) hge
    rw [Nat.add_mul, h3] at h7
    have h8 := Lat_pos n m 1
    split at h7
    · omega
    · omega
  have hkey : ∀ {k : Nat} {t : Plan}, loopingBranches n m (k : Int) (branchesCount n m) = .ok t → ∀ j, j < n + m →
      (t (key n (j + 1))).1 = (gsel n m k k).count (j + 1) := fun {k t} et j hj => by
    obtain ⟨p', ep', hk⟩ := loopingBranches_eq n m k
    rw [et] at ep'
    cases ep'
    rw [hk (j + 1) (by omega)]
  have hto : ∀ {k : Nat} {t : Plan} (a : Addr) (off : Nat → Nat) (before : List Nat), loopingBranches n m (k : Int) (branchesCount n m) = .ok t →
      (∀ j, j < n + m → off j = before.count (j + 1)) →
      rowsTo n a off t lay (n + m) a = (places n m before (gsel n m k k)).map (splitterAt lay) := fun {k t} a off before et ho => by
    unfold rowsTo
    rw [places_eq, spots_congr ho fun j hj => by rw [if_pos rfl, hkey et j hj]]
  have hall : ∀ a ∈ allPlaces n m l e (d - e), Seat n (n + m) (load n p q r) a := fun a ha => by
    have hload : ∀ j, j < n + m → load n p q r j = (gsel n m l l).count (j + 1) + (gsel n m e e).count (j + 1) +
        (gsel n m (d - e) (d - e)).count (j + 1) := fun j hj => by
      unfold load
      rw [hkey ep j hj, hkey eq j hj, hkey er j hj]
    unfold allPlaces at ha
    simp only [List.mem_append, places_eq] at ha
    rcases ha with w | w | w
    · exact mem_spots (fun j hj => by rw [hload j hj]; simp; omega) w
    · exact mem_spots (fun j hj => by rw [hload j hj]; omega) w
    · exact mem_spots (fun j hj => by rw [hload j hj, List.count_append]) w
  refine ⟨ex, ov, s2.1, E, S, hr, hexv, hovv, ?_, ?_, by omega, hct, (hroot hnm).1, fun z hz q1 q2 => ?_, ?_, fun hx hy => ?_, fun w => htr w.symm hne.symm⟩
  rotate_left 2
  · rw [(hroot hnm).2 z hz, hfirst, if_neg q1.symm, if_neg q2.symm]
    simp
  · rw [(hroot hnm).2 ex (show ex < g0.next by omega), (hroot hnm).2 ov (show ov < g0.next by omega), hfirst, if_pos rfl, if_pos rfl, if_neg hne,
      if_neg hne.symm]
    simpa using hfew
  · have hle : loop ≠ ex ∧ loop ≠ ov := by
      rcases hr with ⟨rfl, rfl⟩ | ⟨rfl, rfl⟩
      · exact ⟨hx, hy⟩
      · exact ⟨hy, hx⟩
    refine ⟨splitterAt lay, ?_, ?_, ?_, fun a ha => ⟨hrows.mem (hall a ha), fun w => ?_, fun b hb w => ?_⟩⟩
    · rw [hord loop hloop (fun _ => hle) hne, rowsTo_ne hle.1.symm, rowsTo_ne hle.2.symm, hto loop _ [] ep fun j _ => by simp]
      simp
    · rw [hord ex (show ex < g0.next by omega) (fun w => absurd w hle.1.symm) hne, rowsTo_ne hle.1, rowsTo_ne hne.symm,
        hto ex _ (gsel n m l l) eq fun j hj => hkey ep j hj]
      simp
    · rw [hord ov (show ov < g0.next by omega) (fun w => absurd w hle.2.symm) hne, rowsTo_ne hle.2, rowsTo_ne hne,
        hto ov _ (gsel n m l l ++ gsel n m e e) er fun j hj => by rw [List.count_append, hkey ep j hj, hkey eq j hj]]
      simp
    · exact hrows.origin (List.nodup_append.1 I.nodup).1 hlay0 (hall a ha) w
    · exact hrows.inj (List.nodup_append.1 I.nodup).1 (hall a ha) (hall b hb) w
  · have hnum : ((v : ℚ).num / (g : Int)).toNat = d := by
      rw [Rat.num_natCast]
      have : (v : Int) / (g : Int) = ((v / g : ℕ) : Int) := rfl
      rw [this, Int.toNat_natCast, K.hv]
      exact Nat.mul_div_cancel _ K.gpos
    have hfl : ⌊(c : ℚ) / ((v : ℚ) / (d : ℚ))⌋ = (e : Int) := by
      rw [hcq, hvq]
      have : (e : ℚ) * g / (d * g / d) = ((e : Int) : ℚ) := by
        push_cast
        field_simp
      rw [this, Int.floor_intCast]
    have hde : (d : Int) - (e : Int) = ((d - e : ℕ) : Int) := by have := K.elt; omega
    have hgn := hg0 node H.inside
    have hch : (((g0.modify ex fun o => { o with parents := [] }).modify ov fun o => { o with parents := [] }).get node).children = [x, y] := by
      unfold Heap.modify
      simp [hexlt.2.symm, hovlt.2.symm, hgn, H.children]
    have hls : levelSucc (h.get node) = .ok (lvl + 1) := by unfold levelSucc; rw [hlevel]
    have hg1 : g ≠ 0 := by have := K.gpos; omega
    have hg0x := hg0 x H.left.1
    unfold expandExtract
    simp only [H.value, pyGcd_nat H.lt.le K.hg, bind, Except.bind, pure, Except.pure, if_neg hg1, hnum, K.find]
    by_cases hover : (v : ℚ) + (l : ℚ) * (g : ℚ) > (cfg.limit : ℚ)
    · rw [decide_eq_true hover, if_pos rfl] at hnew
      rw [decide_eq_true hover, if_pos rfl, if_pos hover]
      simp only [hnew, hfl, hde, ep, eq, er, hgn, hls, H.children, item, List.getElem?_cons_zero, List.getElem?_cons_succ, hg0x, hex, hov, hch,
        clear_roles hr H.left.2 H.right.2 g0, e1, e2]
      simp
    · rw [decide_eq_false hover, if_neg (by simp)] at hnew
      simp only [Except.ok.injEq, Prod.mk.injEq] at hnew
      obtain ⟨rfl, rfl⟩ := hnew
      rw [decide_eq_false hover, if_neg (by simp), if_neg hover]
      simp only [hfl, hde, ep, eq, er, hls, H.children, item, List.getElem?_cons_zero, List.getElem?_cons_succ, hex, hov, hch,
        clear_roles hr H.left.2 H.right.2, e1, e2]
      simp
  · have h1 : ((v : ℚ) + (l : ℚ) * (g : ℚ)) / (L n m : ℚ) = g := by
      rw [hVL]
      field_simp
    have h2 : ∀ k : ℚ, ((v : ℚ) + (l : ℚ) * (g : ℚ)) * k / (L n m : ℚ) = k * g := fun k => by
      rw [hVL]
      field_simp
    rw [h1] at I
    simp only [h2] at I
    have h3 : ((d - e : ℕ) : ℚ) * g = (v : ℚ) - c := by
      rw [Nat.cast_sub K.elt.le, hvq, hcq]
      ring
    rw [h3, ← hcq] at I
    exact I

theorem tagMerge_expands_ne (h : Heap ℚ) {a x : Addr} (t : Nat) (hx : a ≠ x) : ((tagMerge h a t).get x).expands = (h.get x).expands := by
  rw [tagMerge_get, if_neg fun q => hx q.1.symm]

theorem tagMerge_expands_self (h : Heap ℚ) (a : Addr) (t : Nat) :
    ((tagMerge h a t).get a).expands = (h.get a).expands ++ if t < (h.get a).parents.length then [.merge t] else [] := by
  rw [tagMerge_get]
  by_cases q : t < (h.get a).parents.length <;> simp [q]

theorem pending_three {h g : Heap ℚ} {a ex ov : Addr} (t : Nat) (h1 : a ≠ ex) (h2 : a ≠ ov) (h3 : ex ≠ ov)
    (hx : (g.get ex).expands = (h.get ex).expands) (ho : (g.get ov).expands = (h.get ov).expands) :
    (((tagMerge (tagMerge (tagMerge g a t) ex 3) ov 3).get a).expands = (g.get a).expands ++ if t < (g.get a).parents.length then [.merge t] else []) ∧
      Pending h (tagMerge (tagMerge (tagMerge g a t) ex 3) ov 3) ex 3 ∧ Pending h (tagMerge (tagMerge (tagMerge g a t) ex 3) ov 3) ov 3 := by
  refine ⟨?_, ?_, ?_⟩
  · rw [tagMerge_expands_ne _ _ h2.symm, tagMerge_expands_ne _ _ h1.symm, tagMerge_expands_self]
  · unfold Pending
    rw [tagMerge_parents, tagMerge_expands_ne _ _ h3.symm, tagMerge_expands_self, tagMerge_parents, tagMerge_parents,
      tagMerge_expands_ne _ _ h1, hx, tagMerge_parents]
  · unfold Pending
    rw [tagMerge_parents, tagMerge_expands_self, tagMerge_expands_ne _ _ h3, tagMerge_expands_ne _ _ h2, ho]

theorem expandExtract_under (K : ExtractNumbers v c d e g n m l s) (H : ExtractInput h node x y v c) (hlevel : (h.get node).level = some lvl)
    (hunder : (v : ℚ) + l * g ≤ cfg.limit) :
    ∃ h', expandExtract cfg h node c = .ok (h', (lvl + 1, n + m)) ∧ SplitterNetwork h h' node ((v : ℚ) + l * g) [x, y] ∧
      (∀ T, Steady h h' node T → T node = (v : ℚ) + l * g ∧ ∀ a, h.next ≤ a → a < h'.next → T a = (h'.get a).value) ∧
      (∀ a, h.next ≤ a → a < h'.next → (h'.get a).value ≤ ((v : ℚ) + l * g) / 2) ∧
      Pending h h' node (if (h.get node).parents = [] then 2 else 3) ∧ Pending h h' x 3 ∧ Pending h h' y 3 ∧
      machines h h' node [x, y] + (savedSplitters n m (gsel n m l l) + savedSplitters n m (gsel n m e e) +
        savedSplitters n m (gsel n m (d - e) (d - e))) = Cost.S n m + toOne (1 + (gsel n m l l).length) + toOne (gsel n m e e).length +
          toOne (gsel n m (d - e) (d - e)).length ∧
      belts h' (made h h' node) node = (gsel n m l l).length ∧
      (∀ z ∈ [x, y], belts h' (made h h' node) z = if (h.get z).value = c then (gsel n m e e).length else (gsel n m (d - e) (d - e)).length) ∧
      (∀ a, h.next ≤ a → a < h'.next → belts h' (made h h' node) a = 1 ∧ (h'.get a).expands = []) := by
  obtain ⟨ex, ov, s2, E, S, hr, hexv, hovv, ee, I, hnx, hct, -⟩ := K.run (cfg := cfg) H hlevel (g0 := h) (loop := node) (fun _ _ => rfl) le_rfl H.inside
    (by rw [if_neg]; simpa using hunder)
  rw [if_neg (not_lt.2 hunder)] at ee
  have hexn : ex ≠ node := by
    rcases hr with ⟨rfl, -⟩ | ⟨rfl, -⟩
    · exact H.left.2
    · exact H.right.2
  have hovn : ov ≠ node := by
    rcases hr with ⟨-, rfl⟩ | ⟨-, rfl⟩
    · exact H.right.2
    · exact H.left.2
  have hne : ex ≠ ov := by
    rcases hr with ⟨rfl, rfl⟩ | ⟨rfl, rfl⟩
    · exact H.ne
    · exact H.ne.symm
  have hmem : ex ∈ [x, y] ∧ ov ∈ [x, y] := by
    rcases hr with ⟨rfl, rfl⟩ | ⟨rfl, rfl⟩ <;> simp
  have hcs : ∀ c ∈ [x, y], c < h.next ∧ c ≠ node := by
    intro c hc
    simp at hc
    rcases hc with rfl | rfl
    · exact H.left
    · exact H.right
  have N : SplitterNetwork h s2 node ((v : ℚ) + l * g) [x, y] := by
    refine Net.network I H.inside hcs ?_ ?_ ?_
    · intro t ht
      simp only [List.mem_cons, List.not_mem_nil, or_false] at ht
      rcases ht with rfl | rfl | rfl
      · exact .inl rfl
      · exact .inr hmem.1
      · exact .inr hmem.2
    · rw [H.value, if_pos rfl, if_neg hexn, if_neg hovn]
      ring
    · intro z hz
      have hzz : z = ex ∨ z = ov := by
        simp at hz
        rcases hr with ⟨rfl, rfl⟩ | ⟨rfl, rfl⟩ <;> tauto
      rcases hzz with rfl | rfl
      · rw [if_neg hexn.symm, if_pos rfl, if_neg hne.symm, hexv]
        ring
      · rw [if_neg hovn.symm, if_neg hne, if_pos rfl, hovv]
        ring
  have hexp : ∀ a, a < h.next → (s2.get a).expands = (h.get a).expands := fun a ha => by
    have wk : ∀ a, a < h.next → s2.get a = { (detach h node [x, y]).get a with
      children := (s2.get a).children, parents := (s2.get a).parents } := I.wired.keep
    rw [wk a ha, detach_get]
  have hb := I.bound (by positivity)
  obtain ⟨p1, p2, p3⟩ := pending_three (h := h) (g := s2) (a := node) (ex := ex) (ov := ov) (if (h.get node).parents = [] then 2 else 3)
    hexn.symm hovn.symm hne (hexp ex (hcs ex hmem.1).1) (hexp ov (hcs ov hmem.2).1)
  have hnx3 : ∀ t, (tagMerge (tagMerge (tagMerge s2 node t) ex 3) ov 3).next = s2.next := fun t => by
    rw [tagMerge_next, tagMerge_next, tagMerge_next]
  have hb3 : ∀ t z, belts (tagMerge (tagMerge (tagMerge s2 node t) ex 3) ov 3)
      (made h (tagMerge (tagMerge (tagMerge s2 node t) ex 3) ov 3) node) z = (insOf E z).length := fun t z => by
    rw [belts_congr (h := s2) fun a => by rw [tagMerge_children, tagMerge_children, tagMerge_children]]
    unfold made
    rw [hnx3]
    exact I.belts H.inside z
  have hn2 : h.next ≤ s2.next := I.wired.next
  have e1 := hct node H.inside
  have e2 := hct ex (hcs ex hmem.1).1
  have e3 := hct ov (hcs ov hmem.2).1
  rw [if_pos rfl, if_neg hexn, if_neg hovn, Nat.add_zero] at e1
  rw [if_neg hexn.symm, if_pos rfl, if_neg hne.symm, Nat.add_zero, Nat.zero_add] at e2
  rw [if_neg hovn.symm, if_neg hne, if_pos rfl, Nat.zero_add] at e3
  have hback : ∀ t, belts (tagMerge (tagMerge (tagMerge s2 node t) ex 3) ov 3)
      (made h (tagMerge (tagMerge (tagMerge s2 node t) ex 3) ov 3) node) node = (gsel n m l l).length := fun t => by
    rw [hb3, e1]
  have hout : ∀ t, ∀ z ∈ [x, y], belts (tagMerge (tagMerge (tagMerge s2 node t) ex 3) ov 3)
      (made h (tagMerge (tagMerge (tagMerge s2 node t) ex 3) ov 3) node) z =
        if (h.get z).value = c then (gsel n m e e).length else (gsel n m (d - e) (d - e)).length := fun t z hz => by
    have hz' : z = ex ∨ z = ov := by
      simp only [List.mem_cons, List.not_mem_nil, or_false] at hz
      rcases hr with ⟨rfl, rfl⟩ | ⟨rfl, rfl⟩ <;> tauto
    rw [hb3]
    rcases hz' with rfl | rfl
    · rw [if_pos hexv, e2]
    · rw [e3]
      split
      · rename_i q
        rw [hovv, sub_eq_iff_eq_add] at q
        have h1 : v = c + c := by exact_mod_cast q
        have h2 : d - e = e := by
          have h3 : d * g = (e + e) * g := by rw [← K.hv, h1, K.hc, Nat.add_mul]
          have := Nat.eq_of_mul_eq_mul_right K.gpos h3
          omega
        rw [h2]
      · rfl
  have hone : ∀ t a, h.next ≤ a → a < (tagMerge (tagMerge (tagMerge s2 node t) ex 3) ov 3).next →
      belts (tagMerge (tagMerge (tagMerge s2 node t) ex 3) ov 3)
        (made h (tagMerge (tagMerge (tagMerge s2 node t) ex 3) ov 3) node) a = 1 ∧
      ((tagMerge (tagMerge (tagMerge s2 node t) ex 3) ov 3).get a).expands = [] := fun t a h1 h2 => by
    rw [hnx3] at h2
    obtain ⟨q, hq, -⟩ := I.single a h1 h2
    have a1 : node ≠ a := by have := H.inside; omega
    have a2 : ex ≠ a := by have := (hcs ex hmem.1).1; omega
    have a3 : ov ≠ a := by have := (hcs ov hmem.2).1; omega
    refine ⟨by rw [hb3, hq]; rfl, ?_⟩
    rw [tagMerge_expands_ne _ _ a3, tagMerge_expands_ne _ _ a2, tagMerge_expands_ne _ _ a1]
    exact (I.wired.fresh a h1 h2).2.1
  have hcost : ∀ t, machines h (tagMerge (tagMerge (tagMerge s2 node t) ex 3) ov 3) node [x, y] + (savedSplitters n m (gsel n m l l) +
      savedSplitters n m (gsel n m e e) + savedSplitters n m (gsel n m (d - e) (d - e))) = Cost.S n m + toOne (1 + (gsel n m l l).length) +
        toOne (gsel n m e e).length + toOne (gsel n m (d - e) (d - e)).length := fun t => by
    rw [machines_single (by rw [hnx3]; exact hn2) fun a h1 h2 => (hone t a h1 h2).1]
    have h4 : ([x, y].map fun a => toOne (belts (tagMerge (tagMerge (tagMerge s2 node t) ex 3) ov 3)
        (made h (tagMerge (tagMerge (tagMerge s2 node t) ex 3) ov 3) node) a)).sum =
        toOne (gsel n m e e).length + toOne (gsel n m (d - e) (d - e)).length := by
      simp only [List.map_cons, List.map_nil, List.sum_cons, List.sum_nil, hb3]
      rcases hr with ⟨rfl, rfl⟩ | ⟨rfl, rfl⟩
      · rw [e2, e3]; omega
      · rw [e2, e3]; omega
    rw [h4, hb3, e1, hnx3]
    omega
  refine ⟨_, ee, ((N.tagMerge (.inl rfl) _).tagMerge (.inr (.inl hmem.1)) _).tagMerge (.inr (.inl hmem.2)) _, ?_, ?_, ?_, ?_⟩
  · intro T hT
    rw [steady_tagMerge, steady_tagMerge, steady_tagMerge] at hT
    have hv0 : (0 : ℚ) < v := by
      have := H.lt
      exact_mod_cast (by omega : 0 < v)
    obtain ⟨u1, u2⟩ := Net.unique (h := h) I H.inside (by rw [H.value]; exact hv0) (by positivity) (by
      rw [H.value, if_pos rfl, if_neg hexn, if_neg hovn]
      ring) hT
    refine ⟨u1, fun a h1 h2 => ?_⟩
    rw [tagMerge_next, tagMerge_next, tagMerge_next] at h2
    rw [tagMerge_value, tagMerge_value, tagMerge_value]
    exact u2 a h1 h2
  · intro a h1 h2
    rw [tagMerge_next, tagMerge_next, tagMerge_next] at h2
    rw [tagMerge_value, tagMerge_value, tagMerge_value]
    exact (hb a h1 h2).2
  · unfold Pending
    rw [p1, tagMerge_parents, tagMerge_parents, tagMerge_parents, hexp node H.inside]
  · rcases hr with ⟨rfl, rfl⟩ | ⟨rfl, rfl⟩
    · exact ⟨p2, p3, hcost _, hback _, hout _, hone _⟩
    · exact ⟨p3, p2, hcost _, hback _, hout _, hone _⟩

/-- The machines that lead back and to the two parts, in the order of the belts: those at the places. -/
theorem expandExtract_order (K : ExtractNumbers v c d e g n m l s) (H : ExtractInput h node x y v c) (hlevel : (h.get node).level = some lvl)
    (hunder : (v : ℚ) + l * g ≤ cfg.limit) {h' : Heap ℚ} {u : Int × Int} (hrun : expandExtract cfg h node c = .ok (h', u)) :
    ∃ at_ : Nat × Nat → Addr, (h'.get node).parents = (h.get node).parents ++ (places n m [] (gsel n m l l)).map at_ ∧
      (∀ z ∈ [x, y], (h'.get z).parents = (if (h.get z).value = c then places n m (gsel n m l l) (gsel n m e e)
        else places n m (gsel n m l l ++ gsel n m e e) (gsel n m (d - e) (d - e))).map at_) ∧
      (∀ a ∈ allPlaces n m l e (d - e), ∀ b ∈ allPlaces n m l e (d - e), at_ a = at_ b → a = b) ∧
      (∀ a ∈ places n m [] (gsel n m l l), h.next ≤ at_ a ∧ at_ a < h'.next) ∧
      (∀ a ∈ allPlaces n m l e (d - e), at_ a = node → a = (0, 0)) ∧
      ∀ z ∈ [x, y], (h.get z).value ≠ c → ∀ a ∈ made h h' node, Trails (fun _ => False) z (h'.get a).children := by
  obtain ⟨ex, ov, s2, E, S, hr, hexv, hovv, ee, I, hnx, hct, -, hdir, -, hat, htr⟩ := K.run (cfg := cfg) H hlevel (g0 := h) (loop := node) (fun _ _ => rfl) le_rfl H.inside
    (by rw [if_neg]; simpa using hunder)
  rw [if_neg (not_lt.2 hunder), hrun] at ee
  simp only [Except.ok.injEq, Prod.mk.injEq] at ee
  obtain ⟨at_, w1, w2, w3, w4⟩ := hat H.left.2.symm H.right.2.symm
  have hcs : ∀ c ∈ [x, y], c < h.next ∧ c ≠ node := by
    intro c hc
    simp at hc
    rcases hc with rfl | rfl
    · exact H.left
    · exact H.right
  have hmem : ex ∈ [x, y] ∧ ov ∈ [x, y] := by
    rcases hr with ⟨rfl, rfl⟩ | ⟨rfl, rfl⟩ <;> simp
  have hn2 : h.next ≤ s2.next := I.wired.next
  have hpar : ∀ a, a < h.next → (h'.get a).parents = ((detach h node [x, y]).get a).parents ++ insOf E a := fun a ha => by
    have wp : ∀ a, a < s2.next → (s2.get a).parents = (if a < h.next then ((detach h node [x, y]).get a).parents else []) ++ insOf E a :=
      I.wired.parents
    rw [ee.1, tagMerge_parents, tagMerge_parents, tagMerge_parents, wp a (by omega), if_pos ha]
  have hnx' : h'.next = s2.next := by rw [ee.1, tagMerge_next, tagMerge_next, tagMerge_next]
  refine ⟨at_, ?_, fun z hz => ?_, fun a ha b hb q => (w4 a ha).2.2 b hb q, fun a ha => ?_, fun a ha q => (w4 a ha).2.1 q, fun z hz hzc a ha => ?_⟩
  rotate_right
  · have hz' : z = ov := by
      simp only [List.mem_cons, List.not_mem_nil, or_false] at hz
      rcases hr with ⟨rfl, rfl⟩ | ⟨rfl, rfl⟩ <;> rcases hz with rfl | rfl <;> first | rfl | exact absurd hexv hzc
    subst hz'
    have hin := H.inside
    have ham := (mem_made (by omega)).1 ha
    have wc : ∀ a, a < s2.next → (s2.get a).children = (if a < h.next then ((detach h node [x, y]).get a).children else []) ++ outsOf E a :=
      I.wired.children
    rw [ee.1, tagMerge_children, tagMerge_children, tagMerge_children, wc a (by omega)]
    have : (if a < h.next then ((detach h node [x, y]).get a).children else []) = [] := by
      split
      · rw [detach_get]
        obtain rfl : a = node := by omega
        simp
      · rfl
    rw [this, List.nil_append]
    exact htr (hcs z hz).2.symm a
  · rw [hpar node H.inside, w1, detach_get]
    simp [H.left.2.symm, H.right.2.symm]
  · rw [hpar z (hcs z hz).1, detach_get]
    simp only [hz, if_true, List.nil_append]
    have hz' : z = ex ∨ z = ov := by
      simp only [List.mem_cons, List.not_mem_nil, or_false] at hz
      rcases hr with ⟨rfl, rfl⟩ | ⟨rfl, rfl⟩ <;> tauto
    rcases hz' with rfl | rfl
    · rw [if_pos hexv, w2]
    · rw [w3]
      split
      · rename_i q
        rw [hovv, sub_eq_iff_eq_add] at q
        have h1 : v = c + c := by exact_mod_cast q
        have h2 : d = e + e := by
          have h3 : d * g = (e + e) * g := by rw [← K.hv, h1, K.hc, Nat.add_mul]
          exact Nat.eq_of_mul_eq_mul_right K.gpos h3
        have h3 : e = 1 := by
          have h4 : g = e * g := by
            rw [← K.hc, K.hg, h1]
            exact Nat.gcd_eq_right ⟨2, by omega⟩
          have : 1 * g = e * g := by omega
          exact (Nat.eq_of_mul_eq_mul_right K.gpos this).symm
        have hf := K.find
        have h5 : findNML 2 = .ok (1, 0, 0, 1) := by decide +kernel
        rw [h2, h3, h5] at hf
        simp only [Except.ok.injEq, Prod.mk.injEq] at hf
        obtain ⟨rfl, rfl, rfl, -⟩ := hf
        rw [h2, h3]
        have h6 : places 1 0 (gsel 1 0 0 0 ++ gsel 1 0 1 1) (gsel 1 0 (1 + 1 - 1) (1 + 1 - 1)) = places 1 0 (gsel 1 0 0 0) (gsel 1 0 1 1) := by
          decide +kernel
        rw [h6]
      · rfl
  · have h1 : a ∈ allPlaces n m l e (d - e) := List.mem_append_left _ ha
    rw [hnx']
    rcases (I.mem _).1 (List.mem_append_left _ (w4 a h1).1) with q | q
    · exfalso
      have h2 : at_ a ∈ insOf E node := by rw [w1]; exact List.mem_map_of_mem ha
      rw [q, mem_insOf, ← mem_outsOf] at h2
      have h3 := List.count_pos_iff.2 h2
      have h4 := hdir node H.inside (fun w => (hcs ex hmem.1).2 w.symm) (fun w => (hcs ov hmem.2).2 w.symm)
      omega
    · exact q

theorem expandExtract_over (K : ExtractNumbers v c d e g n m l s) (H : ExtractInput h node x y v c) (hlevel : (h.get node).level = some lvl)
    (hlimit : (v : ℚ) ≤ cfg.limit) (hover : (cfg.limit : ℚ) < (v : ℚ) + l * g) :
    ∃ h', expandExtract cfg h node c = .ok (h', (lvl + 1, n + m)) ∧ SplitterNetwork h h' node (v : ℚ) [x, y] ∧
      (∀ T, Steady h h' node T → T node = (v : ℚ) ∧ ∀ a, h.next ≤ a → a < h'.next → T a = (h'.get a).value) ∧
      (∀ a, h.next < a → a < h'.next → (h'.get a).value ≤ ((v : ℚ) + l * g) / 2) ∧
      (h.next < h'.next ∧ (h'.get h.next).value = (l : ℚ) * g ∧ (h'.get h.next).level = none) ∧
      (h'.get h.next).expands = (if 2 < (h'.get h.next).parents.length then [.merge 2] else []) ∧ Pending h h' x 3 ∧ Pending h h' y 3 := by
  have hpos : (0 : ℚ) < (l : ℚ) * g := by linarith
  obtain ⟨g0, hnew⟩ : ∃ g0, newNode h ((l : ℚ) * g) [] none none = .ok (g0, h.next) := by
    unfold newNode
    rw [if_neg (not_lt.2 hpos.le)]
    exact ⟨_, rfl⟩
  have hnew' := hnew
  unfold newNode at hnew'
  rw [if_neg (not_lt.2 hpos.le)] at hnew'
  simp only [Except.ok.injEq, Prod.mk.injEq, Heap.alloc] at hnew'
  have hn1 : g0.next = h.next + 1 := by rw [← hnew'.1]
  have hg1 : ∀ a, a < h.next → g0.get a = h.get a := fun a ha => by
    rw [← hnew'.1]
    exact if_neg (by omega)
  have hgl : (g0.get h.next).parents = [] ∧ (g0.get h.next).expands = [] := by
    rw [← hnew'.1]
    simp
  obtain ⟨ex, ov, s2, E, S, hr, hexv, hovv, ee, I, -⟩ := K.run (cfg := cfg) H hlevel (g0 := g0) (loop := h.next) hg1 (by omega) (by omega)
    (by rw [if_pos (by simpa using hover)]; exact hnew)
  rw [if_pos hover, if_pos hgl.1] at ee
  have hcs : ∀ c ∈ [x, y], c < h.next ∧ c ≠ node := by
    intro c hc
    simp at hc
    rcases hc with rfl | rfl
    · exact H.left
    · exact H.right
  have hmem : ex ∈ [x, y] ∧ ov ∈ [x, y] := by
    rcases hr with ⟨rfl, rfl⟩ | ⟨rfl, rfl⟩ <;> simp
  have hexn := hcs ex hmem.1
  have hovn := hcs ov hmem.2
  have hne : ex ≠ ov := by
    rcases hr with ⟨rfl, rfl⟩ | ⟨rfl, rfl⟩
    · exact H.ne
    · exact H.ne.symm
  have hnode := H.inside
  obtain ⟨N, hlev, hval⟩ := Net.networkOver hnew I H.inside hcs (by
      intro t ht
      simp only [List.mem_cons, List.not_mem_nil, or_false] at ht
      rcases ht with rfl | rfl | rfl
      · exact .inl rfl
      · exact .inr (.inr hmem.1)
      · exact .inr (.inr hmem.2)) (by rw [H.value]) hpos
    (by
      rw [if_pos rfl, if_neg (by omega), if_neg (by omega)]
      ring)
    (by
      rw [if_neg (by omega), if_neg hexn.2, if_neg hovn.2]
      ring)
    (by
      intro z hz
      have hzz : z = ex ∨ z = ov := by
        simp at hz
        rcases hr with ⟨rfl, rfl⟩ | ⟨rfl, rfl⟩ <;> tauto
      have hz1 := (hcs z hz).1
      rw [if_neg (by omega)]
      rcases hzz with rfl | rfl
      · rw [if_pos rfl, if_neg hne.symm, hexv]
        ring
      · rw [if_neg hne, if_pos rfl, hovv]
        ring)
  rw [H.value] at N
  have hnx : (joinLoop s2 node h.next).next = s2.next := (joinLoop_keep s2 node h.next 0).2.2
  have hs2 : g0.next ≤ s2.next := I.wired.next
  have wk : ∀ a, a < g0.next → s2.get a = { (detach g0 node [x, y]).get a with
    children := (s2.get a).children, parents := (s2.get a).parents } := I.wired.keep
  have hexp : ∀ a, a < g0.next → ((joinLoop s2 node h.next).get a).expands = (g0.get a).expands := fun a ha => by
    rw [(joinLoop_keep s2 node h.next a).2.1, wk a ha, detach_get]
  have hb := I.bound (by positivity)
  obtain ⟨p1, p2, p3⟩ := pending_three (h := h) (g := joinLoop s2 node h.next) (a := h.next) (ex := ex) (ov := ov) 2
    (by omega) (by omega) hne ((hexp ex (by omega)).trans (by rw [hg1 ex hexn.1])) ((hexp ov (by omega)).trans (by rw [hg1 ov hovn.1]))
  refine ⟨_, ee, ((N.tagMerge (.inr (.inr le_rfl)) _).tagMerge (.inr (.inl hmem.1)) _).tagMerge (.inr (.inl hmem.2)) _, ?_, ?_, ⟨?_, ?_, ?_⟩, ?_, ?_⟩
  · intro T hT
    rw [steady_tagMerge, steady_tagMerge, steady_tagMerge] at hT
    have hv0 : (0 : ℚ) < v := by
      have := H.lt
      exact_mod_cast (by omega : 0 < v)
    have z1 : h.next ≠ node := by omega
    have z2 : h.next ≠ ex := by omega
    have z3 : h.next ≠ ov := by omega
    have f1 : ex ≠ node := hexn.2
    have f2 : ov ≠ node := hovn.2
    obtain ⟨u1, u2, u3⟩ := (Net.uniqueOver (h := h) hnew I H.inside (by rw [H.value]; exact hv0) (by positivity) hpos (by
      simp only [H.value, if_neg z1, if_neg z2.symm, if_neg z3.symm, if_neg f1, if_neg f2, if_true]
      ring)).1 hT
    simp only [H.value, if_neg z1, if_neg z2.symm, if_neg z3.symm, if_neg f1, if_neg f2, if_true] at u1 u2
    refine ⟨by linarith, fun a h1 h2 => ?_⟩
    rw [tagMerge_next, tagMerge_next, tagMerge_next] at h2
    rw [tagMerge_value, tagMerge_value, tagMerge_value]
    by_cases q : a = h.next
    · rw [q, u2, hval]
      ring
    · exact u3 a (by omega) h2
  · intro a h1 h2
    rw [tagMerge_next, tagMerge_next, tagMerge_next, hnx] at h2
    rw [tagMerge_value, tagMerge_value, tagMerge_value, (joinLoop_keep s2 node h.next a).1]
    exact (hb a (show g0.next ≤ a by omega) h2).2
  · rw [tagMerge_next, tagMerge_next, tagMerge_next, hnx]
    omega
  · rw [tagMerge_value, tagMerge_value, tagMerge_value, hval]
  · rw [tagMerge_level, tagMerge_level, tagMerge_level, hlev]
  · rw [p1, tagMerge_parents, tagMerge_parents, tagMerge_parents, hexp h.next (by omega), hgl.2]
    rfl
  · rcases hr with ⟨rfl, rfl⟩ | ⟨rfl, rfl⟩
    · exact ⟨p2, p3⟩
    · exact ⟨p3, p2⟩

/-- The machines of the network, with a node for the loop. -/
theorem expandExtract_over_machines (K : ExtractNumbers v c d e g n m l s) (H : ExtractInput h node x y v c)
    (hlevel : (h.get node).level = some lvl) (hlimit : (v : ℚ) ≤ cfg.limit) (hover : (cfg.limit : ℚ) < (v : ℚ) + l * g) :
    ∃ h', expandExtract cfg h node c = .ok (h', (lvl + 1, n + m)) ∧
      machines h h' node [x, y] + (h'.get node).children.count x + (h'.get node).children.count y + (savedSplitters n m (gsel n m l l) +
        savedSplitters n m (gsel n m e e) + savedSplitters n m (gsel n m (d - e) (d - e))) = Cost.S n m + 1 + toOne (gsel n m l l).length +
          fan n 0 + toOne (belts h' (made h h' node) x) + toOne (belts h' (made h h' node) y) ∧
      (∀ z ∈ [x, y], belts h' (made h h' node) z = (h'.get node).children.count z +
        if (h.get z).value = c then (gsel n m e e).length else (gsel n m (d - e) (d - e)).length) ∧
      belts h' (made h h' node) h.next = (gsel n m l l).length ∧
      (h'.get node).children.count x + (h'.get node).children.count y < fan n 0 := by
  have hpos : (0 : ℚ) < (l : ℚ) * g := by linarith
  obtain ⟨g0, hnew⟩ : ∃ g0, newNode h ((l : ℚ) * g) [] none none = .ok (g0, h.next) := by
    unfold newNode
    rw [if_neg (not_lt.2 hpos.le)]
    exact ⟨_, rfl⟩
  have hnew' := hnew
  unfold newNode at hnew'
  rw [if_neg (not_lt.2 hpos.le)] at hnew'
  simp only [Except.ok.injEq, Prod.mk.injEq, Heap.alloc] at hnew'
  have hn1 : g0.next = h.next + 1 := by rw [← hnew'.1]
  have hg1 : ∀ a, a < h.next → g0.get a = h.get a := fun a ha => by
    rw [← hnew'.1]
    exact if_neg (by omega)
  have hgl : (g0.get h.next).parents = [] ∧ (g0.get h.next).expands = [] := by
    rw [← hnew'.1]
    simp
  obtain ⟨ex, ov, s2, E, S, hr, hexv, hovv, ee, I, hsz, hct, hfan, hdir, hfew, -⟩ := K.run (cfg := cfg) H hlevel (g0 := g0) (loop := h.next) hg1 (by omega) (by omega)
    (by rw [if_pos (by simpa using hover)]; exact hnew)
  rw [if_pos hover, if_pos hgl.1] at ee
  have hcs : ∀ c ∈ [x, y], c < h.next ∧ c ≠ node := by
    intro c hc
    simp at hc
    rcases hc with rfl | rfl
    · exact H.left
    · exact H.right
  have hmem : ex ∈ [x, y] ∧ ov ∈ [x, y] := by
    rcases hr with ⟨rfl, rfl⟩ | ⟨rfl, rfl⟩ <;> simp
  have hexn := hcs ex hmem.1
  have hovn := hcs ov hmem.2
  have hne : ex ≠ ov := by
    rcases hr with ⟨rfl, rfl⟩ | ⟨rfl, rfl⟩
    · exact H.ne
    · exact H.ne.symm
  have hnode := H.inside
  have hnx : (joinLoop s2 node h.next).next = s2.next := (joinLoop_keep s2 node h.next 0).2.2
  have hs2 : g0.next ≤ s2.next := I.wired.next
  have hc3 : ∀ a, ((tagMerge (tagMerge (tagMerge (joinLoop s2 node h.next) h.next 2) ex 3) ov 3).get a).children =
      ((joinLoop s2 node h.next).get a).children := fun a => by rw [tagMerge_children, tagMerge_children, tagMerge_children]
  have hn3 : (tagMerge (tagMerge (tagMerge (joinLoop s2 node h.next) h.next 2) ex 3) ov 3).next = (joinLoop s2 node h.next).next := by
    rw [tagMerge_next, tagMerge_next, tagMerge_next]
  have hxy : ∀ z, z ≤ h.next → z ∉ [x, y] → (outsOf E node).count z = 0 := fun z hz q => by
    refine hdir z (by omega) ?_ ?_ <;> rintro rfl
    · exact q hmem.1
    · exact q hmem.2
  obtain ⟨h3, hh3⟩ : ∃ h3, tagMerge (tagMerge (tagMerge (joinLoop s2 node h.next) h.next 2) ex 3) ov 3 = h3 := ⟨_, rfl⟩
  rw [hh3] at hc3 hn3
  obtain ⟨hchn, hb3, hmach⟩ := Net.machinesOver hnew I hnode hpos hn3 hc3 (fun z hz => (hcs z hz).1) (by simp [H.ne]) hxy
    (by simp [H.left.2.symm, H.right.2.symm])
  have hlen : (h3.get node).children.count x + (h3.get node).children.count y < fan n 0 := by
    have hl0 : l ≠ 0 := by
      rintro rfl
      simp at hpos
    rw [hchn]
    rw [if_neg hl0] at hfew
    rcases hr with ⟨rfl, rfl⟩ | ⟨rfl, rfl⟩ <;> omega
  have hlp : belts h3 (made h h3 node) h.next = (gsel n m l l).length := by
    rw [hb3, hct h.next (by omega), if_pos rfl, if_neg (by omega), if_neg (by omega), hxy h.next le_rfl fun q => by have := (hcs _ q).1; omega]
    simp only [Nat.add_zero]
  have hout : ∀ z ∈ [x, y], belts h3 (made h h3 node) z = (h3.get node).children.count z +
      if (h.get z).value = c then (gsel n m e e).length else (gsel n m (d - e) (d - e)).length := fun z hz => by
    have hz' : z = ex ∨ z = ov := by
      simp only [List.mem_cons, List.not_mem_nil, or_false] at hz
      rcases hr with ⟨rfl, rfl⟩ | ⟨rfl, rfl⟩ <;> tauto
    have hzl : h.next ≠ z := by have := (hcs z hz).1; omega
    rw [hb3, hchn, Nat.add_comm, hct z (by have := (hcs z hz).1; omega), if_neg hzl]
    congr 1
    rcases hz' with rfl | rfl
    · rw [if_pos hexv, if_pos rfl, if_neg hne.symm]; omega
    · rw [if_neg hne, if_pos rfl]
      split
      · rename_i q
        rw [hovv, sub_eq_iff_eq_add] at q
        have h1 : v = c + c := by exact_mod_cast q
        have h2 : d - e = e := by
          have h3 : d * g = (e + e) * g := by rw [← K.hv, h1, K.hc, Nat.add_mul]
          have := Nat.eq_of_mul_eq_mul_right K.gpos h3
          omega
        rw [h2]
        omega
      · omega
  have hcost : machines h h3 node [x, y] + (h3.get node).children.count x + (h3.get node).children.count y +
      (savedSplitters n m (gsel n m l l) + savedSplitters n m (gsel n m e e) + savedSplitters n m (gsel n m (d - e) (d - e))) =
        Cost.S n m + 1 + toOne (gsel n m l l).length + fan n 0 + toOne (belts h3 (made h h3 node) x) + toOne (belts h3 (made h h3 node) y) := by
    have e1 := hct node (by omega)
    rw [if_neg (by omega), if_neg hexn.2, if_neg hovn.2] at e1
    have e2 := hct h.next (by omega)
    rw [if_pos rfl, if_neg (by omega), if_neg (by omega)] at e2
    rw [e1, e2, hfan, hn3, hnx] at hmach
    simp only [List.map_cons, List.map_nil, List.sum_cons, List.sum_nil, Nat.add_zero] at hmach
    rw [hchn]
    have : toOne 1 = 0 := rfl
    rw [this] at hmach
    omega
  rw [hh3] at ee
  exact ⟨_, ee, hcost, hout, hlp, hlen⟩

end

end Satis.Graph
