import Verif.Graph.Network
import Verif.Cost.PlanFacts
import Verif.Graph.PlacesSpec
/-!
# Which splitter feeds which branch

A splitter of a depth and the place it has there are written `(j, x)`, counted from zero.
-/

namespace Satis.Graph
open Satis Satis.Cost

/-- The nodes of `cur` whose outputs, `k` for each, come from number `off` on. -/
def outlets (k off : Nat) (cur : List Addr) (r : Nat) : List Addr := (List.range r).map fun t => cur.getD ((off + t) / k) 0

theorem insOf_wire_replicate (k off : Nat) (cur : List Addr) (r : Nat) (t x : Addr) :
    insOf (wire k off cur (List.replicate r t)) x = if t = x then outlets k off cur r else [] := by
  by_cases q : t = x
  · subst q
    rw [if_pos rfl]
    induction r with
    | zero => rfl
    | succ r ih =>
      rw [List.replicate_succ', wire_append, insOf_append, ih, List.length_replicate, wire_singleton]
      unfold outlets
      rw [List.range_succ, List.map_append]
      simp [insOf]
  · rw [if_neg q]
    refine insOf_eq_nil fun e he w => q ?_
    have : e.2 ∈ (wire k off cur (List.replicate r t)).map Prod.snd := List.mem_map_of_mem he
    rw [wire_snd] at this
    rw [← List.eq_of_mem_replicate this, w]

theorem insOf_wire_ne (k off : Nat) (cur : List Addr) {xs : List Addr} {x : Addr} (hx : x ∉ xs) : insOf (wire k off cur xs) x = [] := by
  refine insOf_eq_nil fun e he w => hx ?_
  have : e.2 ∈ (wire k off cur xs).map Prod.snd := List.mem_map_of_mem he
  rw [wire_snd, w] at this
  exact this

/-- The places of the splitters that feed `r j` branches of the depth below `j`, after `off j` others. -/
def spots (n : Nat) (off r : Nat → Nat) (k : Nat) : List (Nat × Nat) :=
  (List.range k).flatMap fun j => (List.range (r j)).map fun t => (j, (off j + t) / fan n j)

theorem places_eq (n m : Nat) (before sel : List Nat) :
    Spec.places n m before sel = spots n (fun j => before.count (j + 1)) (fun j => sel.count (j + 1)) (n + m) := rfl

theorem spots_congr {n k : Nat} {off off' r r' : Nat → Nat} (h1 : ∀ j, j < k → off j = off' j) (h2 : ∀ j, j < k → r j = r' j) :
    spots n off r k = spots n off' r' k := by
  unfold spots
  apply List.flatMap_congr
  intro j hj
  have hj := List.mem_range.1 hj
  rw [h1 j hj, h2 j hj]

/-- A splitter that feeds one of the first `u j` branches of the depth below `j`. -/
def Seat (n k : Nat) (u : Nat → Nat) (l : Nat × Nat) : Prop := l.1 < k ∧ ∃ t < u l.1, l.2 = t / fan n l.1

theorem mem_spots {n k : Nat} {off r u : Nat → Nat} (hu : ∀ j, j < k → off j + r j ≤ u j) {l : Nat × Nat} (hl : l ∈ spots n off r k) : Seat n k u l := by
  unfold spots at hl
  simp only [List.mem_flatMap, List.mem_map, List.mem_range] at hl
  obtain ⟨j, hj, t, ht, rfl⟩ := hl
  exact ⟨hj, off j + t, by have := hu j hj; simp only; omega, rfl⟩

theorem spots_succ (n : Nat) (off r : Nat → Nat) (k : Nat) :
    spots n off r (k + 1) = spots n off r k ++ (List.range (r k)).map fun t => (k, (off k + t) / fan n k) := by
  unfold spots
  rw [List.range_succ, List.flatMap_append]
  simp

/-- The splitters of the first `k` depths: `lay j` those of depth `j`, `S` all of them. -/
structure Rows (n k : Nat) (S : List Addr) (u : Nat → Nat) (lay : Nat → List Addr) : Prop where
  all : S = (List.range k).flatMap lay
  fits : ∀ j, j < k → u j ≤ fan n j * (lay j).length

theorem fan_pos (n j : Nat) : 0 < fan n j := by unfold fan; split <;> omega

theorem Rows.congr {n k : Nat} {S : List Addr} {u : Nat → Nat} {lay lay' : Nat → List Addr} (R : Rows n k S u lay) (h : ∀ j, j < k → lay' j = lay j) :
    Rows n k S u lay' := by
  refine ⟨?_, fun j hj => by rw [h j hj]; exact R.fits j hj⟩
  rw [R.all]
  have : ∀ l : List Nat, (∀ j ∈ l, j < k) → l.flatMap lay = l.flatMap lay' := by
    intro l hl
    induction l with
    | nil => rfl
    | cons a l ih =>
      rw [List.flatMap_cons, List.flatMap_cons, h a (hl a (by simp)), ih fun j hj => hl j (by simp [hj])]
  exact this _ fun j hj => List.mem_range.1 hj

theorem Rows.succ {n k : Nat} {S : List Addr} {u : Nat → Nat} {lay : Nat → List Addr} (R : Rows n k S u lay) (h : u k ≤ fan n k * (lay k).length) :
    Rows n (k + 1) (S ++ lay k) u lay := by
  refine ⟨by rw [R.all, List.range_succ, List.flatMap_append]; simp, fun j hj => ?_⟩
  rcases Nat.lt_succ_iff_lt_or_eq.1 hj with q | rfl
  · exact R.fits j q
  · exact h

theorem Rows.seat {n k : Nat} {S : List Addr} {u : Nat → Nat} {lay : Nat → List Addr} (R : Rows n k S u lay) {l : Nat × Nat} (hl : Seat n k u l) :
    l.2 < (lay l.1).length := by
  obtain ⟨h1, t, ht, h2⟩ := hl
  rw [h2, Nat.div_lt_iff_lt_mul (fan_pos n l.1), Nat.mul_comm]
  exact lt_of_lt_of_le ht (R.fits l.1 h1)

/-- The splitter at a place. -/
def splitterAt (lay : Nat → List Addr) (l : Nat × Nat) : Addr := (lay l.1).getD l.2 0

theorem Rows.mem {n k : Nat} {S : List Addr} {u : Nat → Nat} {lay : Nat → List Addr} (R : Rows n k S u lay) {l : Nat × Nat} (hl : Seat n k u l) :
    splitterAt lay l ∈ S := by
  rw [R.all, List.mem_flatMap]
  exact ⟨l.1, List.mem_range.2 hl.1, getD_mem (R.seat hl)⟩

theorem Rows.inj {n k : Nat} {S : List Addr} {u : Nat → Nat} {lay : Nat → List Addr} (R : Rows n k S u lay) (hS : S.Nodup) {l l' : Nat × Nat}
    (hl : Seat n k u l) (hl' : Seat n k u l') (e : splitterAt lay l = splitterAt lay l') : l = l' := by
  rw [R.all, List.nodup_flatMap] at hS
  have h1 := R.seat hl
  have h2 := R.seat hl'
  have hd : l.1 = l'.1 := by
    by_contra q
    have key : ∀ i j, i < j → j < k → List.Disjoint (lay i) (lay j) := fun i j hij hj => by
      have := List.pairwise_iff_getElem.1 hS.2 i j (by simp; omega) (by simp; exact hj) hij
      simpa [Function.onFun] using this
    have m1 : splitterAt lay l ∈ lay l.1 := getD_mem h1
    have m2 : splitterAt lay l' ∈ lay l'.1 := getD_mem h2
    rcases Nat.lt_or_gt_of_ne q with w | w
    · exact key _ _ w hl'.1 m1 (e ▸ m2)
    · exact key _ _ w hl.1 m2 (e ▸ m1)
  obtain ⟨a, x⟩ := l
  obtain ⟨b, y⟩ := l'
  simp only at hd h1 h2
  subst hd
  unfold splitterAt at e
  simp only at e
  rw [List.getD_eq_getElem?_getD, List.getElem?_eq_getElem h1, List.getD_eq_getElem?_getD, List.getElem?_eq_getElem h2] at e
  have := (hS.1 a (List.mem_range.2 hl.1)).getElem_inj_iff.1 (by simpa using e)
  rw [this]

/-- Where the first depth is a single machine, that is the first place. -/
theorem Rows.origin {n k : Nat} {S : List Addr} {u : Nat → Nat} {lay : Nat → List Addr} {node : Addr} (R : Rows n k S u lay) (hS : S.Nodup)
    (h0 : lay 0 = [node]) {l : Nat × Nat} (hl : Seat n k u l) (e : splitterAt lay l = node) : l = (0, 0) := by
  have h1 := R.seat hl
  rw [R.all, List.nodup_flatMap] at hS
  obtain ⟨a, x⟩ := l
  have m1 : splitterAt lay (a, x) ∈ lay a := getD_mem h1
  rcases Nat.eq_zero_or_pos a with rfl | q
  · simp only [h0, List.length_singleton] at h1
    rw [show x = 0 by omega]
  · exfalso
    have := List.pairwise_iff_getElem.1 hS.2 0 a (by simp; have := hl.1; simp at this; omega) (by simpa using hl.1) q
    simp only [List.getElem_range, Function.onFun] at this
    exact this (by rw [h0]; exact List.mem_singleton_self node) (e ▸ m1)

/-- The first place comes first. -/
theorem spots_head {n : Nat} {off r : Nat → Nat} {k : Nat} (h : (0, 0) ∈ spots n off r k) : (spots n off r k).head? = some (0, 0) := by
  unfold spots at h ⊢
  simp only [List.mem_flatMap, List.mem_map, List.mem_range, Prod.mk.injEq] at h
  obtain ⟨j, hj, t, ht, rfl, h1⟩ := h
  obtain ⟨k, rfl⟩ : ∃ k', k = k' + 1 := ⟨k - 1, by omega⟩
  obtain ⟨s, hs⟩ : ∃ s, r 0 = s + 1 := ⟨r 0 - 1, by omega⟩
  have h2 : off 0 / fan n 0 = 0 := by
    have h3 := Nat.div_le_div_right (c := fan n 0) (Nat.le_add_right (off 0) t)
    rw [h1] at h3
    exact Nat.le_zero.1 h3
  rw [List.range_succ_eq_map, List.flatMap_cons, hs, List.range_succ_eq_map]
  simp [h2]

theorem splitterAt_congr {n k : Nat} {off r : Nat → Nat} {lay lay' : Nat → List Addr} (h : ∀ j, j < k → lay' j = lay j) :
    (spots n off r k).map (splitterAt lay') = (spots n off r k).map (splitterAt lay) := by
  apply List.map_congr_left
  intro l hl
  unfold splitterAt
  rw [h l.1 (mem_spots (u := fun j => off j + r j) (fun _ _ => le_rfl) hl).1]

theorem spots_map_succ (n : Nat) (off r : Nat → Nat) (k : Nat) (lay : Nat → List Addr) :
    (spots n off r (k + 1)).map (splitterAt lay) = (spots n off r k).map (splitterAt lay) ++ outlets (fan n k) (off k) (lay k) (r k) := by
  rw [spots_succ, List.map_append, List.map_map]
  rfl

theorem outlets_if (P : Prop) [Decidable P] (k off : Nat) (cur : List Addr) (r : Nat) :
    (if P then outlets k off cur r else []) = outlets k off cur (if P then r else 0) := by
  split <;> rfl

theorem rows_zero (n : Nat) (u : Nat → Nat) (lay : Nat → List Addr) : Rows n 0 [] u lay := ⟨rfl, fun j hj => absurd hj (by omega)⟩

/-- The next depth. -/
theorem Rows.next {n k : Nat} {S : List Addr} {u : Nat → Nat} {lay : Nat → List Addr} (R : Rows n k S u lay) (h : u k ≤ fan n k * (lay k).length)
    (cur : List Addr) : ∃ lay', Rows n (k + 1) (S ++ lay k) u lay' ∧ lay' (k + 1) = cur ∧ lay' k = lay k ∧ lay' 0 = lay 0 ∧
      ∀ off r, (spots n off r k).map (splitterAt lay') = (spots n off r k).map (splitterAt lay) := by
  refine ⟨fun j => if j = k + 1 then cur else lay j, (R.succ h).congr fun j hj => if_neg (by omega), if_pos rfl, if_neg (by omega), if_neg (by omega), fun off r => ?_⟩
  exact splitterAt_congr fun j hj => if_neg (by omega)

end Satis.Graph
