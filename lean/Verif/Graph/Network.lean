import Verif.Graph.Wire
import Verif.Graph.ExpandSpec
import Mathlib.Tactic.Ring
import Mathlib.Tactic.FieldSimp
import Mathlib.Tactic.Linarith
/-!
# Building a network depth by depth
-/

namespace Satis.Graph
open Satis

/-! ### One depth -/

theorem wire_cons {k : Nat} (hk : 0 < k) (c : Addr) (cs xs : List Addr) (hx : k ≤ xs.length) :
    wire k 0 (c :: cs) xs = (xs.take k).map (fun x => (c, x)) ++ wire k 0 cs (xs.drop k) := by
  conv_lhs => rw [← List.take_append_drop k xs]
  rw [wire_append]
  have hl : (xs.take k).length = k := by rw [List.length_take]; omega
  congr 1
  · unfold wire
    apply List.ext_getElem
    · simp
    · intro i h1 h2
      have : i < k := by simp at h1; omega
      simp [Nat.div_eq_of_lt this]
  · unfold wire
    apply List.map_congr_left
    intro x _
    rw [hl]
    have : (0 + k + x.2) / k = (0 + x.2) / k + 1 := by
      rw [show 0 + k + x.2 = 0 + x.2 + k by omega, Nat.add_div_right _ hk]
    rw [this, List.getD_cons_succ]

theorem wire_snd (k off : Nat) (cur xs : List Addr) : (wire k off cur xs).map Prod.snd = xs := by
  unfold wire
  rw [List.map_map]
  exact List.zipIdx_map_fst 0 xs

theorem wire_fst {k : Nat} (hk : 0 < k) : ∀ (cur xs : List Addr), xs.length = k * cur.length → ∀ e ∈ wire k 0 cur xs, e.1 ∈ cur := by
  intro cur
  induction cur with
  | nil => intro xs hx e he; rw [List.length_nil, Nat.mul_zero] at hx; rw [List.length_eq_zero_iff.1 hx] at he; simp at he
  | cons c cs ih =>
    intro xs hx e he
    rw [List.length_cons, Nat.mul_succ] at hx
    rw [wire_cons hk c cs xs (by omega)] at he
    rcases List.mem_append.1 he with he | he
    · simp only [List.mem_map] at he
      obtain ⟨x, -, rfl⟩ := he
      simp
    · exact List.mem_cons_of_mem _ (ih (xs.drop k) (by rw [List.length_drop]; omega) e he)

theorem wire_outs {k : Nat} (hk : 0 < k) : ∀ (cur xs : List Addr), xs.length = k * cur.length → cur.Nodup → ∀ a ∈ cur,
    (outsOf (wire k 0 cur xs) a).length = k := by
  intro cur
  induction cur with
  | nil => intro xs _ _ a ha; simp at ha
  | cons c cs ih =>
    intro xs hx hnd a ha
    rw [List.length_cons, Nat.mul_succ] at hx
    rw [List.nodup_cons] at hnd
    have hd : (xs.drop k).length = k * cs.length := by rw [List.length_drop]; omega
    rw [wire_cons hk c cs xs (by omega), outsOf_append, List.length_append]
    by_cases hac : a = c
    · subst hac
      rw [outsOf_eq_nil (E := wire k 0 cs (xs.drop k)) fun e he (q : e.1 = a) => hnd.1 (q ▸ wire_fst hk cs _ hd e he)]
      unfold outsOf
      rw [List.filter_eq_self.2 (fun e he => by
        simp only [List.mem_map] at he
        obtain ⟨x, -, rfl⟩ := he
        simp)]
      simp
      omega
    · rw [outsOf_eq_nil (E := (xs.take k).map fun x => (c, x))]
      · rw [ih (xs.drop k) hd hnd.2 a ((List.mem_cons.1 ha).resolve_left hac)]
        exact Nat.zero_add k
      · intro e he
        simp only [List.mem_map] at he
        obtain ⟨x, -, rfl⟩ := he
        exact fun q => hac q.symm

theorem outsOf_perm {E F : List (Addr × Addr)} (h : E.Perm F) (a : Addr) : (outsOf E a).Perm (outsOf F a) := (h.filter _).map _
theorem insOf_perm {E F : List (Addr × Addr)} (h : E.Perm F) (a : Addr) : (insOf E a).Perm (insOf F a) := (h.filter _).map _

theorem insOf_length (E : List (Addr × Addr)) (c : Addr) : (insOf E c).length = (E.map Prod.snd).count c := by
  unfold insOf
  rw [List.length_map, ← List.countP_eq_length_filter, List.count, List.countP_map]
  apply List.countP_congr
  intro e _
  simp

/-- A depth gives every node one belt per entry. -/
theorem insOf_step {E F : List (Addr × Addr)} {k : Nat} {cur rs new : List Addr} (hF : F.Perm (wire k 0 cur (rs ++ new))) {x : Addr}
    (hx : x ∉ new) : (insOf (E ++ F) x).length = (insOf E x).length + rs.count x := by
  rw [insOf_append, List.length_append, insOf_length F, (hF.map Prod.snd).count_eq, wire_snd, List.count_append, List.count_eq_zero.2 hx,
    Nat.add_zero]

/-- A depth does not touch what hangs from the nodes above it. -/
theorem outsOf_step {E F : List (Addr × Addr)} {k : Nat} {cur xs : List Addr} (hk : 0 < k) (hF : F.Perm (wire k 0 cur xs))
    (hlen : xs.length = k * cur.length) {a : Addr} (ha : a ∉ cur) : outsOf (E ++ F) a = outsOf E a := by
  rw [outsOf_append, outsOf_eq_nil (E := F) (a := a) fun e he (q : e.1 = a) => ha (q ▸ wire_fst hk cur _ hlen e (hF.mem_iff.1 he)), List.append_nil]

/-- The first depth. -/
theorem outsOf_first {F : List (Addr × Addr)} {k : Nat} {node : Addr} {xs : List Addr} (hk : 0 < k) (hF : F.Perm (wire k 0 [node] xs))
    (hlen : xs.length = k * [node].length) : (outsOf F node).Perm xs := by
  have h1 : outsOf F node = F.map Prod.snd := by
    unfold outsOf
    rw [List.filter_eq_self.2 fun e he => by simpa using wire_fst hk [node] _ hlen e (hF.mem_iff.1 he)]
  rw [h1]
  have := hF.map Prod.snd
  rwa [wire_snd] at this

/-! ### Flow along edges -/

/-- What the edges `E` bring to `x` if an edge from `a` carries `s a`. -/
def brings (E : List (Addr × Addr)) (s : Addr → ℚ) (x : Addr) : ℚ := (E.map fun e => if e.2 = x then s e.1 else 0).sum

theorem brings_append (E F : List (Addr × Addr)) (s : Addr → ℚ) (x : Addr) : brings (E ++ F) s x = brings E s x + brings F s x := by
  simp [brings]

theorem brings_congr {E : List (Addr × Addr)} {s s' : Addr → ℚ} {x : Addr} (h : ∀ e ∈ E, s e.1 = s' e.1) :
    brings E s x = brings E s' x := by
  unfold brings
  congr 1
  apply List.map_congr_left
  intro e he
  rw [h e he]

theorem brings_const {E : List (Addr × Addr)} {s : Addr → ℚ} {x : Addr} {c : ℚ} (h : ∀ e ∈ E, s e.1 = c) :
    brings E s x = ((E.map Prod.snd).count x : ℚ) * c := by
  induction E with
  | nil => simp [brings]
  | cons e E ih =>
    have := ih fun e he => h e (List.mem_cons_of_mem _ he)
    unfold brings at this ⊢
    rw [List.map_cons, List.sum_cons, this, List.map_cons, List.count_cons, h e (by simp)]
    by_cases hx : e.2 = x
    · simp [hx]
      ring
    · simp [hx]

theorem brings_perm {E F : List (Addr × Addr)} (h : E.Perm F) (s : Addr → ℚ) (x : Addr) : brings E s x = brings F s x :=
  (h.map _).sum_eq

theorem brings_eq_zero {E : List (Addr × Addr)} {s : Addr → ℚ} {x : Addr} (h : ∀ e ∈ E, e.2 ≠ x) : brings E s x = 0 := by
  unfold brings
  rw [List.sum_eq_zero]
  intro y hy
  simp only [List.mem_map] at hy
  obtain ⟨e, he, rfl⟩ := hy
  rw [if_neg (h e he)]

theorem sum_ite_eq {S : List Addr} (hS : S.Nodup) {p : Addr} (hp : p ∈ S) (f : Addr → ℚ) :
    (S.map fun a => if a = p then f a else 0).sum = f p := by
  induction S with
  | nil => simp at hp
  | cons a S ih =>
    rw [List.nodup_cons] at hS
    rw [List.map_cons, List.sum_cons]
    by_cases h : a = p
    · subst h
      rw [if_pos rfl, List.sum_eq_zero, add_zero]
      intro y hy
      simp only [List.mem_map] at hy
      obtain ⟨b, hb, rfl⟩ := hy
      rw [if_neg]
      rintro rfl
      exact hS.1 hb
    · rw [if_neg h, zero_add]
      exact ih hS.2 ((List.mem_cons.1 hp).resolve_left (Ne.symm h))

/-- Adding up over the edges or over the nodes they start from is the same. -/
theorem brings_eq {E : List (Addr × Addr)} {S : List Addr} (hS : S.Nodup) (hE : ∀ e ∈ E, e.1 ∈ S) (s : Addr → ℚ) (x : Addr) :
    brings E s x = (S.map fun a => ((outsOf E a).count x : ℚ) * s a).sum := by
  induction E with
  | nil => simp [brings]
  | cons e E ih =>
    have ih := ih fun e he => hE e (List.mem_cons_of_mem _ he)
    have hp := hE e (by simp)
    have : brings (e :: E) s x = (if e.2 = x then s e.1 else 0) + brings E s x := by simp [brings]
    rw [this, ih]
    have h2 : (S.map fun a => ((outsOf (e :: E) a).count x : ℚ) * s a) =
        S.map fun a => (if a = e.1 then (if e.2 = x then s a else 0) else 0) + ((outsOf E a).count x : ℚ) * s a := by
      apply List.map_congr_left
      intro a _
      rw [count_outsOf, count_outsOf, List.count_cons]
      by_cases h1 : a = e.1 <;> by_cases h2 : e.2 = x
      · subst h1; subst h2; simp; ring
      · rw [if_pos h1, if_neg h2]
        have : ¬ e = (a, x) := fun q => h2 (by rw [q])
        simp [this]
      · rw [if_neg h1]
        have : ¬ e = (a, x) := fun q => h1 (by rw [q])
        simp [this]
      · rw [if_neg h1]
        have : ¬ e = (a, x) := fun q => h1 (by rw [q])
        simp [this]
    rw [h2, List.sum_map_add, sum_ite_eq hS hp fun a => if e.2 = x then s a else 0]

/-! ### The invariant -/

/-- What an edge from `a` carries. -/
def share (h : Heap ℚ) (node : Addr) (V : ℚ) (E : List (Addr × Addr)) (a : Addr) : ℚ := flows h node V a / (outsOf E a).length

/-- The network built so far, on top of the heap `hb`: the splitters `S` are complete, the nodes `cur` have no outputs yet and take `w`
each; `f x` flows to the old node `x`. Edges lead to new nodes or to the nodes `ts`. -/
structure Net (hb h : Heap ℚ) (node : Addr) (V : ℚ) (ts : List Addr) (E : List (Addr × Addr)) (S cur : List Addr) (w : ℚ)
    (f : Addr → ℚ) : Prop where
  wired : Wired hb h E
  below : node < hb.next
  mem : ∀ a, a ∈ S ++ cur ↔ a = node ∨ hb.next ≤ a ∧ a < h.next
  nodup : (S ++ cur).Nodup
  starts : ∀ e ∈ E, e.1 ∈ S
  ends : ∀ e ∈ E, e.2 < hb.next → e.2 ∈ ts
  arity : ∀ a ∈ S, (outsOf E a).length = 2 ∨ (outsOf E a).length = 3
  single : ∀ a, hb.next ≤ a → a < h.next → ∃ p, insOf E a = [p] ∧ (p = node ∨ p < a) ∧ share h node V E p = (h.get a).value
  open' : ∀ a ∈ cur, flows h node V a = w
  flow : ∀ x, x < hb.next → brings E (share h node V E) x = f x

theorem Net.start {h : Heap ℚ} {node : Addr} {V : ℚ} (ts : List Addr) (hn : node < h.next) :
    Net h h node V ts [] [] [node] V fun _ => 0 where
  wired := Wired.refl h
  below := hn
  mem a := by simp
  nodup := by simp
  starts := by simp
  ends := by simp
  arity := by simp
  single a h1 h2 := by omega
  open' a ha := by rw [List.mem_singleton] at ha; simp [flows, ha]
  flow _ _ := rfl

theorem Net.step {hb h h' : Heap ℚ} {node : Addr} {V : ℚ} {E F : List (Addr × Addr)} {S cur rs new ts ts' : List Addr} {w : ℚ} {f : Addr → ℚ}
    {k : Nat} (I : Net hb h node V ts E S cur w f) (hts : ∀ t ∈ ts, t ∈ ts') (hk : k = 2 ∨ k = 3) (wF : Wired h h' F) (hF : F.Perm (wire k 0 cur (rs ++ new)))
    (hlen : rs.length + new.length = k * cur.length) (hnew : new = List.range' h.next (h'.next - h.next)) (hrs : ∀ r ∈ rs, r < hb.next ∧ r ∈ ts')
    (hval : ∀ a ∈ new, (h'.get a).value = w / k) :
    Net hb h' node V ts' (E ++ F) (S ++ cur) new (w / k) fun x => f x + (rs.count x : ℚ) * (w / k) := by
  have hk0 : 0 < k := by omega
  have hlen' : (rs ++ new).length = k * cur.length := by rw [List.length_append, hlen]
  have hbh := I.wired.next
  have hnd := List.nodup_append.1 I.nodup
  have hFfst : ∀ e ∈ F, e.1 ∈ cur := fun e he => wire_fst hk0 cur _ hlen' e (hF.mem_iff.1 he)
  have hFsnd : ∀ x, (F.map Prod.snd).count x = rs.count x + new.count x := fun x => by
    rw [(hF.map Prod.snd).count_eq, wire_snd, List.count_append]
  have hFout : ∀ a ∈ cur, (outsOf F a).length = k := fun a ha => by
    rw [(outsOf_perm hF a).length_eq]; exact wire_outs hk0 cur _ hlen' hnd.2.1 a ha
  have hEcur : ∀ a ∈ cur, outsOf E a = [] := fun a ha => outsOf_eq_nil fun e he q => hnd.2.2 e.1 (I.starts e he) a ha q
  have hFS : ∀ a ∈ S, outsOf F a = [] := fun a ha => outsOf_eq_nil fun e he q => hnd.2.2 a ha e.1 (hFfst e he) q.symm
  have hcurlt : ∀ a ∈ S ++ cur, a < h.next := fun a ha => by
    rcases (I.mem a).1 ha with q | q
    · have := I.below; omega
    · exact q.2
  have hfl : ∀ a, a < h.next → flows h' node V a = flows h node V a := fun a ha => by
    unfold flows
    rw [wF.value ha]
  have hshareS : ∀ a ∈ S, share h' node V (E ++ F) a = share h node V E a := fun a ha => by
    unfold share
    rw [hfl a (hcurlt a (by simp [ha])), outsOf_append, hFS a ha, List.append_nil]
  have hsharecur : ∀ a ∈ cur, share h' node V (E ++ F) a = w / k := fun a ha => by
    unfold share
    rw [hfl a (hcurlt a (by simp [ha])), outsOf_append, hEcur a ha, List.nil_append, hFout a ha, I.open' a ha]
  have hnewmem : ∀ a, a ∈ new ↔ h.next ≤ a ∧ a < h'.next := fun a => by
    have := wF.next
    rw [hnew, List.mem_range'_1]
    omega
  have hnewnd : new.Nodup := by rw [hnew]; exact List.nodup_range'
  refine ⟨I.wired.trans wF, I.below, ?_, ?_, ?_, ?_, ?_, ?_, ?_, ?_⟩
  · intro a
    rw [List.mem_append, I.mem, hnewmem]
    have := wF.next
    omega
  · rw [List.nodup_append]
    refine ⟨I.nodup, hnewnd, ?_⟩
    rintro a ha b hb rfl
    have := hcurlt a ha
    have := ((hnewmem a).1 hb).1
    omega
  · intro e he
    rcases List.mem_append.1 he with he | he
    · exact List.mem_append_left _ (I.starts e he)
    · exact List.mem_append_right _ (hFfst e he)
  · intro e he hlt
    rcases List.mem_append.1 he with he | he
    · exact hts _ (I.ends e he hlt)
    · have h1 : e.2 ∈ F.map Prod.snd := List.mem_map_of_mem he
      have h2 := hFsnd e.2
      have h3 := List.count_pos_iff.2 h1
      rw [(List.count_eq_zero (l := new)).2 (by rw [hnewmem]; omega)] at h2
      exact (hrs _ (List.count_pos_iff.1 (by omega))).2
  · intro a ha
    rw [outsOf_append]
    rcases List.mem_append.1 ha with ha | ha
    · rw [hFS a ha, List.append_nil]
      exact I.arity a ha
    · rw [hEcur a ha, List.nil_append, hFout a ha]
      exact hk
  · intro a h1 h2
    rw [insOf_append]
    by_cases ha : a < h.next
    · obtain ⟨p, hp, hpa, hs⟩ := I.single a h1 ha
      refine ⟨p, ?_, hpa, ?_⟩
      · rw [hp]
        have : insOf F a = [] := by
          rw [← List.length_eq_zero_iff, insOf_length, hFsnd, List.count_eq_zero.2, List.count_eq_zero.2]
          · rw [hnewmem]; omega
          · intro q; have := (hrs a q).1; omega
        rw [this]
        rfl
      · have hpS : p ∈ S := I.starts (p, a) (mem_insOf.1 (by rw [hp]; simp))
        rw [hshareS p hpS, hs, wF.value ha]
    · have hEa : insOf E a = [] := insOf_eq_nil fun e he (q : e.2 = a) => ha (q ▸ (I.wired.inside e he).2)
      have hFa : (insOf F a).length = 1 := by
        rw [insOf_length, hFsnd, List.count_eq_zero.2, List.count_eq_one_of_mem hnewnd ((hnewmem a).2 ⟨by omega, h2⟩)]
        intro q; have := (hrs a q).1; omega
      obtain ⟨p, hp⟩ := List.length_eq_one_iff.1 hFa
      have hpc : p ∈ cur := hFfst (p, a) (mem_insOf.1 (by rw [hp]; simp))
      refine ⟨p, by rw [hEa, hp]; rfl, ?_, ?_⟩
      · have := hcurlt p (by simp [hpc]); right; omega
      · rw [hsharecur p hpc, hval a ((hnewmem a).2 ⟨by omega, h2⟩)]
  · intro a ha
    have := (hnewmem a).1 ha
    have hne : a ≠ node := by have := I.below; omega
    unfold flows
    rw [if_neg hne, hval a ha]
  · intro x hx
    rw [brings_append, brings_congr (s' := share h node V E) fun e he => hshareS e.1 (I.starts e he), I.flow x hx,
      brings_const (c := w / k) fun e he => hsharecur e.1 (hFfst e he), hFsnd, (List.count_eq_zero (l := new)).2]
    · simp
    · rw [hnewmem]; omega

theorem Net.clear {hb h : Heap ℚ} {node : Addr} {V : ℚ} {E : List (Addr × Addr)} {S cur ts : List Addr} {w : ℚ} {f : Addr → ℚ}
    (I : Net hb h node V ts E S cur w f) {cs : List Addr} (hcs : ∀ c ∈ cs, c < hb.next ∧ c ∉ ts) :
    Net (Graph.clear hb cs) (Graph.clear h cs) node V ts E S cur w f := by
  have hv : ∀ a, ((Graph.clear h cs).get a).value = (h.get a).value := fun a => by
    unfold Graph.clear
    by_cases hc : a ∈ cs <;> simp [hc]
  have hfl : flows (Graph.clear h cs) node V = flows h node V := by
    funext a
    unfold flows
    rw [hv]
  have hsh : share (Graph.clear h cs) node V E = share h node V E := by
    funext a
    unfold share
    rw [hfl]
  refine ⟨I.wired.clear (fun e he q => (hcs e.2 q).2 (I.ends e he (hcs e.2 q).1)) fun c hc => (hcs c hc).1, I.below, I.mem, I.nodup,
    I.starts, I.ends, I.arity, ?_, ?_, ?_⟩
  · intro a h1 h2
    obtain ⟨p, q1, q2, q3⟩ := I.single a h1 h2
    exact ⟨p, q1, q2, by rw [hsh, hv]; exact q3⟩
  · intro a ha
    rw [hfl]
    exact I.open' a ha
  · intro x hx
    rw [hsh]
    exact I.flow x hx

end Satis.Graph
