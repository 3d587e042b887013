import Verif.Graph.Seats
import Verif.Cost.PlanFacts
/-!
# The depths of `expand_divide` and `expand_extract`
-/

namespace Satis.Graph
open Satis Satis.Cost

theorem foldlM_range {S : Type} (f : S → Nat → Py S) (P : Nat → S → Prop) (n : Nat) (s0 : S) (h0 : P 0 s0)
    (hs : ∀ i, i < n → ∀ s, P i s → ∃ s', f s i = .ok s' ∧ P (i + 1) s') : ∃ s', (List.range n).foldlM f s0 = .ok s' ∧ P n s' := by
  induction n with
  | zero => exact ⟨s0, rfl, h0⟩
  | succ n ih =>
    obtain ⟨s, e, p⟩ := ih fun i hi => hs i (by omega)
    obtain ⟨s', e', p'⟩ := hs n (by omega) s p
    refine ⟨s', ?_, p'⟩
    rw [List.range_succ, List.foldlM_append, e]
    show List.foldlM f s [n] = _
    rw [List.foldlM_cons, e']
    rfl

theorem fold_div (q : ℚ) (b : Nat) (acc : List ℚ) (x : ℚ) (hx : acc.getLastD 0 = x) (ha : acc ≠ []) :
    (List.range b).foldl (fun acc _ => acc ++ [acc.getLastD 0 / q]) acc = acc ++ (List.range b).map fun i => x / q ^ (i + 1) := by
  induction b with
  | zero => simp
  | succ b ih =>
    rw [List.range_succ, List.foldl_append, ih, List.map_append, ← List.append_assoc]
    simp only [List.foldl_cons, List.foldl_nil, List.map_cons, List.map_nil]
    congr 2
    cases b with
    | zero => simp only [List.range_zero, List.map_nil, List.append_nil, hx, zero_add, pow_one]
    | succ b =>
      rw [List.range_succ, List.map_append, ← List.append_assoc]
      simp only [List.map_cons, List.map_nil, List.getLastD_concat]
      rw [pow_succ q (b + 1), ← div_div]

theorem layerValues_eq (V : ℚ) (n m : Nat) : layerValues V n m = (List.range (n + m + 1)).map fun i => V / (width n i : ℚ) := by
  unfold layerValues
  rw [fold_div 2 n [V] V rfl (by simp)]
  have h1 : ([V] ++ (List.range n).map fun i => V / (2 : ℚ) ^ (i + 1)).getLastD 0 = V / 2 ^ n := by
    cases n with
    | zero => simp
    | succ n =>
      rw [List.range_succ, List.map_append, ← List.append_assoc]
      simp only [List.map_cons, List.map_nil, List.getLastD_concat]
  rw [fold_div 3 m _ _ h1 (by simp)]
  rw [show n + m + 1 = (n + 1) + m by omega, List.range_add, List.map_append]
  congr 1
  · rw [List.range_succ_eq_map, List.map_cons, List.map_map, width_zero]
    simp only [Nat.cast_one, div_one, List.singleton_append, List.cons.injEq, true_and]
    apply List.map_congr_left
    intro i hi
    have := List.mem_range.1 hi
    simp only [Function.comp, width]
    rw [show min (i + 1) n = i + 1 by omega, show i + 1 - n = 0 by omega]
    simp
  · rw [List.map_map]
    apply List.map_congr_left
    intro i _
    simp only [Function.comp, width]
    rw [show min (n + 1 + i) n = n by omega, show n + 1 + i - n = i + 1 by omega, div_div]
    push_cast
    rfl

theorem layerValues_getD (V : ℚ) (n m i : Nat) (hi : i ≤ n + m) : (layerValues V n m).getD i 0 = V / (width n i : ℚ) := by
  rw [layerValues_eq, List.getD_eq_getElem?_getD, List.getElem?_map, List.getElem?_range (by omega)]
  rfl

section layers
variable {hb h : Heap ℚ} {node : Addr} {V : ℚ} {ts : List Addr} {E : List (Addr × Addr)} {S cur : List Addr} {w : ℚ} {f : Addr → ℚ}
  {k : Nat}

theorem Net.lt (I : Net hb h node V ts E S cur w f) : ∀ a ∈ cur, a < h.next := by
  intro a ha
  rcases (I.mem a).1 (List.mem_append_right _ ha) with q | q
  · have := I.below
    have := I.wired.next
    omega
  · exact q.2

theorem divideLayer_mid (I : Net hb h node V ts E S cur w f) (hk : k = 2 ∨ k = 3) {wd : Nat} {plan : Nat × Nat} {value : ℚ}
    {depth lvl : Int} {target : Addr} (original : List Addr) (ht : target ∈ ts) (htb : target < hb.next) (hw : 0 ≤ w)
    (hval : value = w / k) (hlen : plan.1 + (wd - (plan.1 + plan.2)) = k * cur.length) :
    ∃ h' E' S', divideLayer k wd plan value depth target false original (h, lvl, cur) =
        .ok (h', lvl + 1, List.range' h.next (wd - (plan.1 + plan.2))) ∧
      Net hb h' node V ts E' S' (List.range' h.next (wd - (plan.1 + plan.2))) (w / k)
        (fun x => f x + ((List.replicate plan.1 target).count x : ℚ) * (w / k)) ∧ h'.next = h.next + (wd - (plan.1 + plan.2)) ∧
      (∀ x, x < hb.next → (insOf E' x).length = (insOf E x).length + (List.replicate plan.1 target).count x) ∧
      S' = S ++ cur ∧ (∀ a ∈ S, outsOf E' a = outsOf E a) ∧
      (E = [] → cur = [node] → (outsOf E' node).Perm (List.replicate plan.1 target ++ List.range' h.next (wd - (plan.1 + plan.2)))) ∧
      ∀ x, x < hb.next → insOf E' x = insOf E x ++ if target = x then outlets k 0 cur plan.1 else [] := by
  have hk0 : 0 < k := by omega
  have hbn := I.wired.next
  have hcur := I.lt
  have hv0 : 0 ≤ value := by rw [hval]; positivity
  obtain ⟨h1, e1, n1, w1, v1⟩ := newLayer_spec (level := lvl + 1) (depth := depth) hk0 hv0 hcur (off := plan.1)
    (wd - (plan.1 + plan.2)) (by omega)
  obtain ⟨h2, e2, n2, w2⟩ := reroute_spec (k := k) (off := 0) (target := target) (cur := cur) (h := h1) hk0
    (fun a ha => by have := hcur a ha; omega) (by omega) plan.1 (by omega)
  have hperm : (wire k plan.1 cur (List.range' h.next (wd - (plan.1 + plan.2))) ++ wire k 0 cur (List.replicate plan.1 target)).Perm
      (wire k 0 cur (List.replicate plan.1 target ++ List.range' h.next (wd - (plan.1 + plan.2)))) := by
    rw [wire_append, List.length_replicate, Nat.zero_add]
    exact List.perm_append_comm
  refine ⟨h2, _, _, ?_, I.step (h' := h2) (rs := List.replicate plan.1 target) (k := k) (fun t ht => ht) hk (w1.trans w2) hperm ?_ ?_ ?_ ?_,
    by omega, fun x hx => insOf_step hperm (by rw [List.mem_range'_1]; omega), rfl,
    fun a ha => outsOf_step hk0 hperm (by simp; omega) fun q => (List.nodup_append.1 I.nodup).2.2 a ha a q rfl, ?_, fun x hx => ?_⟩
  · unfold divideLayer
    simp only [Bool.false_eq_true, if_false, e1, bind, Except.bind, e2]
    rfl
  · simp only [List.length_replicate, List.length_range']
    omega
  · congr 1
    omega
  · intro r hr
    rw [List.eq_of_mem_replicate hr]
    exact ⟨htb, ht⟩
  · intro a ha
    rw [List.mem_range'_1] at ha
    rw [w2.value (by omega), v1 a ha.1 (by omega), hval]
  · rintro rfl rfl
    exact outsOf_first hk0 hperm (by simp at hlen ⊢; omega)
  · rw [insOf_append, insOf_append, insOf_wire_ne _ _ _ (by rw [List.mem_range'_1]; omega), insOf_wire_replicate, List.nil_append]

theorem divideLayer_last (I : Net hb h node V ts E S cur w f) (hk : k = 2 ∨ k = 3) {wd : Nat} {plan : Nat × Nat} {value : ℚ}
    {depth lvl : Int} {target : Addr} {cs : List Addr} (ht : target ∈ ts) (htb : target < hb.next)
    (hcs : ∀ c ∈ cs, c < hb.next ∧ c ∉ ts) (hnd : cs.Nodup) (hlen : plan.1 + cs.length = k * cur.length) :
    ∃ h' E' S', divideLayer k wd plan value depth target true cs (h, lvl, cur) = .ok (h', lvl + 1, cs) ∧
      Net (clear hb cs) h' node V (ts ++ cs) E' S' [] (w / k)
        (fun x => f x + ((List.replicate plan.1 target ++ cs).count x : ℚ) * (w / k)) ∧ (∀ c ∈ cs, (insOf E' c).length = 1) ∧ h'.next = h.next ∧
      (∀ x, (insOf E' x).length = (insOf E x).length + (List.replicate plan.1 target ++ cs).count x) ∧
      (∀ a ∈ S, outsOf E' a = outsOf E a) ∧ (E = [] → cur = [node] → (outsOf E' node).Perm (List.replicate plan.1 target ++ cs)) ∧
      S' = S ++ cur ∧ ∀ x, x ∉ cs → insOf E' x = insOf E x ++ if target = x then outlets k 0 cur plan.1 else [] := by
  have hk0 : 0 < k := by omega
  have hbn := I.wired.next
  have hcur := I.lt
  obtain ⟨h1, e1, n1, w1⟩ := hangChildren_spec (off := plan.1) hk0 cs 0 h hcur (fun c hc => by have := (hcs c hc).1; omega) hnd (by omega)
  obtain ⟨h2, e2, n2, w2⟩ := reroute_spec (k := k) (off := 0) (target := target) (cur := cur) (h := h1) hk0
    (fun a ha => by have := hcur a ha; omega) (by omega) plan.1 (by omega)
  have hn : h2.next = (clear h cs).next := by rw [n2, n1]; rfl
  have hperm : (wire k (plan.1 + 0) cur cs ++ wire k 0 cur (List.replicate plan.1 target)).Perm
      (wire k 0 cur ((List.replicate plan.1 target ++ cs) ++ [])) := by
    rw [List.append_nil, wire_append, List.length_replicate, Nat.zero_add, Nat.add_zero]
    exact List.perm_append_comm
  refine ⟨h2, _, _, ?_, (I.clear hcs).step (h' := h2) (rs := List.replicate plan.1 target ++ cs) (ts' := ts ++ cs) (new := []) (k := k)
    (fun t ht => List.mem_append_left _ ht) hk (w1.trans w2) hperm ?_ ?_ ?_ ?_, ?_, hn, fun x => insOf_step hperm (by simp),
    fun a ha => outsOf_step hk0 hperm (by simp; omega) fun q => (List.nodup_append.1 I.nodup).2.2 a ha a q rfl, ?_, rfl, fun x hx => ?_⟩
  · unfold divideLayer
    simp only [if_true, e1, bind, Except.bind, e2, Except.map]
    rfl
  · simp only [List.length_append, List.length_replicate, List.length_nil]
    omega
  · rw [hn, Nat.sub_self]
    rfl
  · intro r hr
    rcases List.mem_append.1 hr with hr | hr
    · rw [List.eq_of_mem_replicate hr]
      exact ⟨htb, List.mem_append_left _ ht⟩
    · exact ⟨(hcs r hr).1, List.mem_append_right _ hr⟩
  · intro a ha
    simp at ha
  · intro c hc
    have hE : insOf E c = [] := insOf_eq_nil fun e he (q : e.2 = c) => by
      have q1 := I.ends e he
      rw [q] at q1
      exact (hcs c hc).2 (q1 (hcs c hc).1)
    have hr : insOf (wire k 0 cur (List.replicate plan.1 target)) c = [] := by
      rw [← List.length_eq_zero_iff, insOf_length, wire_snd, List.count_eq_zero]
      intro q
      rw [List.eq_of_mem_replicate q] at hc
      exact (hcs _ hc).2 ht
    rw [insOf_append, hE, insOf_append, hr, List.append_nil, List.nil_append, insOf_length, wire_snd]
    exact List.count_eq_one_of_mem hnd hc
  · rintro rfl rfl
    have := outsOf_first hk0 hperm (by simp at hlen ⊢; omega)
    rwa [List.append_nil] at this
  · rw [insOf_append, insOf_append, insOf_wire_ne _ _ _ hx, insOf_wire_replicate, List.nil_append]

theorem extractLayer_spec (I : Net hb h node V ts E S cur w f) (hk : k = 2 ∨ k = 3) {wd : Nat} {p q r : Nat × Nat} {value : ℚ}
    {depth lvl : Int} {loop extracted overflow : Addr} {last : Bool} {original : List Addr}
    (ht : ∀ t ∈ [loop, extracted, overflow], t < hb.next ∧ t ∈ ts) (hw : 0 ≤ w) (hval : value = w / k)
    (hlen : p.1 + q.1 + r.1 + (wd - (p.1 + q.1 + r.1 + (p.2 + q.2 + r.2))) = k * cur.length)
    (hlast : last = true → wd - (p.1 + q.1 + r.1 + (p.2 + q.2 + r.2)) = 0) :
    ∃ h' E' S' cur', extractLayer k wd p q r value depth loop extracted overflow last original (h, lvl, cur) = .ok (h', lvl + 1, cur') ∧
      (last = false → cur' = List.range' h.next (wd - (p.1 + q.1 + r.1 + (p.2 + q.2 + r.2)))) ∧
      Net hb h' node V ts E' S' (List.range' h.next (wd - (p.1 + q.1 + r.1 + (p.2 + q.2 + r.2)))) (w / k)
        (fun x => f x + ((List.replicate p.1 loop ++ List.replicate q.1 extracted ++ List.replicate r.1 overflow).count x : ℚ) * (w / k)) ∧
      h'.next = h.next + (wd - (p.1 + q.1 + r.1 + (p.2 + q.2 + r.2))) ∧
      (∀ x, x < hb.next → (insOf E' x).length = (insOf E x).length +
        (List.replicate p.1 loop ++ List.replicate q.1 extracted ++ List.replicate r.1 overflow).count x) ∧
      S' = S ++ cur ∧ (∀ a ∈ S, outsOf E' a = outsOf E a) ∧
      (E = [] → cur = [node] → (outsOf E' node).Perm (List.replicate p.1 loop ++ List.replicate q.1 extracted ++ List.replicate r.1 overflow ++
        List.range' h.next (wd - (p.1 + q.1 + r.1 + (p.2 + q.2 + r.2))))) ∧
      (∀ x, x < hb.next → insOf E' x = insOf E x ++ ((if loop = x then outlets k 0 cur p.1 else []) ++
        ((if extracted = x then outlets k p.1 cur q.1 else []) ++ if overflow = x then outlets k (p.1 + q.1) cur r.1 else []))) ∧
      ∀ a, overflow ≠ loop → overflow ≠ extracted → Trails (fun _ => False) overflow (outsOf E a) → Trails (fun _ => False) overflow (outsOf E' a) := by
  have hk0 : 0 < k := by omega
  have hbn := I.wired.next
  have hcur := I.lt
  have hv0 : 0 ≤ value := by rw [hval]; positivity
  obtain ⟨N, hN⟩ : ∃ N, N = wd - (p.1 + q.1 + r.1 + (p.2 + q.2 + r.2)) := ⟨_, rfl⟩
  rw [← hN] at hlen hlast ⊢
  obtain ⟨h1, e1, n1, w1, v1⟩ := newLayer_spec (level := lvl + 1) (depth := depth) hk0 hv0 hcur (off := p.1 + q.1 + r.1) N (by omega)
  obtain ⟨cur', e1', hc'⟩ : ∃ cur', (if last then .ok (h, original)
      else newLayer k (p.1 + q.1 + r.1) value (lvl + 1) depth cur h N : Py (Heap ℚ × List Addr)) = .ok (h1, cur') ∧
      (last = false → cur' = List.range' h.next N) := by
    cases last with
    | false => exact ⟨_, e1, fun _ => rfl⟩
    | true =>
      have h0 : N = 0 := hlast rfl
      subst h0
      have : h = h1 := by
        have : newLayer k (p.1 + q.1 + r.1) value (lvl + 1) depth cur h 0 = .ok (h, []) := rfl
        rw [this] at e1
        simp only [Except.ok.injEq, Prod.mk.injEq] at e1
        exact e1.1
      exact ⟨original, by rw [this]; rfl, fun q => by simp at q⟩
  obtain ⟨h2, e2, n2, w2⟩ := reroute_spec (k := k) (off := 0) (target := loop) (cur := cur) (h := h1) hk0
    (fun a ha => by have := hcur a ha; omega) (by have := (ht loop (by simp)).1; omega) p.1 (by omega)
  obtain ⟨h3, e3, n3, w3⟩ := reroute_spec (k := k) (off := p.1) (target := extracted) (cur := cur) (h := h2) hk0
    (fun a ha => by have := hcur a ha; omega) (by have := (ht extracted (by simp)).1; omega) q.1 (by omega)
  obtain ⟨h4, e4, n4, w4⟩ := reroute_spec (k := k) (off := p.1 + q.1) (target := overflow) (cur := cur) (h := h3) hk0
    (fun a ha => by have := hcur a ha; omega) (by have := (ht overflow (by simp)).1; omega) r.1 (by omega)
  have hperm : (wire k (p.1 + q.1 + r.1) cur (List.range' h.next N) ++ (wire k 0 cur (List.replicate p.1 loop) ++
      (wire k p.1 cur (List.replicate q.1 extracted) ++ wire k (p.1 + q.1) cur (List.replicate r.1 overflow)))).Perm
      (wire k 0 cur ((List.replicate p.1 loop ++ List.replicate q.1 extracted ++ List.replicate r.1 overflow) ++ List.range' h.next N)) := by
    rw [wire_append, wire_append, wire_append]
    simp only [List.length_append, List.length_replicate, Nat.zero_add]
    rw [List.append_assoc (wire k 0 cur _)]
    exact List.perm_append_comm
  refine ⟨h4, _, _, cur', ?_, hc', I.step (h' := h4)
    (rs := List.replicate p.1 loop ++ List.replicate q.1 extracted ++ List.replicate r.1 overflow) (k := k)
    (fun t ht => ht) hk (w1.trans (w2.trans (w3.trans w4))) hperm ?_ ?_ ?_ ?_, by omega,
    fun x hx => insOf_step hperm (by rw [List.mem_range'_1]; omega), rfl,
    fun a ha => outsOf_step hk0 hperm (by simp; omega) fun q => (List.nodup_append.1 I.nodup).2.2 a ha a q rfl, ?_, fun x hx => ?_,
    fun a hol hoe ht' => ?_⟩
  · unfold extractLayer
    simp only [bind, Except.bind]
    rw [← hN]
    cases last with
    | false =>
      simp only [Bool.false_eq_true, if_false] at e1' ⊢
      rw [e1']
      simp only [e2, e3, e4]
      rfl
    | true =>
      simp only [if_true, Except.ok.injEq, Prod.mk.injEq] at e1' ⊢
      obtain ⟨rfl, rfl⟩ := e1'
      simp only [e2, e3, e4]
      rfl
  · simp only [List.length_append, List.length_replicate, List.length_range']
    omega
  · congr 1
    omega
  · intro x hx
    rcases List.mem_append.1 hx with hx | hx
    · rcases List.mem_append.1 hx with hx | hx
      · rw [List.eq_of_mem_replicate hx]; exact ht loop (by simp)
      · rw [List.eq_of_mem_replicate hx]; exact ht extracted (by simp)
    · rw [List.eq_of_mem_replicate hx]; exact ht overflow (by simp)
  · intro a ha
    rw [List.mem_range'_1] at ha
    rw [w4.value (by omega), w3.value (by omega), w2.value (by omega), v1 a ha.1 (by omega), hval]
  · rintro rfl rfl
    exact outsOf_first hk0 hperm (by simp at hlen ⊢; omega)
  · rw [insOf_append, insOf_append, insOf_append, insOf_append, insOf_wire_ne _ _ _ (by rw [List.mem_range'_1]; omega), insOf_wire_replicate,
      insOf_wire_replicate, insOf_wire_replicate, List.nil_append]
  · by_cases hac : a ∈ cur
    · have h0 : outsOf E a = [] := outsOf_eq_nil fun x hx w => by
        have := I.starts x hx
        rw [w] at this
        exact (List.nodup_append.1 I.nodup).2.2 a this a hac rfl
      rw [outsOf_append, h0, List.nil_append, outsOf_append, outsOf_append, outsOf_append]
      have mem : ∀ {off xs c}, c ∈ outsOf (wire k off cur xs) a → c ∈ xs := fun {off xs c} hc => by
        rw [← wire_snd k off cur xs]
        exact List.mem_map.2 ⟨_, mem_outsOf.1 hc, rfl⟩
      refine ⟨_, _, by rw [← List.append_assoc, ← List.append_assoc], fun w => ?_, fun x hx => .inl (List.eq_of_mem_replicate (mem hx))⟩
      rcases List.mem_append.1 w with w | w
      · rcases List.mem_append.1 w with w | w
        · have := mem w
          rw [List.mem_range'_1] at this
          have := (ht overflow (by simp)).1
          omega
        · exact hol (List.eq_of_mem_replicate (mem w))
      · exact hoe (List.eq_of_mem_replicate (mem w))
    · rw [outsOf_step hk0 hperm (by simp; omega) hac]
      exact ht'

end layers

end Satis.Graph
