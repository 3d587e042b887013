import Verif.Side.MergerFacts
import Mathlib.Data.Nat.Cast.Order.Field

/-! The simulated merger: whole runs. -/

namespace Satis.Merging

/-- Share of a step that an input fills. -/
def share (s : ℕ) (x : Input) : ℚ := (x.speed / 60 : ℚ) * (60 / s : ℚ)

theorem share_eq (s : ℕ) (x : Input) : share s x = (x.speed : ℚ) / s := by
  unfold share
  ring_nf

theorem arrive_lt {s : ℕ} {i : Input} {b : ℕ} (h : i.stock + share s i < 1) :
    arrive s i b = ({ i with stock := i.stock + share s i }, b) := if_pos h

theorem arrive_ge {s : ℕ} {i : Input} {b : ℕ} (h : ¬ i.stock + share s i < 1) :
    arrive s i b = ({ i with stock := i.stock + share s i - 1 }, if b < 3 then b + 1 else b) := if_neg h

theorem tick_speed (m : Merger) : m.tick.speed = m.speed := by
  rcases tick_cases m with ⟨_, e⟩ | ⟨i, x, b, _, _, e⟩ <;> rw [e] <;> rfl

theorem tick_speeds {m : Merger} (h : m.buffers.length = m.inputs.length) :
    (m.tick.inputs.map Input.speed).Perm (m.inputs.map Input.speed) := by
  have hs : ((arrivals m).map Prod.fst).map Input.speed = m.inputs.map Input.speed := by
    rw [List.map_map]
    exact arrivals_map h Input.speed arrive_speed
  rcases tick_cases m with ⟨_, e⟩ | ⟨i, x, b, hi, _, e⟩ <;> rw [e]
  · rw [← hs]
  · obtain ⟨hi', hxb⟩ := List.getElem?_eq_some_iff.mp hi
    have hi1 : i < ((arrivals m).map Prod.fst).length := by rw [List.length_map]; exact hi'
    have hx : ((arrivals m).map Prod.fst)[i] = x := by rw [List.getElem_map, hxb]
    refine ((toEnd_perm hi1 _).map _).trans ?_
    rw [List.map_set, ← hs]
    dsimp only
    have : x.speed = (((arrivals m).map Prod.fst).map Input.speed)[i]'(by rw [List.length_map]; exact hi1) := by
      rw [List.getElem_map, hx]
    rw [this, List.set_getElem_self]

/-- The inputs all deliver, and there is at least one. -/
structure Live (m : Merger) : Prop where
  sane : Sane m
  nonempty : m.inputs ≠ []
  pos : ∀ v ∈ m.inputs.map Input.speed, 0 < v
  speed : 0 < m.speed

theorem Live.tick {m : Merger} (h : Live m) : Live m.tick := by
  have hp := tick_speeds h.sane.len
  refine ⟨h.sane.tick.1, ?_, fun v hv => h.pos v (hp.mem_iff.mp hv), by rw [tick_speed]; exact h.speed⟩
  intro e
  rw [e] at hp
  have := hp.length_eq
  simp only [List.map_nil, List.length_nil, List.length_map] at this
  exact h.nonempty (List.length_eq_zero_iff.mp this.symm)

theorem wait {n : ℕ} : ∀ {m : Merger} {x : Input} {xs : List Input}, Live m → m.inputs = x :: xs →
    1 ≤ x.stock + n * share m.speed x →
    ∃ j, (Merger.tick^[j] m).step = m.step + 1 ∧ ∀ i, i < j → (Merger.tick^[i] m).step = m.step := by
  induction n with
  | zero =>
    intro m x xs h hx hs
    refine ⟨1, ?_, fun i hi => by have : i = 0 := by omega
                                  subst this; rfl⟩
    have hb : m.buffers.length = m.inputs.length := h.sane.len
    rw [hx] at hb
    obtain ⟨b, bs, hbs⟩ : ∃ b bs, m.buffers = b :: bs := by
      cases hm : m.buffers with
      | nil => rw [hm] at hb; simp at hb
      | cons b bs => exact ⟨b, bs, rfl⟩
    rcases tick_cases m with ⟨h0, _⟩ | ⟨i, y, c, _, _, e⟩
    · exfalso
      have ha : arrivals m = arrive m.speed x b :: List.zipWith (arrive m.speed) xs bs := by
        unfold arrivals; rw [hx, hbs]; rfl
      have := h0 _ (by rw [ha]; exact List.mem_cons_self ..)
      have hsh : 0 ≤ share m.speed x := by
        rw [share_eq]; exact div_nonneg (Nat.cast_nonneg _) (Nat.cast_nonneg _)
      rw [arrive_ge (by
        simp at hs
        linarith)] at this
      dsimp only at this
      split_ifs at this <;> omega
    · show m.tick.step = _
      rw [e]
      rfl
  | succ n ih =>
    intro m x xs h hx hs
    have hb : m.buffers.length = m.inputs.length := h.sane.len
    rw [hx] at hb
    obtain ⟨b, bs, hbs⟩ : ∃ b bs, m.buffers = b :: bs := by
      cases hm : m.buffers with
      | nil => rw [hm] at hb; simp at hb
      | cons b bs => exact ⟨b, bs, rfl⟩
    rcases tick_cases m with ⟨h0, e⟩ | ⟨i, y, c, _, _, e⟩
    · have ha : arrivals m = arrive m.speed x b :: List.zipWith (arrive m.speed) xs bs := by
        unfold arrivals; rw [hx, hbs]; rfl
      have hz := h0 _ (by rw [ha]; exact List.mem_cons_self ..)
      have hlt : x.stock + share m.speed x < 1 := by
        by_contra hge
        rw [arrive_ge hge] at hz
        dsimp only at hz
        split_ifs at hz <;> omega
      have hax : (arrive m.speed x b).1 = { x with stock := x.stock + share m.speed x } := by
        rw [arrive_lt hlt]
      have hin : m.tick.inputs = { x with stock := x.stock + share m.speed x } ::
          (List.zipWith (arrive m.speed) xs bs).map Prod.fst := by
        rw [e, ha, ← hax]; rfl
      obtain ⟨j, hj, hj'⟩ := ih h.tick hin (by
        rw [tick_speed]
        push_cast at hs
        have : share m.speed { x with stock := x.stock + share m.speed x } = share m.speed x := rfl
        rw [this]
        dsimp only
        linarith)
      have hst : m.tick.step = m.step := by rw [e]
      rw [hst] at hj
      refine ⟨j + 1, hj, ?_⟩
      intro i hi
      cases i with
      | zero => rfl
      | succ i =>
        rw [Function.iterate_succ_apply, hj' i (by omega), hst]
    · refine ⟨1, ?_, fun i hi => by have : i = 0 := by omega
                                    subst this; rfl⟩
      show m.tick.step = _
      rw [e]
      rfl

theorem Live.next {m : Merger} (h : Live m) :
    ∃ j, (Merger.tick^[j] m).step = m.step + 1 ∧ ∀ i, i < j → (Merger.tick^[i] m).step = m.step := by
  cases hx : m.inputs with
  | nil => exact absurd hx h.nonempty
  | cons x xs =>
    have hs : 0 < share m.speed x := by
      rw [share_eq]
      apply div_pos
      · exact_mod_cast h.pos x.speed (List.mem_map_of_mem (by rw [hx]; exact List.mem_cons_self ..))
      · exact_mod_cast h.speed
    obtain ⟨n, hn⟩ := exists_nat_ge ((1 - x.stock) / share m.speed x)
    refine wait h hx (n := n) ?_
    rw [div_le_iff₀ hs] at hn
    linarith

theorem Live.iterate {m : Merger} (h : Live m) (j : ℕ) : Live (Merger.tick^[j] m) := by
  induction j generalizing m with
  | zero => exact h
  | succ j ih => exact ih h.tick

theorem iterate_speed (m : Merger) (j : ℕ) : (Merger.tick^[j] m).speed = m.speed := by
  induction j generalizing m with
  | zero => rfl
  | succ j ih => rw [Function.iterate_succ_apply, ih, tick_speed]

theorem stabilize_skip : ∀ (j fuel : ℕ) {m : Merger},
    (∀ i, i < j → (Merger.tick^[i] m).step < m.speed) →
    m.stabilize (fuel + j) = (Merger.tick^[j] m).stabilize fuel := by
  intro j
  induction j with
  | zero => intro fuel m _; rfl
  | succ j ih =>
    intro fuel m h
    rw [← Nat.add_assoc, Merger.stabilize, if_pos (show m.step < m.speed from h 0 (by omega)), ih fuel (m := m.tick)]
    · rfl
    · intro i hi
      rw [tick_speed]
      exact h (i + 1) (by omega)

/-- `stabilize_effective_rates` ends, when exactly `speed` items have left. -/
theorem Live.stabilize {m : Merger} (h : Live m) (hle : m.step ≤ m.speed) :
    ∃ j k, (∀ fuel, k ≤ fuel → m.stabilize fuel = some (Merger.tick^[j] m)) ∧
      (Merger.tick^[j] m).step = m.speed := by
  obtain ⟨d, hd⟩ := Nat.exists_eq_add_of_le hle
  induction d generalizing m with
  | zero =>
    refine ⟨0, 0, fun fuel _ => ?_, ?_⟩
    · have : ¬ m.step < m.speed := by omega
      cases fuel <;> exact if_neg this
    · exact hd.symm
  | succ d ih =>
    obtain ⟨j, hj, hj'⟩ := h.next
    have hsp := iterate_speed m j
    obtain ⟨j2, k2, h2, h3⟩ := ih (h.iterate j) (by omega) (by omega)
    refine ⟨j2 + j, k2 + j, ?_, ?_⟩
    · intro fuel hf
      obtain ⟨f, rfl⟩ := Nat.exists_eq_add_of_le' (show j ≤ fuel by omega)
      rw [stabilize_skip j f (fun i hi => by rw [hj' i hi]; omega), h2 f (by omega),
        ← Function.iterate_add_apply]
    · rw [Function.iterate_add_apply, h3, hsp]

/-- The rates add up to the number of items that left. -/
theorem Sane.rates {m : Merger} (h : Sane m) : m.rates.sum = m.step := by
  unfold Merger.rates bySpeed
  have hp := (List.perm_insertionSort (fun a b : Input => a.speed ≤ b.speed) m.inputs).map (fun i => i.history.length)
  rw [hp.sum_eq]
  have := h.cover.length_eq
  rw [List.length_flatMap, List.length_range'] at this
  exact this

/-- The index of an input while the sequence is written: the steps before `i` are done. -/
def Upto (i : ℕ) (p : Input × ℕ) : Prop :=
  p.2 ≤ p.1.history.length ∧ ∀ (q : ℕ) (h : q < p.1.history.length), q < p.2 ↔ p.1.history[q] < i

theorem upto_step {i : ℕ} {p : Input × ℕ} (h : Upto i p) (hn : i ∉ p.1.history) : Upto (i + 1) p := by
  refine ⟨h.1, fun q hq => ?_⟩
  rw [h.2 q hq]
  have : p.1.history[q] ≠ i := fun e => hn (e ▸ List.getElem_mem hq)
  omega

theorem nextItem_spec {i : ℕ} : ∀ {js : List (Input × ℕ)}, (∀ p ∈ js, Upto i p) →
    (∀ p ∈ js, p.1.history.Pairwise (· < ·)) → (js.flatMap (fun p => p.1.history)).Nodup →
    (nextItem i js).2.map Prod.fst = js.map Prod.fst ∧ (∀ p ∈ (nextItem i js).2, Upto (i + 1) p) ∧
    (i ∈ js.flatMap (fun p => p.1.history) → ∃ p ∈ js, i ∈ p.1.history ∧ (nextItem i js).1 = some p.1.symbol) := by
  intro js
  induction js with
  | nil => intro _ _ _; simp [nextItem]
  | cons p js ih =>
    intro hu hs hd
    obtain ⟨x, k⟩ := p
    rw [List.flatMap_cons, List.nodup_append] at hd
    have hux := hu (x, k) (List.mem_cons_self ..)
    have hsx := hs (x, k) (List.mem_cons_self ..)
    rw [nextItem]
    by_cases hc : k < x.history.length ∧ x.history[k]? = some i
    · rw [if_pos hc]
      have hk : x.history[k]'hc.1 = i := by
        have := hc.2
        rwa [List.getElem?_eq_getElem hc.1, Option.some_inj] at this
      have hmem : i ∈ x.history := hk ▸ List.getElem_mem hc.1
      refine ⟨rfl, ?_, fun _ => ⟨(x, k), List.mem_cons_self .., hmem, rfl⟩⟩
      intro p hp
      rcases List.mem_cons.mp hp with rfl | hp
      · refine ⟨hc.1, fun q hq => ?_⟩
        dsimp only at hq ⊢
        rcases lt_trichotomy q k with hqk | hqk | hqk
        · have := List.pairwise_iff_getElem.mp hsx q k hq hc.1 hqk
          dsimp only at this
          rw [hk] at this
          exact iff_of_true (by omega) (by omega)
        · subst hqk
          rw [hk]
          exact iff_of_true (by omega) (by omega)
        · have := List.pairwise_iff_getElem.mp hsx k q hc.1 hq hqk
          dsimp only at this
          rw [hk] at this
          exact iff_of_false (by omega) (by omega)
      · refine upto_step (hu p (List.mem_cons_of_mem _ hp)) ?_
        intro hi
        exact hd.2.2 i hmem i (List.mem_flatMap.mpr ⟨p, hp, hi⟩) rfl
    · rw [if_neg hc]
      have hnot : i ∉ x.history := by
        intro hi
        obtain ⟨q, hq, e⟩ := List.mem_iff_getElem.mp hi
        have hqk : ¬ q < k := by
          intro hlt
          have := (hux.2 q hq).mp hlt
          dsimp only at this
          omega
        have hkl : k < x.history.length := by omega
        have hge : ¬ x.history[k] < i := by
          intro hlt
          exact absurd ((hux.2 k hkl).mpr hlt) (lt_irrefl k)
        rcases Nat.lt_or_eq_of_le (Nat.le_of_not_lt hqk) with h | h
        · have := List.pairwise_iff_getElem.mp hsx k q hkl hq h
          dsimp only at this
          omega
        · subst h
          exact hc ⟨hkl, by rw [List.getElem?_eq_getElem hkl, e]⟩
      obtain ⟨h1, h2, h3⟩ := ih (fun p hp => hu p (List.mem_cons_of_mem _ hp))
        (fun p hp => hs p (List.mem_cons_of_mem _ hp)) hd.2.1
      dsimp only
      refine ⟨by rw [List.map_cons, List.map_cons, h1], ?_, ?_⟩
      · intro p hp
        rcases List.mem_cons.mp hp with rfl | hp
        · exact upto_step hux hnot
        · exact h2 p hp
      · intro hi
        rw [List.flatMap_cons, List.mem_append] at hi
        rcases hi with hi | hi
        · exact absurd hi hnot
        · obtain ⟨p, hp, h⟩ := h3 hi
          exact ⟨p, List.mem_cons_of_mem _ hp, h⟩

theorem sequenceFrom_spec : ∀ (n i : ℕ) (js : List (Input × ℕ)), (∀ p ∈ js, Upto i p) →
    (∀ p ∈ js, p.1.history.Pairwise (· < ·)) → (js.flatMap (fun p => p.1.history)).Nodup →
    (∀ s, i ≤ s → s < i + n → s ∈ js.flatMap (fun p => p.1.history)) →
    (sequenceFrom (List.range' i n) js).length = n ∧
    ∀ s, s < n → ∃ p ∈ js, i + s ∈ p.1.history ∧ (sequenceFrom (List.range' i n) js)[s]? = some p.1.symbol := by
  intro n
  induction n with
  | zero => intro i js _ _ _ _; exact ⟨rfl, fun s hs => absurd hs (Nat.not_lt_zero s)⟩
  | succ n ih =>
    intro i js hu hs hd hc
    obtain ⟨h1, h2, h3⟩ := nextItem_spec hu hs hd
    obtain ⟨p, hp, hi, he⟩ := h3 (hc i (le_refl i) (by omega))
    have hfm : (nextItem i js).2.flatMap (fun p => p.1.history) = js.flatMap (fun p => p.1.history) := by
      have e : ∀ l : List (Input × ℕ), l.flatMap (fun p => p.1.history) = (l.map Prod.fst).flatMap Input.history := by
        intro l
        rw [List.flatMap_map]
      rw [e, e, h1]
    have hmem : ∀ q ∈ (nextItem i js).2, ∃ q' ∈ js, q'.1 = q.1 := by
      intro q hq
      have : q.1 ∈ (nextItem i js).2.map Prod.fst := List.mem_map_of_mem hq
      rw [h1] at this
      obtain ⟨q', hq', e⟩ := List.mem_map.mp this
      exact ⟨q', hq', e⟩
    obtain ⟨hl, hrest⟩ := ih (i + 1) (nextItem i js).2 h2
      (fun q hq => by obtain ⟨q', hq', e⟩ := hmem q hq; rw [← e]; exact hs q' hq')
      (by rw [hfm]; exact hd) (fun s h1 h2 => by rw [hfm]; exact hc s (by omega) (by omega))
    have e : sequenceFrom (List.range' i (n + 1)) js
        = p.1.symbol :: sequenceFrom (List.range' (i + 1) n) (nextItem i js).2 := by
      rw [List.range'_succ, sequenceFrom, he]
      rfl
    rw [e]
    refine ⟨by rw [List.length_cons, hl], fun s hs' => ?_⟩
    cases s with
    | zero => exact ⟨p, hp, hi, rfl⟩
    | succ s =>
      obtain ⟨q, hq, hqi, hqe⟩ := hrest s (by omega)
      obtain ⟨q', hq', e'⟩ := hmem q hq
      refine ⟨q', hq', ?_, ?_⟩
      · rw [e', show i + (s + 1) = i + 1 + s by omega]; exact hqi
      · rw [e', List.getElem?_cons_succ]; exact hqe

theorem Sane.sequence {m : Merger} (h : Sane m) : m.sequence.length = m.step ∧
    ∀ s, s < m.step → ∃ x ∈ m.inputs, s + 1 ∈ x.history ∧ m.sequence[s]? = some x.symbol := by
  have hfm : (m.inputs.map (fun i => (i, 0))).flatMap (fun p : Input × ℕ => p.1.history)
      = m.inputs.flatMap Input.history := by rw [List.flatMap_map]
  obtain ⟨h1, h2⟩ := sequenceFrom_spec m.step 1 (m.inputs.map (fun i => (i, 0)))
    (by
      intro p hp
      obtain ⟨x, hx, rfl⟩ := List.mem_map.mp hp
      refine ⟨Nat.zero_le _, fun q hq => iff_of_false (Nat.not_lt_zero q) ?_⟩
      dsimp only at hq ⊢
      have : x.history[q] ∈ m.inputs.flatMap Input.history := List.mem_flatMap.mpr ⟨x, hx, List.getElem_mem hq⟩
      rw [h.cover.mem_iff, List.mem_range'_1] at this
      omega)
    (by
      intro p hp
      obtain ⟨x, hx, rfl⟩ := List.mem_map.mp hp
      exact h.ordered x hx)
    (by rw [hfm, h.cover.nodup_iff]; exact List.nodup_range')
    (by
      intro s h1 h2
      rw [hfm, h.cover.mem_iff, List.mem_range'_1]
      omega)
  refine ⟨h1, fun s hs => ?_⟩
  obtain ⟨p, hp, hi, he⟩ := h2 s hs
  obtain ⟨x, hx, rfl⟩ := List.mem_map.mp hp
  exact ⟨x, hx, by rw [Nat.add_comm]; exact hi, he⟩

end Satis.Merging
