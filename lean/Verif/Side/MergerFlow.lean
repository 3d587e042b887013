import Verif.Side.MergerRun
import Mathlib.Tactic.Ring

/-! The simulated merger: how much an input hands on. -/

namespace Satis.Merging

/-- What an input has handed on, holds in its buffer and has in stock. -/
def held (p : Input × ℕ) : ℚ := p.1.history.length + p.2 + p.1.stock

theorem arrive_held (s : ℕ) (i : Input) (b : ℕ) : held (arrive s i b) ≤ held (i, b) + share s i := by
  by_cases h : i.stock + share s i < 1
  · rw [arrive_lt h]
    unfold held
    dsimp only
    linarith
  · rw [arrive_ge h]
    unfold held
    dsimp only
    split_ifs
    · push_cast; linarith
    · linarith

theorem share_nonneg (s : ℕ) (i : Input) : 0 ≤ share s i := by
  rw [share_eq]; exact div_nonneg (Nat.cast_nonneg _) (Nat.cast_nonneg _)

theorem arrive_stock {s : ℕ} {i : Input} {b : ℕ} (h : 0 ≤ i.stock) : 0 ≤ (arrive s i b).1.stock := by
  have := share_nonneg s i
  by_cases h' : i.stock + share s i < 1
  · rw [arrive_lt h']
    dsimp only
    linarith
  · rw [arrive_ge h']
    dsimp only
    linarith

theorem arrive_share (s t : ℕ) (i : Input) (b : ℕ) : share t (arrive s i b).1 = share t i := by
  unfold share
  rw [arrive_speed]

/-- An input with its buffer holds no more than it can have received in `t` steps. -/
def Within (s t : ℕ) (p : Input × ℕ) : Prop := 0 ≤ p.1.stock ∧ held p ≤ t * share s p.1

theorem Within.arrive {s t : ℕ} {p : Input × ℕ} (h : Within s t p) : Within s (t + 1) (arrive s p.1 p.2) := by
  refine ⟨arrive_stock h.1, ?_⟩
  rw [arrive_share]
  have := arrive_held s p.1 p.2
  have h2 := h.2
  push_cast
  have e : held (p.1, p.2) = held p := rfl
  rw [e] at this
  linarith

/-- With the item handed on. -/
def handOn (step : ℕ) (p : Input × ℕ) : Input × ℕ := ({ p.1 with history := p.1.history ++ [step] }, p.2 - 1)

theorem Within.handOn {s t step : ℕ} {p : Input × ℕ} (h : Within s t p) (hb : p.2 ≠ 0) :
    Within s t (handOn step p) := by
  refine ⟨h.1, ?_⟩
  obtain ⟨x, b⟩ := p
  obtain ⟨b, rfl⟩ := Nat.exists_eq_succ_of_ne_zero hb
  have h2 := h.2
  unfold Merging.handOn held at *
  dsimp only at *
  have : share s { x with history := x.history ++ [step] } = share s x := rfl
  rw [this, List.length_append, List.length_singleton, Nat.succ_sub_one]
  push_cast at h2 ⊢
  linarith

theorem zip_parts (l : List (Input × ℕ)) : (l.map Prod.fst).zip (l.map Prod.snd) = l := by
  induction l with
  | nil => rfl
  | cons p l ih => rw [List.map_cons, List.map_cons, List.zip_cons_cons, ih]

/-- Two inputs: buffers stay with their inputs. -/
theorem two_tick {m : Merger} {t : ℕ} (hlen : m.inputs.length ≤ 2) (hb : m.buffers.length = m.inputs.length)
    (h : ∀ p ∈ m.inputs.zip m.buffers, Within m.speed t p) :
    m.tick.inputs.length ≤ 2 ∧ m.tick.buffers.length = m.tick.inputs.length ∧
      ∀ p ∈ m.tick.inputs.zip m.tick.buffers, Within m.tick.speed (t + 1) p := by
  have ha : ∀ p ∈ arrivals m, Within m.speed (t + 1) p := by
    intro p hp
    unfold arrivals at hp
    rw [← List.map_uncurry_zip_eq_zipWith] at hp
    obtain ⟨q, hq, rfl⟩ := List.mem_map.mp hp
    exact (h q hq).arrive
  have hl := arrivals_length hb
  rw [tick_speed]
  rcases tick_cases m with ⟨_, e⟩ | ⟨i, x, b, hi, hb0, e⟩
  · rw [e]
    dsimp only
    refine ⟨by rw [List.length_map]; omega, by simp, ?_⟩
    rw [zip_parts]
    exact ha
  · rw [e]
    have hx : ∀ s, Within m.speed (t + 1) (handOn s (x, b)) := fun s =>
      (ha (x, b) (List.mem_of_getElem? hi)).handOn hb0
    unfold serve
    dsimp only
    match hA : arrivals m, hl.trans_le hlen with
    | [], _ => rw [hA] at hi; simp at hi
    | [p], _ =>
      rw [hA] at hi ha
      have hi0 : i = 0 := by
        have := (List.getElem?_eq_some_iff.mp hi).1
        simpa using this
      subst hi0
      have hp : p = (x, b) := by simpa using hi
      subst hp
      refine ⟨by simp [toEnd], by simp [toEnd, swapLast], ?_⟩
      intro q hq
      simp [toEnd, swapLast] at hq
      rw [hq]
      exact hx _
    | [p, q], _ =>
      rw [hA] at hi ha
      have hil : i < 2 := by
        have := (List.getElem?_eq_some_iff.mp hi).1
        simpa using this
      have hor : i = 0 ∨ i = 1 := by omega
      rcases hor with rfl | rfl
      · have hp : p = (x, b) := by simpa using hi
        subst hp
        refine ⟨by simp [toEnd], by simp [toEnd, swapLast], ?_⟩
        intro r hr
        simp [toEnd, swapLast] at hr
        rcases hr with rfl | rfl
        · exact ha _ (by simp)
        · exact hx _
      · have hp : q = (x, b) := by simpa using hi
        subst hp
        refine ⟨by simp [toEnd], by simp [toEnd, swapLast], ?_⟩
        intro r hr
        simp [toEnd, swapLast] at hr
        rcases hr with rfl | rfl
        · exact ha _ (by simp)
        · exact hx _
    | _ :: _ :: _ :: _, h => simp at h

/-- What is in the buffers and in stock. -/
def inside (l : List (Input × ℕ)) : ℚ := (l.map (fun p => (p.2 : ℚ) + p.1.stock)).sum

theorem inside_eq (l : List (Input × ℕ)) :
    inside l = ((l.map Prod.snd).map (fun b : ℕ => (b : ℚ))).sum + ((l.map Prod.fst).map Input.stock).sum := by
  unfold inside
  induction l with
  | nil => simp
  | cons p l ih =>
    simp only [List.map_cons, List.sum_cons]
    rw [ih]
    ring

/-- Everything together, with any number of inputs. -/
def total (m : Merger) : ℚ :=
  m.step + ((m.buffers.map (fun b : ℕ => (b : ℚ))).sum + (m.inputs.map Input.stock).sum)

theorem inside_arrivals {s : ℕ} : ∀ {xs : List Input} {bs : List ℕ}, bs.length = xs.length →
    inside (List.zipWith (arrive s) xs bs)
      ≤ (bs.map (fun b : ℕ => (b : ℚ))).sum + (xs.map Input.stock).sum + (xs.map (share s)).sum := by
  intro xs
  induction xs with
  | nil =>
    intro bs h
    have : bs = [] := List.length_eq_zero_iff.mp h
    subst this
    simp [inside]
  | cons x xs ih =>
    intro bs h
    cases bs with
    | nil => simp at h
    | cons b bs =>
      have h1 := ih (bs := bs) (by simpa using h)
      have h2 := arrive_held s x b
      unfold held at h2
      rw [arrive_history] at h2
      unfold inside at h1 ⊢
      simp only [List.zipWith_cons_cons, List.map_cons, List.sum_cons]
      dsimp only at h2
      linarith

theorem total_tick {m : Merger} (h : m.buffers.length = m.inputs.length) :
    total m.tick ≤ total m + (m.inputs.map (share m.speed)).sum := by
  have hin : inside (arrivals m) ≤ _ := inside_arrivals (s := m.speed) h
  rw [inside_eq] at hin
  rcases tick_cases m with ⟨_, e⟩ | ⟨i, x, b, hi, hb0, e⟩
  · rw [e]
    unfold total
    dsimp only
    linarith
  · rw [e]
    obtain ⟨hi', hxb⟩ := List.getElem?_eq_some_iff.mp hi
    have hi1 : i < ((arrivals m).map Prod.fst).length := by rw [List.length_map]; exact hi'
    have hi2 : i < ((arrivals m).map Prod.snd).length := by rw [List.length_map]; exact hi'
    have hx : ((arrivals m).map Prod.fst)[i] = x := by rw [List.getElem_map, hxb]
    have hbi : ((arrivals m).map Prod.snd)[i] = b := by rw [List.getElem_map, hxb]
    have hstock : ((serve m i x).inputs.map Input.stock).sum
        = (((arrivals m).map Prod.fst).map Input.stock).sum := by
      unfold serve
      dsimp only
      rw [((toEnd_perm hi1 _).map Input.stock).sum_eq, List.map_set]
      dsimp only
      have : x.stock = (((arrivals m).map Prod.fst).map Input.stock)[i]'(by rw [List.length_map]; exact hi1) := by
        rw [List.getElem_map, hx]
      rw [this, List.set_getElem_self]
    have hbuf : ((serve m i x).buffers.map (fun b : ℕ => (b : ℚ))).sum + 1
        = (((arrivals m).map Prod.snd).map (fun b : ℕ => (b : ℚ))).sum := by
      unfold serve
      dsimp only
      rw [((swapLast_perm (by rw [List.length_set]; exact hi2)).map (fun b : ℕ => (b : ℚ))).sum_eq,
        List.getD_eq_getElem _ _ hi2, hbi]
      generalize (arrivals m).map Prod.snd = l at hi2 hbi
      clear hin hstock e hi hxb hi' hi1 hx
      induction l generalizing i with
      | nil => simp at hi2
      | cons c l ih =>
        cases i with
        | zero =>
          have hc : c = b := hbi
          subst hc
          obtain ⟨d, rfl⟩ := Nat.exists_eq_succ_of_ne_zero hb0
          rw [List.set_cons_zero]
          simp only [List.map_cons, List.sum_cons]
          push_cast
          ring
        | succ i =>
          have := ih (i := i) (by simpa using hi2) (by simpa using hbi)
          rw [List.set_cons_succ]
          simp only [List.map_cons, List.sum_cons]
          linarith
    unfold total
    rw [hstock]
    have hstep : ((serve m i x).step : ℚ) = m.step + 1 := by unfold serve; push_cast; rfl
    rw [hstep]
    linarith

theorem stock_tick {m : Merger} (h : m.buffers.length = m.inputs.length) (hs : ∀ x ∈ m.inputs, 0 ≤ x.stock) :
    ∀ x ∈ m.tick.inputs, 0 ≤ x.stock := by
  have ha : ∀ p ∈ arrivals m, 0 ≤ p.1.stock := by
    intro p hp
    unfold arrivals at hp
    rw [← List.map_uncurry_zip_eq_zipWith] at hp
    obtain ⟨q, hq, rfl⟩ := List.mem_map.mp hp
    exact arrive_stock (hs q.1 (List.of_mem_zip hq).1)
  rcases tick_cases m with ⟨_, e⟩ | ⟨i, x, b, hi, _, e⟩
  · rw [e]
    intro y hy
    obtain ⟨p, hp, rfl⟩ := List.mem_map.mp hy
    exact ha p hp
  · rw [e]
    have hi' := (List.getElem?_eq_some_iff.mp hi).1
    intro y hy
    unfold serve at hy
    dsimp only at hy
    rw [(toEnd_perm (by rw [List.length_map]; exact hi') _).mem_iff] at hy
    rcases List.mem_or_eq_of_mem_set hy with hy | hy
    · obtain ⟨p, hp, rfl⟩ := List.mem_map.mp hy
      exact ha p hp
    · rw [hy]
      exact ha (x, b) (List.mem_of_getElem? hi)

theorem shares_tick {m : Merger} (h : m.buffers.length = m.inputs.length) :
    (m.tick.inputs.map (share m.tick.speed)).sum = (m.inputs.map (share m.speed)).sum := by
  rw [tick_speed]
  have e : ∀ l : List Input, l.map (share m.speed) = (l.map Input.speed).map (fun v : ℕ => (v / 60 : ℚ) * (60 / m.speed : ℚ)) := by
    intro l
    rw [List.map_map]
    rfl
  rw [e, e]
  exact ((tick_speeds h).map _).sum_eq

end Satis.Merging
