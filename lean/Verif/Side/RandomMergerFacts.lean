import Verif.Side.RandomMerger
import Mathlib.Tactic.FieldSimp
import Mathlib.Tactic.Linarith
import Mathlib.Tactic.Positivity
import Mathlib.Algebra.Order.Floor.Ring
import Mathlib.Data.Rat.Floor

/-! The random merger: enough items arrive. -/

namespace Satis.RandomMerging

theorem sublist_of_times {l : List (ℚ × ℕ)} : ∀ {s : List (ℚ × ℕ)}, l.Pairwise (fun a b => a.1 ≤ b.1) → s.Pairwise (fun a b => a.1 < b.1) →
    (∀ x ∈ s, x ∈ l) → s.Sublist l := by
  induction l with
  | nil =>
    intro s _ _ h
    cases s with
    | nil => exact .slnil
    | cons x s => exact absurd (h x (by simp)) (by simp)
  | cons a l ih =>
    intro s hl hs h
    have hl' := List.pairwise_cons.1 hl
    cases s with
    | nil => exact List.nil_sublist _
    | cons x s =>
      have hs' := List.pairwise_cons.1 hs
      by_cases q : x = a
      · subst q
        refine .cons_cons x (ih hl'.2 hs'.2 fun z hz => ?_)
        rcases List.mem_cons.1 (h z (by simp [hz])) with rfl | w
        · exact absurd (hs'.1 z hz) (lt_irrefl _)
        · exact w
      · refine .cons a (ih hl'.2 hs fun z hz => ?_)
        rcases List.mem_cons.1 (h z hz) with rfl | w
        · rcases List.mem_cons.1 hz with rfl | w
          · exact absurd rfl q
          · rcases List.mem_cons.1 (h x (by simp)) with rfl | w'
            · exact absurd rfl q
            · exact absurd (hs'.1 z w) (not_lt.2 (hl'.1 x w'))
        · exact w

/-- How often the conveyor `o` moves after the conveyor `b` did; `p`: the conveyor `b` has moved since. -/
def rounds (b o : ℕ) : Bool → List ℕ → ℕ
  | _, [] => 0
  | p, e :: l => if e = b then rounds b o true l else if e = o then (if p then 1 else 0) + rounds b o false l else rounds b o p l

/-- `b` and `o` in turns. -/
def turns (b o : ℕ) : ℕ → List ℕ
  | 0 => []
  | n + 1 => b :: o :: turns b o n

theorem rounds_turns {b o : ℕ} (hbo : b ≠ o) : ∀ (l : List ℕ), (∀ n p, (turns b o n).Sublist l → n ≤ rounds b o p l) ∧
    ∀ n, (o :: turns b o n).Sublist l → n + 1 ≤ rounds b o true l := by
  intro l
  induction l with
  | nil =>
    refine ⟨fun n p h => ?_, fun n h => by simp at h⟩
    cases n with
    | zero => simp
    | succ n => simp [turns] at h
  | cons e l ih =>
    obtain ⟨A, B⟩ := ih
    have up : ∀ n p, (turns b o n).Sublist l → n ≤ rounds b o p (e :: l) := fun n p h => by
      rw [rounds]
      split
      · exact A n true h
      · split
        · have := A n false h
          omega
        · exact A n p h
    constructor
    · intro n p h
      cases n with
      | zero => simp
      | succ n =>
        cases h with
        | cons _ h => exact up _ p h
        | cons_cons _ h =>
          rw [rounds, if_pos rfl]
          exact B n h
    · intro n h
      cases h with
      | cons _ h =>
        rw [rounds]
        split
        · exact B n h
        · split
          · have := A n false ((List.sublist_cons_self _ _).trans h)
            simp only [if_true]
            omega
          · exact B n h
      | cons_cons _ h =>
        rw [rounds, if_neg (Ne.symm hbo), if_pos rfl]
        have := A n false h
        simp only [if_true]
        omega

variable {cs : List Conveyor} {speed nItems : ℕ} {pick : ℕ → ℕ}

theorem available_pos {buffers : List ℕ} {i : ℕ} (h : i ∈ available buffers) : i < buffers.length ∧ 0 < buffers.getD i 0 := by
  unfold available at h
  rw [List.mem_filter, List.mem_range] at h
  exact ⟨h.1, by simpa using h.2⟩

theorem available_of {buffers : List ℕ} {i : ℕ} (h : 0 < buffers.getD i 0) : i ∈ available buffers := by
  unfold available
  rw [List.mem_filter, List.mem_range]
  refine ⟨?_, by simpa using h⟩
  by_contra q
  rw [List.getD_eq_getElem?_getD, List.getElem?_eq_none (by omega)] at h
  simp at h

theorem getD_set (l : List ℕ) (i j v : ℕ) : (l.set i v).getD j 0 = if i = j ∧ i < l.length then v else l.getD j 0 := by
  rw [List.getD_eq_getElem?_getD, List.getElem?_set, List.getD_eq_getElem?_getD]
  by_cases h : i = j
  · subst h
    by_cases q : i < l.length
    · simp [q]
    · simp [q, List.getElem?_eq_none (not_lt.1 q)]
  · simp [h]

/-- What is known of a simulation that ended. -/
structure Played (cs : List Conveyor) (nItems : ℕ) (r : List (ℚ × ℕ)) (buffers out buffers' out' : List ℕ) : Prop where
  length : out'.length = nItems
  kept : buffers'.length = buffers.length
  inputs : ∀ i ∈ out', i ∈ out ∨ i < buffers.length
  small : (∀ i c, cs[i]? = some c → buffers.getD i 0 ≤ c.bufferSize) → ∀ i c, cs[i]? = some c → buffers'.getD i 0 ≤ c.bufferSize
  stock : ∃ used left, r = used ++ left ∧ ∀ i, out'.count i + buffers'.getD i 0 ≤ out.count i + buffers.getD i 0 + (used.map Prod.snd).count i

theorem play_ends {b o : ℕ} {sb : Conveyor} (hb : cs[b]? = some sb) (hbs : 0 < sb.bufferSize) (hbn : sb.speed ≠ speed)
    (ho : ∀ c, cs[o]? = some c → c.speed = speed) (hin : ∀ i c, i ≠ o → cs[i]? = some c → c.speed ≠ speed) :
    ∀ (r : List (ℚ × ℕ)) (buffers out : List ℕ) (p : Bool), (∀ e ∈ r, e.2 < cs.length) → b < buffers.length → (p = true → ∃ i, 0 < buffers.getD i 0) →
      out.length ≤ nItems → nItems ≤ out.length + rounds b o p (r.map Prod.snd) →
      ∃ buffers' out', play cs speed nItems pick r buffers out = .ok (buffers', out') ∧ Played cs nItems r buffers out buffers' out' := by
  have hbo : b ≠ o := fun e => by subst e; exact hbn (ho _ hb)
  intro r
  induction r with
  | nil =>
    intro buffers out p _ _ _ h1 h2
    simp only [List.map_nil, rounds] at h2
    have : out.length = nItems := by omega
    refine ⟨buffers, out, by rw [play.eq_def]; simp [this], this, rfl, fun i hi => .inl hi, fun h => h, [], [], rfl, fun i => by simp⟩
  | cons e r ih =>
    intro buffers out p hr hbl hp h1 h2
    rw [play.eq_def]
    dsimp only
    by_cases hd : out.length = nItems
    · rw [if_pos hd]
      exact ⟨buffers, out, rfl, hd, rfl, fun i hi => .inl hi, fun h => h, [], _, rfl, fun i => by simp⟩
    rw [if_neg hd]
    have hlt := hr e (by simp)
    have hr' : ∀ e ∈ r, e.2 < cs.length := fun x hx => hr x (by simp [hx])
    obtain ⟨c, hc⟩ : ∃ c, cs[e.2]? = some c := ⟨_, List.getElem?_eq_getElem hlt⟩
    simp only [hc]
    rw [List.map_cons, rounds] at h2
    -- a move that changes nothing
    have same : ∀ p', (p' = true → ∃ i, 0 < buffers.getD i 0) → nItems ≤ out.length + rounds b o p' (r.map Prod.snd) →
        ∃ buffers' out', play cs speed nItems pick r buffers out = .ok (buffers', out') ∧ Played cs nItems (e :: r) buffers out buffers' out' := by
      intro p' hp' h2'
      obtain ⟨bu, ou, e1, w⟩ := ih buffers out p' hr' hbl hp' h1 h2'
      obtain ⟨used, left, u1, u2⟩ := w.stock
      refine ⟨bu, ou, e1, w.length, w.kept, w.inputs, w.small, e :: used, left, by rw [u1]; rfl, fun i => ?_⟩
      have := u2 i
      rw [List.map_cons, List.count_cons]
      omega
    by_cases hs : c.speed = speed
    · rw [if_pos hs]
      have heo : e.2 = o := by
        by_contra q
        exact hin _ _ q hc hs
      rw [if_neg (by rw [heo]; exact Ne.symm hbo), if_pos heo] at h2
      cases ha : available buffers with
      | nil =>
        simp only
        have hpf : p = false := by
          cases p with
          | false => rfl
          | true =>
            obtain ⟨i, hi⟩ := hp rfl
            have := available_of hi
            rw [ha] at this
            simp at this
        subst hpf
        exact same false (by simp) (by simpa using h2)
      | cons a as =>
        simp only
        obtain ⟨i, hi⟩ : ∃ i, i = (a :: as).getD (pick r.length % (as.length + 1)) a := ⟨_, rfl⟩
        rw [← hi]
        have him : i ∈ available buffers := by
          rw [ha, hi, List.getD_eq_getElem?_getD, List.getElem?_eq_getElem (by rw [List.length_cons]; exact Nat.mod_lt _ (by omega))]
          exact List.getElem_mem _
        obtain ⟨hil, hip⟩ := available_pos him
        obtain ⟨bu, ou, e1, w⟩ := ih (buffers.set i (buffers.getD i 0 - 1)) (out ++ [i]) false hr' (by simpa using hbl) (by simp)
          (by rw [List.length_append, List.length_singleton]; omega)
          (by rw [List.length_append, List.length_singleton]; split at h2 <;> omega)
        refine ⟨bu, ou, e1, w.length, by rw [w.kept, List.length_set], fun j hj => ?_, fun h => w.small fun j c hj => ?_, ?_⟩
        · rcases w.inputs j hj with q | q
          · rcases List.mem_append.1 q with q | q
            · exact .inl q
            · rw [List.mem_singleton.1 q]
              exact .inr hil
          · rw [List.length_set] at q
            exact .inr q
        · have := h j c hj
          rw [getD_set]
          split
          · rename_i q
            rw [q.1]
            omega
          · exact this
        · obtain ⟨used, left, u1, u2⟩ := w.stock
          refine ⟨e :: used, left, by rw [u1]; rfl, fun j => ?_⟩
          have := u2 j
          rw [List.count_append, getD_set, List.count_singleton] at this
          rw [List.map_cons, List.count_cons]
          by_cases q : i = j
          · subst q
            simp only [beq_self_eq_true, if_true, hil, and_self] at this
            omega
          · have w : (i == j) = false := by simpa using q
            simp only [w, q, false_and, Bool.false_eq_true, if_false] at this
            omega
    · rw [if_neg hs]
      have heo : e.2 ≠ o := fun q => hs (ho _ (by rw [← q]; exact hc))
      by_cases hf : buffers.getD e.2 0 < c.bufferSize
      · rw [if_pos hf]
        have grow : ∀ p', (p' = true → e.2 = b ∨ p = true) → nItems ≤ out.length + rounds b o p' (r.map Prod.snd) →
            ∃ buffers' out', play cs speed nItems pick r (buffers.set e.2 (buffers.getD e.2 0 + 1)) out = .ok (buffers', out') ∧
              Played cs nItems (e :: r) buffers out buffers' out' := by
          intro p' hp' h2'
          obtain ⟨bu, ou, e1, w⟩ := ih (buffers.set e.2 (buffers.getD e.2 0 + 1)) out p' hr' (by simpa using hbl) (fun q => by
            rcases hp' q with q | q
            · refine ⟨e.2, ?_⟩
              rw [getD_set, if_pos ⟨rfl, by rw [q]; exact hbl⟩]
              omega
            · obtain ⟨i, hi⟩ := hp q
              refine ⟨i, ?_⟩
              rw [getD_set]
              split <;> omega) h1 h2'
          obtain ⟨used, left, u1, u2⟩ := w.stock
          refine ⟨bu, ou, e1, w.length, by rw [w.kept, List.length_set], fun j hj => ?_, fun h => w.small fun j c' hj => ?_, e :: used, left, by rw [u1]; rfl,
            fun i => ?_⟩
          · rcases w.inputs j hj with q | q
            · exact .inl q
            · rw [List.length_set] at q
              exact .inr q
          · rw [getD_set]
            split
            · rename_i q
              rw [← q.1, hc] at hj
              cases hj
              omega
            · exact h j c' hj
          · have := u2 i
            rw [getD_set] at this
            rw [List.map_cons, List.count_cons]
            split at this
            · rename_i q
              rw [← q.1] at this ⊢
              simp only [beq_self_eq_true, if_true]
              omega
            · omega
        by_cases q : e.2 = b
        · rw [if_pos q] at h2
          exact grow true (fun _ => .inl q) h2
        · rw [if_neg q, if_neg heo] at h2
          exact grow p (fun q => .inr q) h2
      · rw [if_neg hf]
        by_cases q : e.2 = b
        · rw [if_pos q] at h2
          refine same true (fun _ => ⟨b, ?_⟩) h2
          rw [q] at hf hc
          rw [hb] at hc
          cases hc
          omega
        · rw [if_neg q, if_neg heo] at h2
          exact same p hp h2

/-- The moves of an input of speed `s` and each time the next one of the output of speed `o`, from the move number `k` on. -/
def pairs (s o b l : ℕ) : ℕ → ℕ → List (ℚ × ℕ)
  | _, 0 => []
  | k, n + 1 => ((60 * (k : ℚ)) / (s : ℚ), b) :: ((60 * ((k * o / s + 1 : ℕ) : ℚ)) / (o : ℚ), l) :: pairs s o b l (k + 1) n

theorem pairs_snd (s o b l : ℕ) : ∀ n k, (pairs s o b l k n).map Prod.snd = turns b l n
  | 0, k => rfl
  | n + 1, k => by simp [pairs, turns, pairs_snd s o b l n (k + 1)]

theorem pairs_mem {s o b l : ℕ} : ∀ {n k : ℕ} {x : ℚ × ℕ}, x ∈ pairs s o b l k n → ∃ i, k ≤ i ∧ i < k + n ∧
    (x = ((60 * (i : ℚ)) / (s : ℚ), b) ∨ x = ((60 * ((i * o / s + 1 : ℕ) : ℚ)) / (o : ℚ), l))
  | 0, k, x, h => by simp [pairs] at h
  | n + 1, k, x, h => by
    rw [pairs, List.mem_cons, List.mem_cons] at h
    rcases h with h | h | h
    · exact ⟨k, le_refl _, by omega, .inl h⟩
    · exact ⟨k, le_refl _, by omega, .inr h⟩
    · obtain ⟨i, h1, h2, h3⟩ := pairs_mem h
      exact ⟨i, by omega, by omega, h3⟩

theorem move_lt {s o i j : ℕ} (hs : 0 < s) (ho : 0 < o) (h : i * o < j * s) : (60 * (i : ℚ)) / (s : ℚ) < (60 * (j : ℚ)) / (o : ℚ) := by
  have a : (0 : ℚ) < s := by exact_mod_cast hs
  have b : (0 : ℚ) < o := by exact_mod_cast ho
  have c : (i : ℚ) * o < j * s := by exact_mod_cast h
  rw [div_lt_div_iff₀ a b]
  linarith

theorem next_gt {s : ℕ} (o k : ℕ) (hs : 0 < s) : k * o < (k * o / s + 1) * s := by
  have := Nat.div_add_mod (k * o) s
  have := Nat.mod_lt (k * o) hs
  rw [Nat.add_mul, Nat.mul_comm (k * o / s) s]
  omega

theorem next_lt {s o : ℕ} (k : ℕ) (h : s < o) : (k * o / s + 1) * s < (k + 1) * o := by
  have := Nat.div_mul_le_self (k * o) s
  rw [Nat.add_mul, Nat.add_mul]
  omega

theorem pairs_later {s o b l : ℕ} (hs : 0 < s) (h : s < o) {n k : ℕ} {x : ℚ × ℕ} (hx : x ∈ pairs s o b l k n) : (60 * (k : ℚ)) / (s : ℚ) ≤ x.1 := by
  have a : (0 : ℚ) < s := by exact_mod_cast hs
  obtain ⟨i, h1, -, h2⟩ := pairs_mem hx
  have h1' : (k : ℚ) ≤ i := by exact_mod_cast h1
  have : (60 * (k : ℚ)) / (s : ℚ) ≤ (60 * (i : ℚ)) / (s : ℚ) := by
    apply div_le_div_of_nonneg_right _ a.le
    linarith
  rcases h2 with rfl | rfl
  · exact this
  · exact this.trans (move_lt hs (hs.trans h) (next_gt o i hs)).le

theorem pairs_increasing {s o b l : ℕ} (hs : 0 < s) (h : s < o) : ∀ n k, (pairs s o b l k n).Pairwise (fun a b => a.1 < b.1)
  | 0, k => List.Pairwise.nil
  | n + 1, k => by
    have ho := hs.trans h
    have first : (60 * ((k * o / s + 1 : ℕ) : ℚ)) / (o : ℚ) < (60 * ((k + 1 : ℕ) : ℚ)) / (s : ℚ) := move_lt ho hs (next_lt k h)
    have later : ∀ x ∈ pairs s o b l (k + 1) n, (60 * ((k * o / s + 1 : ℕ) : ℚ)) / (o : ℚ) < x.1 := fun x hx =>
      first.trans_le (pairs_later hs h hx)
    have here := move_lt hs ho (next_gt o k hs)
    rw [pairs, List.pairwise_cons, List.pairwise_cons]
    refine ⟨fun x hx => ?_, later, pairs_increasing hs h n (k + 1)⟩
    rcases List.mem_cons.1 hx with rfl | hx
    · exact here
    · exact here.trans (later x hx)

theorem moments_mem {nItems s c k : ℕ} (h1 : 1 ≤ k) (h2 : k ≤ nItems * 4 - 1) : ((60 * (k : ℚ)) / (s : ℚ), c) ∈ moments nItems (s, c) := by
  rw [moments, List.mem_map]
  exact ⟨k, by rw [List.mem_range'_1]; omega, rfl⟩

theorem schedule_mem {nItems : ℕ} {x : ℚ × ℕ} : x ∈ schedule nItems cs ↔ ∃ i c, cs[i]? = some c ∧ x ∈ moments nItems (c.speed, i) := by
  rw [schedule, (insortAll_perm Prod.fst [] _).mem_iff, List.append_nil, List.mem_flatMap]
  constructor
  · rintro ⟨⟨s, i⟩, h, hx⟩
    rw [List.mk_mem_zipIdx_iff_getElem?, List.getElem?_map, Option.map_eq_some_iff] at h
    obtain ⟨c, hc, rfl⟩ := h
    exact ⟨i, c, hc, hx⟩
  · rintro ⟨i, c, hc, hx⟩
    refine ⟨(c.speed, i), ?_, hx⟩
    rw [List.mk_mem_zipIdx_iff_getElem?, List.getElem?_map, hc]
    rfl

theorem schedule_rounds {b o : ℕ} {cb co : Conveyor} (hb : cs[b]? = some cb) (ho : cs[o]? = some co) (h0 : 0 < cb.speed) (hlt : cb.speed < co.speed)
    (hN : nItems * co.speed < (4 * nItems - 1) * cb.speed) : nItems ≤ rounds b o false ((schedule nItems cs).map Prod.snd) := by
  have hbo : b ≠ o := fun e => by
    subst e
    rw [hb] at ho
    cases ho
    exact absurd hlt (lt_irrefl _)
  refine (rounds_turns hbo _).1 nItems false ?_
  rw [← pairs_snd cb.speed co.speed b o nItems 1]
  refine List.Sublist.map Prod.snd (sublist_of_times (insortAll_sorted _ _ _ List.Pairwise.nil) (pairs_increasing h0 hlt nItems 1) fun x hx => ?_)
  obtain ⟨i, h1, h2, h3⟩ := pairs_mem hx
  refine schedule_mem.2 ?_
  rcases h3 with rfl | rfl
  · exact ⟨b, cb, hb, moments_mem h1 (by omega)⟩
  · refine ⟨o, co, ho, moments_mem (Nat.le_add_left 1 _) ?_⟩
    have a : i * co.speed < (4 * nItems - 1) * cb.speed := lt_of_le_of_lt (Nat.mul_le_mul_right _ (by omega)) hN
    have := (Nat.div_lt_iff_lt_mul h0).2 a
    omega

end Satis.RandomMerging
