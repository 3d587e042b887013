import Verif.Graph.DeliverStart
import Verif.Graph.Modest
import Verif.Props.Traverse
/-!
# Networks of small values

Where no node carries more than `10`, the trees of the extractions and divisions are so small that merging their belts separates none from the same
machine, except for the extraction of `1` from `9`.
-/

namespace Satis.Graph
open Satis Satis.Cost Satis.Spec

/-- No split is pending, no node carries more than `10`, all values are whole, less than half is extracted, and never `1` from `9`. -/
structure Petty (h : Heap ℚ) (roots : List Addr) : Prop where
  unsplit : ∀ a, Reach h roots a → ∀ c, .split c ∉ (h.get a).expands
  small : ∀ a, Reach h roots a → ∃ v : Nat, v ≤ 10 ∧ (h.get a).value = v
  less : ∀ a, Reach h roots a → ∀ c : Nat, .extract (c : ℚ) ∈ (h.get a).expands → 2 * c < (h.get a).value
  nine : ∀ a, Reach h roots a → (h.get a).value = 9 → .extract 1 ∉ (h.get a).expands

/-- The belts that may lead back to a node of value `k`. -/
def backLists (k : Nat) : List (List (Nat × Nat)) :=
  [] :: (((List.range (k + 1)).filter fun d => decide (2 ≤ d ∧ d ∣ k)).map (fun d => backs (k : ℚ) (.divide d)) ++
    ((List.range k).filter fun c => decide (0 < c)).map fun c : Nat => backs (k : ℚ) (.extract (c : ℚ)))

theorem petty_back : ∀ k < 11, ∀ ls ∈ backLists k, ls.length ≤ 3 := by decide +kernel

/-- The belts of an extraction and those that may lead back to the child that takes `k`. -/
def Suits (v c k : Nat) (ls : List (Nat × Nat)) : Prop :=
  Parted 3 ((forth (v : ℚ) (c : ℚ) (k : ℚ)).map Sum.inl ++ ls.map Sum.inr) ∧
    (k = c → (forth (v : ℚ) (c : ℚ) (k : ℚ)).length + ls.length ≤ 3 ∨ (forth (v : ℚ) (c : ℚ) (k : ℚ)).length ≤ 1)

instance (v c k : Nat) (ls : List (Nat × Nat)) : Decidable (Suits v c k ls) := by
  unfold Suits
  infer_instance

theorem petty_all : ∀ v < 11, ∀ c < v, ¬ (0 < c ∧ 2 * c < v ∧ ¬ (v = 9 ∧ c = 1)) ∨ ∀ k ∈ [c, v - c], ∀ ls ∈ backLists k, Suits v c k ls := by
  decide +kernel

theorem petty_forth : ∀ v < 11, ∀ c < v, 0 < c → 2 * c < v → ¬ (v = 9 ∧ c = 1) → ∀ k ∈ [c, v - c], ∀ ls ∈ backLists k, Suits v c k ls :=
  fun v h1 c h2 h3 h4 h5 => (petty_all v h1 c h2).resolve_left fun w => w ⟨h3, h4, h5⟩

theorem petty_neat : ∀ v < 11, ∀ c < v, ¬ (0 < c ∧ 2 * c < v ∧ ¬ (v = 9 ∧ c = 1)) ∨ ∀ k ∈ [c, v - c], ∀ ls ∈ backLists k,
    Together ((forth (v : ℚ) (c : ℚ) (k : ℚ)).map Sum.inl ++ ls.map Sum.inr) := by
  decide +kernel

variable {speeds : List Nat} {h : Heap ℚ} {roots : List Addr}

theorem Petty.loops (M : Petty h roots) (S : Sound speeds h roots) {a : Addr} (ha : Reach h roots a) {k : Nat} (hk : (h.get a).value = k) :
    loops h a ∈ backLists k := by
  obtain ⟨es, J, -, hl⟩ := S.jobs' M.unsplit ha
  rw [hl, hk]
  unfold backLists
  cases J with
  | leaf => simp
  | pass => simp
  | few => simp
  | belt => simp
  | divide d q =>
    have hd := q.two
    obtain ⟨c, hc⟩ := List.exists_mem_of_length_pos (by rw [q.count]; omega : 0 < (h.get a).children.length)
    obtain ⟨w, -, hw⟩ := M.small c (.child ha hc)
    have hpos := S.positive a ha
    have e := q.share c hc
    rw [hw, hk] at e
    have hd0 : (d : ℚ) ≠ 0 := by
      have : 0 < (d : ℚ) := by exact_mod_cast (by omega : 0 < d)
      exact this.ne'
    have e : w * d = k := by
      field_simp at e
      exact_mod_cast e
    have hk0 : 0 < k := by
      rw [hk] at hpos
      exact_mod_cast hpos
    refine List.mem_cons_of_mem _ (List.mem_append_left _ (List.mem_map.2 ⟨d, List.mem_filter.2 ⟨List.mem_range.2 ?_, ?_⟩, by simp⟩))
    · have : d ≤ k := Nat.le_of_dvd hk0 ⟨w, by rw [← e, Nat.mul_comm]⟩
      omega
    · exact decide_eq_true ⟨hd, w, by rw [← e, Nat.mul_comm]⟩
  | extract v c x y q =>
    have hv := q.value
    rw [hk] at hv
    have hv : k = v := by exact_mod_cast hv
    subst hv
    refine List.mem_cons_of_mem _ (List.mem_append_right _ (List.mem_map.2 ⟨c, List.mem_filter.2 ⟨List.mem_range.2 q.lt, ?_⟩, by simp⟩))
    exact decide_eq_true q.pos

theorem Petty.taken (M : Petty h roots) (S : Sound speeds h roots) {a : Addr} (ha : Reach h roots a) {v c : Nat} (hv : (h.get a).value = v)
    (hc : .extract (c : ℚ) ∈ (h.get a).expands) {z : Addr} (hz : z ∈ (h.get a).children) :
    v < 11 ∧ c < v ∧ 0 < c ∧ 2 * c < v ∧ ¬ (v = 9 ∧ c = 1) ∧ ∃ k ∈ [c, v - c], (h.get z).value = k := by
  obtain ⟨c0, cv, -⟩ := S.taken M.unsplit ha hv hc hz
  obtain ⟨w, hw, e⟩ := M.small a ha
  rw [hv] at e
  have e : v = w := by exact_mod_cast e
  subst e
  have h2 := M.less a ha c hc
  rw [hv] at h2
  refine ⟨by omega, cv, c0, by exact_mod_cast h2, ?_, ?_⟩
  · rintro ⟨rfl, rfl⟩
    exact M.nine a ha (by rw [hv]; rfl) (by simpa using hc)
  · obtain ⟨es, J, h1, -⟩ := S.jobs' M.unsplit ha
    have hin : .extract (c : ℚ) ∈ es := by
      rw [h1] at hc
      rcases List.mem_append.1 hc with w | w
      · split at w <;> simp at w
      · exact w
    cases J with
    | extract v' c' x y q =>
      have hv' := q.value
      rw [hv] at hv'
      have hv' : v = v' := by exact_mod_cast hv'
      subst hv'
      simp only [List.mem_singleton, Expand.extract.injEq] at hin
      have hin : c = c' := by exact_mod_cast hin
      subst hin
      rw [q.children] at hz
      have hcast : ((v - c : Nat) : ℚ) = (v : ℚ) - c := by rw [Nat.cast_sub q.lt.le]
      simp only [List.mem_cons, List.not_mem_nil, or_false] at hz
      rcases hz with rfl | rfl <;> rcases q.share with w | w
      · exact ⟨c, by simp, w.1⟩
      · exact ⟨v - c, by simp, by rw [w.2, hcast]⟩
      · exact ⟨v - c, by simp, by rw [w.2, hcast]⟩
      · exact ⟨c, by simp, w.1⟩
    | _ => simp at hin

theorem Petty.roomy (M : Petty h roots) (S : Sound speeds h roots) : Roomy h roots := by
  refine S.roomy M.unsplit (fun a ha _ => ?_) fun a ha v c hv hc z hz => ?_
  · obtain ⟨k, hk, e⟩ := M.small a ha
    refine parted_modest ?_ (petty_back k (by omega) _ (M.loops S ha e))
    by_cases hr : a ∈ roots
    · rw [S.top a hr]; exact List.nodup_nil
    · rcases S.merge a ha hr with ⟨p, hp, -⟩ | ⟨hp, -⟩
      · rw [hp]; exact List.nodup_singleton p
      · exact hp
  · obtain ⟨h1, h2, h3, h4, h5, k, hk, e⟩ := M.taken S ha hv hc hz
    unfold Lodges
    rw [e]
    exact (petty_forth v h1 c h2 h3 h4 h5 k hk _ (M.loops S (.child ha hz) e)).1

theorem Petty.tidy (M : Petty h roots) (S : Sound speeds h roots) : Tidy h roots := by
  refine S.tidy M.unsplit (fun a ha _ => ?_) fun a ha v c hv hc z hz => ?_
  · obtain ⟨k, hk, e⟩ := M.small a ha
    exact together_few (petty_back k (by omega) _ (M.loops S ha e))
  · obtain ⟨h1, h2, h3, h4, h5, k, hk, e⟩ := M.taken S ha hv hc hz
    rw [e]
    exact (petty_neat v h1 c h2).resolve_left (fun w => w ⟨h3, h4, h5⟩) k hk _ (M.loops S (.child ha hz) e)

theorem Petty.light (M : Petty h roots) (S : Sound speeds h roots) : Light h roots := by
  refine S.light M.unsplit fun a ha v c hv hc z hz hk => ?_
  obtain ⟨h1, h2, h3, h4, h5, -⟩ := M.taken S ha hv hc hz
  exact (petty_forth v h1 c h2 h3 h4 h5 c (by simp) _ (M.loops S (.child ha hz) hk)).2 rfl

end Satis.Graph
