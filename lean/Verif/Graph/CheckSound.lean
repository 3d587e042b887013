import Verif.Graph.Modest
import Verif.Graph.DeliverStart
/-!
# Checking by computation that a network is sound and has room for the belts of its expansion
-/

namespace Satis.Graph
open Satis Satis.Cost Satis.Spec

/-- The nodes below `l`, found in `k` steps. -/
def closure (h : Heap ℚ) : Nat → List Addr → List Addr
  | 0, l => l
  | k + 1, l => closure h k (l ++ ((l.flatMap fun a => (h.get a).children).dedup.filter fun c => c ∉ l))

theorem closure_reach {h : Heap ℚ} {roots : List Addr} (k : Nat) (l : List Addr) (hl : ∀ a ∈ l, Reach h roots a) : ∀ a ∈ closure h k l, Reach h roots a := by
  induction k generalizing l with
  | zero => exact hl
  | succ k ih =>
    refine ih _ fun a ha => ?_
    rcases List.mem_append.1 ha with w | w
    · exact hl a w
    · obtain ⟨b, hb, hc⟩ := List.mem_flatMap.1 (List.mem_dedup.1 (List.mem_filter.1 w).1)
      exact .child (hl b hb) hc

theorem closure_base {h : Heap ℚ} (k : Nat) (l : List Addr) : ∀ a ∈ l, a ∈ closure h k l := by
  induction k generalizing l with
  | zero => exact fun _ h => h
  | succ k ih => exact fun a ha => ih _ a (List.mem_append_left _ ha)

theorem closure_iff {h : Heap ℚ} {roots : List Addr} (k : Nat) (hc : ∀ a ∈ closure h k roots, ∀ c ∈ (h.get a).children, c ∈ closure h k roots) (a : Addr) :
    Reach h roots a ↔ a ∈ closure h k roots := by
  refine ⟨fun ha => ?_, closure_reach k roots (fun a ha => .root ha) a⟩
  induction ha with
  | root w => exact closure_base k roots _ w
  | child _ hx ih => exact hc _ ih _ hx

/-- `Job`, by computation. -/
def jobOk (speeds : List Nat) (h : Heap ℚ) (a : Addr) : List (Expand ℚ) → Bool
  | [] => match (h.get a).children with
    | [] => true
    | [_] => true
    | [x, y] => decide (∀ c ∈ [x, y], (h.get c).value = (h.get a).value / 2) ||
      decide ((h.get x).value + (h.get y).value = (h.get a).value ∧ ∃ s ∈ speeds, (h.get x).value = (s : ℚ) ∨ (h.get y).value = (s : ℚ))
    | [x, y, z] => decide (∀ c ∈ [x, y, z], (h.get c).value = (h.get a).value / 3)
    | _ => false
  | [.divide d] => decide (a < h.next ∧ 0 ≤ (h.get a).value ∧ 2 ≤ d ∧ (h.get a).children.length = d ∧ (h.get a).children.Nodup ∧
    (∀ c ∈ (h.get a).children, c < h.next) ∧ (∀ c ∈ (h.get a).children, c ≠ a) ∧ ∀ c ∈ (h.get a).children, (h.get c).value = (h.get a).value / d)
  | [.extract c] => match (h.get a).children with
    | [x, y] => decide (c = (c.num.toNat : ℚ) ∧ a < h.next ∧ (h.get a).value = ((h.get a).value.num.toNat : ℚ) ∧ 0 < c.num.toNat ∧
      c.num.toNat < (h.get a).value.num.toNat ∧ (x < h.next ∧ x ≠ a) ∧ (y < h.next ∧ y ≠ a) ∧ x ≠ y ∧
      ((h.get x).value = c ∧ (h.get y).value = (h.get a).value - c ∨ (h.get y).value = c ∧ (h.get x).value = (h.get a).value - c))
    | _ => false
  | _ => false

theorem jobOk_job {speeds : List Nat} {h : Heap ℚ} {a : Addr} {es : List (Expand ℚ)} (H : jobOk speeds h a es = true) : Job speeds h a es := by
  unfold jobOk at H
  split at H
  · split at H
    · next e => exact .leaf e
    · next c e => exact .pass c e
    · next x y e =>
      rcases Bool.or_eq_true _ _ ▸ H with w | w
      · have w := of_decide_eq_true w
        refine .few (.inl (by rw [e]; rfl)) ?_
        rw [e]
        exact_mod_cast w
      · have w := of_decide_eq_true w
        exact .belt x y e w.1 w.2
    · next x y z e =>
      have w := of_decide_eq_true H
      refine .few (.inr (by rw [e]; rfl)) ?_
      rw [e]
      exact_mod_cast w
    · simp at H
  · obtain ⟨h1, h2, h3, h4, h5, h6, h7, h8⟩ := of_decide_eq_true H
    exact .divide _ ⟨h1, h2, h3, h4, h5, h6, h7, h8⟩
  · next c =>
    split at H
    · next x y e =>
      obtain ⟨h0, h1, h2, h3, h4, h5, h6, h7, h8⟩ := of_decide_eq_true H
      rw [h0]
      refine .extract (h.get a).value.num.toNat c.num.toNat x y ⟨h1, h2, h3, h4, e, h5, h6, h7, ?_⟩
      rw [← h2, ← h0]
      exact h8
    · simp at H
  · simp at H

/-- The conditions of `Sound`, without splits, for the nodes `l`. -/
structure Checked (speeds : List Nat) (h : Heap ℚ) (roots l : List Addr) : Prop where
  closed : ∀ a ∈ l, (∀ c ∈ (h.get a).children, c ∈ l) ∧ (∀ p ∈ (h.get a).parents, p ∈ l) ∧ a < h.next ∧ (h.get a).id < h.nextUid
  ids : (l.map fun a => (h.get a).id).Nodup
  levels : ∀ a ∈ l, (h.get a).level.isSome = true
  positive : ∀ a ∈ l, 0 < (h.get a).value
  down : ∀ a ∈ l, ∀ c ∈ (h.get a).children, (h.get a).level.getD 0 < (h.get c).level.getD 0
  top : ∀ r ∈ roots, (h.get r).parents = []
  links : ∀ a ∈ l, ∀ b ∈ l, (h.get a).children.count b = (h.get b).parents.count a
  tree : ∀ a ∈ l, 2 ≤ (h.get a).children.length → ∀ c ∈ (h.get a).children, (h.get c).parents = [a]
  merge : ∀ a ∈ l, a ∉ roots → ((h.get a).parents.length = 1 ∧ ∀ p ∈ (h.get a).parents, 2 ≤ (h.get p).children.length) ∨
    (h.get a).parents.Nodup ∧ (∀ p ∈ (h.get a).parents, p ≠ a ∧ (h.get p).children = [a] ∧ 0 < (h.get p).value) ∧
      (h.get a).value = ((h.get a).parents.map fun p => (h.get p).value).sum
  jobs : ∀ a ∈ l, if 3 < (h.get a).parents.length then (h.get a).expands.head? = some (.merge 3) ∧ jobOk speeds h a (h.get a).expands.tail = true
    else jobOk speeds h a (h.get a).expands = true

instance (speeds : List Nat) (h : Heap ℚ) (roots l : List Addr) : Decidable (Checked speeds h roots l) :=
  decidable_of_iff (_ ∧ _ ∧ _ ∧ _ ∧ _ ∧ _ ∧ _ ∧ _ ∧ _ ∧ _)
    ⟨fun ⟨h1, h2, h3, h4, h5, h6, h7, h8, h9, h10⟩ => ⟨h1, h2, h3, h4, h5, h6, h7, h8, h9, h10⟩,
     fun ⟨h1, h2, h3, h4, h5, h6, h7, h8, h9, h10⟩ => ⟨h1, h2, h3, h4, h5, h6, h7, h8, h9, h10⟩⟩

theorem Checked.reach {speeds : List Nat} {h : Heap ℚ} {roots : List Addr} {k : Nat} (C : Checked speeds h roots (closure h k roots)) (a : Addr) :
    Reach h roots a ↔ a ∈ closure h k roots := closure_iff k (fun a ha => (C.closed a ha).1) a

theorem Checked.sound {speeds : List Nat} {h : Heap ℚ} {roots : List Addr} {k : Nat} (C : Checked speeds h roots (closure h k roots)) :
    Sound speeds h roots := by
  have hR := C.reach
  refine ⟨⟨fun a ha => ?_, fun a ha c hc => .child ha hc, fun a ha p hp => ?_, fun a b ha hb e => ?_, fun a ha => ?_⟩, fun a ha e => ?_,
    fun a ha => C.positive a ((hR a).1 ha), fun a ha c hc => ?_, C.top, fun a b ha hb => C.links a ((hR a).1 ha) b ((hR b).1 hb),
    fun a ha => C.tree a ((hR a).1 ha), fun a ha hr => ?_, fun a ha => ?_⟩
  · exact (C.closed a ((hR a).1 ha)).2.2.1
  · exact (hR p).2 ((C.closed a ((hR a).1 ha)).2.1 p hp)
  · exact List.inj_on_of_nodup_map C.ids ((hR a).1 ha) ((hR b).1 hb) e
  · exact (C.closed a ((hR a).1 ha)).2.2.2
  · have := C.levels a ((hR a).1 ha)
    rw [e] at this
    simp at this
  · have h1 := C.levels a ((hR a).1 ha)
    have h2 := C.levels c ((hR c).1 (.child ha hc))
    obtain ⟨l, hl⟩ := Option.isSome_iff_exists.1 h1
    obtain ⟨m, hm⟩ := Option.isSome_iff_exists.1 h2
    have := C.down a ((hR a).1 ha) c hc
    rw [hl, hm] at this
    exact ⟨l, m, hl, hm, this⟩
  · rcases C.merge a ((hR a).1 ha) hr with ⟨h1, h2⟩ | w
    · obtain ⟨p, hp⟩ := List.length_eq_one_iff.1 h1
      exact .inl ⟨p, hp, h2 p (by rw [hp]; simp)⟩
    · exact .inr w
  · have := C.jobs a ((hR a).1 ha)
    split at this
    · next q =>
      refine ⟨(h.get a).expands.tail, .inl (jobOk_job this.2), ?_⟩
      rw [if_pos q]
      cases e : (h.get a).expands with
      | nil => rw [e] at this; simp at this
      | cons x xs =>
        rw [e] at this
        simp only [List.head?_cons, Option.some.injEq] at this
        rw [this.1]
        rfl
    · next q => exact ⟨_, .inl (jobOk_job this), by rw [if_neg q]; rfl⟩

/-- No split is pending. -/
theorem Checked.unsplit {speeds : List Nat} {h : Heap ℚ} {roots : List Addr} {k : Nat} (C : Checked speeds h roots (closure h k roots)) :
    ∀ a, Reach h roots a → ∀ c, .split c ∉ (h.get a).expands := by
  intro a ha c hc
  have H : ∀ es, jobOk speeds h a es = true → .split c ∉ es := by
    intro es H w
    have J := jobOk_job H
    cases J <;> simp at w
  have := C.jobs a ((C.reach a).1 ha)
  split at this
  · cases e : (h.get a).expands with
    | nil => rw [e] at this; simp at this
    | cons x xs =>
      rw [e] at this hc
      simp only [List.head?_cons, Option.some.injEq, List.tail_cons] at this
      rw [this.1] at hc
      rcases List.mem_cons.1 hc with w | w
      · simp at w
      · exact H xs this.2 w
  · exact H _ this hc

/-- The amounts of the extractions pending for a node. -/
def extracts (h : Heap ℚ) (a : Addr) : List ℚ := (h.get a).expands.filterMap fun e => match e with
  | .extract c => some c
  | _ => none

theorem mem_extracts {h : Heap ℚ} {a : Addr} {c : ℚ} (hc : .extract c ∈ (h.get a).expands) : c ∈ extracts h a :=
  List.mem_filterMap.2 ⟨_, hc, rfl⟩

theorem Checked.roomy {speeds : List Nat} {h : Heap ℚ} {roots : List Addr} {k : Nat} (C : Checked speeds h roots (closure h k roots))
    (B : ∀ a ∈ closure h k roots, (∀ p ∈ (h.get a).parents, extracts h p = []) →
      Parted (cap roots a) ((h.get a).parents.map Sum.inl ++ (loops h a).map Sum.inr))
    (F : ∀ a ∈ closure h k roots, ∀ c ∈ extracts h a, ∀ z ∈ (h.get a).children,
      Parted 3 ((forth (h.get a).value c (h.get z).value).map Sum.inl ++ (loops h z).map Sum.inr)) : Roomy h roots := by
  refine C.sound.roomy C.unsplit (fun a ha hp => B a ((C.reach a).1 ha) fun p hp' => ?_) fun a ha v c hv hc z hz => ?_
  · cases e : extracts h p with
    | nil => rfl
    | cons c cs =>
      exfalso
      have : c ∈ extracts h p := by rw [e]; simp
      obtain ⟨x, hx, w⟩ := List.mem_filterMap.1 this
      cases x <;> simp only [reduceCtorEq, Option.some.injEq] at w
      exact hp p hp' _ hx
  · have := F a ((C.reach a).1 ha) c (mem_extracts hc) z hz
    rw [hv] at this
    exact this

theorem Checked.tidy {speeds : List Nat} {h : Heap ℚ} {roots : List Addr} {k : Nat} (C : Checked speeds h roots (closure h k roots))
    (B : ∀ a ∈ closure h k roots, (∀ p ∈ (h.get a).parents, extracts h p = []) → Together (loops h a))
    (F : ∀ a ∈ closure h k roots, ∀ c ∈ extracts h a, ∀ z ∈ (h.get a).children,
      Together ((forth (h.get a).value c (h.get z).value).map Sum.inl ++ (loops h z).map Sum.inr)) : Tidy h roots := by
  refine C.sound.tidy C.unsplit (fun a ha hp => B a ((C.reach a).1 ha) fun p hp' => ?_) fun a ha v c hv hc z hz => ?_
  · cases e : extracts h p with
    | nil => rfl
    | cons c cs =>
      exfalso
      have : c ∈ extracts h p := by rw [e]; simp
      obtain ⟨x, hx, w⟩ := List.mem_filterMap.1 this
      cases x <;> simp only [reduceCtorEq, Option.some.injEq] at w
      exact hp p hp' _ hx
  · have := F a ((C.reach a).1 ha) c (mem_extracts hc) z hz
    rw [hv] at this
    exact this

theorem Checked.light {speeds : List Nat} {h : Heap ℚ} {roots : List Addr} {k : Nat} (C : Checked speeds h roots (closure h k roots))
    (F : ∀ a ∈ closure h k roots, ∀ c ∈ extracts h a, ∀ z ∈ (h.get a).children,
      (h.get z).value = c → (forth (h.get a).value c c).length + (loops h z).length ≤ 3 ∨ (forth (h.get a).value c c).length ≤ 1) :
    Light h roots := by
  refine C.sound.light C.unsplit fun a ha v c hv hc z hz hk => ?_
  have := F a ((C.reach a).1 ha) c (mem_extracts hc) z hz hk
  rw [hv] at this
  exact this

theorem Checked.modest {speeds : List Nat} {h : Heap ℚ} {roots : List Addr} {k : Nat} (C : Checked speeds h roots (closure h k roots))
    (B : ∀ a ∈ closure h k roots, (loops h a).length ≤ 3)
    (F : ∀ a ∈ closure h k roots, ∀ c ∈ extracts h a, ∀ z ∈ (h.get a).children,
      (forth (h.get a).value c (h.get z).value).length + (loops h z).length ≤ 3) : Modest h roots := by
  refine ⟨C.unsplit, fun a ha es ls he hb => ?_, fun a ha v c hv hc z hz k ls ls' hk hf hb => ?_⟩
  · rw [C.sound.back_loops C.unsplit ha he hb]
    exact B a ((C.reach a).1 ha)
  · have := F a ((C.reach a).1 ha) c (mem_extracts hc) z hz
    rw [hv] at this
    obtain ⟨-, -, w⟩ := C.sound.taken C.unsplit ha hv hc hz
    obtain ⟨rfl, rfl⟩ := w k ls ls' hk hf hb
    exact this

theorem Checked.even {speeds : List Nat} {h : Heap ℚ} {roots : List Addr} {k : Nat} (C : Checked speeds h roots (closure h k roots))
    (H : ∀ a ∈ closure h k roots, extracts h a ≠ [] ∨ (h.get a).children.length ≠ 2 ∨
      ((h.get a).children[0]?.map fun x => (h.get x).value) = (h.get a).children[1]?.map fun x => (h.get x).value) : Even h roots := by
  intro a ha he x y hxy
  rcases H a ((C.reach a).1 ha) with w | w | w
  · obtain ⟨c, hc⟩ := List.exists_mem_of_ne_nil _ w
    obtain ⟨e, hx, w⟩ := List.mem_filterMap.1 hc
    cases e <;> simp only [reduceCtorEq, Option.some.injEq] at w
    exact absurd hx (he _)
  · rw [hxy] at w
    exact absurd rfl w
  · rw [hxy] at w
    simpa using w

end Satis.Graph
