import Verif.Graph.IsoLemmas
import Verif.Graph.Moves
/-!
# The calls of `add_edges`: one for each way down (`src/tree.py:29-41`)
-/

namespace Satis.Graph
open Satis

variable {V : Type}

/-- A way down from `a` to `b`: the number of the child that is taken, at each step. -/
inductive Descent (h : Heap V) : Addr → List Nat → Addr → Prop
  | here {a} : Descent h a [] a
  | down {a c b i p} : (h.get a).children[i]? = some c → Descent h c p b → Descent h a (i :: p) b

/-- The ways down of one to `n` steps. -/
def descents (h : Heap V) : Nat → Addr → List (List Nat)
  | 0, _ => []
  | n + 1, a => (h.get a).children.zipIdx.flatMap fun x => [x.2] :: (descents h n x.1).map (x.2 :: ·)

theorem mem_descents (h : Heap V) : ∀ (n : Nat) (a : Addr) (p : List Nat),
    p ∈ descents h n a ↔ p ≠ [] ∧ p.length ≤ n ∧ ∃ b, Descent h a p b := by
  intro n
  induction n with
  | zero =>
    intro a p
    constructor
    · intro h; cases h
    · rintro ⟨h1, h2, -⟩
      exact absurd (List.length_eq_zero_iff.1 (by omega)) h1
  | succ n ih =>
    intro a p
    unfold descents
    rw [List.mem_flatMap]
    constructor
    · rintro ⟨⟨c, i⟩, hc, hp⟩
      have hc := List.mem_zipIdx_iff_getElem?.1 hc
      rcases List.mem_cons.1 hp with rfl | hp
      · exact ⟨by simp, by simp, c, .down hc .here⟩
      · obtain ⟨q, hq, rfl⟩ := List.mem_map.1 hp
        obtain ⟨-, h2, b, hb⟩ := (ih c q).1 hq
        exact ⟨by simp, by simpa using h2, b, .down hc hb⟩
    · rintro ⟨h1, h2, b, hb⟩
      cases hb with
      | here => exact absurd rfl h1
      | @down _ c _ i q hc hq =>
        refine ⟨(c, i), List.mem_zipIdx_iff_getElem?.2 hc, ?_⟩
        by_cases e : q = []
        · subst e; simp
        · exact List.mem_cons_of_mem _ (List.mem_map_of_mem ((ih c q).2 ⟨e, by simpa using h2, b, hq⟩))

theorem descents_nodup (h : Heap V) : ∀ (n : Nat) (a : Addr), (descents h n a).Nodup := by
  intro n
  induction n with
  | zero => exact fun a => List.nodup_nil
  | succ n ih =>
    intro a
    unfold descents
    rw [List.nodup_flatMap]
    constructor
    · rintro ⟨c, i⟩ -
      refine List.nodup_cons.2 ⟨fun hm => ?_, (ih c).map fun p q e => by simpa using e⟩
      obtain ⟨q, hq, e⟩ := List.mem_map.1 hm
      have : q = [] := by simpa using e
      exact ((mem_descents h n c q).1 hq).1 this
    · have hnd : ((h.get a).children.zipIdx.map Prod.snd).Nodup := by
        rw [List.zipIdx_map_snd]
        exact List.nodup_range'
      refine (List.pairwise_map.1 hnd).imp ?_
      rintro ⟨c, i⟩ ⟨d, j⟩ hij p hp hq
      have key : ∀ (c : Addr) (i : Nat), p ∈ [i] :: (descents h n c).map (i :: ·) → p.head? = some i := by
        intro c i hp
        rcases List.mem_cons.1 hp with rfl | hp
        · rfl
        · obtain ⟨q, -, rfl⟩ := List.mem_map.1 hp
          rfl
      have e := (key c i hp).symm.trans (key d j hq)
      exact hij (Option.some.inj e)

theorem addEdges_length (h : Heap V) : ∀ (n : Nat) (a : Addr) (e : Edges), addEdges h (n + 1) a = .ok e → e.length = (descents h n a).length := by
  intro n
  induction n with
  | zero =>
    intro a e he
    obtain ⟨ess, h1, rfl⟩ := (addEdges_succ h 0 a e).1 he
    generalize (h.get a).children = cs at h1
    cases h1 with
    | nil => rfl
    | cons h2 _ =>
      obtain ⟨_, h2, -⟩ := h2
      cases h2
  | succ n ih =>
    intro a e he
    obtain ⟨ess, h1, rfl⟩ := (addEdges_succ h (n + 1) a e).1 he
    unfold descents
    have key : ∀ (cs : List Addr) (ess : List Edges) (k : Nat),
        List.Forall₂ (fun c es => ∃ es', addEdges h (n + 1) c = .ok es' ∧ es = ((h.get a).id, (h.get c).id) :: es') cs ess →
        ess.flatten.length = ((cs.zipIdx k).flatMap fun x => [x.2] :: (descents h n x.1).map (x.2 :: ·)).length := by
      intro cs ess k hf
      induction hf generalizing k with
      | nil => rfl
      | cons h2 _ ih2 =>
        obtain ⟨es', h3, rfl⟩ := h2
        rw [List.zipIdx_cons, List.flatten_cons, List.flatMap_cons, List.length_append, List.length_append, ih2 (k + 1), List.length_cons, ih _ _ h3,
          List.length_cons, List.length_map]
    exact key _ _ 0 h1

theorem addEdges_ok_iff (h : Heap V) : ∀ (n : Nat) (a : Addr), (∃ e, addEdges h n a = .ok e) ↔ ∀ p b, Descent h a p b → p.length < n := by
  intro n
  induction n with
  | zero =>
    intro a
    constructor
    · rintro ⟨e, he⟩; cases he
    · intro hd; exact absurd (hd [] a .here) (by simp)
  | succ n ih =>
    intro a
    constructor
    · rintro ⟨e, he⟩ p b hp
      obtain ⟨ess, h1, -⟩ := (addEdges_succ h n a e).1 he
      cases hp with
      | here => simp
      | @down _ c _ i q hc hq =>
        have hm : c ∈ (h.get a).children := List.mem_of_getElem? hc
        have : ∃ es, addEdges h n c = .ok es := by
          clear hc
          generalize (h.get a).children = cs at h1 hm
          induction h1 with
          | nil => cases hm
          | cons h2 _ ih2 =>
            rcases List.mem_cons.1 hm with rfl | hm
            · obtain ⟨es', h3, -⟩ := h2
              exact ⟨es', h3⟩
            · exact ih2 hm
        have := (ih c).1 this q b hq
        simpa using this
    · intro hd
      have hc : ∀ c ∈ (h.get a).children, ∃ es, addEdges h n c = .ok es := by
        intro c hc
        obtain ⟨i, hi⟩ := List.mem_iff_getElem?.1 hc
        exact (ih c).2 fun p b hp => by simpa using hd _ b (.down hi hp)
      have : ∀ cs : List Addr, (∀ c ∈ cs, ∃ es, addEdges h n c = .ok es) →
          ∃ ess, List.Forall₂ (fun c es => ∃ es', addEdges h n c = .ok es' ∧ es = ((h.get a).id, (h.get c).id) :: es') cs ess := by
        intro cs
        induction cs with
        | nil => exact fun _ => ⟨[], .nil⟩
        | cons c cs ih2 =>
          intro hcs
          obtain ⟨es, he⟩ := hcs c (by simp)
          obtain ⟨ess, hess⟩ := ih2 fun x hx => hcs x (by simp [hx])
          exact ⟨_ :: ess, .cons ⟨es, he, rfl⟩ hess⟩
      obtain ⟨ess, hess⟩ := this _ hc
      exact ⟨_, (addEdges_succ h n a _).2 ⟨ess, hess, rfl⟩⟩

theorem mapM_error {α β : Type} {f : α → Py β} {x : PyErr} : ∀ {l : List α}, l.mapM f = .error x → ∃ a ∈ l, f a = .error x := by
  intro l
  induction l with
  | nil => intro h; rw [List.mapM_nil] at h; cases h
  | cons a l ih =>
    intro h
    rw [List.mapM_cons] at h
    cases ha : f a with
    | error y => rw [ha] at h; cases h; exact ⟨a, by simp, ha⟩
    | ok y =>
      rw [ha] at h
      cases hl : l.mapM f with
      | error z =>
        obtain ⟨b, hb, e⟩ := ih (by
          rw [hl]
          have h' : (l.mapM f >>= fun bs => pure (y :: bs) : Py (List β)) = .error x := h
          rw [hl] at h'
          exact h')
        exact ⟨b, by simp [hb], e⟩
      | ok z =>
        have h' : (l.mapM f >>= fun bs => pure (y :: bs) : Py (List β)) = .error x := h
        rw [hl] at h'
        cases h'

theorem addEdges_error (h : Heap V) : ∀ (n : Nat) (a : Addr) (x : PyErr), addEdges h n a = .error x → x = .diverge := by
  intro n
  induction n with
  | zero => intro a x hx; cases hx; rfl
  | succ n ih =>
    intro a x hx
    unfold addEdges at hx
    cases hm : List.mapM (fun c => do let es ← addEdges h n c; return ((h.get a).id, (h.get c).id) :: es : Addr → Py Edges)
      (h.get a).children with
    | ok ess => rw [hm] at hx; cases hx
    | error y =>
      rw [hm] at hx
      cases hx
      obtain ⟨c, -, hc⟩ := mapM_error hm
      cases hy : addEdges h n c with
      | ok es => rw [hy] at hc; cases hc
      | error z =>
        rw [hy] at hc
        cases hc
        exact ih c _ hy

/-! ## Dividing and merging again -/

/-- The node `a` is divided by two and the halves are merged. -/
def divideMerge (h : Heap Int) (a : Addr) : Py (Heap Int × Addr) := do
  let (h, ns) ← divide h a 2
  merge (fun v n => v / (n : Int)) h ns

/-- `k` times. -/
def divideMerges : Nat → Heap Int → Addr → Py (Heap Int × Addr)
  | 0, h, a => .ok (h, a)
  | k + 1, h, a => do
    let (h, b) ← divideMerge h a
    divideMerges k h b

/-- `k` divisions into two, each merged again, from `r` down to `a`. -/
inductive Ladder (h : Heap V) : Nat → Addr → Addr → Prop
  | leaf {a} : a < h.next → (h.get a).children = [] → Ladder h 0 a a
  | rung {k r b c m a} : r < h.next ∧ b < h.next ∧ c < h.next → (h.get r).children = [b, c] → (h.get b).children = [m] → (h.get c).children = [m] → Ladder h k m a →
      Ladder h (k + 1) r a

theorem Ladder.edges {h : Heap V} {k : Nat} {r a : Addr} (H : Ladder h k r a) : ∀ n, 2 * k < n →
    ∃ e, addEdges h n r = .ok e ∧ e.length + 4 = 4 * 2 ^ k := by
  induction H with
  | leaf _ h0 =>
    intro n hn
    obtain ⟨n, rfl⟩ : ∃ m, n = m + 1 := ⟨n - 1, by omega⟩
    refine ⟨[], ?_, rfl⟩
    unfold addEdges
    rw [h0]
    rfl
  | @rung k r b c m a _ h1 h2 h3 _ ih =>
    intro n hn
    obtain ⟨n, rfl⟩ : ∃ m, n = m + 2 := ⟨n - 2, by omega⟩
    obtain ⟨e, he, hl⟩ := ih n (by omega)
    have hb : addEdges h (n + 1) b = .ok (((h.get b).id, (h.get m).id) :: e) := by
      unfold addEdges
      rw [h2, List.mapM_cons, he]
      show Except.ok _ = _
      simp
    have hc : addEdges h (n + 1) c = .ok (((h.get c).id, (h.get m).id) :: e) := by
      unfold addEdges
      rw [h3, List.mapM_cons, he]
      show Except.ok _ = _
      simp
    refine ⟨((h.get r).id, (h.get b).id) :: ((h.get b).id, (h.get m).id) :: e ++ ((h.get r).id, (h.get c).id) :: ((h.get c).id, (h.get m).id) :: e, ?_, ?_⟩
    · rw [addEdges, h1, List.mapM_cons, List.mapM_cons, hb, hc]
      show Except.ok _ = _
      simp
    · simp only [List.length_append, List.length_cons, pow_succ]
      omega

theorem Ladder.end {h : Heap V} {k : Nat} {r a : Addr} (H : Ladder h k r a) : (h.get a).children = [] := by
  induction H with
  | leaf _ h0 => exact h0
  | rung _ _ _ _ _ ih => exact ih

theorem Ladder.grow {h h' : Heap V} {k : Nat} {r a b c m : Addr} (H : Ladder h k r a)
    (keep : ∀ x, x < h.next → (h.get x).children ≠ [] → (h'.get x).children = (h.get x).children) (hn : h.next ≤ h'.next)
    (hlt : b < h'.next ∧ c < h'.next ∧ m < h'.next) (ha : (h'.get a).children = [b, c])
    (hb : (h'.get b).children = [m]) (hc : (h'.get c).children = [m]) (hm : (h'.get m).children = []) : Ladder h' (k + 1) r m := by
  induction H with
  | leaf h1 h0 => exact .rung ⟨by omega, hlt.1, hlt.2.1⟩ ha hb hc (.leaf hlt.2.2 hm)
  | rung h0 h1 h2 h3 _ ih =>
    exact .rung ⟨h0.1.trans_le hn, h0.2.1.trans_le hn, h0.2.2.trans_le hn⟩ (by rw [keep _ h0.1 (by rw [h1]; simp), h1]) (by rw [keep _ h0.2.1 (by rw [h2]; simp), h2])
      (by rw [keep _ h0.2.2 (by rw [h3]; simp), h3]) (ih ha)

theorem divideMerge_spec (h : Heap Int) (a : Addr) (ha : a < h.next) (hc : (h.get a).children = []) (hl : (h.get a).level.isSome)
    (hv : 0 ≤ (h.get a).value) :
    ∃ h', divideMerge h a = .ok (h', h.next + 2) ∧ h'.next = h.next + 3 ∧
      (∀ x, x < h.next → x ≠ a → (h'.get x).children = (h.get x).children) ∧ (h'.get a).children = [h.next, h.next + 1] ∧
      (h'.get h.next).children = [h.next + 2] ∧ (h'.get (h.next + 1)).children = [h.next + 2] ∧ (h'.get (h.next + 2)).children = [] ∧
      (h'.get (h.next + 2)).level.isSome ∧ 0 ≤ (h'.get (h.next + 2)).value := by
  obtain ⟨l, hl⟩ := Option.isSome_iff_exists.1 hl
  obtain ⟨g, e, G⟩ := divide_grown h a 2 l ha hl (by omega) hv
  have hn : g.next = h.next + 2 := by simpa using G.next
  have hm : ∀ x ∈ List.range' h.next 2, x = h.next + 0 ∨ x = h.next + 1 := by simp [List.range']
  have hm' : ∀ x ∈ List.range' h.next 2, (g.get x).children = [] ∧ (g.get x).level = some (l + 1) ∧ 0 ≤ (g.get x).value := by
    intro x hx
    have hv2 : 0 ≤ (h.get a).value / 2 := by omega
    rcases hm x hx with rfl | rfl
    · rw [G.made 0 (by simp)]; exact ⟨rfl, rfl, hv2⟩
    · rw [G.made 1 (by simp)]; exact ⟨rfl, rfl, hv2⟩
  obtain ⟨h', l', e', -, M⟩ := merge_grown (fun v n => v / (n : Int)) g (List.range' h.next 2)
    (fun x hx => by rcases hm x hx with rfl | rfl <;> omega) List.nodup_range' (by simp) (fun x hx => by rw [(hm' x hx).2.1]; rfl)
    (fun x hx => (hm' x hx).1) (fun x hx => (hm' x hx).2.2)
  have hlast := M.made 0 (by simp)
  rw [Nat.add_zero, hn] at hlast
  have hu : ∀ x ∈ List.range' h.next 2, (h'.get x).children = [h.next + 2] := by
    intro x hx
    rw [M.used x hx]
    show (g.get x).children ++ _ = _
    rw [(hm' x hx).1, hn]
    rfl
  have hk : ∀ x, x < h.next → (h'.get x) = g.get x := fun x hx => M.frame x (by omega) fun hx' => by
    rcases hm x hx' with rfl | rfl <;> omega
  refine ⟨h', ?_, ?_, fun x hx hxa => ?_, ?_, hu _ (by simp [List.range']), hu _ (by simp [List.range']), by rw [hlast], by rw [hlast]; rfl, ?_⟩
  · unfold divideMerge
    rw [e]
    show merge _ g _ = _
    rw [e', hn]
  · have := M.next
    simp only [List.length_singleton] at this
    omega
  · rw [hk x hx, G.frame x hx (by simpa using hxa)]
  · rw [hk a ha, G.used a (by simp)]
    show (h.get a).children ++ _ = _
    rw [hc]
    rfl
  · rw [hlast]
    show 0 ≤ ((List.range' h.next 2).map fun a => (g.get a).value).sum
    refine List.sum_nonneg fun y hy => ?_
    obtain ⟨x, hx, rfl⟩ := List.mem_map.1 hy
    exact (hm' x hx).2.2

theorem divideMerges_spec : ∀ (k : Nat) (h : Heap Int) (j : Nat) (r a : Addr), Ladder h j r a → a < h.next → (h.get a).level.isSome →
    0 ≤ (h.get a).value → ∃ h' b, divideMerges k h a = .ok (h', b) ∧ h'.next = h.next + 3 * k ∧ Ladder h' (j + k) r b := by
  intro k
  induction k with
  | zero => exact fun h j r a H _ _ _ => ⟨h, a, rfl, rfl, H⟩
  | succ k ih =>
    intro h j r a H ha hl hv
    obtain ⟨g, e, hn, keep, c1, c2, c3, c4, hl', hv'⟩ := divideMerge_spec h a ha H.end hl hv
    obtain ⟨h', b, e', hn', H'⟩ := ih g (j + 1) r (h.next + 2)
      (H.grow (fun x hx hne => keep x hx fun hxa => hne (hxa ▸ H.end)) (by omega) ⟨by omega, by omega, by omega⟩ c1 c2 c3 c4) (by omega) hl' hv'
    refine ⟨h', b, ?_, by omega, by rw [show j + (k + 1) = j + 1 + k by omega]; exact H'⟩
    unfold divideMerges
    rw [e]
    exact e'

end Satis.Graph
