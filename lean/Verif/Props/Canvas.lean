import Verif.Graph.CanvasSpec
import Verif.Graph.Relevel
import Verif.Props.Delivered
import Mathlib.Data.Fintype.CardEmbedding
/-!
# Pictures as they are drawn
-/

namespace Satis
open Satis.Graph Satis.Graph.Example Satis.Solver Satis.Solver.Example

/-! ## C101 — each node is drawn once -/

theorem kind_eq_iff (x y : Expand ℚ) : kind x = kind y ↔ SameKind x y := by
  cases x <;> cases y <;> simp [kind, SameKind]

theorem kinds_eq_iff : ∀ l l' : List (Expand ℚ), l.map kind = l'.map kind ↔ List.Forall₂ SameKind l l'
  | [], [] => by simp
  | [], _ :: _ => by simp
  | _ :: _, [] => by simp
  | x :: l, y :: l' => by
    rw [List.map_cons, List.map_cons, List.cons.injEq, List.forall₂_cons, kind_eq_iff, kinds_eq_iff l l']

theorem tag_eq_iff {tail : Uid → Nat} {h : Heap ℚ} {a b : Addr} :
    tagOf tail h a = tagOf tail h b ↔ SameLook h a b ∧ tail (h.get a).id = tail (h.get b).id := by
  unfold tagOf SameLook
  rw [Tag.mk.injEq, kinds_eq_iff]
  tauto

theorem told_iff {tail : Uid → Nat} {h : Heap ℚ} {roots : List Addr} :
    Told tail h roots ↔ ∀ a b, Reach h roots a → Reach h roots b → tagOf tail h a = tagOf tail h b → a = b := by
  unfold Told
  simp only [tag_eq_iff]
  exact ⟨fun w a b ha hb e => w a b ha hb e.1 e.2, fun w a b ha hb e1 e2 => w a b ha hb ⟨e1, e2⟩⟩

theorem count_edges {K : Type} [DecidableEq K] (f : Addr → K) (kids : Addr → List Addr) (a b : Addr) : ∀ order : List Addr, order.Nodup → a ∈ order →
    (∀ x ∈ order, f x = f a → x = a) → (∀ x ∈ kids a, f x = f b → x = b) →
    (order.flatMap fun x => (kids x).map fun y => (f x, f y)).count (f a, f b) = (kids a).count b := by
  have own : ∀ l : List Addr, (∀ x ∈ l, f x = f b → x = b) → (l.map fun y => (f a, f y)).count (f a, f b) = l.count b := by
    intro l hl
    induction l with
    | nil => rfl
    | cons x l ih =>
      rw [List.map_cons, List.count_cons, List.count_cons, ih fun y hy => hl y (List.mem_cons_of_mem _ hy)]
      congr 1
      by_cases hx : x = b
      · simp [hx]
      · have : f x ≠ f b := fun w => hx (hl x (by simp) w)
        simp [hx, this]
  have other : ∀ (x : Addr) (l : List Addr), f x ≠ f a → (l.map fun y => (f x, f y)).count (f a, f b) = 0 := by
    intro x l hx
    rw [List.count_eq_zero]
    intro w
    obtain ⟨y, -, e⟩ := List.mem_map.1 w
    exact hx (Prod.mk.inj e).1
  intro order
  induction order with
  | nil => intro _ ha; simp at ha
  | cons x order ih =>
    intro hn ha hf hb
    rw [List.flatMap_cons, List.count_append]
    rw [List.nodup_cons] at hn
    by_cases hx : x = a
    · subst hx
      rw [own _ hb]
      have : (order.flatMap fun y => (kids y).map fun z => (f y, f z)).count (f x, f b) = 0 := by
        rw [List.count_eq_zero]
        intro w
        obtain ⟨y, hy, w⟩ := List.mem_flatMap.1 w
        obtain ⟨z, -, e⟩ := List.mem_map.1 w
        have := hf y (List.mem_cons_of_mem _ hy) (Prod.mk.inj e).1
        rw [this] at hy
        exact hn.1 hy
      omega
    · have : f x ≠ f a := fun w => hx (hf x (by simp) w)
      rw [other x _ this, Nat.zero_add]
      exact ih hn.2 (by simpa [Ne.symm hx] using ha) (fun y hy => hf y (List.mem_cons_of_mem _ hy)) hb

/-- C101, exactly: the graph that is handed to the drawing shows the network if and only if any two of its nodes that look the same have ids that end
differently. -/
theorem C101_drawn_iff (h : Heap ℚ) (U : Addr → Prop) (H : Region h U) (roots : List Addr) (hr : ∀ r ∈ roots, U r) (tail : Uid → Nat) :
    ∃ c, Settles (fun fuel => paint tail fuel h roots) (.ok c) ∧ (Faithful c h roots ↔ Told tail h roots) := by
  obtain ⟨order, c, h1, h2, h3, h4, h5, h6, h7⟩ := paint_settles H roots hr tail
  refine ⟨c, h1, ?_, ?_⟩
  · rintro ⟨f, f1, f2, f3, -⟩
    rw [told_iff]
    have p1 : (order.map f).Nodup := h2.map_on fun a ha b hb e => f1 a b ((h3 a).1 ha) ((h3 b).1 hb) e
    have p2 : (order.map f).Perm c.nodes.keys := by
      rw [List.perm_ext_iff_of_nodup p1 f2]
      intro k
      rw [f3, List.mem_map]
      simp only [h3]
    have p3 : c.nodes.keys.Subperm (order.map (tagOf tail h)) := by
      refine List.subperm_of_subset h4 fun k hk => ?_
      obtain ⟨a, ha, rfl⟩ := (h5 k).1 hk
      exact List.mem_map_of_mem ((h3 a).2 ha)
    have p4 : (order.map (tagOf tail h)).Nodup := by
      have := p3.perm_of_length_le (by rw [← p2.length_eq]; simp)
      exact this.nodup_iff.1 h4
    intro a b ha hb e
    exact List.inj_on_of_nodup_map p4 ((h3 a).2 ha) ((h3 b).2 hb) e
  · intro w
    rw [told_iff] at w
    refine ⟨tagOf tail h, w, h4, h5, fun a ha => h6 _ ((h5 _).2 ⟨a, ha, rfl⟩), fun a b ha hb => ?_, fun e he => ?_⟩
    · rw [h7]
      exact count_edges (tagOf tail h) (fun x => (h.get x).children) a b order h2 ((h3 a).2 ha) (fun x hx e => w x a ((h3 x).1 hx) ha e)
        fun x hx e => w x b (ha.child hx) hb e
    · rw [h7] at he
      obtain ⟨a, ha, he⟩ := List.mem_flatMap.1 he
      obtain ⟨b, hb, rfl⟩ := List.mem_map.1 he
      exact ⟨a, b, (h3 a).1 ha, ((h3 a).1 ha).child hb, rfl⟩

/-- C101 for networks in which no two nodes look the same, whatever the ids. -/
theorem C101_drawn_partial (h : Heap ℚ) (U : Addr → Prop) (H : Region h U) (roots : List Addr) (hr : ∀ r ∈ roots, U r)
    (hd : ∀ a b, Reach h roots a → Reach h roots b → SameLook h a b → a = b) (tail : Uid → Nat) :
    ∃ c, Settles (fun fuel => paint tail fuel h roots) (.ok c) ∧ Faithful c h roots := by
  obtain ⟨c, h1, h2⟩ := C101_drawn_iff h U H roots hr tail
  exact ⟨c, h1, h2.2 fun a b ha hb e _ => hd a b ha hb e⟩

/-- C101 fails for some ids as soon as two nodes look the same. -/
theorem C101_drawn_fails (h : Heap ℚ) (U : Addr → Prop) (H : Region h U) (roots : List Addr) (hr : ∀ r ∈ roots, U r) (a b : Addr)
    (ha : Reach h roots a) (hb : Reach h roots b) (hab : a ≠ b) (he : SameLook h a b) (tail : Uid → Nat) (ht : tail (h.get a).id = tail (h.get b).id) :
    ∃ c, Settles (fun fuel => paint tail fuel h roots) (.ok c) ∧ ¬ Faithful c h roots := by
  obtain ⟨c, h1, h2⟩ := C101_drawn_iff h U H roots hr tail
  exact ⟨c, h1, fun w => hab (h2.1 w a b ha hb he ht)⟩

/-- More than `4096` nodes that look the same are never all drawn, whatever the ids: three hexadecimal digits do not tell them apart. -/
theorem C101_crowd (h : Heap ℚ) (U : Addr → Prop) (H : Region h U) (roots : List Addr) (hr : ∀ r ∈ roots, U r) (as : Fin 4097 → Addr)
    (hi : Function.Injective as) (hreach : ∀ i, Reach h roots (as i)) (he : ∀ i j, SameLook h (as i) (as j)) (tail : Uid → Nat) (ht : ∀ i, tail i < 16 ^ 3) :
    ∃ c, Settles (fun fuel => paint tail fuel h roots) (.ok c) ∧ ¬ Faithful c h roots := by
  obtain ⟨i, j, hij, e⟩ := Fintype.exists_ne_map_eq_of_card_lt (fun i : Fin 4097 => (⟨tail (h.get (as i)).id, ht _⟩ : Fin (16 ^ 3))) (by simp)
  exact C101_drawn_fails h U H roots hr (as i) (as j) (hreach i) (hreach j) (fun w => hij (hi w)) (he i j) tail (by simpa using e)

/-- C101, how often it fails. The last three digits of the ids of `k` nodes that look the same can be chosen in `4096 ^ k` ways (`uuid4` chooses them at
random). The picture shows the network in at most `4096 * 4095 * …` (`k` factors) of them. -/
theorem C101_chances (h : Heap ℚ) (U : Addr → Prop) (H : Region h U) (roots : List Addr) (hr : ∀ r ∈ roots, U r) (k : Nat) (as : Fin k → Addr)
    (hi : Function.Injective as) (hreach : ∀ i, Reach h roots (as i)) (he : ∀ i j, SameLook h (as i) (as j)) (tail₀ : Uid → Nat) :
    Nat.card { g : Fin k → Fin (16 ^ 3) // ∃ c, Settles (fun fuel => paint (Function.extend (fun i => (h.get (as i)).id) (fun i => (g i : Nat)) tail₀) fuel h roots) (.ok c) ∧
      Faithful c h roots } ≤ (16 ^ 3).descFactorial k := by
  have hU : ∀ a, Reach h roots a → U a := by
    intro a ha
    induction ha with
    | root hm => exact hr _ hm
    | child _ hb ih => exact H.children _ ih _ hb
  have hid : Function.Injective fun i => (h.get (as i)).id := fun i j e => hi (H.ids _ _ (hU _ (hreach i)) (hU _ (hreach j)) e)
  have key : ∀ g : { g : Fin k → Fin (16 ^ 3) // ∃ c, Settles (fun fuel => paint (Function.extend (fun i => (h.get (as i)).id) (fun i => (g i : Nat)) tail₀) fuel h roots) (.ok c) ∧
      Faithful c h roots }, Function.Injective g.1 := by
    rintro ⟨g, c, h1, h2⟩ i j e
    obtain ⟨c', h1', h3⟩ := C101_drawn_iff h U H roots hr (Function.extend (fun i => (h.get (as i)).id) (fun i => (g i : Nat)) tail₀)
    have := h1.unique h1'
    cases this
    refine hi (h3.1 h2 _ _ (hreach i) (hreach j) (he i j) ?_)
    rw [hid.extend_apply, hid.extend_apply]
    exact congrArg Fin.val e
  have := Nat.card_le_card_of_injective (fun g => (⟨g.1, key g⟩ : Fin k ↪ Fin (16 ^ 3))) (by
    intro a b e
    have : a.1 = b.1 := congrArg (fun f : Fin k ↪ Fin (16 ^ 3) => (f : Fin k → Fin (16 ^ 3))) e
    exact Subtype.ext this)
  refine this.trans (le_of_eq ?_)
  rw [Nat.card_eq_fintype_card, Fintype.card_embedding_eq, Fintype.card_fin, Fintype.card_fin]

/-- With 76 nodes that look the same the picture is wrong more often than not. -/
theorem C101_likely (h : Heap ℚ) (U : Addr → Prop) (H : Region h U) (roots : List Addr) (hr : ∀ r ∈ roots, U r) (as : Fin 76 → Addr)
    (hi : Function.Injective as) (hreach : ∀ i, Reach h roots (as i)) (he : ∀ i j, SameLook h (as i) (as j)) (tail₀ : Uid → Nat) :
    2 * Nat.card { g : Fin 76 → Fin (16 ^ 3) // ∃ c, Settles (fun fuel => paint (Function.extend (fun i => (h.get (as i)).id) (fun i => (g i : Nat)) tail₀) fuel h roots) (.ok c) ∧
      Faithful c h roots } < Nat.card (Fin 76 → Fin (16 ^ 3)) := by
  have h1 := C101_chances h U H roots hr 76 as hi hreach he tail₀
  have h2 : 2 * (16 ^ 3).descFactorial 76 < (16 ^ 3) ^ 76 := by decide +kernel
  rw [Nat.card_fun, Nat.card_fin, Nat.card_fin]
  omega

/-- The ids of two of the targets end with the same digits. -/
def twinTail : Uid → Nat := fun i => if i = 2 then 1 else i % 16 ^ 3

theorem attached_region {input : String} {sv tv : List ℚ} (hp : Parsed input.toList sv tv) (hs : ∀ v ∈ sv, 0 < v) (ht : ∀ v ∈ tv, 0 < v)
    (el : (Example.loaded input).result = .ok true) {h₁ : Heap ℚ} {t₁ : TreeObj ℚ} (e : attached input = .ok (h₁, t₁)) : Region h₁ (Reach h₁ t₁.roots) := by
  obtain ⟨s, t, hr, hsol, ha⟩ := attached_reached e
  obtain ⟨n, h', t', q1, q2, -⟩ := C67_solutions_sound (cfg := config) (by decide +kernel) hp hs ht el hr hsol
  have e1 := attachLeaves_stable s.heap.toRat t.toRat (Example.loaded input).attrs.leaves 100 (max 100 n) (le_max_left _ _) (by simp only [ha]; simp)
  have e2 := q1 _ (le_max_right 100 n)
  simp only at e1
  rw [ha] at e1
  have e2 : TreeObj.attachLeaves (max 100 n) s.heap.toRat t.toRat (Example.loaded input).attrs.leaves = _ := e2
  rw [e2] at e1
  simp only [Except.ok.injEq, Prod.mk.injEq] at e1
  obtain ⟨rfl, rfl⟩ := e1
  exact q2.region

/-- The checks on the run below, in one. -/
def twins (x : Heap ℚ × TreeObj ℚ) : Bool :=
  decide (x.2.roots = [5]) && decide ((x.1.get 5).children = [0, 1, 2, 3]) && decide ((x.1.get 1).value = (x.1.get 2).value) &&
    decide ((x.1.get 1).level = (x.1.get 2).level) && decide ((x.1.get 1).expands.map kind = (x.1.get 2).expands.map kind) &&
    decide (twinTail (x.1.get 1).id = twinTail (x.1.get 2).id)

theorem twins_run : (match attached "4 to 1 1 1 1" with | .ok x => twins x | .error _ => false) = true := by decide +kernel

/-- C101 is false: the solution of `"4 to 1 1 1 1"` divides the source by four. If the ids of two of the targets end with the same three digits, then the
picture does not show it. -/
theorem C101_drawn_false : (∀ i, twinTail i < 16 ^ 3) ∧ ∃ h t c, attached "4 to 1 1 1 1" = .ok (h, t) ∧
    Settles (fun fuel => paint twinTail fuel h t.roots) (.ok c) ∧ ¬ Faithful c h t.roots := by
  refine ⟨fun i => ?_, ?_⟩
  · unfold twinTail
    split
    · decide
    · exact Nat.mod_lt _ (by decide)
  · have key := twins_run
    cases e : attached "4 to 1 1 1 1" with
    | error err => rw [e] at key; cases key
    | ok x =>
      obtain ⟨h, t⟩ := x
      have H := attached_region (sv := [4]) (tv := [1, 1, 1, 1]) ⟨by decide +kernel, by decide, by decide⟩ (by norm_num) (by norm_num) (by decide +kernel) e
      rw [e] at key
      clear e
      unfold twins at key
      simp only [Bool.and_eq_true, decide_eq_true_eq] at key
      obtain ⟨⟨⟨⟨⟨r, k⟩, k1⟩, k2⟩, k3⟩, k4⟩ := key
      have a1 : Reach h t.roots 1 := .child (a := 5) (.root (by rw [r]; simp)) (by rw [k]; simp)
      have a2 : Reach h t.roots 2 := .child (a := 5) (.root (by rw [r]; simp)) (by rw [k]; simp)
      obtain ⟨c, h1, h2⟩ := C101_drawn_fails _ _ H _ (fun r hr => .root hr) 1 2 a1 a2 (by decide) ⟨k1, k2, (kinds_eq_iff _ _).1 k3⟩ twinTail k4
      exact ⟨h, t, c, rfl, h1, h2⟩

/-- What it shows instead: three targets, one of which gets two belts. -/
example : ((attached "4 to 1 1 1 1").toOption.bind fun x => (populateOrder 100 x.1 x.2.roots).toOption.map List.length) = some 5 := by decide +kernel

example : ((attached "4 to 1 1 1 1").toOption.bind fun x => (paint twinTail 100 x.1 x.2.roots).toOption.map fun c => c.nodes.map fun n => (n.1.value, n.1.tail)) =
    some [(4, 5), (1, 0), (1, 1), (1, 3)] := by decide +kernel

example : ((attached "4 to 1 1 1 1").toOption.bind fun x => (paint twinTail 100 x.1 x.2.roots).toOption.map fun c => c.edges.map fun e => (e.1.tail, e.2.tail)) =
    some [(5, 0), (5, 1), (5, 1), (5, 3)] := by decide +kernel

/-- Seventy-six nodes that look the same: the targets of a division by 76. -/
example : Region (divided 76 76) (· < (divided 76 76).next) ∧ (∀ i : Fin 76, Reach (divided 76 76) [0] (i + 1)) ∧
    ∀ i j : Fin 76, SameLook (divided 76 76) (i + 1) (j + 1) := by
  have k : ((divided 76 76).get 0).children = (List.range 76).map (· + 1) := by decide +kernel
  have v : ∀ i : Fin 76, ((divided 76 76).get (i + 1)).value = 1 ∧ ((divided 76 76).get (i + 1)).level = some 1 ∧
      ((divided 76 76).get (i + 1)).expands = [] := by decide +kernel
  refine ⟨region_all (by decide +kernel), fun i => .child (a := 0) (.root (by simp)) (by rw [k]; simp), fun i j => ?_⟩
  exact ⟨(v i).1.trans (v j).1.symm, (v i).2.1.trans (v j).2.1.symm, by rw [(v i).2.2, (v j).2.2]; exact .nil⟩

/-- No two nodes look the same when `5` is extracted from `8`. -/
example : Region (extracted 8 5) (· < (extracted 8 5).next) ∧ ∀ a < 3, ∀ b < 3, SameLook (extracted 8 5) a b → a = b := by
  have v : ∀ a < 3, ∀ b < 3, ((extracted 8 5).get a).value = ((extracted 8 5).get b).value → a = b := by decide +kernel
  exact ⟨region_all (by decide +kernel), fun a ha b hb w => v a ha b hb w.1⟩

/-! ## C102 — pictures are laid out by levels -/

theorem ranks_fold : ∀ (l : Dict (Tag ℚ) (Option (ℚ × Option Int))) (d : Dict Int (List (Tag ℚ))), d.keys.Nodup →
    ((∀ kv ∈ l, ∃ v i, kv.2 = some (v, some i)) → ∃ d', l.foldlM rankStep d = .ok d' ∧ d'.keys.Nodup ∧
      ∀ i, (d'.get? i).getD [] = (d.get? i).getD [] ++ (l.filter fun kv => decide ((kv.2.bind fun x => x.2) = some i)).map Prod.fst) ∧
    ((∃ kv ∈ l, ∀ v i, kv.2 ≠ some (v, some i)) → l.foldlM rankStep d = .error .valueError) := by
  intro l
  induction l with
  | nil =>
    intro d hd
    refine ⟨fun _ => ⟨d, rfl, hd, fun i => by simp⟩, ?_⟩
    rintro ⟨kv, hm, -⟩
    simp at hm
  | cons kv l ih =>
    intro d hd
    rcases kv with ⟨k, x⟩
    constructor
    · intro hl
      obtain ⟨v, i, e⟩ := hl (k, x) (by simp)
      simp only at e
      subst e
      obtain ⟨d', h1, h2, h3⟩ := (ih (d.set i ((d.get? i).getD [] ++ [k])) (Dict.keys_nodup_set _ _ _ hd)).1 fun y hy => hl y (List.mem_cons_of_mem _ hy)
      refine ⟨d', ?_, h2, fun j => ?_⟩
      · rw [List.foldlM_cons]
        exact h1
      · rw [h3, Dict.get?_set]
        by_cases hj : j = i
        · subst hj
          simp
        · have hj' : i ≠ j := fun w => hj w.symm
          simp [hj, hj']
    · rintro ⟨y, hy, hn⟩
      rw [List.foldlM_cons]
      rcases x with _ | ⟨v, _ | i⟩
      · rfl
      · rfl
      · refine (ih (d.set i ((d.get? i).getD [] ++ [k])) (Dict.keys_nodup_set _ _ _ hd)).2 ⟨y, ?_, hn⟩
        rcases List.mem_cons.1 hy with rfl | hy
        · exact absurd rfl (hn v i)
        · exact hy

/-- C102, exactly: the nodes of the picture can be grouped by level if and only if every node of the network has a level; then every node is in the
group of its level and in no other. Otherwise the conversion of `None` to a number raises `ValueError`, and nothing is written. -/
theorem C102_ranks (h : Heap ℚ) (U : Addr → Prop) (H : Region h U) (roots : List Addr) (hr : ∀ r ∈ roots, U r) (tail : Uid → Nat) :
    ∃ c, Settles (fun fuel => paint tail fuel h roots) (.ok c) ∧
      ((∀ a, Reach h roots a → (h.get a).level ≠ none) → ∃ d, ranks c = .ok d ∧ Ranked c d) ∧
      ((∃ a, Reach h roots a ∧ (h.get a).level = none) → ranks c = .error .valueError) := by
  obtain ⟨order, c, h1, h2, h3, h4, h5, h6, h7⟩ := paint_settles H roots hr tail
  have h8 : ∀ kv ∈ c.nodes, kv.2 = some (kv.1.value, kv.1.level) := by
    rintro ⟨k, x⟩ hm
    have e1 := Dict.get?_of_mem c.nodes h4 k x hm
    rw [h6 k (List.mem_map_of_mem hm)] at e1
    exact (Option.some.inj e1).symm
  refine ⟨c, h1, fun hl => ?_, ?_⟩
  · have hlv : ∀ kv ∈ c.nodes, ∃ i, kv.1.level = some i := by
      intro kv hm
      obtain ⟨a, ha, e⟩ := (h5 kv.1).1 (List.mem_map_of_mem hm)
      obtain ⟨i, hi⟩ := Option.ne_none_iff_exists'.1 (hl a ha)
      exact ⟨i, by rw [← e]; exact hi⟩
    obtain ⟨d, q1, q2, q3⟩ := (ranks_fold c.nodes [] (by simp [Dict.keys])).1 fun kv hm => by
      obtain ⟨i, hi⟩ := hlv kv hm
      exact ⟨kv.1.value, i, by rw [h8 kv hm, hi]⟩
    refine ⟨d, q1, q2, fun l ks e k hk => ?_, fun k hk => ?_⟩
    · have := q3 l
      rw [e] at this
      simp only [Option.getD_some, Dict.get?, Option.getD_none, List.nil_append] at this
      rw [this] at hk
      obtain ⟨kv, hm, rfl⟩ := List.mem_map.1 hk
      exact List.mem_map_of_mem (List.mem_of_mem_filter hm)
    · obtain ⟨kv, hm, rfl⟩ := List.mem_map.1 hk
      obtain ⟨i, hi⟩ := hlv kv hm
      refine ⟨kv.1.value, i, by rw [h6 _ hk, hi], fun j => ?_⟩
      rw [q3 j]
      simp only [Dict.get?, Option.getD_none, List.nil_append]
      have hn : ((c.nodes.filter fun kv => decide ((kv.2.bind fun x => x.2) = some j)).map Prod.fst).Nodup :=
        (List.filter_sublist.map Prod.fst).nodup h4
      rw [hn.count]
      have : kv.1 ∈ (c.nodes.filter fun kv => decide ((kv.2.bind fun x => x.2) = some j)).map Prod.fst ↔ j = i := by
        constructor
        · intro w
          obtain ⟨kv', hm', e⟩ := List.mem_map.1 w
          obtain ⟨m1, m2⟩ := List.mem_filter.1 hm'
          rw [h8 kv' m1] at m2
          simp only [Option.bind_some, decide_eq_true_eq] at m2
          rw [e, hi] at m2
          exact (Option.some.inj m2).symm
        · rintro rfl
          refine List.mem_map_of_mem (List.mem_filter.2 ⟨hm, ?_⟩)
          rw [h8 kv hm]
          simpa using hi
      simp only [this]
  · rintro ⟨a, ha, e⟩
    have hm : tagOf tail h a ∈ c.nodes.keys := (h5 _).2 ⟨a, ha, rfl⟩
    refine (ranks_fold c.nodes [] (by simp [Dict.keys])).2 ⟨_, Dict.mem_of_get? _ _ _ (h6 _ hm), ?_⟩
    rintro v i w
    simp only [Option.some.injEq, Prod.mk.injEq] at w
    have : (h.get a).level = some i := w.2
    rw [e] at this
    cases this

/-- C102 for saving: if every node below the roots has a level, then so it is in both pictures, so that both are laid out, unless `expand_roots` raises an
exception in between. -/
theorem C102_save (cfg : Config) (h : Heap ℚ) (U : Addr → Prop) (H : Region h U) (roots : List Addr) (hr : ∀ r ∈ roots, U r)
    (hl : ∀ a, Reach h roots a → a ∉ roots → (h.get a).level ≠ none) (tail : Uid → Nat) :
    (∃ c d, Settles (fun fuel => paint tail fuel (setLevels h roots 0) roots) (.ok c) ∧ ranks c = .ok d ∧ Ranked c d) ∧
    ∀ h', Settles (fun fuel => expandRoots cfg fuel (setLevels h roots 0) roots) (.ok h') →
      ∃ c d, Settles (fun fuel => paint tail fuel (setLevels h' roots 0) roots) (.ok c) ∧ ranks c = .ok d ∧ Ranked c d := by
  have one : ∀ (h : Heap ℚ) (U : Addr → Prop), Region h U → (∀ r ∈ roots, U r) → (∀ a, Reach h roots a → a ∉ roots → (h.get a).level ≠ none) →
      ∃ c d, Settles (fun fuel => paint tail fuel (setLevels h roots 0) roots) (.ok c) ∧ ranks c = .ok d ∧ Ranked c d := by
    intro h U H hr hl
    have S := setLevels_relevelled h roots 0
    obtain ⟨c, q1, q2, -⟩ := C102_ranks _ U (S.toSameGraph.region H) roots hr tail
    obtain ⟨d, q3, q4⟩ := q2 fun a ha => by
      rw [setLevels_get]
      split
      · simp
      · next w => exact hl a (S.toSameGraph.reach.1 ha) w
    exact ⟨c, d, q1, q3, q4⟩
  refine ⟨one h U H hr hl, fun h' hs => ?_⟩
  obtain ⟨⟨U', H', hr'⟩, hl'⟩ := expandRoots_some cfg ((setLevels_relevelled h roots 0).toSameGraph.region H) roots hr hs
  exact one h' U' H' hr' fun a ha _ => hl' a ha

section
variable {input : Utils.Str} {sv tv : List ℚ} {at₀ : Attrs} {h : Heap Int} {cfg : Config} {O : Oracle} {s : Search} {t : TreeObj Int}

/-- C102 for the solutions of a request: the targets can be attached, and then both pictures are laid out, unless `expand_roots` raises an exception in
between (see C46). -/
theorem C102_solution_pictures (hcfg : cfg.speeds.Pairwise (· ≤ ·)) (hp : Parsed input sv tv) (hs : ∀ v ∈ sv, 0 < v) (ht : ∀ v ∈ tv, 0 < v)
    (e : (Solver.load cfg input at₀ h).result = .ok true)
    (hr : Reached ((Solver.load cfg input at₀ h).attrs.problem cfg) O (Solver.load cfg input at₀ h).heap (Solver.load cfg input at₀ h).attrs.treeSource
      (Solver.load cfg input at₀ h).attrs.bestSize s) (hsol : t ∈ s.solutions) (tail : Uid → Nat) :
    ∃ h₁ t₁, Settles (fun fuel => t.toRat.attachLeaves fuel s.heap.toRat (Solver.load cfg input at₀ h).attrs.leaves) (.ok (h₁, t₁)) ∧
      (∃ c d, Settles (fun fuel => paint tail fuel (setLevels h₁ t₁.roots 0) t₁.roots) (.ok c) ∧ ranks c = .ok d ∧ Ranked c d) ∧
      ∀ h₂, Settles (fun fuel => expandRoots cfg fuel (setLevels h₁ t₁.roots 0) t₁.roots) (.ok h₂) →
        ∃ c d, Settles (fun fuel => paint tail fuel (setLevels h₂ t₁.roots 0) t₁.roots) (.ok c) ∧ ranks c = .ok d ∧ Ranked c d := by
  obtain ⟨n, h₁, t₁, q1, q2, -⟩ := C67_solutions_sound hcfg hp hs ht e hr hsol
  exact ⟨h₁, t₁, ⟨n, q1⟩, C102_save cfg h₁ _ q2.region t₁.roots (fun r hr => .root hr) (fun a ha _ => q2.levels a ha) tail⟩

end

/-- The layout of `"8 to 5 3"` after expansion. -/
example : ((attached "8 to 5 3").toOption.bind fun x => (expandRoots config 100 x.1 x.2.roots).toOption.bind fun h =>
    (paint id 100 h x.2.roots).toOption.bind fun c => (ranks c).toOption.map fun d => d.map fun e => (e.1, e.2.map fun k => k.tail)) =
    some [(0, [2]), (2, [51]), (3, [7, 8])] := by decide +kernel

/-- A network without a level: nothing is written. -/
example : ((paint id 10 ((extracted 8 5).modify 1 fun o => { o with level := none }) [0]).toOption.map fun c => (ranks c).toOption.isNone) = some true := by
  decide +kernel

end Satis
