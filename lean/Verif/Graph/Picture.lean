import Verif.Graph.PictureSpec
import Verif.Graph.SaveSpec
import Verif.Graph.Relevel
/-!
# What is drawn is the network
-/

namespace Satis.Graph
open Satis

/-- The nodes of `h` below `roots` appear in `g`, under other names. -/
structure Renamed (h : Heap ℚ) (roots : List Addr) (g : Heap ℚ) (φ ψ : Addr → Addr) : Prop where
  back : ∀ a, Reach h roots a → ψ (φ a) = a
  children : ∀ a, Reach h roots a → (g.get (φ a)).children = (h.get a).children.map φ
  parents : ∀ a, Reach h roots a → (g.get (φ a)).parents.Perm ((h.get a).parents.map φ)

variable {h g : Heap ℚ} {roots : List Addr} {φ ψ : Addr → Addr} {speeds : List Nat} {supply T : Addr → ℚ} {f : Addr → Addr → ℚ}

theorem Renamed.reach (R : Renamed h roots g φ ψ) {i : Addr} : Reach g (roots.map φ) i ↔ ∃ a, Reach h roots a ∧ φ a = i := by
  constructor
  · intro H
    induction H with
    | root w =>
      obtain ⟨a, ha, rfl⟩ := List.mem_map.1 w
      exact ⟨a, .root ha, rfl⟩
    | child _ hc ih =>
      obtain ⟨a, ha, rfl⟩ := ih
      rw [R.children a ha] at hc
      obtain ⟨c, hc', rfl⟩ := List.mem_map.1 hc
      exact ⟨c, ha.child hc', rfl⟩
  · rintro ⟨a, ha, rfl⟩
    induction ha with
    | root w => exact .root (List.mem_map_of_mem w)
    | child hp hc ih => exact ih.child (by rw [R.children _ hp]; exact List.mem_map_of_mem hc)

theorem Renamed.inj (R : Renamed h roots g φ ψ) {a b : Addr} (ha : Reach h roots a) (hb : Reach h roots b) (e : φ a = φ b) : a = b := by
  rw [← R.back a ha, ← R.back b hb, e]

theorem Renamed.count (R : Renamed h roots g φ ψ) {b : Addr} (hb : Reach h roots b) {l : List Addr} (hl : ∀ a ∈ l, Reach h roots a) :
    (l.map φ).count (φ b) = l.count b := by
  induction l with
  | nil => rfl
  | cons a l ih =>
    rw [List.map_cons, List.count_cons, List.count_cons, ih fun x hx => hl x (by simp [hx])]
    congr 1
    by_cases e : a = b
    · simp [e]
    · have : φ a ≠ φ b := fun w => e (R.inj (hl a (by simp)) hb w)
      simp [e, this]

theorem Renamed.mem_roots (R : Renamed h roots g φ ψ) {a : Addr} (ha : Reach h roots a) : φ a ∈ roots.map φ ↔ a ∈ roots := by
  constructor
  · intro w
    obtain ⟨r, hr, e⟩ := List.mem_map.1 w
    rw [← R.inj (.root hr) ha e]
    exact hr
  · exact List.mem_map_of_mem

/-- What enters, by the new names. -/
def carriedOver (roots : List Addr) (φ ψ : Addr → Addr) (supply : Addr → ℚ) (i : Addr) : ℚ := if i ∈ roots.map φ then supply (ψ i) else 0

theorem Renamed.moved (R : Renamed h roots g φ ψ) (hz : ∀ a, a ∉ roots → supply a = 0) {a : Addr} (ha : Reach h roots a) :
    carriedOver roots φ ψ supply (φ a) = supply a := by
  unfold carriedOver
  simp only [R.mem_roots ha, R.back a ha]
  split
  · rfl
  · next w => exact (hz a w).symm

theorem Renamed.sum (R : Renamed h roots g φ ψ) {a : Addr} (ha : Reach h roots a) (F : Addr → ℚ) :
    ((g.get (φ a)).parents.map F).sum = ((h.get a).parents.map fun p => F (φ p)).sum := by
  rw [((R.parents a ha).map F).sum_eq, List.map_map]
  rfl

/-- Flows by the new names. -/
theorem Renamed.carries (R : Renamed h roots g φ ψ) (hz : ∀ a, a ∉ roots → supply a = 0) (C : Carries speeds h roots supply T f) :
    Carries speeds g (roots.map φ) (carriedOver roots φ ψ supply) (fun i => T (ψ i)) (fun i j => f (ψ i) (ψ j)) := by
  refine ⟨?_, ?_, ?_, ?_, ?_⟩
  · intro i hi p hp
    obtain ⟨a, ha, rfl⟩ := R.reach.1 hi
    rw [(R.parents a ha).mem_iff] at hp
    obtain ⟨q, hq, rfl⟩ := List.mem_map.1 hp
    exact R.reach.2 ⟨q, C.closed a ha q hq, rfl⟩
  · intro i j hi hj
    obtain ⟨a, ha, rfl⟩ := R.reach.1 hi
    obtain ⟨b, hb, rfl⟩ := R.reach.1 hj
    rw [R.children a ha, (R.parents b hb).count_eq, R.count hb fun c hc => ha.child hc, R.count ha fun p hp => C.closed b hb p hp]
    exact C.links a b ha hb
  · intro i hi
    obtain ⟨a, ha, rfl⟩ := R.reach.1 hi
    rw [(R.parents a ha).length_eq, List.length_map]
    have := C.inputs a ha
    simpa only [R.mem_roots ha] using this
  · intro i hi
    obtain ⟨a, ha, rfl⟩ := R.reach.1 hi
    rw [R.moved hz ha, R.sum ha fun p => f (ψ p) (ψ (φ a)), R.back a ha, C.intake a ha]
    congr 2
    exact List.map_congr_left fun p hp => by rw [R.back p (C.closed a ha p hp)]
  · intro i hi hc
    obtain ⟨a, ha, rfl⟩ := R.reach.1 hi
    rw [R.children a ha] at hc ⊢
    rw [R.back a ha, List.length_map]
    rcases C.share a ha (by simpa using hc) with ⟨w1, w2⟩ | ⟨x, y, w1, w2, w3, w4⟩
    · refine .inl ⟨w1, fun c hm => ?_⟩
      obtain ⟨c, hc', rfl⟩ := List.mem_map.1 hm
      rw [R.back c (ha.child hc')]
      exact w2 c hc'
    · have hx : Reach h roots x := ha.child (by rw [w1]; simp)
      have hy : Reach h roots y := ha.child (by rw [w1]; simp)
      refine .inr ⟨φ x, φ y, by rw [w1]; rfl, fun e => w2 (R.inj hx hy e), ?_⟩
      rw [R.back x hx, R.back y hy]
      exact ⟨w3, w4⟩

theorem Renamed.obeys (R : Renamed h roots g φ ψ) (hz : ∀ a, a ∉ roots → supply a = 0) (hcl : ∀ a, Reach h roots a → ∀ p ∈ (h.get a).parents, Reach h roots p)
    {set : Addr → Option (Addr × ℕ)} (O : Obeys h roots supply set T f) :
    Obeys g (roots.map φ) (carriedOver roots φ ψ supply) (fun i => (set (ψ i)).map fun x => (φ x.1, x.2)) (fun i => T (ψ i)) (fun i j => f (ψ i) (ψ j)) := by
  refine ⟨?_, ?_, ?_⟩
  · intro i hi
    obtain ⟨a, ha, rfl⟩ := R.reach.1 hi
    rw [R.moved hz ha, R.sum ha fun p => f (ψ p) (ψ (φ a)), R.back a ha, O.intake a ha]
    congr 2
    exact List.map_congr_left fun p hp => by rw [R.back p (hcl a ha p hp)]
  · intro i hi hs c hc
    obtain ⟨a, ha, rfl⟩ := R.reach.1 hi
    rw [R.back a ha, Option.map_eq_none_iff] at hs
    rw [R.children a ha] at hc ⊢
    obtain ⟨c, hc', rfl⟩ := List.mem_map.1 hc
    rw [R.back a ha, R.back c (ha.child hc'), List.length_map]
    exact O.even a ha hs c hc'
  · intro i x s hi hs
    obtain ⟨a, ha, rfl⟩ := R.reach.1 hi
    rw [R.back a ha, Option.map_eq_some_iff] at hs
    obtain ⟨⟨x', s'⟩, hs, e⟩ := hs
    simp only [Prod.mk.injEq] at e
    obtain ⟨rfl, rfl⟩ := e
    obtain ⟨y, q1, q2, q3⟩ := O.belt a x' s' ha hs
    have hx : Reach h roots x' := ha.child (by rcases q2 with w | w <;> rw [w] <;> simp)
    have hy : Reach h roots y := ha.child (by rcases q2 with w | w <;> rw [w] <;> simp)
    refine ⟨φ y, fun e => q1 (R.inj hx hy e), ?_, ?_⟩
    · rw [R.children a ha]
      rcases q2 with w | w <;> rw [w] <;> simp
    · rw [R.back a ha, R.back x' hx, R.back y hy]
      exact q3

theorem Renamed.obeyed (R : Renamed h roots g φ ψ) (hz : ∀ a, a ∉ roots → supply a = 0) {set : Addr → Option (Addr × ℕ)}
    (hset : ∀ a x s, Reach h roots a → set a = some (x, s) → Reach h roots x)
    {T' : Addr → ℚ} {f' : Addr → Addr → ℚ}
    (O : Obeys g (roots.map φ) (carriedOver roots φ ψ supply) (fun i => (set (ψ i)).map fun x => (φ x.1, x.2)) T' f') :
    Obeys h roots supply set (fun a => T' (φ a)) (fun a b => f' (φ a) (φ b)) := by
  refine ⟨?_, ?_, ?_⟩
  · intro a ha
    have := O.intake (φ a) (R.reach.2 ⟨a, ha, rfl⟩)
    rw [R.moved hz ha, R.sum ha fun p => f' p (φ a)] at this
    exact this
  · intro a ha hs c hc
    have := O.even (φ a) (R.reach.2 ⟨a, ha, rfl⟩) (by rw [R.back a ha, hs]; rfl) (φ c) (by rw [R.children a ha]; exact List.mem_map_of_mem hc)
    rw [R.children a ha, List.length_map] at this
    exact this
  · intro a x s ha hs
    obtain ⟨y, q1, q2, q3⟩ := O.belt (φ a) (φ x) s (R.reach.2 ⟨a, ha, rfl⟩) (by rw [R.back a ha, hs]; rfl)
    rw [R.children a ha] at q2
    have hx := hset a x s ha hs
    have key : ∀ u v, (h.get a).children.map φ = [u, v] → ∃ p q, (h.get a).children = [p, q] ∧ φ p = u ∧ φ q = v := by
      intro u v e
      match hh : (h.get a).children, e with
      | [p, q], e =>
        simp only [List.map_cons, List.map_nil, List.cons.injEq, and_true] at e
        exact ⟨p, q, rfl, e.1, e.2⟩
    rcases q2 with w | w
    · obtain ⟨p, q, e, e1, e2⟩ := key _ _ w
      have hp : Reach h roots p := ha.child (by rw [e]; simp)
      have := R.inj hp hx e1
      subst this
      exact ⟨q, fun w => q1 (by rw [← e2, w]), .inl e, q3.1, by rw [e2]; exact q3.2⟩
    · obtain ⟨p, q, e, e1, e2⟩ := key _ _ w
      have hq : Reach h roots q := ha.child (by rw [e]; simp)
      have := R.inj hq hx e2
      subst this
      exact ⟨p, fun w => q1 (by rw [← e1, w]), .inr e, q3.1, by rw [e1]; exact q3.2⟩

theorem Renamed.forced (R : Renamed h roots g φ ψ) (hz : ∀ a, a ∉ roots → supply a = 0) (hcl : ∀ a, Reach h roots a → ∀ p ∈ (h.get a).parents, Reach h roots p)
    (Fo : Forced speeds h roots supply T f) :
    Forced speeds g (roots.map φ) (carriedOver roots φ ψ supply) (fun i => T (ψ i)) (fun i j => f (ψ i) (ψ j)) := by
  obtain ⟨set, q1, q2, q3⟩ := Fo
  refine ⟨_, ?_, R.obeys hz hcl q2, fun T' f' O i hi => ?_⟩
  · intro i x s hs
    rw [Option.map_eq_some_iff] at hs
    obtain ⟨⟨x', s'⟩, hs, e⟩ := hs
    simp only [Prod.mk.injEq] at e
    obtain ⟨rfl, rfl⟩ := e
    exact q1 _ _ _ hs
  · obtain ⟨a, ha, rfl⟩ := R.reach.1 hi
    obtain ⟨w1, w2⟩ := q3 _ _ (R.obeyed hz (fun a x s ha hs => by
      obtain ⟨y, -, w, -⟩ := q2.belt a x s ha hs
      exact ha.child (by rcases w with w | w <;> rw [w] <;> simp)) O) a ha
    beta_reduce
    rw [R.back a ha]
    refine ⟨w1, fun c hc => ?_⟩
    rw [R.children a ha] at hc
    obtain ⟨c, hc', rfl⟩ := List.mem_map.1 hc
    rw [R.back c (ha.child hc')]
    exact w2 c hc'

/-! ## Drawings -/

/-- A drawing, with other names. -/
def Drawing.rename (γ : Uid → Uid) (d : Drawing ℚ) : Drawing ℚ := ⟨d.nodes.map fun x => (γ x.1, x.2), d.edges.map fun e => (γ e.1, γ e.2)⟩

theorem Drawing.rename_id (d : Drawing ℚ) : d.rename id = d := by
  cases d
  simp [Drawing.rename]

variable {order : List Addr} {γ : Uid → Uid} {U : Addr → Prop}

theorem outs_drawing (hU : Region h U) (hγ : Function.Injective γ) (hnd : order.Nodup) (ho : ∀ a ∈ order, U a) {a : Addr} (ha : a ∈ order) :
    ((drawing h order).rename γ).outs (γ (h.get a).id) = (h.get a).children.map fun c => γ (h.get c).id := by
  unfold Drawing.outs Drawing.rename drawing
  simp only
  induction order with
  | nil => simp at ha
  | cons x l ih =>
    rw [List.nodup_cons] at hnd
    rw [List.flatMap_cons, List.map_append, List.filter_append, List.map_append]
    have none : ∀ y, U y → y ≠ a → ((((h.get y).children.map fun c => ((h.get y).id, (h.get c).id)).map fun e => (γ e.1, γ e.2)).filter
        fun e => decide (e.1 = γ (h.get a).id)) = [] := by
      intro y hy hne
      rw [List.filter_eq_nil_iff]
      intro e he
      simp only [List.map_map, List.mem_map, Function.comp] at he
      obtain ⟨c, -, rfl⟩ := he
      simp only [decide_eq_true_eq]
      exact fun w => hne (hU.ids y a hy (ho a ha) (hγ w))
    rcases List.mem_cons.1 ha with rfl | hm
    · have h1 : ((l.flatMap fun y => (h.get y).children.map fun c => ((h.get y).id, (h.get c).id)).map fun e => (γ e.1, γ e.2)).filter
          (fun e => decide (e.1 = γ (h.get a).id)) = [] := by
        rw [List.filter_eq_nil_iff]
        intro e he
        simp only [List.mem_map, List.mem_flatMap] at he
        obtain ⟨_, ⟨y, hy, c, -, rfl⟩, rfl⟩ := he
        simp only [decide_eq_true_eq]
        exact fun w => hnd.1 (by rw [← hU.ids y a (ho y (by simp [hy])) (ho a ha) (hγ w)]; exact hy)
      rw [h1, List.map_nil, List.append_nil, List.filter_eq_self.2]
      · simp
      · intro e he
        simp only [List.map_map, List.mem_map, Function.comp] at he
        obtain ⟨c, -, rfl⟩ := he
        simp
    · rw [none x (ho x (by simp)) fun e => hnd.1 (e ▸ hm), List.map_nil, List.nil_append]
      exact ih hnd.2 (fun y hy => ho y (by simp [hy])) hm

theorem ins_count (d : Drawing ℚ) (i j : Uid) : (d.ins j).count i = (d.outs i).count j := by
  unfold Drawing.ins Drawing.outs
  rw [List.count, List.countP_map, List.countP_filter, List.count, List.countP_map, List.countP_filter]
  refine List.countP_congr fun e _ => ?_
  simp only [Function.comp, Bool.and_eq_true, beq_iff_eq, decide_eq_true_eq]
  exact And.comm

/-- What is drawn is the network. -/
theorem drawing_renamed (hU : Region h U) (hγ : Function.Injective γ) (hnd : order.Nodup) (ho : ∀ a, a ∈ order ↔ Reach h roots a)
    (hrU : ∀ a, Reach h roots a → U a) (hcl : ∀ a, Reach h roots a → ∀ p ∈ (h.get a).parents, Reach h roots p)
    (hlk : ∀ a b, Reach h roots a → Reach h roots b → (h.get a).children.count b = (h.get b).parents.count a) :
    ∃ ψ, Renamed h roots ((drawing h order).rename γ).network (fun a => γ (h.get a).id) ψ := by
  classical
  have hinj : ∀ a b, Reach h roots a → Reach h roots b → γ (h.get a).id = γ (h.get b).id → a = b := fun a b ha hb e =>
    hU.ids a b (hrU a ha) (hrU b hb) (hγ e)
  have hψ : ∃ ψ : Addr → Addr, ∀ a, Reach h roots a → ψ (γ (h.get a).id) = a := by
    refine ⟨fun i => if w : ∃ a, Reach h roots a ∧ γ (h.get a).id = i then w.choose else 0, fun a ha => ?_⟩
    have w : ∃ b, Reach h roots b ∧ γ (h.get b).id = γ (h.get a).id := ⟨a, ha, rfl⟩
    beta_reduce
    rw [dif_pos w]
    exact hinj _ _ w.choose_spec.1 ha w.choose_spec.2
  obtain ⟨ψ, hψ⟩ := hψ
  have hout : ∀ a, Reach h roots a → ((drawing h order).rename γ).outs (γ (h.get a).id) = (h.get a).children.map fun c => γ (h.get c).id := fun a ha =>
    outs_drawing hU hγ hnd (fun b hb => hrU b ((ho b).1 hb)) ((ho a).2 ha)
  have hcount : ∀ (l : List Addr) b, Reach h roots b → (∀ a ∈ l, Reach h roots a) → (l.map fun c => γ (h.get c).id).count (γ (h.get b).id) = l.count b := by
    intro l b hb hl
    induction l with
    | nil => rfl
    | cons a l ih =>
      rw [List.map_cons, List.count_cons, List.count_cons, ih fun x hx => hl x (by simp [hx])]
      congr 1
      by_cases e : a = b
      · simp [e]
      · have : γ (h.get a).id ≠ γ (h.get b).id := fun w => e (hinj _ _ (hl a (by simp)) hb w)
        simp [e, this]
  refine ⟨ψ, hψ, hout, fun b hb => ?_⟩
  show (((drawing h order).rename γ).ins (γ (h.get b).id)).Perm _
  rw [List.perm_iff_count]
  intro i
  rw [ins_count]
  by_cases w : ∃ a, Reach h roots a ∧ γ (h.get a).id = i
  · obtain ⟨a, ha, rfl⟩ := w
    rw [hout a ha, hcount _ b hb fun c hc => ha.child hc, hcount _ a ha fun p hp => hcl b hb p hp]
    exact hlk a b ha hb
  · have h1 : ((drawing h order).rename γ).outs i = [] := by
      unfold Drawing.outs
      rw [List.map_eq_nil_iff, List.filter_eq_nil_iff]
      intro e he
      simp only [Drawing.rename, drawing, List.mem_map, List.mem_flatMap] at he
      obtain ⟨_, ⟨y, hy, c, -, rfl⟩, rfl⟩ := he
      simp only [decide_eq_true_eq]
      exact fun q => w ⟨y, (ho y).1 hy, q⟩
    have h2 : ((h.get b).parents.map fun c => γ (h.get c).id).count i = 0 := by
      rw [List.count_eq_zero]
      intro hm
      obtain ⟨p, hp, e⟩ := List.mem_map.1 hm
      exact w ⟨p, hcl b hb p hp, e⟩
    rw [h1, h2]
    rfl

theorem Relevelled.carries {h' : Heap ℚ} (S : Relevelled h h') (C : Carries speeds h roots supply T f) : Carries speeds h' roots supply T f := by
  refine ⟨?_, ?_, ?_, ?_, ?_⟩
  · simpa only [S.reach, S.parents] using C.closed
  · simpa only [S.reach, S.parents, S.children] using C.links
  · simpa only [S.reach, S.parents] using C.inputs
  · simpa only [S.reach, S.parents] using C.intake
  · simpa only [S.reach, S.children] using C.share

/-- A node with a division or an extraction pending has several children. -/
theorem Sound.several (P : Sound speeds h roots) {a : Addr} (ha : Reach h roots a) (w : ¬ ∀ e ∈ (h.get a).expands, ∃ t, e = .merge t) :
    2 ≤ (h.get a).children.length := by
  obtain ⟨es, q1, q2⟩ := P.jobs a ha
  rcases q1 with J | ⟨c, -, -, q⟩
  · cases J with
    | divide d D => rw [D.count]; exact D.two
    | extract v c x y D => rw [D.children]; simp
    | _ =>
      refine absurd (fun e he => ?_) w
      rw [q2, List.append_nil] at he
      split at he
      · exact ⟨3, by simpa using he⟩
      · simp at he
  · have := q.length_eq
    simp only [List.length_map, List.length_cons, List.length_nil] at this
    omega

/-- The picture of the expanded network. -/
theorem shows_of {h₁ h₂ : Heap ℚ} {order₁ order : List Addr} {k n : Nat} {S Tl : List ℚ} {sources : List Addr}
    (P : Sound speeds h₁ roots) (hU : Region h₂ U) (hrU : ∀ a, Reach h₂ roots a → U a) (hid : ∀ a, Reach h₁ roots a → (h₂.get a).id = (h₁.get a).id)
    (hn : ∀ a, Reach h₁ roots a → (h₁.get a).id < n) (hγ : Function.Injective γ) (hfix : ∀ i < n, γ i = i)
    (hnd₁ : order₁.Nodup) (ho₁ : ∀ a, a ∈ order₁ ↔ Reach h₁ roots a) (hnd : order.Nodup) (ho : ∀ a, a ∈ order ↔ Reach h₂ roots a)
    (C : Carries speeds h₂ roots supply T f) (Fo : Forced speeds h₂ roots supply T f)
    (hz : ∀ a, a ∉ roots → supply a = 0) (hS : (roots.map supply).Perm S) (hsup : ∀ r ∈ roots, supply r = (h₁.get r).value / k)
    (hsn : sources.Nodup) (hsrc : ∀ x, x ∈ sources ↔ Reach h₂ roots x ∧ (h₂.get x).children = []) (hT : (sources.map T).Perm Tl)
    (hleaf : ∀ x, Reach h₂ roots x → (h₂.get x).children = [] → T x = (h₂.get x).value / k)
    (Lb : Labels h₁ h₂ roots k T) :
    Shows speeds ((drawing (setLevels h₂ roots 0) order).rename γ) (drawing (setLevels h₁ roots 0) order₁) k S Tl := by
  have R₂ := setLevels_relevelled h₂ roots 0
  have R₁ := setLevels_relevelled h₁ roots 0
  generalize setLevels h₂ roots 0 = g₂ at R₂ ⊢
  generalize setLevels h₁ roots 0 = g₁ at R₁ ⊢
  have C' := R₂.carries C
  have hU' := R₂.region hU
  have ho' : ∀ a, a ∈ order ↔ Reach g₂ roots a := fun a => by rw [R₂.reach]; exact ho a
  have hrU' : ∀ a, Reach g₂ roots a → U a := fun a ha => hrU a (R₂.reach.1 ha)
  obtain ⟨ψ, Rn⟩ := drawing_renamed hU' hγ hnd ho' hrU' C'.closed C'.links
  have hnames : ((drawing g₂ order).rename γ).names = order.map fun a => γ (g₂.get a).id := by
    simp [Drawing.names, Drawing.rename, drawing]
  have hinj : ∀ a ∈ order, ∀ b ∈ order, γ (g₂.get a).id = γ (g₂.get b).id → a = b := fun a ha b hb e => Rn.inj ((ho' a).1 ha) ((ho' b).1 hb) e
  have houts : ∀ a, Reach g₂ roots a → ((drawing g₂ order).rename γ).outs (γ (g₂.get a).id) = (g₂.get a).children.map fun c => γ (g₂.get c).id :=
    fun a ha => outs_drawing hU' hγ hnd (fun b hb => hrU' b ((ho' b).1 hb)) ((ho' a).2 ha)
  have hroot : ∀ r ∈ roots, Reach g₂ roots r := fun r hr => .root hr
  refine ⟨roots.map fun a => γ (g₂.get a).id, _, _, _, ?_, fun i => ?_, Rn.carries hz C',
    Rn.forced hz C'.closed (Fo.relink (fun a => R₂.reach) R₂.children R₂.parents), fun i hi => if_neg hi, ?_, ?_, ?_⟩
  · rw [hnames]
    exact hnd.map_on hinj
  · rw [hnames, Rn.reach, List.mem_map]
    simp only [ho']
  · rw [List.map_map]
    refine (List.Perm.of_eq (List.map_congr_left fun r hr => ?_)).trans hS
    exact Rn.moved hz (hroot r hr)
  · rw [hnames]
    have e1 : ((order.map fun a => γ (g₂.get a).id).filter fun i => decide (((drawing g₂ order).rename γ).outs i = [])) =
        (order.filter fun a => decide ((g₂.get a).children = [])).map fun a => γ (g₂.get a).id := by
      rw [List.filter_map]
      congr 1
      refine List.filter_congr fun a ha => ?_
      simp only [Function.comp]
      rw [houts a ((ho' a).1 ha)]
      simp
    rw [e1, List.map_map]
    have e2 : (order.filter fun a => decide ((g₂.get a).children = [])).Perm sources := by
      refine (List.perm_ext_iff_of_nodup (hnd.filter _) hsn).2 fun a => ?_
      rw [List.mem_filter, decide_eq_true_eq, ho, hsrc, R₂.children]
    refine (List.Perm.of_eq (List.map_congr_left fun a ha => ?_)).trans ((e2.map T).trans hT)
    show T (ψ _) = T a
    rw [Rn.back a ((ho' a).1 (List.mem_filter.1 ha).1)]
  · intro i v l hm
    simp only [Drawing.rename, drawing, List.mem_map] at hm
    obtain ⟨_, ⟨a, ha, rfl⟩, e⟩ := hm
    simp only [Prod.mk.injEq] at e
    obtain ⟨rfl, rfl, -⟩ := e
    have har := (ho' a).1 ha
    have har2 := (ho a).1 ha
    refine ⟨fun hr => ?_, fun hc => ?_, ?_⟩
    · rw [Rn.mem_roots har] at hr
      rw [Rn.moved hz har, hsup a hr, R₂.value, Lb.kept a (.root hr)]
    · rw [houts a har, List.map_eq_nil_iff, R₂.children] at hc
      rw [Rn.back a har, R₂.value]
      exact hleaf a har2 hc
    · rw [Rn.back a har, R₂.value]
      by_cases w : Reach h₁ roots a → ∀ e ∈ (h₁.get a).expands, ∃ t, e = .merge t
      · exact .inl (Lb.plain a har2 w)
      · rw [Classical.not_imp] at w
        obtain ⟨w1, w2⟩ := w
        have hi : γ (g₂.get a).id = (g₁.get a).id := by rw [R₂.id, hid a w1, hfix _ (hn a w1), R₁.id]
        have hreg : Region g₁ (Reach h₁ roots) := R₁.region P.region
        right
        constructor
        · have := outs_drawing (γ := id) hreg (fun _ _ e => e) hnd₁ (fun b hb => (ho₁ b).1 hb) ((ho₁ a).2 w1)
          rw [Drawing.rename_id] at this
          rw [hi]
          simp only [id] at this
          rw [this, List.length_map, R₁.children]
          exact P.several w1 w2
        · refine ⟨(g₁.get a).level, ?_⟩
          rw [hi]
          simp only [drawing, List.mem_map]
          exact ⟨a, (ho₁ a).2 w1, by rw [Lb.kept a w1, R₁.value]⟩

end Satis.Graph
