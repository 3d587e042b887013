import Verif.Side.Speeds
import Mathlib.Data.List.Perm.Subperm

/-! The graph of belt speeds. -/

namespace Satis.Speeds

/-- The speeds that can be reached: the first ones, and from a reached one half, third, double and triple, where it is
a whole number up to the bound. -/
inductive Reached (limit : ℕ) (start : List ℕ) : ℕ → Prop
  | start {v} : v ∈ start → Reached limit start v
  | up {v} (k : ℕ) : Reached limit start v → (k = 2 ∨ k = 3) → v * k ≤ limit → Reached limit start (v * k)
  | down {w} (k : ℕ) : Reached limit start (w * k) → (k = 2 ∨ k = 3) → w ≤ limit → Reached limit start w

/-- `b` is `k` times `a` or the other way round. -/
def Ratio (k a b : ℕ) : Prop := (k = 2 ∨ k = 3) ∧ (b = a * k ∨ a = b * k)

theorem Ratio.label {k l a b : ℕ} (ha : 0 < a) (h : Ratio k a b) (h' : Ratio l a b) : k = l := by
  obtain ⟨hk, h⟩ := h
  obtain ⟨hl, h'⟩ := h'
  rcases hk with rfl | rfl <;> rcases hl with rfl | rfl <;> rcases h with h | h <;> rcases h' with h' | h' <;> omega

theorem Ratio.symm {k a b : ℕ} (h : Ratio k a b) : Ratio k b a := ⟨h.1, h.2.symm⟩

theorem mem_operations {v r k : ℕ} : (some r, k) ∈ operations v ↔ Ratio k v r := by
  unfold operations Ratio
  simp only [List.mem_cons, Prod.mk.injEq, List.not_mem_nil, or_false]
  constructor
  · rintro (⟨h, rfl⟩ | ⟨h, rfl⟩ | ⟨h, rfl⟩ | ⟨h, rfl⟩)
    · split_ifs at h with h2
      simp only [Option.some.injEq] at h
      exact ⟨by omega, by omega⟩
    · split_ifs at h with h2
      simp only [Option.some.injEq] at h
      exact ⟨by omega, by omega⟩
    · simp only [Option.some.injEq] at h
      exact ⟨by omega, by omega⟩
    · simp only [Option.some.injEq] at h
      exact ⟨by omega, by omega⟩
  · rintro ⟨rfl | rfl, rfl | rfl⟩
    · right; right; left; simp
    · left
      rw [if_pos (by omega)]
      simp
    · right; right; right; simp
    · right; left
      rw [if_pos (by omega)]
      simp

theorem hasEdge_iff {g : Gr} {u v : ℕ} :
    g.hasEdge u v = true ↔ ∃ e ∈ g.edges, (e.1 = u ∧ e.2.1 = v) ∨ (e.1 = v ∧ e.2.1 = u) := by
  unfold Gr.hasEdge
  rw [List.any_eq_true]
  simp

/-- What stays true while the graph grows. -/
structure Fine (limit : ℕ) (start : List ℕ) (g : Gr) : Prop where
  nodup : g.nodes.Nodup
  pos : ∀ v ∈ g.nodes, 0 < v
  bound : ∀ v ∈ g.nodes, v ≤ limit
  reached : ∀ v ∈ g.nodes, Reached limit start v
  ends : ∀ e ∈ g.edges, e.1 ∈ g.nodes ∧ e.2.1 ∈ g.nodes ∧ Ratio e.2.2 e.1 e.2.1
  once : g.edges.Pairwise (fun e f => ¬ ((e.1 = f.1 ∧ e.2.1 = f.2.1) ∨ (e.1 = f.2.1 ∧ e.2.1 = f.1)))

/-- Nothing is lost. -/
structure Grows (g g' : Gr) : Prop where
  nodes : ∃ l, g'.nodes = g.nodes ++ l
  edges : ∃ l, g'.edges = g.edges ++ l

theorem Grows.refl (g : Gr) : Grows g g := ⟨⟨[], by simp⟩, ⟨[], by simp⟩⟩

theorem Grows.trans {a b c : Gr} (h : Grows a b) (h' : Grows b c) : Grows a c := by
  obtain ⟨⟨l1, e1⟩, ⟨l2, e2⟩⟩ := h
  obtain ⟨⟨k1, f1⟩, ⟨k2, f2⟩⟩ := h'
  exact ⟨⟨l1 ++ k1, by rw [f1, e1, List.append_assoc]⟩, ⟨l2 ++ k2, by rw [f2, e2, List.append_assoc]⟩⟩

theorem Grows.mem {g g' : Gr} (h : Grows g g') {v : ℕ} (hv : v ∈ g.nodes) : v ∈ g'.nodes := by
  obtain ⟨l, e⟩ := h.nodes
  rw [e]
  exact List.mem_append_left _ hv

theorem Grows.edge {g g' : Gr} (h : Grows g g') {u v : ℕ} (he : g.hasEdge u v = true) : g'.hasEdge u v = true := by
  rw [hasEdge_iff] at he ⊢
  obtain ⟨e, hm, hu⟩ := he
  obtain ⟨l, hl⟩ := h.edges
  exact ⟨e, by rw [hl]; exact List.mem_append_left _ hm, hu⟩

theorem connect_fine {limit node : ℕ} {start : List ℕ} {g : Gr} {op : Option ℕ × ℕ} (h : Fine limit start g)
    (hn : node ∈ g.nodes) (hop : op ∈ operations node) :
    Fine limit start (connect limit node g op) ∧ Grows g (connect limit node g op) ∧
      ∀ r, op.1 = some r → r ≤ limit →
        r ∈ (connect limit node g op).nodes ∧ (connect limit node g op).hasEdge node r = true := by
  obtain ⟨o, k⟩ := op
  cases o with
  | none => exact ⟨h, Grows.refl g, fun r hr => by simp at hr⟩
  | some r =>
    have hratio := mem_operations.mp hop
    have hnpos := h.pos node hn
    have hrpos : 0 < r := by
      obtain ⟨hk, hr | hr⟩ := hratio
      · rcases hk with rfl | rfl <;> omega
      · by_contra h0
        have : r = 0 := by omega
        rw [this, Nat.zero_mul] at hr
        omega
    by_cases hlim : limit < r
    · have e : connect limit node g (some r, k) = g := if_pos hlim
      rw [e]
      refine ⟨h, Grows.refl g, fun r' hr' hle => ?_⟩
      have : r = r' := by simpa using hr'
      omega
    · have e : connect limit node g (some r, k)
          = if (if r ∈ g.nodes then g else { g with nodes := g.nodes ++ [r] }).hasEdge node r
            then (if r ∈ g.nodes then g else { g with nodes := g.nodes ++ [r] })
            else { (if r ∈ g.nodes then g else { g with nodes := g.nodes ++ [r] }) with
              edges := (if r ∈ g.nodes then g else { g with nodes := g.nodes ++ [r] }).edges ++ [(node, r, k)] } :=
        if_neg hlim
      rw [e]
      have hreach : Reached limit start r := by
        obtain ⟨hk, hr | hr⟩ := hratio
        · rw [hr]
          exact .up k (h.reached node hn) hk (by omega)
        · exact .down k (by rw [← hr]; exact h.reached node hn) hk (by omega)
      have step : ∃ g1, (if r ∈ g.nodes then g else { g with nodes := g.nodes ++ [r] }) = g1 ∧ Fine limit start g1 ∧
          Grows g g1 ∧ r ∈ g1.nodes ∧ node ∈ g1.nodes := by
        refine ⟨_, rfl, ?_⟩
        split_ifs with hr
        · exact ⟨h, Grows.refl g, hr, hn⟩
        · refine ⟨⟨?_, ?_, ?_, ?_, ?_, h.once⟩, ⟨⟨[r], rfl⟩, ⟨[], by simp⟩⟩, by simp, by simp [hn]⟩
          · show (g.nodes ++ [r]).Nodup
            rw [List.nodup_append]
            refine ⟨h.nodup, by simp, ?_⟩
            intro a ha b hb
            rw [List.mem_singleton.mp hb]
            exact fun e => hr (e ▸ ha)
          · intro v hv
            rcases List.mem_append.mp hv with hv | hv
            · exact h.pos v hv
            · rw [List.mem_singleton.mp hv]; exact hrpos
          · intro v hv
            rcases List.mem_append.mp hv with hv | hv
            · exact h.bound v hv
            · rw [List.mem_singleton.mp hv]; omega
          · intro v hv
            rcases List.mem_append.mp hv with hv | hv
            · exact h.reached v hv
            · rw [List.mem_singleton.mp hv]; exact hreach
          · intro e he
            obtain ⟨h1, h2, h3⟩ := h.ends e he
            exact ⟨List.mem_append_left _ h1, List.mem_append_left _ h2, h3⟩
      obtain ⟨g1, e1, hf, hg, hr1, hn1⟩ := step
      rw [e1]
      by_cases hedge : g1.hasEdge node r = true
      · rw [if_pos hedge]
        refine ⟨hf, hg, fun r' hr' _ => ?_⟩
        have : r = r' := by simpa using hr'
        subst this
        exact ⟨hr1, hedge⟩
      · rw [if_neg hedge]
        refine ⟨⟨hf.nodup, hf.pos, hf.bound, hf.reached, ?_, ?_⟩, ?_, ?_⟩
        · intro e he
          rcases List.mem_append.mp he with he | he
          · exact hf.ends e he
          · rw [List.mem_singleton.mp he]
            exact ⟨hn1, hr1, hratio⟩
        · show (g1.edges ++ [(node, r, k)]).Pairwise _
          rw [List.pairwise_append]
          refine ⟨hf.once, List.pairwise_singleton _ _, ?_⟩
          intro a ha b hb
          rw [List.mem_singleton.mp hb]
          intro hab
          exact hedge (hasEdge_iff.mpr ⟨a, ha, hab⟩)
        · exact hg.trans ⟨⟨[], by simp⟩, ⟨[(node, r, k)], rfl⟩⟩
        · intro r' hr' _
          have : r = r' := by simpa using hr'
          subst this
          exact ⟨hr1, hasEdge_iff.mpr ⟨(node, r, k), by simp, Or.inl ⟨rfl, rfl⟩⟩⟩

/-- A node is done: everything one operation away is there, with the edge. -/
def Done (limit : ℕ) (g : Gr) (v : ℕ) : Prop :=
  ∀ k r, Ratio k v r → r ≤ limit → r ∈ g.nodes ∧ g.hasEdge v r = true

theorem Done.grow {limit v : ℕ} {g g' : Gr} (h : Done limit g v) (hg : Grows g g') : Done limit g' v :=
  fun k r hr hl => ⟨hg.mem (h k r hr hl).1, hg.edge (h k r hr hl).2⟩

theorem node_fine {limit node : ℕ} {start : List ℕ} : ∀ (ops : List (Option ℕ × ℕ)) {g : Gr}, Fine limit start g →
    node ∈ g.nodes → (∀ op ∈ ops, op ∈ operations node) →
    Fine limit start (ops.foldl (connect limit node) g) ∧ Grows g (ops.foldl (connect limit node) g) ∧
      ∀ op ∈ ops, ∀ r, op.1 = some r → r ≤ limit → r ∈ (ops.foldl (connect limit node) g).nodes ∧
        (ops.foldl (connect limit node) g).hasEdge node r = true := by
  intro ops
  induction ops with
  | nil => intro g h _ _; exact ⟨h, Grows.refl g, fun op hop => by simp at hop⟩
  | cons op ops ih =>
    intro g h hn hops
    obtain ⟨h1, h2, h3⟩ := connect_fine h hn (hops op (List.mem_cons_self ..))
    obtain ⟨h4, h5, h6⟩ := ih h1 (h2.mem hn) (fun o ho => hops o (List.mem_cons_of_mem _ ho))
    refine ⟨h4, h2.trans h5, ?_⟩
    intro o ho r hr hl
    rcases List.mem_cons.mp ho with rfl | ho
    · have := h3 r hr hl
      exact ⟨h5.mem this.1, h5.edge this.2⟩
    · exact h6 o ho r hr hl

theorem round_fine {limit : ℕ} {start : List ℕ} : ∀ (todo : List ℕ) {g : Gr}, Fine limit start g →
    (∀ v ∈ todo, v ∈ g.nodes) →
    Fine limit start (round limit todo g) ∧ Grows g (round limit todo g) ∧
      ∀ v ∈ todo, Done limit (round limit todo g) v := by
  intro todo
  induction todo with
  | nil => intro g h _; exact ⟨h, Grows.refl g, fun v hv => by simp at hv⟩
  | cons node todo ih =>
    intro g h hm
    obtain ⟨h1, h2, h3⟩ := node_fine (operations node) h (hm node (List.mem_cons_self ..)) (fun _ h => h)
    obtain ⟨h4, h5, h6⟩ := ih h1 (fun v hv => h2.mem (hm v (List.mem_cons_of_mem _ hv)))
    refine ⟨h4, h2.trans h5, ?_⟩
    intro v hv
    rcases List.mem_cons.mp hv with rfl | hv
    · refine Done.grow ?_ h5
      intro k r hr hl
      exact h3 (some r, k) (mem_operations.mpr hr) r rfl hl
    · exact h6 v hv

theorem Fine.length {limit : ℕ} {start : List ℕ} {g : Gr} (h : Fine limit start g) : g.nodes.length ≤ limit := by
  have : g.nodes ⊆ List.range' 1 limit := by
    intro v hv
    rw [List.mem_range'_1]
    have := h.pos v hv
    have := h.bound v hv
    omega
  have := (h.nodup.subperm this).length_le
  rwa [List.length_range'] at this

theorem loop_ends {limit : ℕ} {start : List ℕ} : ∀ (d : ℕ) (last : ℕ) (g : Gr), Fine limit start g →
    start ⊆ g.nodes → last ≤ g.nodes.length → limit ≤ last + d → (∀ v ∈ g.nodes.take last, Done limit g v) →
    ∃ g', (∀ fuel, d < fuel → loop limit fuel last g = some g') ∧ Fine limit start g' ∧ start ⊆ g'.nodes ∧
      ∀ v ∈ g'.nodes, Done limit g' v := by
  intro d
  induction d with
  | zero =>
    intro last g h hs hle hd hdone
    have hlen := h.length
    have hdrop : g.nodes.drop last = [] := List.drop_eq_nil_of_le (by omega)
    refine ⟨g, ?_, h, hs, ?_⟩
    · intro fuel hf
      obtain ⟨f, rfl⟩ := Nat.exists_eq_succ_of_ne_zero (show fuel ≠ 0 by omega)
      rw [loop, hdrop]
    · rwa [List.take_of_length_le (by omega)] at hdone
  | succ d ih =>
    intro last g h hs hle hd hdone
    by_cases hl : last < g.nodes.length
    · obtain ⟨h1, h2, h3⟩ := round_fine (limit := limit) (start := start) (g.nodes.drop last) h
        (fun v hv => List.mem_of_mem_drop hv)
      obtain ⟨l, hl'⟩ := h2.nodes
      obtain ⟨g', h4, h5⟩ := ih g.nodes.length (round limit (g.nodes.drop last) g) h1 (fun v hv => h2.mem (hs hv))
        (by rw [hl', List.length_append]; omega) (by omega) (by
          intro v hv
          rw [hl', List.take_left] at hv
          rw [← List.take_append_drop last g.nodes] at hv
          rcases List.mem_append.mp hv with hv | hv
          · exact (hdone v hv).grow h2
          · exact h3 v hv)
      refine ⟨g', ?_, h5⟩
      intro fuel hf
      obtain ⟨f, rfl⟩ := Nat.exists_eq_succ_of_ne_zero (show fuel ≠ 0 by omega)
      rw [loop]
      cases hc : g.nodes.drop last with
      | nil =>
        have := congrArg List.length hc
        rw [List.length_drop] at this
        simp at this
        omega
      | cons a as =>
        rw [hc] at h4
        exact h4 f (by omega)
    · have hdrop : g.nodes.drop last = [] := List.drop_eq_nil_of_le (by omega)
      refine ⟨g, ?_, h, hs, ?_⟩
      · intro fuel hf
        obtain ⟨f, rfl⟩ := Nat.exists_eq_succ_of_ne_zero (show fuel ≠ 0 by omega)
        rw [loop, hdrop]
      · rwa [List.take_of_length_le (by omega)] at hdone

end Satis.Speeds
