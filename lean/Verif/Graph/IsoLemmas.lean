import Verif.Graph.Iso
import Verif.Graph.Spec
/-!
# The graph handed to `networkx`
-/

namespace Satis.Graph
open Satis

variable {V : Type}

theorem mapM_ok_iff {α β : Type} (f : α → Py β) : ∀ (l : List α) (r : List β),
    l.mapM f = .ok r ↔ List.Forall₂ (fun x y => f x = .ok y) l r := by
  intro l
  induction l with
  | nil =>
    intro r
    rw [List.mapM_nil]
    constructor
    · intro h; cases h; exact .nil
    · intro h; cases h; rfl
  | cons x xs ih =>
    intro r
    rw [List.mapM_cons]
    cases hx : f x with
    | error e =>
      constructor
      · intro h; cases h
      · intro h; cases h with | cons h1 _ => rw [hx] at h1; cases h1
    | ok y =>
      cases hxs : List.mapM f xs with
      | error e =>
        constructor
        · intro h; cases h
        · intro h
          cases h with
          | cons h1 h2 => rw [← ih, hxs] at h2; cases h2
      | ok ys =>
        constructor
        · intro h
          cases h
          exact .cons hx ((ih ys).1 hxs)
        · intro h
          cases h with
          | cons h1 h2 =>
            rw [hx] at h1; cases h1
            rw [← ih, hxs] at h2; cases h2
            rfl

theorem mapM_ok_of {α β : Type} (f : α → Py β) : ∀ (l : List α), (∀ x ∈ l, ∃ y, f x = .ok y) → ∃ r, l.mapM f = .ok r := by
  intro l
  induction l with
  | nil => intro _; exact ⟨[], by rw [List.mapM_nil]; rfl⟩
  | cons x xs ih =>
    intro h
    obtain ⟨y, hy⟩ := h x (by simp)
    obtain ⟨r, hr⟩ := ih fun z hz => h z (by simp [hz])
    exact ⟨y :: r, by rw [List.mapM_cons, hy, hr]; rfl⟩

theorem forall2_mem_flatten {α β : Type} {R : α → List β → Prop} {l : List α} {r : List (List β)} (h : List.Forall₂ R l r) (z : β) :
    z ∈ r.flatten ↔ ∃ x ∈ l, ∃ y, R x y ∧ y ∈ r ∧ z ∈ y := by
  induction h with
  | nil => simp
  | @cons x y xs ys h1 h2 ih =>
    rw [List.flatten_cons, List.mem_append, ih]
    constructor
    · rintro (h | ⟨x', h3, y', h4, h5, h6⟩)
      · exact ⟨x, by simp, y, h1, by simp, h⟩
      · exact ⟨x', by simp [h3], y', h4, by simp [h5], h6⟩
    · rintro ⟨x', h3, y', h4, h5, h6⟩
      rcases List.mem_cons.1 h5 with rfl | h5
      · exact .inl h6
      · have : ∃ x' ∈ xs, R x' y' := by
          clear ih h3 h4 h6
          induction h2 with
          | nil => cases h5
          | @cons a b as bs h7 h8 ih' =>
            rcases List.mem_cons.1 h5 with rfl | h5
            · exact ⟨a, by simp, h7⟩
            · obtain ⟨x'', h9, h10⟩ := ih' (by simp [h5]) h5
              exact ⟨x'', by simp [h9], h10⟩
        obtain ⟨x'', h7, h8⟩ := this
        exact .inr ⟨x'', h7, y', h8, h5, h6⟩

theorem addEdges_succ (h : Heap V) (fuel : Nat) (a : Addr) (e : Edges) : addEdges h (fuel + 1) a = .ok e ↔
    ∃ ess, List.Forall₂ (fun c es => ∃ es', addEdges h fuel c = .ok es' ∧ es = ((h.get a).id, (h.get c).id) :: es')
      (h.get a).children ess ∧ e = ess.flatten := by
  have key : ∀ c es, (do let es ← addEdges h fuel c; return ((h.get a).id, (h.get c).id) :: es : Py Edges) = .ok es ↔
      ∃ es', addEdges h fuel c = .ok es' ∧ es = ((h.get a).id, (h.get c).id) :: es' := by
    intro c es
    cases hc : addEdges h fuel c with
    | error e => constructor
                 · intro h; cases h
                 · rintro ⟨_, h, _⟩; cases h
    | ok es' =>
      constructor
      · intro h; cases h; exact ⟨es', rfl, rfl⟩
      · rintro ⟨_, h, rfl⟩; cases h; rfl
  rw [show addEdges h (fuel + 1) a = (do
    let ess ← (h.get a).children.mapM fun c => do
      let es ← addEdges h fuel c
      return ((h.get a).id, (h.get c).id) :: es
    return ess.flatten) from rfl]
  cases hm : List.mapM (fun c => do let es ← addEdges h fuel c; return ((h.get a).id, (h.get c).id) :: es : Addr → Py Edges)
      (h.get a).children with
  | error er =>
    constructor
    · intro h; cases h
    · rintro ⟨ess, h1, rfl⟩
      have h2 := (mapM_ok_iff _ _ ess).2 (h1.imp fun c es h => (key c es).2 h)
      rw [hm] at h2; cases h2
  | ok ess =>
    have h1 := (mapM_ok_iff _ _ _).1 hm
    constructor
    · intro h
      cases h
      exact ⟨ess, h1.imp fun c es h => (key c es).1 h, rfl⟩
    · rintro ⟨ess', h2, rfl⟩
      have h3 := (mapM_ok_iff _ _ ess').2 (h2.imp fun c es h => (key c es).2 h)
      rw [hm] at h3; cases h3; rfl

theorem Reach.cases_head {h : Heap V} {a b : Addr} (hr : Reach h [a] b) : b = a ∨ ∃ c ∈ (h.get a).children, Reach h [c] b := by
  induction hr with
  | root hb => left; simpa using hb
  | @child x y hx hy ih =>
    right
    rcases ih with rfl | ⟨c, hc, h1⟩
    · exact ⟨_, hy, .root (by simp)⟩
    · exact ⟨c, hc, .child h1 hy⟩

theorem addEdges_mem (h : Heap V) : ∀ (fuel : Nat) (a : Addr) (e : Edges), addEdges h fuel a = .ok e →
    ∀ p, p ∈ e ↔ EdgeOf h [a] p.1 p.2 := by
  intro fuel
  induction fuel with
  | zero => intro a e h1; cases h1
  | succ fuel ih =>
    intro a e h1 p
    obtain ⟨ess, h2, rfl⟩ := (addEdges_succ h fuel a e).1 h1
    rw [forall2_mem_flatten h2]
    constructor
    · rintro ⟨c, hc, es, ⟨es', h3, rfl⟩, h4, h5⟩
      rcases List.mem_cons.1 h5 with rfl | h5
      · exact ⟨a, c, .root (by simp), hc, rfl, rfl⟩
      · obtain ⟨x, y, h6, h7, h8, h9⟩ := (ih c es' h3 p).1 h5
        exact ⟨x, y, h6.mono fun z hz => .child (a := a) (.root (by simp)) (by rw [List.mem_singleton.1 hz]; exact hc), h7, h8, h9⟩
    · rintro ⟨x, y, h6, h7, h8, h9⟩
      have aux : ∀ c ∈ (h.get a).children, ∃ es ∈ ess, ∃ es', addEdges h fuel c = .ok es' ∧ es = ((h.get a).id, (h.get c).id) :: es' := by
        intro c hc
        clear h6 h7 h1
        generalize (h.get a).children = cs at h2 hc
        induction h2 with
        | nil => cases hc
        | @cons c' es' cs' ess' h3 h4 ih' =>
          rcases List.mem_cons.1 hc with rfl | hc
          · exact ⟨es', by simp, h3⟩
          · obtain ⟨es, h5, h6⟩ := ih' hc
            exact ⟨es, by simp [h5], h6⟩
      rcases h6.cases_head with rfl | ⟨c, hc, h6⟩
      · obtain ⟨es, h10, es', h11, rfl⟩ := aux y h7
        exact ⟨y, h7, _, ⟨es', h11, rfl⟩, h10, by rw [List.mem_cons]; left; exact Prod.ext h8 h9⟩
      · obtain ⟨es, h10, es', h11, rfl⟩ := aux c hc
        exact ⟨c, hc, _, ⟨es', h11, rfl⟩, h10, by
          rw [List.mem_cons]; right; exact (ih c es' h11 p).2 ⟨x, y, h6, h7, h8, h9⟩⟩

/-- No path is longer than the number of objects. -/
theorem addEdges_ok (h : Heap V) {rs : List Addr} (hac : ∀ a b, Reach h rs a → b ∈ (h.get a).children → ¬ Reach h [b] a)
    (hlt : ∀ a, Reach h rs a → a < h.next) : ∀ (fuel : Nat) (a : Addr) (path : List Addr), Reach h rs a →
      path.Nodup → (∀ b ∈ path, Reach h rs b ∧ Reach h [b] a ∧ b ≠ a) → h.next < fuel + path.length + 1 → fuel ≠ 0 →
      ∃ e, addEdges h fuel a = .ok e := by
  intro fuel
  induction fuel with
  | zero => intro a path _ _ _ _ h5; exact absurd rfl h5
  | succ fuel ih =>
    intro a path h1 h2 h3 h4 _
    have hn : (a :: path).Nodup := List.nodup_cons.2 ⟨fun hm => (h3 a hm).2.2 rfl, h2⟩
    have hl : (a :: path).length ≤ h.next := by
      have : (a :: path) ⊆ List.range h.next := by
        intro b hb
        rw [List.mem_range]
        rcases List.mem_cons.1 hb with rfl | hb
        · exact hlt _ h1
        · exact hlt _ (h3 b hb).1
      simpa using (List.subperm_of_subset hn this).length_le
    have : ∀ c ∈ (h.get a).children, ∃ e, addEdges h fuel c = .ok e := by
      intro c hc
      have hp : ∀ b ∈ a :: path, Reach h rs b ∧ Reach h [b] c ∧ b ≠ c := by
        intro b hb
        rcases List.mem_cons.1 hb with rfl | hb
        · refine ⟨h1, .child (.root (by simp)) hc, ?_⟩
          rintro rfl
          exact hac _ _ h1 hc (.root (by simp))
        · obtain ⟨h5, h6, h7⟩ := h3 b hb
          refine ⟨h5, .child h6 hc, ?_⟩
          rintro rfl
          exact hac _ _ h1 hc h6
      have hc1 : Reach h rs c := .child h1 hc
      refine ih c (a :: path) hc1 hn hp (by simp only [List.length_cons]; omega) ?_
      have hn' : (c :: a :: path).Nodup := List.nodup_cons.2 ⟨fun hm => (hp c hm).2.2 rfl, hn⟩
      have : (c :: a :: path) ⊆ List.range h.next := by
        intro b hb
        rw [List.mem_range]
        rcases List.mem_cons.1 hb with rfl | hb
        · exact hlt _ hc1
        · exact hlt _ (hp b hb).1
      have := (List.subperm_of_subset hn' this).length_le
      simp only [List.length_cons, List.length_range] at this
      omega
    obtain ⟨ess, hess⟩ : ∃ ess, List.Forall₂ (fun c es => ∃ es', addEdges h fuel c = .ok es' ∧
        es = ((h.get a).id, (h.get c).id) :: es') (h.get a).children ess := by
      generalize (h.get a).children = cs at this
      clear hl
      induction cs with
      | nil => exact ⟨[], .nil⟩
      | cons c cs ih' =>
        obtain ⟨e, he⟩ := this c (by simp)
        obtain ⟨ess, h5⟩ := ih' fun c hc => this c (by simp [hc])
        exact ⟨_, .cons ⟨e, he, rfl⟩ h5⟩
    exact ⟨_, (addEdges_succ h fuel a _).2 ⟨ess, hess, rfl⟩⟩

/-- On a graph without cycles `to_nx_graph` succeeds, and yields exactly the edges of the graph. -/
theorem nxEdges_spec (h : Heap V) (t : TreeObj V) (hac : ∀ a b, Reach h t.roots a → b ∈ (h.get a).children → ¬ Reach h [b] a)
    (hlt : ∀ a, Reach h t.roots a → a < h.next) :
    ∃ e, nxEdges h t = .ok e ∧ ∀ p, p ∈ e ↔ EdgeOf h t.roots p.1 p.2 := by
  obtain ⟨ess, hess⟩ := mapM_ok_of (addEdges h (h.next + 1)) t.roots fun a ha =>
    addEdges_ok h hac hlt (h.next + 1) a [] (.root ha) (by simp) (by simp) (by simp; omega) (by simp)
  refine ⟨ess.flatten, by unfold nxEdges; rw [hess]; rfl, ?_⟩
  intro p
  have h2 := (mapM_ok_iff _ _ _).1 hess
  rw [forall2_mem_flatten h2]
  constructor
  · rintro ⟨a, ha, es, h3, _, h5⟩
    obtain ⟨x, y, h6, h7⟩ := (addEdges_mem h _ a es h3 p).1 h5
    exact ⟨x, y, h6.mono fun z hz => .root (by rw [List.mem_singleton.1 hz]; exact ha), h7⟩
  · rintro ⟨x, y, h6, h7⟩
    have hroot : ∃ a ∈ t.roots, Reach h [a] x := by
      clear h7
      induction h6 with
      | @root b hb => exact ⟨b, hb, .root (by simp)⟩
      | child _ hb ih => obtain ⟨a, ha, h8⟩ := ih; exact ⟨a, ha, .child h8 hb⟩
    obtain ⟨a, ha, h8⟩ := hroot
    have : ∃ es ∈ ess, addEdges h (h.next + 1) a = .ok es := by
      clear hess h6 hac hlt
      generalize t.roots = rs at h2 ha
      induction h2 with
      | nil => cases ha
      | @cons c es' cs' ess' h3 h4 ih' =>
        rcases List.mem_cons.1 ha with rfl | ha
        · exact ⟨es', by simp, h3⟩
        · obtain ⟨es, h5, h6⟩ := ih' ha
          exact ⟨es, by simp [h5], h6⟩
    obtain ⟨es, h9, h10⟩ := this
    exact ⟨a, ha, es, h10, h9, (addEdges_mem h _ a es h10 p).2 ⟨x, y, h8, h7⟩⟩

end Satis.Graph
