import Verif.Graph.LevelWalk
/-!
# Saving and loading networks: lemmas about `wrap` and `unwrap`
-/

namespace Satis.Graph
open Satis

/-- What can be reached along children and parents. -/
inductive Connected {V : Type} (h : Heap V) (root : Addr) : Addr → Prop
  | root : Connected h root root
  | child {a b : Addr} : Connected h root a → b ∈ (h.get a).children → Connected h root b
  | parent {a b : Addr} : Connected h root a → b ∈ (h.get a).parents → Connected h root b

theorem from_iff_linked {V : Type} (h : Heap V) (root a : Addr) :
    From (fun a => (h.get a).children ++ (h.get a).parents) [root] a ↔ Connected h root a := by
  constructor
  · intro H
    induction H with
    | root h => rw [List.mem_singleton.1 h]; exact .root
    | step _ hb ih =>
      rcases List.mem_append.1 hb with hb | hb
      · exact ih.child hb
      · exact ih.parent hb
  · intro H
    induction H with
    | root => exact .root (by simp)
    | child _ hb ih => exact ih.step (List.mem_append_left _ hb)
    | parent _ hb ih => exact ih.step (List.mem_append_right _ hb)

theorem Connected.inside {h : Heap ℚ} {U : Addr → Prop} (H : Region h U) {root a : Addr} (hr : U root) (ha : Connected h root a) : U a := by
  induction ha with
  | root => exact hr
  | child _ hb ih => exact H.children _ ih _ hb
  | parent _ hb ih => exact H.parents _ ih _ hb

theorem wrap_settles {h : Heap ℚ} {U : Addr → Prop} (H : Region h U) (root : Addr) (hr : U root) :
    ∃ order : List Addr, order.Nodup ∧ (∀ a, a ∈ order ↔ Connected h root a) ∧ Settles (fun fuel => wrap fuel h root) (.ok (order.map (nodeData h))) := by
  obtain ⟨order, h1, h2, h3⟩ := walkAll_spec (fun a => (h.get a).children ++ (h.get a).parents) (Region.nodes h U) (fun a ha c hc =>
    H.mem_nodes.2 ((List.mem_append.1 hc).elim (H.children a (H.mem_nodes.1 ha) c) (H.parents a (H.mem_nodes.1 ha) c))) [root]
    (fun r hr' => by rw [List.mem_singleton.1 hr']; exact H.mem_nodes.2 hr) _ le_rfl
  refine ⟨order, h1, fun a => (h2 a).trans (from_iff_linked h root a), ?_⟩
  obtain ⟨k1, k2⟩ := h3 (Marked ℚ × List Addr) populateVisit (fun s a => s.1.kids a ++ (s.1.1.get a).parents) (fun s a => s.1.seen a)
    (fun s l => s.1.1 = h ∧ s.1.2 = l.map (fun a => (h.get a).id) ∧ s.2 = l ∧ ∀ a ∈ l, U a)
    (by
      rintro s l ⟨e, -⟩ a -
      unfold Marked.kids
      rw [e])
    (by
      rintro s l ⟨e, e2, -, hl⟩ a ha
      unfold Marked.seen
      rw [e2, e, decide_eq_decide, List.mem_map]
      exact ⟨fun ⟨b, hb, e⟩ => H.ids b a (hl b hb) (H.mem_nodes.1 ha) e ▸ hb, fun h => ⟨a, h, rfl⟩⟩)
    (by
      rintro s l a s' ⟨e, e2, e3, hl⟩ ha _ hvis
      cases hvis
      refine ⟨e, ?_, ?_, fun b hb => ?_⟩
      · show s.1.2 ++ [(s.1.1.get a).id] = _
        rw [e2, e]
        simp
      · show s.2 ++ [a] = _
        rw [e3]
      · rcases List.mem_append.1 hb with hb | hb
        · exact hl b hb
        · rw [List.mem_singleton.1 hb]
          exact H.mem_nodes.1 ha)
    ((h, []), []) ⟨rfl, rfl, rfl, by simp⟩
  have key : ∀ (l : List Addr) (s : Marked ℚ × List Addr), ∃ s', l.foldlM populateVisit s = .ok s' := by
    intro l
    induction l with
    | nil => exact fun s => ⟨s, rfl⟩
    | cons y l ih => exact fun s => ih (s.1.add y, s.2 ++ [y])
  obtain ⟨s', hs'⟩ := key order ((h, []), [])
  obtain ⟨-, -, e3, -⟩ := k2 s' hs'
  refine (wrap_stable h root).settles (by simp)
    (n := walkFuel (fun a => (h.get a).children ++ (h.get a).parents) (Region.nodes h U)) ?_
  rw [hs'] at k1
  unfold walkAll at k1
  simp only [List.foldlM_cons, List.foldlM_nil, bind_pure] at k1
  show wrap _ h root = _
  unfold wrap
  rw [k1]
  show Except.ok (s'.2.map (nodeData h)) = _
  rw [e3]

/-- The drawing of the nodes of a list. -/
def drawing {V : Type} (h : Heap V) (order : List Addr) : Drawing V :=
  ⟨order.map fun a => ((h.get a).id, (h.get a).value, (h.get a).level),
    order.flatMap fun a => (h.get a).children.map fun c => ((h.get a).id, (h.get c).id)⟩

theorem setLevels_same {V : Type} (h : Heap V) (l : List Addr) (lvl : Int) : SameGraph h (setLevels h l lvl) :=
  foldl_modify_same (fun o => { o with level := some lvl }) (fun _ => rfl) (fun _ => rfl) (fun _ => rfl) l h

theorem saveNodes_settles {h : Heap ℚ} {U : Addr → Prop} (H : Region h U) (root : Addr) (roots : List Addr) (hr : ∀ r ∈ root :: roots, U r) :
    ∃ shown order : List Addr, shown.Nodup ∧ (∀ a, a ∈ shown ↔ Reach h (root :: roots) a) ∧ order.Nodup ∧ (∀ a, a ∈ order ↔ Connected h root a) ∧
      Settles (fun fuel => saveNodes fuel h (root :: roots)) (.ok (setLevels h (root :: roots) 0,
        drawing (setLevels h (root :: roots) 0) shown, order.map (nodeData (setLevels h (root :: roots) 0)))) := by
  have S := setLevels_same h (root :: roots) 0
  have H' := S.region H
  obtain ⟨shown, ⟨F, hF⟩, k1, k2⟩ := populateOrder_settles H' (root :: roots) hr
  obtain ⟨order, hnd, hmem, G, hG⟩ := wrap_settles H' root (hr root (by simp))
  have hl : ∀ a, Connected (setLevels h (root :: roots) 0) root a ↔ Connected h root a := by
    intro a
    constructor
    · intro ha
      induction ha with
      | root => exact .root
      | child _ hb ih => exact ih.child (by rw [← S.children]; exact hb)
      | parent _ hb ih => exact ih.parent (by rw [← S.parents]; exact hb)
    · intro ha
      induction ha with
      | root => exact .root
      | child _ hb ih => exact ih.child (by rw [S.children]; exact hb)
      | parent _ hb ih => exact ih.parent (by rw [S.parents]; exact hb)
  refine ⟨shown, order, k1, fun a => (k2 a).trans S.reach, hnd, fun a => (hmem a).trans (hl a), max F G, fun fuel hfuel => ?_⟩
  have e1 : populateOrder fuel (setLevels h (root :: roots) 0) (root :: roots) = .ok shown := hF fuel (le_trans (le_max_left _ _) hfuel)
  have e2 : wrap fuel (setLevels h (root :: roots) 0) root = .ok _ := hG fuel (le_trans (le_max_right _ _) hfuel)
  unfold saveNodes populate
  simp only [bind, Except.bind, pure, Except.pure, e1, e2]
  rfl

section unwrapping
variable {V : Type} (h : Heap V)

/-- The dictionary after the nodes of `as` have been made, from the address `n` on. -/
def placed : Addr → List Addr → Dict Uid Addr
  | _, [] => []
  | n, a :: as => ((h.get a).id, n) :: placed (n + 1) as

/-- The node made for `a`. -/
def remade [DecidableEq V] (a : Addr) : NodeObj V where
  value := (h.get a).value
  id := (h.get a).id
  level := (h.get a).level
  past := (FastList.new [(h.get a).value]).extend []
  parents := []
  children := []
  expands := []
  levelsToAdd := 0

theorem placed_keys : ∀ (as : List Addr) (n : Addr), (placed h n as).keys = as.map fun a => (h.get a).id := by
  intro as
  induction as with
  | nil => exact fun _ => rfl
  | cons a as ih =>
    intro n
    have := ih (n + 1)
    unfold Dict.keys at this ⊢
    simp only [placed, List.map_cons, this]

theorem placed_get : ∀ (as : List Addr) (n a : Addr), a ∈ as → (∀ b ∈ as, (h.get b).id = (h.get a).id → b = a) →
    (placed h n as).get? (h.get a).id = some (n + as.idxOf a) := by
  intro as
  induction as with
  | nil => intro n a ha; simp at ha
  | cons b as ih =>
    intro n a ha hid
    simp only [placed, Dict.get?]
    by_cases e : b = a
    · subst e
      simp
    · have : ¬ (h.get b).id = (h.get a).id := fun q => e (hid b (by simp) q)
      rw [if_neg this, ih (n + 1) a ((List.mem_cons.1 ha).resolve_left fun q => e q.symm) fun c hc => hid c (List.mem_cons_of_mem _ hc)]
      rw [List.idxOf_cons_ne _ e]
      congr 1
      omega

theorem placed_values : ∀ (as : List Addr) (n : Addr), as.Nodup → (placed h n as).map (fun e => e.2) = as.map fun a => n + as.idxOf a := by
  intro as
  induction as with
  | nil => exact fun _ _ => rfl
  | cons b as ih =>
    intro n hnd
    obtain ⟨h1, h2⟩ := List.nodup_cons.1 hnd
    simp only [placed, List.map_cons, ih (n + 1) h2, List.idxOf_cons_self, Nat.add_zero, List.cons.injEq, true_and]
    refine List.map_congr_left fun a ha => ?_
    rw [List.idxOf_cons_ne _ (by rintro rfl; exact h1 ha)]
    omega

variable [LinearOrder V] [Zero V]

theorem unwrapNodes_spec : ∀ (as : List Addr) (h0 : Heap V) (map : Dict Uid Addr), (∀ a ∈ as, ¬ (h.get a).value < 0) → as.Nodup →
    (as.map fun a => (h.get a).id).Nodup → (∀ a ∈ as, (h.get a).id ∉ map.keys) →
    ∃ h', unwrapNodes h0 map (as.map (nodeData h)) = .ok (h', map ++ placed h h0.next as) ∧ h'.next = h0.next + as.length ∧
      h'.nextUid = h0.nextUid ∧ (∀ x, x < h0.next → h'.get x = h0.get x) ∧ ∀ a ∈ as, h'.get (h0.next + as.idxOf a) = remade h a := by
  intro as
  induction as with
  | nil => exact fun h0 map _ _ _ _ => ⟨h0, by simp [unwrapNodes, placed], rfl, rfl, fun _ _ => rfl, by simp⟩
  | cons b as ih =>
    intro h0 map hv hnd hid hmap
    obtain ⟨n1, n2⟩ := List.nodup_cons.1 hnd
    rw [List.map_cons] at hid
    obtain ⟨i1, i2⟩ := List.nodup_cons.1 hid
    have e1 : newNode h0 (h.get b).value [] (some (h.get b).id) (h.get b).level = .ok (h0.alloc (remade h b)) := by
      unfold newNode
      rw [if_neg (hv b (by simp))]
      rfl
    have hset : map.set (h.get b).id h0.next = map ++ [((h.get b).id, h0.next)] := Dict.set_of_not_mem _ _ _ (hmap b (by simp))
    obtain ⟨h', q1, q2, q3, q4, q5⟩ := ih (h0.alloc (remade h b)).1 (map.set (h.get b).id h0.next)
      (fun a ha => hv a (List.mem_cons_of_mem _ ha)) n2 i2 (fun a ha => by
        rw [Dict.mem_keys_set, not_or]
        refine ⟨hmap a (List.mem_cons_of_mem _ ha), fun q => i1 ?_⟩
        rw [← q]
        exact List.mem_map_of_mem ha)
    have en : (h0.alloc (remade h b)).1.next = h0.next + 1 := rfl
    have eg : ∀ x, (h0.alloc (remade h b)).1.get x = if x = h0.next then remade h b else h0.get x := fun _ => rfl
    refine ⟨h', ?_, ?_, q3, fun x hx => ?_, fun a ha => ?_⟩
    · rw [List.map_cons]
      unfold unwrapNodes
      show (newNode h0 (h.get b).value [] (some (h.get b).id) (h.get b).level >>= fun p => unwrapNodes p.1 (map.set (h.get b).id p.2)
        (as.map (nodeData h))) = _
      rw [e1]
      show unwrapNodes (h0.alloc (remade h b)).1 (map.set (h.get b).id h0.next) (as.map (nodeData h)) = _
      rw [q1, hset, en]
      simp [placed]
    · rw [q2, en, List.length_cons]
      omega
    · rw [q4 x (by rw [en]; omega), eg, if_neg (by omega)]
    · by_cases e : a = b
      · subst e
        rw [List.idxOf_cons_self, Nat.add_zero, q4 _ (by rw [en]; omega), eg, if_pos rfl]
      · rw [List.idxOf_cons_ne _ (fun q => e q.symm)]
        have := q5 a ((List.mem_cons.1 ha).resolve_left e)
        rw [en] at this
        rw [← this]
        congr 1
        omega

omit [LinearOrder V] [Zero V] in
theorem findNodes_spec (map : Dict Uid Addr) (f : Addr → Addr) : ∀ l : List Addr, (∀ a ∈ l, map.get? (h.get a).id = some (f a)) →
    findNodes map (l.map fun a => (h.get a).id) = .ok (l.map f) := by
  intro l
  induction l with
  | nil => exact fun _ => rfl
  | cons a l ih =>
    intro hl
    rw [List.map_cons]
    unfold findNodes
    rw [hl a (by simp)]
    simp only
    rw [ih fun b hb => hl b (List.mem_cons_of_mem _ hb)]
    rfl

omit [LinearOrder V] [Zero V] in
theorem unwrapLinks_spec (map : Dict Uid Addr) (f : Addr → Addr) (order : List Addr) (hmap : ∀ a ∈ order, map.get? (h.get a).id = some (f a))
    (hf : ∀ a ∈ order, ∀ b ∈ order, f a = f b → a = b) (hc : ∀ a ∈ order, ∀ c ∈ (h.get a).children, c ∈ order)
    (hp : ∀ a ∈ order, ∀ c ∈ (h.get a).parents, c ∈ order) : ∀ (as : List Addr) (h0 : Heap V), as.Nodup → (∀ a ∈ as, a ∈ order) →
    ∃ h', unwrapLinks map h0 (as.map (nodeData h)) = .ok h' ∧ h'.next = h0.next ∧ h'.nextUid = h0.nextUid ∧
      (∀ x, (∀ a ∈ as, x ≠ f a) → h'.get x = h0.get x) ∧
      ∀ a ∈ as, h'.get (f a) = { h0.get (f a) with
        parents := (h.get a).parents.map f, children := (h.get a).children.map f, expands := (h.get a).expands } := by
  intro as
  induction as with
  | nil => exact fun h0 _ _ => ⟨h0, rfl, rfl, rfl, fun _ _ => rfl, by simp⟩
  | cons b as ih =>
    intro h0 hnd hsub
    obtain ⟨n1, n2⟩ := List.nodup_cons.1 hnd
    have hb := hsub b (by simp)
    have hsub' : ∀ a ∈ as, a ∈ order := fun a ha => hsub a (List.mem_cons_of_mem _ ha)
    obtain ⟨h', q1, q2, q3, q4, q5⟩ := ih (h0.modify (f b) fun o => { o with
      parents := (h.get b).parents.map f, children := (h.get b).children.map f, expands := (h.get b).expands }) n2 hsub'
    refine ⟨h', ?_, q2, q3, fun x hx => ?_, fun a ha => ?_⟩
    · rw [List.map_cons]
      unfold unwrapLinks
      have : map.get? (nodeData h b).id = some (f b) := hmap b hb
      rw [this]
      simp only
      have e1 : findNodes map (nodeData h b).parents = .ok ((h.get b).parents.map f) :=
        findNodes_spec h map f _ fun a ha => hmap a (hp b hb a ha)
      have e2 : findNodes map (nodeData h b).children = .ok ((h.get b).children.map f) :=
        findNodes_spec h map f _ fun a ha => hmap a (hc b hb a ha)
      rw [e1, e2]
      exact q1
    · rw [q4 x fun a ha => hx a (List.mem_cons_of_mem _ ha), Heap.get_modify, if_neg (hx b (by simp))]
    · rcases List.mem_cons.1 ha with rfl | ha
      · rw [q4 (f a) fun c hc' e => n1 (hf a hb c (hsub' c hc') e ▸ hc'), Heap.get_modify, if_pos rfl]
      · rw [q5 a ha, Heap.get_modify, if_neg fun e => n1 (hf a (hsub' a ha) b hb e ▸ ha)]

/-- **Loading** what was saved. -/
theorem unwrap_spec (h0 : Heap V) (order : List Addr) (hnd : order.Nodup) (hv : ∀ a ∈ order, ¬ (h.get a).value < 0)
    (hid : ∀ a ∈ order, ∀ b ∈ order, (h.get a).id = (h.get b).id → a = b) (hc : ∀ a ∈ order, ∀ c ∈ (h.get a).children, c ∈ order)
    (hp : ∀ a ∈ order, ∀ c ∈ (h.get a).parents, c ∈ order) :
    ∃ h', unwrap h0 (order.map (nodeData h)) =
        .ok (h', (order.filter fun a => decide ((h.get a).level = some 0)).map fun a => h0.next + order.idxOf a) ∧
      h'.next = h0.next + order.length ∧ h'.nextUid = h0.nextUid ∧ (∀ x, x < h0.next → h'.get x = h0.get x) ∧
      ∀ a ∈ order, h'.get (h0.next + order.idxOf a) = { remade h a with
        parents := (h.get a).parents.map fun a => h0.next + order.idxOf a
        children := (h.get a).children.map fun a => h0.next + order.idxOf a
        expands := (h.get a).expands } := by
  obtain ⟨h₁, q1, q2, q3, q4, q5⟩ := unwrapNodes_spec h order h0 [] hv hnd (hnd.map_on fun a ha b hb e => hid a ha b hb e) (by simp [Dict.keys])
  rw [List.nil_append] at q1
  have hmap : ∀ a ∈ order, (placed h h0.next order).get? (h.get a).id = some (h0.next + order.idxOf a) := fun a ha =>
    placed_get h order h0.next a ha fun b hb e => hid b hb a ha e
  have hf : ∀ a ∈ order, ∀ b ∈ order, h0.next + order.idxOf a = h0.next + order.idxOf b → a = b := by
    intro a ha b hb e
    exact (List.idxOf_inj ha).1 (by omega)
  obtain ⟨h', p1, p2, p3, p4, p5⟩ := unwrapLinks_spec h (placed h h0.next order) (fun a => h0.next + order.idxOf a) order hmap hf hc hp order h₁
    hnd fun _ h => h
  have hget : ∀ a ∈ order, h'.get (h0.next + order.idxOf a) = { remade h a with
        parents := (h.get a).parents.map fun a => h0.next + order.idxOf a
        children := (h.get a).children.map fun a => h0.next + order.idxOf a
        expands := (h.get a).expands } := by
    intro a ha
    rw [p5 a ha, q5 a ha]
  refine ⟨h', ?_, by rw [p2, q2], by rw [p3, q3], fun x hx => ?_, hget⟩
  · unfold unwrap
    rw [q1]
    simp only [bind, Except.bind]
    rw [p1]
    simp only [pure, Except.pure, placed_values h order h0.next hnd, Except.ok.injEq, Prod.mk.injEq, true_and, List.filter_map]
    congr 1
    refine List.filter_congr fun a ha => ?_
    simp only [Function.comp_apply, hget a ha]
    rfl
  · rw [p4 x (fun a _ e => by omega), q4 x hx]

end unwrapping

end Satis.Graph
