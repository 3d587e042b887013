import Verif.Graph.Conclude

/-!
Saving several solutions that share no node: each is written as if it were alone.
-/

namespace Satis.Graph
open Satis

theorem Ends.self' {α : Type} {P : α → Prop} {r : Py α} (hr : Ends P r) : Ends (fun x => r = .ok x ∧ P x) r :=
  Ends.iff.2 ⟨(Ends.iff.1 hr).1, fun x hx => ⟨hx, (Ends.iff.1 hr).2 x hx⟩⟩

/-! ## Networks that do not share nodes -/

section agree
variable {h h' : Heap ℚ} {U : Addr → Prop}

/-- A traversal that collects nodes, on any heap that agrees on the part. -/
theorem collect_agree (H : Region h U) (kids : Heap ℚ → Addr → List Addr)
    (hkids : ∀ g : Heap ℚ, (∀ a, U a → g.get a = h.get a) → ∀ a, U a → kids g a = kids h a)
    (hin : ∀ a, U a → ∀ c ∈ kids h a, U c) (roots : List Addr) (hr : ∀ r ∈ roots, U r) :
    ∃ (order : List Addr) (F : Nat), (∀ a ∈ order, U a) ∧ ∀ g : Heap ℚ, (∀ a, U a → g.get a = h.get a) → ∀ fuel, F ≤ fuel →
      ∃ m, walkAll populateVisit (fun s a => kids s.1.1 a) (fun s a => s.1.seen a) fuel ((g, []), []) roots = .ok (m, order) := by
  obtain ⟨order, h1, h2, h3⟩ := walkAll_spec (fun a => kids h a) (Region.nodes h U) (fun a ha c hc =>
    H.mem_nodes.2 (hin a (H.mem_nodes.1 ha) c hc)) roots (fun r hr' => H.mem_nodes.2 (hr r hr')) _ le_rfl
  have hU : ∀ a ∈ order, U a := by
    intro a ha
    have := (h2 a).1 ha
    induction this with
    | root hm => exact hr _ hm
    | step hp hb ih => exact hin _ (ih ((h2 _).2 hp)) _ hb
  refine ⟨order, walkFuel (fun a => kids h a) (Region.nodes h U), hU, fun g hg fuel hf => ?_⟩
  obtain ⟨k1, k2⟩ := h3 (Marked ℚ × List Addr) populateVisit (fun s a => kids s.1.1 a) (fun s a => s.1.seen a)
    (fun s l => s.1.1 = g ∧ s.1.2 = l.map (fun a => (h.get a).id) ∧ s.2 = l ∧ ∀ a ∈ l, U a)
    (by
      rintro s l ⟨e, -⟩ a ha
      rw [e]
      exact hkids g hg a (H.mem_nodes.1 ha))
    (by
      rintro s l ⟨e, e2, -, hl⟩ a ha
      unfold Marked.seen
      rw [e2, e, hg a (H.mem_nodes.1 ha), decide_eq_decide, List.mem_map]
      exact ⟨fun ⟨b, hb, e⟩ => H.ids b a (hl b hb) (H.mem_nodes.1 ha) e ▸ hb, fun h => ⟨a, h, rfl⟩⟩)
    (by
      rintro s l a s' ⟨e, e2, e3, hl⟩ ha _ hvis
      cases hvis
      refine ⟨e, ?_, ?_, fun b hb => ?_⟩
      · show s.1.2 ++ [(s.1.1.get a).id] = _
        rw [e2, e, hg a (H.mem_nodes.1 ha)]
        simp
      · show s.2 ++ [a] = _
        rw [e3]
      · rcases List.mem_append.1 hb with hb | hb
        · exact hl b hb
        · rw [List.mem_singleton.1 hb]
          exact H.mem_nodes.1 ha)
    ((g, []), []) ⟨rfl, rfl, rfl, by simp⟩
  have key : ∀ (l : List Addr) (s : Marked ℚ × List Addr), ∃ s', l.foldlM populateVisit s = .ok s' := by
    intro l
    induction l with
    | nil => exact fun s => ⟨s, rfl⟩
    | cons y l ih => exact fun s => ih (s.1.add y, s.2 ++ [y])
  obtain ⟨s', hs'⟩ := key order ((g, []), [])
  obtain ⟨-, -, e3, -⟩ := k2 s' hs'
  rw [hs'] at k1
  refine ⟨s'.1, ?_⟩
  have := walkAll_stable (visit := fun _ => populateVisit) (fun s a => Stable.const _) (fun s a => kids s.1.1 a) (fun s a => s.1.seen a)
    (((g, []), []) : Marked ℚ × List Addr) roots _ fuel hf (by simp only [k1]; simp)
  simp only at this
  rw [this, k1, ← e3]

theorem nodeData_agree (H : Region h U) (hg : ∀ a, U a → h'.get a = h.get a) {a : Addr} (ha : U a) : nodeData h' a = nodeData h a := by
  unfold nodeData
  rw [hg a ha]
  congr 1
  · exact List.map_congr_left fun p hp => by rw [hg p (H.parents a ha p hp)]
  · exact List.map_congr_left fun p hp => by rw [hg p (H.children a ha p hp)]

theorem drawing_agree (H : Region h U) (hg : ∀ a, U a → h'.get a = h.get a) {l : List Addr} (hl : ∀ a ∈ l, U a) :
    drawing h' l = drawing h l := by
  unfold drawing
  congr 1
  · exact List.map_congr_left fun a ha => by rw [hg a (hl a ha)]
  · refine List.flatMap_congr fun a ha => ?_
    rw [hg a (hl a ha)]
    exact List.map_congr_left fun c hc => by rw [hg c (H.children a (hl a ha) c hc)]

theorem setLevels_agree (hg : ∀ a, U a → h'.get a = h.get a) : ∀ (l : List Addr) (lvl : Int), ∀ a, U a →
    (setLevels h' l lvl).get a = (setLevels h l lvl).get a := by
  intro l lvl
  unfold setLevels
  induction l generalizing h h' with
  | nil => exact hg
  | cons x l ih =>
    refine ih fun a ha => ?_
    rw [Heap.get_modify, Heap.get_modify]
    split
    · next e => rw [← e, hg a ha]
    · exact hg a ha

theorem setLevels_other (h : Heap ℚ) : ∀ (l : List Addr) (lvl : Int) (a : Addr), a ∉ l → (setLevels h l lvl).get a = h.get a := by
  intro l lvl
  unfold setLevels
  induction l generalizing h with
  | nil => exact fun _ _ => rfl
  | cons x l ih =>
    intro a ha
    rw [List.foldl_cons, ih _ a fun q => ha (List.mem_cons_of_mem _ q), Heap.get_modify, if_neg fun q => ha (by simp [q])]

/-- What is written depends only on the part of the heap the network is in. -/
theorem saveNodes_agree (H : Region h U) (roots : List Addr) (hne : roots ≠ []) (hr : ∀ r ∈ roots, U r) :
    ∃ s, ∀ g : Heap ℚ, (∀ a, U a → g.get a = h.get a) → Settles (fun fuel => saveNodes fuel g roots) (.ok (setLevels g roots 0, s)) := by
  cases roots with
  | nil => exact absurd rfl hne
  | cons root roots =>
    have H' := (setLevels_same h (root :: roots) 0).region H
    obtain ⟨shown, F, s1, s2⟩ := collect_agree H' (fun g a => (g.get a).children) (fun g hg a ha => by rw [hg a ha]) (fun a ha => H'.children a ha)
      (root :: roots) hr
    obtain ⟨order, G, o1, o2⟩ := collect_agree H' (fun g a => (g.get a).children ++ (g.get a).parents) (fun g hg a ha => by rw [hg a ha])
      (fun a ha c hc => (List.mem_append.1 hc).elim (H'.children a ha c) (H'.parents a ha c)) [root] (fun r hr' => hr r (by
        rw [List.mem_singleton.1 hr']; simp))
    refine ⟨(drawing (setLevels h (root :: roots) 0) shown, order.map (nodeData (setLevels h (root :: roots) 0))), fun g hg => ?_⟩
    have hg' := setLevels_agree hg (root :: roots) 0
    refine ⟨max F G, fun fuel hfuel => ?_⟩
    obtain ⟨m1, e1⟩ := s2 _ hg' fuel (le_trans (le_max_left _ _) hfuel)
    obtain ⟨m2, e2⟩ := o2 _ hg' fuel (le_trans (le_max_right _ _) hfuel)
    unfold walkAll at e2
    simp only [List.foldlM_cons, List.foldlM_nil, bind_pure] at e2
    have e1 : walkAll populateVisit (fun s a => s.1.kids a) (fun s a => s.1.seen a) fuel ((setLevels g (root :: roots) 0, []), [])
      (root :: roots) = .ok (m1, shown) := e1
    have e2 : walkFrom populateVisit (fun s a => s.1.kids a ++ (s.1.1.get a).parents) (fun s a => s.1.seen a) fuel
      ((setLevels g (root :: roots) 0, []), []) root = .ok (m2, order) := e2
    unfold saveNodes populate populateOrder wrap
    simp only [bind, Except.bind, pure, Except.pure, e1, e2]
    have d1 := drawing_agree H' hg' s1
    have d2 : order.map (nodeData (setLevels g (root :: roots) 0)) = order.map (nodeData (setLevels h (root :: roots) 0)) :=
      List.map_congr_left fun a ha => nodeData_agree H' hg' (o1 a ha)
    rw [← d1, ← d2]
    rfl

end agree

/-- Saving one network: it ends; the rest of the heap is left alone. -/
theorem saveTree_settles (cfg : Config) {h : Heap ℚ} {U : Addr → Prop} (H : Region h U) {roots : List Addr} (hne : roots ≠ [])
    (hr : ∀ r ∈ roots, U r) {s : Saved ℚ} {h₁ : Heap ℚ} (hs : Settles (fun fuel => saveNodes fuel h roots) (.ok (h₁, s)))
    (h1 : h₁ = setLevels h roots 0) :
    ∃ r, Settles (fun fuel => saveTree cfg fuel h roots) r ∧ Ends (fun x => x.2.1 = s ∧ h.next ≤ x.1.next ∧ h.nextUid ≤ x.1.nextUid ∧
      ∀ a, a < h.next → ¬ U a → x.1.get a = h.get a) r := by
  subst h1
  have S := setLevels_same h roots 0
  have H₁ := S.region H
  obtain ⟨r, h1, h2⟩ := expandRoots_frame cfg H₁ roots hr
  have hk : ∀ x, ∃ r', r = .ok x → Settles (fun fuel => saveNodes fuel x roots) r' ∧
      Ends (fun y => y.1 = setLevels x roots 0) r' := by
    intro x
    by_cases e : r = .ok x
    · have E := (Ends.iff.1 h1).2 x e
      obtain ⟨s', hs'⟩ := saveNodes_agree E.2.2.2 roots hne fun r hr' => .inl (hr r hr')
      exact ⟨_, fun _ => ⟨hs' x fun _ _ => rfl, rfl⟩⟩
    · exact ⟨.error .diverge, fun e' => absurd e' e⟩
  choose k hk using hk
  refine ⟨r >>= fun x => k x >>= fun y => .ok (y.1, s, y.2), ?_, ?_⟩
  · refine Settles.bind hs (k := fun _ => r >>= fun x => k x >>= fun y => .ok (y.1, s, y.2)) fun x hx => ?_
    cases hx
    exact Settles.bind h2 fun x hx => Settles.bind (hk x hx).1 fun y _ => ⟨0, fun _ _ => rfl⟩
  · refine (Ends.bind h1.self' fun x hx => ?_)
    refine Ends.bind (hk x hx.1).2 fun y hy => ⟨rfl, ?_, ?_, fun a ha hU => ?_⟩
    · show h.next ≤ y.1.next
      rw [hy, (setLevels_same x roots 0).next]
      exact S.next ▸ hx.2.1
    · show h.nextUid ≤ y.1.nextUid
      rw [hy, (setLevels_same x roots 0).nextUid]
      exact S.nextUid ▸ hx.2.2.1
    · show y.1.get a = h.get a
      rw [hy, setLevels_other _ _ _ _ fun q => hU (hr a q), hx.2.2.2.1 a (by rw [S.next]; exact ha) hU, setLevels_other _ _ _ _ fun q => hU (hr a q)]

/-- A part of the heap that was left alone is still such a part. -/
theorem Region.frame {h h' : Heap ℚ} {U : Addr → Prop} (H : Region h U) (hn : h.next ≤ h'.next) (hu : h.nextUid ≤ h'.nextUid)
    (hg : ∀ a, U a → h'.get a = h.get a) : Region h' U where
  inside a ha := lt_of_lt_of_le (H.inside a ha) hn
  children a ha := by rw [hg a ha]; exact H.children a ha
  parents a ha := by rw [hg a ha]; exact H.parents a ha
  ids a b ha hb := by rw [hg a ha, hg b hb]; exact H.ids a b ha hb
  fresh a ha := by rw [hg a ha]; exact lt_of_lt_of_le (H.fresh a ha) hu

end Satis.Graph
