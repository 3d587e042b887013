import Verif.Graph.LaneExpand
/-!
# The ways stay open in the whole of `expand`
-/

namespace Satis.Graph
open Satis Satis.Cost

theorem keep_mergeLink (N : Option Addr) (h : Heap ℚ) (m a : Addr) : Keep N h (mergeLink m h a) := by
  unfold mergeLink
  exact (keep_link N h a m).trans (Keep.modify rfl rfl rfl fun _ _ hx => hx)

theorem mergeLink_child (h : Heap ℚ) (m a : Addr) : m ∈ ((mergeLink m h a).get a).children := by
  unfold mergeLink
  simp only
  have := link_child h a m
  rw [Heap.get_modify]
  split
  · next e => subst e; exact this
  · exact this

theorem mergeLink_more (h : Heap ℚ) (m a x c : Addr) (hc : c ∈ (h.get x).children) : c ∈ ((mergeLink m h a).get x).children := by
  unfold mergeLink link
  simp only [Heap.get_modify]
  split <;> split <;> (try split) <;> simp_all

theorem keep_merge3 (h : Heap ℚ) (a b c : Addr) :
    Yields (fun x => (∀ N, Keep N h x.1) ∧ h.next ≤ x.2 ∧ x.2 < x.1.next ∧ heavy (x.1.get x.2) = [] ∧ (x.1.get x.2).level ≠ none ∧
      ∀ y ∈ [a, b, c], x.2 ∈ (x.1.get y).children) (merge (fun (v : ℚ) k => v / k) h [a, b, c]) := by
  unfold merge
  refine Yields.any fun lvl => ?_
  refine (keep_newNode h _ [] (some lvl)).bind ?_
  rintro ⟨h₂, m⟩ ⟨K2, em, n2, e2, l2⟩
  have em : m = h.next := em
  have n2 : h₂.next = h.next + 1 := n2
  have e2 : heavy (h₂.get m) = [] := e2
  have l2 : (h₂.get m).level = some lvl := l2
  simp only [List.length_cons, List.length_nil, Nat.reduceAdd, Nat.reduceLeDiff, gt_iff_lt, Nat.lt_irrefl, if_false, List.foldl_cons,
    List.foldl_nil]
  have K := fun N => ((keep_mergeLink N h₂ m a).trans (keep_mergeLink N _ m b)).trans (keep_mergeLink N _ m c)
  have hl : ((mergeLink m (mergeLink m (mergeLink m h₂ a) b) c).get m).level = (h₂.get m).level := by
    have one : ∀ (g : Heap ℚ) (y : Addr), ((mergeLink m g y).get m).level = (g.get m).level := by
      intro g y
      unfold mergeLink link
      simp only [Heap.get_modify]
      split <;> split <;> simp_all
    rw [one, one, one]
  refine Yields.pure ⟨fun N => (K2 N).trans (K N), by show h.next ≤ m; omega, ?_, ?_, ?_, ?_⟩
  · show m < h₂.next
    omega
  · rw [(K none).heavy m (by omega)]
    exact e2
  · rw [hl, l2]
    simp
  · intro y hy
    simp only [List.mem_cons, List.not_mem_nil, or_false] at hy
    rcases hy with rfl | rfl | rfl
    · exact mergeLink_more _ _ _ _ _ (mergeLink_more _ _ _ _ _ (mergeLink_child _ _ _))
    · exact mergeLink_more _ _ _ _ _ (mergeLink_child _ _ _)
    · exact mergeLink_child _ _ _

theorem filter_fold (node : Addr) : ∀ (l : List Addr) (h : Heap ℚ),
    (l.foldl (fun h x => h.modify x fun o => { o with children := o.children.filter fun y => decide (y ≠ node) }) h).next = h.next ∧
    ∀ x, ((l.foldl (fun h x => h.modify x fun o => { o with children := o.children.filter fun y => decide (y ≠ node) }) h).get x).value = (h.get x).value ∧
      ((l.foldl (fun h x => h.modify x fun o => { o with children := o.children.filter fun y => decide (y ≠ node) }) h).get x).level = (h.get x).level ∧
      ((l.foldl (fun h x => h.modify x fun o => { o with children := o.children.filter fun y => decide (y ≠ node) }) h).get x).expands = (h.get x).expands ∧
      ∀ c ∈ (h.get x).children, c ≠ node ∨ x ∉ l →
        c ∈ ((l.foldl (fun h x => h.modify x fun o => { o with children := o.children.filter fun y => decide (y ≠ node) }) h).get x).children := by
  intro l
  induction l with
  | nil => exact fun h => ⟨rfl, fun x => ⟨rfl, rfl, rfl, fun c hc _ => hc⟩⟩
  | cons a l ih =>
    intro h
    obtain ⟨h1, h2⟩ := ih (h.modify a fun o => { o with children := o.children.filter fun y => decide (y ≠ node) })
    refine ⟨h1, fun x => ?_⟩
    obtain ⟨q1, q2, q3, q4⟩ := h2 x
    rw [List.foldl_cons]
    refine ⟨q1.trans ?_, q2.trans ?_, q3.trans ?_, fun c hc hor => q4 c ?_ (hor.imp_right fun w hx => w (List.mem_cons_of_mem _ hx))⟩
    · rw [Heap.get_modify]; split <;> simp_all
    · rw [Heap.get_modify]; split <;> simp_all
    · rw [Heap.get_modify]; split <;> simp_all
    · rw [Heap.get_modify]
      split
      · next e =>
        subst e
        rcases hor with w | w
        · exact List.mem_filter.2 ⟨hc, by simpa using w⟩
        · exact absurd (by simp) w
      · exact hc

theorem keep_mergeRounds (node : Addr) (t : Nat) : ∀ (fuel : Nat) (todo : List Addr) (h : Heap ℚ), node < h.next →
    Yields (fun x => Keep none h x.1) (mergeRounds node t fuel h todo) := by
  intro fuel
  induction fuel with
  | zero =>
    intro todo h hn
    unfold mergeRounds
    split
    · exact Yields.pure (Keep.refl none h)
    · intro x hx
      cases hx
  | succ fuel ih =>
    intro todo h hn
    rw [mergeRounds.eq_def]
    by_cases hle : todo.length ≤ t
    · simp only [hle, if_true]
      exact Yields.pure (Keep.refl none h)
    · simp only [hle, if_false]
      clear hle
      match todo with
      | a :: b :: c :: rest =>
        refine (keep_merge3 h a b c).bind ?_
        rintro ⟨h₂, m⟩ ⟨K2, lm, nm, em, vm, cm⟩
        have lm : h.next ≤ m := lm
        have nm : m < h₂.next := nm
        have em : heavy (h₂.get m) = [] := em
        have vm : (h₂.get m).level ≠ none := vm
        have cm : ∀ y ∈ [a, b, c], m ∈ (h₂.get y).children := cm
        have hne : m ≠ node := by omega
        obtain ⟨f1, f2⟩ := filter_fold node [a, b, c] h₂
        simp only
        generalize [a, b, c].foldl (fun h x => h.modify x fun o => { o with children := o.children.filter fun y => decide (y ≠ node) }) h₂ = h₃ at f1 f2 ⊢
        have hv : ∀ x, heavy (h₃.get x) = heavy (h₂.get x) := fun x => by unfold heavy; rw [(f2 x).2.2.1]
        generalize (h₃.get node).level = lv
        have K4 : Keep none h₂ (h₃.modify m fun o => { o with level := lv, children := o.children ++ [node] }) := by
          refine Keep.of f1.ge ?_ ?_ ?_ ?_ ?_
          · intro x _
            rw [Heap.get_modify]
            split
            · next e => rw [e]; exact (f2 m).1
            · exact (f2 x).1
          · intro x _ e
            rw [Heap.get_modify]
            split
            · next e' => exact absurd (e' ▸ e) vm
            · rw [(f2 x).2.1]; exact e
          · intro x _
            rw [Heap.get_modify]
            split
            · next e => rw [e]; exact hv m
            · exact hv x
          · intro x h1 h2
            have h2 : x < h₃.next := h2
            omega
          · intro x _ _ k hk
            have keepm : ∀ y k, k ∈ (h₃.get y).children →
                k ∈ ((h₃.modify m fun o => { o with level := lv, children := o.children ++ [node] }).get y).children := by
              intro y k hk
              rw [Heap.get_modify]
              split
              · next e => subst e; exact List.mem_append_left _ hk
              · exact hk
            by_cases hd : k ≠ node ∨ x ∉ [a, b, c]
            · exact .inl (keepm x k ((f2 x).2.2.2 k hk hd))
            · push Not at hd
              obtain ⟨rfl, hx⟩ := hd
              refine .inr ⟨m, by show m < h₃.next; omega, by simp, ?_, keepm x m ((f2 x).2.2.2 m (cm x hx) (.inl hne)), ?_⟩
              · rw [Heap.get_modify, if_pos rfl]
                exact (hv m).trans em
              · rw [Heap.get_modify, if_pos rfl]
                simp
        intro x hx
        have n2 := (K2 none).next
        have n2 : h.next ≤ h₂.next := n2
        exact ((K2 none).trans K4).trans (ih (m :: rest) _ (by show node < h₃.next; omega) x hx)
      | [] => intro x hx; cases hx
      | [_] => intro x hx; cases hx
      | [_, _] => intro x hx; cases hx

/-- **`expand_merge`**: ways through the node and its parents stay open. -/
theorem keep_expandMerge (h : Heap ℚ) (node : Addr) (hnode : node < h.next) (t : Nat) : Yields (fun x => Keep none h x.1) (expandMerge h node t) := by
  unfold expandMerge
  split
  · exact Yields.pure (Keep.refl none h)
  · refine (keep_mergeRounds node t _ _ h hnode).bind ?_
    rintro ⟨h₂, todo⟩ K
    have K : Keep none h h₂ := K
    have K2 : Keep none h₂ (h₂.modify node fun o => { o with parents := todo.reverse }) := keep_parents none h₂ node fun _ => todo.reverse
    exact Yields.pure (K.trans K2)

theorem newNode_bare (h : Heap ℚ) (v : ℚ) (p : List ℚ) (l : Option Int) :
    Yields (fun x => (x.1.get x.2).children = []) (newNode h v p none l) := by
  unfold newNode
  split
  · intro x hx; cases hx
  · refine Yields.pure ?_
    simp [Heap.get_alloc]

/-- **`expand_split`**. -/
theorem keep_expandSplit (h : Heap ℚ) (node : Addr) (c : ℚ) : Yields (fun x => Keep (some node) h x.1) (expandSplit h node c) := by
  unfold expandSplit
  refine Yields.any fun lvl => ?_
  refine (Yields.self (newNode h (c / 3 * 2) [] none (some lvl))).bind ?_
  rintro ⟨h₂, new⟩ hn
  have K2 := (keep_newNode h _ [] (some lvl) _ hn).1
  have hnew : (h₂.get new).children = [] := newNode_bare h _ [] (some lvl) _ hn
  have key : ∀ (cs : List Addr) (h : Heap ℚ), Keep (some node) h (cs.foldl (fun h x => if (h.get x).value = c / 3 then
        (h.modify new fun o => { o with children := o.children ++ [x] }).modify x fun o => { o with parents := [new] }
        else h.modify node fun o => { o with children := o.children ++ [x] }) h) := by
    intro cs
    induction cs with
    | nil => exact fun h => Keep.refl _ h
    | cons x cs ih =>
      intro h
      rw [List.foldl_cons]
      refine Keep.trans ?_ (ih _)
      split
      · exact (keep_addChild _ _ _ _).trans (keep_parents _ _ _ _)
      · exact keep_addChild _ _ _ _
  have K3 : Keep (some node) h₂ (h₂.modify new fun o => { o with levelsToAdd := -1, children := [new], parents := [node] }) :=
    Keep.modify rfl rfl rfl fun _ x hx => by rw [hnew] at hx; simp at hx
  have K4 : Keep (some node) (h₂.modify new fun o => { o with levelsToAdd := -1, children := [new], parents := [node] })
      ((h₂.modify new fun o => { o with levelsToAdd := -1, children := [new], parents := [node] }).modify node fun o => { o with children := [new] }) :=
    Keep.modify rfl rfl rfl fun w => absurd rfl w
  exact Yields.pure ((((K2 _).trans K3).trans K4).trans (key _ _))

/-- What `expand` has done so far: ways are open as before; what is pending besides merges is pending still, or it was done, and if it put too much on its
node, there is a node without a level that can be reached. -/
structure Roads (cfg : Config) (roots : List Addr) (h : Heap ℚ) (U : Addr → Prop) (h' : Heap ℚ) : Prop where
  evolved : Evolved False 0 h U h'
  light : ∀ x, x < h.next → heavy (h.get x) = [] → heavy (h'.get x) = []
  fresh : ∀ x, h.next ≤ x → x < h'.next → heavy (h'.get x) = []
  lane : ∀ rs a, Lane none h rs a → Lane none h' rs a
  stranded : Stranded h roots → Stranded h' roots
  fate : ∀ a, U a → ∀ e, heavy (h.get a) = [e] → heavy (h'.get a) = [e] ∨ (Overruns cfg (h.get a).value e → Stranded h' roots)

theorem Region.within {h : Heap ℚ} {U : Addr → Prop} (H : Region h U) : Within h U h = U := by
  funext a
  unfold Within
  simp only [eq_iff_iff, or_iff_left_iff_imp]
  intro hx
  have := H.inside
  omega

theorem within_trans {h h₁ h₂ : Heap ℚ} {U : Addr → Prop} (h1 : h.next ≤ h₁.next) (h2 : h₁.next ≤ h₂.next) :
    Within h₁ (Within h U h₁) h₂ = Within h U h₂ := by
  funext a
  unfold Within
  apply propext
  constructor
  · rintro ((w | w) | w)
    · exact .inl w
    · exact .inr (by omega)
    · exact .inr (by omega)
  · rintro (w | w)
    · exact .inl (.inl w)
    · by_cases hx : a < h₁.next
      · exact .inl (.inr (by omega))
      · exact .inr (by omega)

theorem Region.roads (cfg : Config) (roots : List Addr) {h : Heap ℚ} {U : Addr → Prop} (H : Region h U) : Roads cfg roots h U h :=
  ⟨H.evolved False, fun _ _ e => e, fun x h1 h2 => absurd h1 (by omega), fun _ _ L => L, id, fun _ _ _ e => .inl e⟩

theorem Roads.trans {cfg : Config} {roots : List Addr} {h h₁ h₂ : Heap ℚ} {U : Addr → Prop} (hU : ∀ a, U a → a < h.next) (A : Roads cfg roots h U h₁)
    (B : Roads cfg roots h₁ (Within h U h₁) h₂) : Roads cfg roots h U h₂ := by
  have := A.evolved.next
  refine ⟨A.evolved.trans hU B.evolved, fun x hx e => B.light x (by omega) (A.light x hx e), fun x h1 h2 => ?_, fun rs a L => B.lane rs a (A.lane rs a L),
    fun w => B.stranded (A.stranded w), fun a ha e he => ?_⟩
  · by_cases hx : x < h₁.next
    · exact B.light x hx (A.fresh x h1 hx)
    · exact B.fresh x (by omega) h2
  rcases A.fate a ha e he with h1 | h1
  · rcases B.fate a (.inl ha) e h1 with h2 | h2
    · exact .inl h2
    · right
      rwa [A.evolved.value a ha] at h2
  · exact .inr fun w => B.stranded (h1 w)

/-- One pending expansion. -/
theorem roads_runExpand (cfg : Config) (roots : List Addr) {h : Heap ℚ} {U : Addr → Prop} (H : Region h U) (node : Addr) (hnode : U node)
    (L : Lane none h roots node) (e : Expand ℚ) (es : List (Expand ℚ)) (he : (h.get node).expands = e :: es) :
    Yields (fun x => Roads cfg roots h U x.1) (runExpand cfg (h.modify node fun o => { o with expands := es }) node e) := by
  intro x hx
  have E : Evolved False 0 h U x.1 := ((Ends.iff.1 (ends_runExpand (strict := False) cfg H (fun w => w.elim) node hnode e es he)).2 x hx).1
  have hlt := H.inside node hnode
  generalize hg : (h.modify node fun o => { o with expands := es }) = g at hx
  have gn : g.next = h.next := by rw [← hg]; rfl
  have gv : ∀ y, (g.get y).value = (h.get y).value := fun y => by
    rw [← hg, Heap.get_modify]; split
    · next e => rw [e]
    · rfl
  have gl : ∀ y, (g.get y).level = (h.get y).level := fun y => by
    rw [← hg, Heap.get_modify]; split
    · next e => rw [e]
    · rfl
  have gc : ∀ y, (g.get y).children = (h.get y).children := fun y => by
    rw [← hg, Heap.get_modify]; split
    · next e => rw [e]
    · rfl
  have gh : ∀ y, y ≠ node → heavy (g.get y) = heavy (h.get y) := fun y hy => by
    rw [← hg, Heap.get_modify, if_neg hy]
  have gn' : heavy (g.get node) = heavy { (h.get node) with expands := es } := by
    rw [← hg, Heap.get_modify, if_pos rfl]
  have glight : ∀ y, heavy (h.get y) = [] → heavy (g.get y) = [] := by
    intro y hy
    by_cases e' : y = node
    · subst e'
      rw [gn']
      unfold heavy at hy ⊢
      rw [he] at hy
      cases e with
      | merge t => simpa using hy
      | _ => simp at hy
    · rw [gh y e']; exact hy
  have lanes : ∀ N rs a, Lane N h rs a → Lane N g rs a := by
    intro N rs a La
    induction La with
    | root h1 h2 => exact .root h1 (by omega)
    | child _ h0 h1 h2 h3 ih => exact .child ih h0 (glight _ h1) (by rw [gc]; exact h2) (by omega)
  -- a merge
  have light : ∀ (_ : Keep none g x.1) (t : Nat), e = .merge t → Roads cfg roots h U x.1 := by
    intro K t et
    have gh' : ∀ y, heavy (g.get y) = heavy (h.get y) := fun y => by
      by_cases e' : y = node
      · subst e'
        rw [gn']
        unfold heavy
        rw [he, et, List.filter_cons]
        simp
      · exact gh y e'
    have lane : ∀ rs a, Lane none h rs a → Lane none x.1 rs a := fun rs a La => K.lane rs a (lanes none rs a La)
    refine ⟨E, fun y hy w => ?_, fun y h1 h2 => K.fresh y (by omega) h2, lane, fun ⟨a, s1, s2⟩ => ⟨a, lane _ _ s1, K.low a (by have := s1.lt; omega) (by rw [gl]; exact s2)⟩, fun a ha e' w => .inl ?_⟩
    · rw [K.heavy y (by omega), gh']; exact w
    · rw [K.heavy a (by have := H.inside a ha; omega), gh']; exact w
  -- the others
  have full : ∀ (_ : Keep (some node) g x.1), (∀ t, e ≠ .merge t) →
      (heavy (g.get node) = [] → Overruns cfg (g.get node).value e → Stranded x.1 [node]) → Roads cfg roots h U x.1 := by
    intro K et hs
    have hh : heavy (h.get node) = e :: heavy (g.get node) := by
      rw [gn']
      unfold heavy
      rw [he, List.filter_cons]
      cases e with
      | merge t => exact absurd rfl (et t)
      | _ => rfl
    have lane : ∀ rs a, Lane none h rs a → Lane none x.1 rs a := fun rs a La =>
      (K.lane rs a (lanes (some node) rs a (La.avoid (by rw [hh]; simp)))).open
    refine ⟨E, fun y hy w => ?_, fun y h1 h2 => K.fresh y (by omega) h2, lane, fun ⟨a, s1, s2⟩ => ⟨a, lane _ _ s1, K.low a (by have := s1.lt; omega) (by rw [gl]; exact s2)⟩, fun a ha e' w => ?_⟩
    · rw [K.heavy y (by omega), glight y w]
    · by_cases ea : a = node
      · right
        subst ea
        rw [hh] at w
        simp only [List.cons.injEq] at w
        obtain ⟨rfl, w⟩ := w
        intro ho
        rw [← gv] at ho
        obtain ⟨b, s1, s2⟩ := hs w ho
        exact ⟨b, (lane _ _ L).trans s1, s2⟩
      · left
        rw [K.heavy a (by have := H.inside a ha; omega), gh a ea]; exact w
  have hlt' : node < g.next := by omega
  cases e with
  | extract c =>
    obtain ⟨K, s⟩ := keep_expandExtract cfg g node hlt' c x hx
    exact full K (by simp) s
  | divide d =>
    obtain ⟨K, s⟩ := keep_expandDivide cfg g node hlt' d x hx
    exact full K (by simp) s
  | merge t => exact light (keep_expandMerge g node hlt' t x hx) t rfl
  | split c => exact full (keep_expandSplit g node c x hx) (by simp) (fun _ w => w.elim)

theorem roads_runExpands (cfg : Config) (roots : List Addr) (node : Addr) : ∀ (fuel : Nat) (h : Heap ℚ) (U : Addr → Prop), Region h U → U node →
    Lane none h roots node → Yields (fun x => Roads cfg roots h U x.1 ∧ (x.1.get node).expands = []) (runExpands cfg fuel h node) := by
  intro fuel
  induction fuel with
  | zero =>
    intro h U H hn L
    unfold runExpands
    split
    · next e => exact Yields.pure ⟨H.roads cfg roots, e⟩
    · intro x hx
      cases hx
  | succ fuel ih =>
    intro h U H hn L
    unfold runExpands
    split
    · next e => exact Yields.pure ⟨H.roads cfg roots, e⟩
    · next e es he =>
      refine (roads_runExpand cfg roots H node hn L e es he).bind ?_
      rintro ⟨h₂, u⟩ R2
      refine (ih h₂ _ R2.evolved.region (.inl hn) (R2.lane _ _ L)).bind ?_
      rintro ⟨h₃, us⟩ ⟨R3, e3⟩
      exact Yields.pure ⟨R2.trans H.inside R3, e3⟩

/-- What has been seen has nothing but merges pending. -/
def Seen (s : Marked ℚ × List (Int × Int)) (U : Addr → Prop) : Prop := ∀ a, U a → (s.1.1.get a).id ∈ s.1.2 → heavy (s.1.1.get a) = []

theorem roads_visit (cfg : Config) (roots : List Addr) (F : Nat) (s : Marked ℚ × List (Int × Int)) (a : Addr) {U : Addr → Prop} (H : Region s.1.1 U)
    (S : Seen s U) (ha : U a) (L : Lane none s.1.1 roots a) :
    Yields (fun s' => Roads cfg roots s.1.1 U s'.1.1 ∧ Seen s' (Within s.1.1 U s'.1.1) ∧ heavy (s'.1.1.get a) = []) (expandVisit cfg F s a) := by
  unfold expandVisit
  refine (roads_runExpands cfg roots a F s.1.1 U H ha L).bind ?_
  rintro ⟨h₂, us⟩ ⟨R, e⟩
  have e : (h₂.get a).expands = [] := e
  have e' : heavy (h₂.get a) = [] := by
    unfold heavy
    rw [e]
    rfl
  refine Yields.pure ⟨R, fun b hb hid => ?_, e'⟩
  have hid : (h₂.get b).id ∈ s.1.2 ++ [(s.1.1.get a).id] := hid
  show heavy (h₂.get b) = []
  rcases hb with hb | hb
  · have R : Roads cfg roots s.1.1 U h₂ := R
    rw [R.evolved.id b hb, List.mem_append] at hid
    rcases hid with hid | hid
    · exact R.light b (H.inside b hb) (S b hb hid)
    · rw [H.ids b a hb ha (List.mem_singleton.1 hid)]
      exact e'
  · exact R.fresh b hb.1 hb.2

theorem roads_walk (cfg : Config) (roots : List Addr) (F : Nat) : ∀ (fuel : Nat) (s : Marked ℚ × List (Int × Int)) (U : Addr → Prop)
    (stack : List (Addr × Nat)), Region s.1.1 U → Seen s U → (∀ f ∈ stack, U f.1 ∧ Lane none s.1.1 roots f.1 ∧ heavy (s.1.1.get f.1) = []) →
    Yields (fun s' => Roads cfg roots s.1.1 U s'.1.1 ∧ Seen s' (Within s.1.1 U s'.1.1)) (expandWalk cfg F fuel s stack) := by
  intro fuel
  induction fuel with
  | zero =>
    intro s U stack H S hst
    cases stack with
    | nil => exact Yields.pure ⟨H.roads cfg roots, by rw [H.within]; exact S⟩
    | cons f stack => intro x hx; cases hx
  | succ fuel ih =>
    intro s U stack H S hst
    cases stack with
    | nil => exact Yields.pure ⟨H.roads cfg roots, by rw [H.within]; exact S⟩
    | cons f stack =>
      obtain ⟨a, i⟩ := f
      obtain ⟨ua, la, qa⟩ := hst (a, i) (by simp)
      have hst' : ∀ f ∈ stack, U f.1 ∧ Lane none s.1.1 roots f.1 ∧ heavy (s.1.1.get f.1) = [] := fun f hf => hst f (List.mem_cons_of_mem _ hf)
      have hst1 : ∀ f ∈ (a, i + 1) :: stack, U f.1 ∧ Lane none s.1.1 roots f.1 ∧ heavy (s.1.1.get f.1) = [] := fun f hf => by
        rcases List.mem_cons.1 hf with rfl | hf
        · exact ⟨ua, la, qa⟩
        · exact hst' f hf
      rw [expandWalk, walk]
      split
      · exact ih s U stack H S hst'
      · next c hc =>
        split
        · exact ih s U _ H S hst1
        · have hcm := List.mem_of_getElem? hc
          have uc := H.children a ua c hcm
          have lc : Lane none s.1.1 roots c := .child la (by simp) qa hcm (H.inside c uc)
          have v := roads_visit cfg roots F s c H S uc lc
          split
          · intro x hx
            cases hx
          · next s' e =>
            obtain ⟨R, S', q⟩ := v s' e
            have := ih s' _ ((c, 0) :: (a, i + 1) :: stack) R.evolved.region S' fun f hf => by
              rcases List.mem_cons.1 hf with rfl | hf
              · exact ⟨.inl uc, R.lane _ _ lc, q⟩
              · obtain ⟨w1, w2, w3⟩ := hst1 f hf
                exact ⟨.inl w1, R.lane _ _ w2, R.light _ (H.inside _ w1) w3⟩
            intro x hx
            obtain ⟨R2, S2⟩ := this x hx
            exact ⟨R.trans H.inside R2, by rw [within_trans R.evolved.next R2.evolved.next] at S2; exact S2⟩

/-- **`expand` on all roots.** -/
theorem roads_expandAll (cfg : Config) (fuel : Nat) {h : Heap ℚ} {U : Addr → Prop} (H : Region h U) (roots : List Addr) (hr : ∀ r ∈ roots, U r)
    (us : List (Int × Int)) : Yields (fun x => Roads cfg roots h U x.1 ∧ ∀ r ∈ roots, heavy (x.1.get r) = []) (expandAll cfg fuel h roots us) := by
  unfold expandAll walkAll
  have key : ∀ (rs : List Addr), (∀ r ∈ rs, r ∈ roots) → ∀ (s : Marked ℚ × List (Int × Int)) (U : Addr → Prop), Region s.1.1 U → Seen s U →
      (∀ r ∈ rs, U r) → Yields (fun s' => Roads cfg roots s.1.1 U s'.1.1 ∧ ∀ r ∈ rs, heavy (s'.1.1.get r) = [])
        (rs.foldlM (fun s a => walkFrom (expandVisit cfg fuel) (fun s a => s.1.kids a) (fun s a => s.1.seen a) fuel s a) s) := by
    intro rs
    induction rs with
    | nil => exact fun _ s U H _ _ => Yields.pure ⟨H.roads cfg roots, by simp⟩
    | cons r rs ih =>
      intro hsub s U H S hrs
      have ur := hrs r (by simp)
      have lr : Lane none s.1.1 roots r := .root (hsub r (by simp)) (H.inside r ur)
      rw [List.foldlM_cons]
      have first : Yields (fun s' => Roads cfg roots s.1.1 U s'.1.1 ∧ Seen s' (Within s.1.1 U s'.1.1) ∧ heavy (s'.1.1.get r) = [])
          (walkFrom (expandVisit cfg fuel) (fun s a => s.1.kids a) (fun s a => s.1.seen a) fuel s r) := by
        unfold walkFrom
        split
        · next hseen =>
          exact Yields.pure ⟨H.roads cfg roots, by rw [H.within]; exact S, S r ur (by simpa [Marked.seen] using hseen)⟩
        · have v := roads_visit cfg roots fuel s r H S ur lr
          split
          · intro x hx
            cases hx
          · next s' e =>
            obtain ⟨R, S', q⟩ := v s' e
            intro x hx
            obtain ⟨R2, S2⟩ := roads_walk cfg roots fuel fuel s' _ [(r, 0)] R.evolved.region S' (fun f hf => by
              rw [List.mem_singleton.1 hf]
              exact ⟨.inl ur, R.lane _ _ lr, q⟩) x hx
            exact ⟨R.trans H.inside R2, by rw [within_trans R.evolved.next R2.evolved.next] at S2; exact S2,
              R2.light r (by have := H.inside r ur; have := R.evolved.next; omega) q⟩
      refine first.bind fun s' ⟨R, S', q⟩ => ?_
      intro x hx
      obtain ⟨R2, q2⟩ := ih (fun y hy => hsub y (List.mem_cons_of_mem _ hy)) s' _ R.evolved.region S'
        (fun y hy => .inl (hrs y (List.mem_cons_of_mem _ hy))) x hx
      refine ⟨R.trans H.inside R2, fun y hy => ?_⟩
      rcases List.mem_cons.1 hy with rfl | hy
      · exact R2.light y (by have := H.inside y ur; have := R.evolved.next; omega) q
      · exact q2 y hy
  refine (key roots (fun _ h => h) ((h, []), us) U H (fun a _ w => absurd w (by simp)) hr).bind ?_
  rintro s R
  exact Yields.pure R

end Satis.Graph
