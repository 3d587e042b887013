import Verif.Graph.Endless
import Verif.Graph.PictureSave
/-!
# A division puts new nodes below its node
-/

namespace Satis.Graph
open Satis Satis.Cost Relation

/-- One of the children of the node was made after the first `K` nodes. -/
def Ousted (K : Nat) (h : Heap ℚ) (a : Addr) : Prop := ∃ c ∈ (h.get a).children, K ≤ c

theorem Adds.ousted {N : Option Addr} {h h' : Heap ℚ} (A : Adds N h h') {K : Nat} {a : Addr} (ha : a < h.next) (hN : N ≠ some a) (w : Ousted K h a) :
    Ousted K h' a := by
  obtain ⟨c, h1, h2⟩ := w
  exact ⟨c, A.kids a ha hN c h1, h2⟩

theorem oust_newLayer (node : Addr) (q off : Nat) (value : ℚ) (lvl depth : Int) (cur : List Addr) (h : Heap ℚ) : ∀ j,
    Yields (fun x => (x.2 ≠ [] → cur ≠ []) ∧ (cur = [node] → x.2 ≠ [] → Ousted h.next x.1 node)) (newLayer q off value lvl depth cur h j) := by
  intro j
  cases j with
  | zero => exact Yields.pure ⟨fun w => absurd rfl w, fun _ w => absurd rfl w⟩
  | succ j =>
    rw [newLayer]
    refine (adds_newLayer node q off value lvl depth cur h j).bind ?_
    rintro ⟨h₂, as⟩ ⟨K2, -⟩
    refine (adds_newNode h₂ value [] (some lvl)).bind ?_
    rintro ⟨h₃, a⟩ ⟨-, ea, -, -, -⟩
    refine (yields_item cur _).bind ?_
    intro p hp
    have ea : a = h₂.next := ea
    refine Yields.pure ⟨fun _ => List.ne_nil_of_mem hp, fun hc _ => ⟨a, ?_, by rw [ea]; exact K2.next⟩⟩
    rw [hc, List.mem_singleton] at hp
    subst hp
    have Kc := adds_parents none ((h₃.modify a fun o => { o with levelsToAdd := -depth }).modify p fun o => { o with children := o.children ++ [a] }) a
      fun _ => [p]
    simp only [Heap.get_modify]
    split
    · next e => subst e; simp
    · simp

theorem oust_hangChildren (node : Addr) (q off : Nat) (cur : List Addr) : ∀ (cs : List Addr) (h : Heap ℚ) (j : Nat),
    Yields (fun h' => (cs ≠ [] → cur ≠ []) ∧ (cur = [node] → node < h.next → ∀ c ∈ cs, c ∈ (h'.get node).children)) (hangChildren q off cur h j cs) := by
  intro cs
  induction cs with
  | nil => exact fun h j => Yields.pure ⟨fun w => absurd rfl w, by simp⟩
  | cons c cs ih =>
    intro h j
    rw [hangChildren]
    refine (yields_item cur _).bind fun p hp => ?_
    intro x hx
    obtain ⟨-, w⟩ := ih _ _ x hx
    obtain ⟨K, -⟩ := adds_hangChildren node q off cur cs _ _ x hx
    refine ⟨fun _ => List.ne_nil_of_mem hp, fun hc hn y hy => ?_⟩
    rcases List.mem_cons.1 hy with rfl | hy
    · have hp' := hp
      rw [hc, List.mem_singleton] at hp'
      subst hp'
      exact K.kids p hn (by simp) y (adopt_child h p y)
    · exact w hc hn y hy

/-- One depth. -/
theorem oust_divideLayer (node : Addr) (q width : Nat) (plan : Nat × Nat) (value : ℚ) (depth : Int) (target : Addr) (last : Bool) (original : List Addr)
    (s : Heap ℚ × Int × List Addr) (hn : node < s.1.next) :
    Yields (fun s' => Adds none s.1 s'.1 ∧ (s'.2.2 ≠ [] → s.2.2 ≠ []) ∧ (s.2.2 = [node] → last = false → s'.2.2 ≠ [] → Ousted s.1.next s'.1 node) ∧
      (last = true → s'.2.2 = original) ∧ (s.2.2 = [node] → last = true → ∀ c ∈ original, c ∈ (s'.1.get node).children))
      (divideLayer q width plan value depth target last original s) := by
  obtain ⟨h₁, lvl, cur⟩ := s
  have hn : node < h₁.next := hn
  have cont : ∀ x : Heap ℚ × List Addr, (Adds none h₁ x.1 ∧ (x.2 ≠ [] → cur ≠ []) ∧ (cur = [node] → last = false → x.2 ≠ [] → Ousted h₁.next x.1 node) ∧
      (last = true → x.2 = original) ∧ (cur = [node] → last = true → ∀ c ∈ original, c ∈ (x.1.get node).children)) →
      Yields (fun s' : Heap ℚ × Int × List Addr => Adds none h₁ s'.1 ∧ (s'.2.2 ≠ [] → cur ≠ []) ∧
        (cur = [node] → last = false → s'.2.2 ≠ [] → Ousted h₁.next s'.1 node) ∧
        (last = true → s'.2.2 = original) ∧ (cur = [node] → last = true → ∀ c ∈ original, c ∈ (s'.1.get node).children))
        (reroute q 0 target cur x.1 plan.1 >>= fun h' => Pure.pure (h', lvl + 1, x.2)) := by
    rintro ⟨h₂, new⟩ ⟨K2, w1, w2, w3, w4⟩
    refine (adds_reroute node q 0 target cur h₂ plan.1).bind ?_
    rintro h₃ ⟨K3, -⟩
    have n2 : h₁.next ≤ h₂.next := K2.next
    exact Yields.pure ⟨K2.trans K3, w1, fun a b c => K3.ousted (by omega) (by simp) (w2 a b c), w3,
      fun a b c hc => K3.kids node (by omega) (by simp) c (w4 a b c hc)⟩
  unfold divideLayer
  cases last
  · intro x hx
    have step : Yields (fun x : Heap ℚ × List Addr => Adds none h₁ x.1 ∧ (x.2 ≠ [] → cur ≠ []) ∧ (cur = [node] → x.2 ≠ [] → Ousted h₁.next x.1 node))
        (newLayer q plan.1 value (lvl + 1) depth cur h₁ (width - (plan.1 + plan.2))) := fun y hy =>
      ⟨(adds_newLayer node q plan.1 value (lvl + 1) depth cur h₁ _ y hy).1, oust_newLayer node q plan.1 value (lvl + 1) depth cur h₁ _ y hy⟩
    exact step.bind (fun y hy => cont y ⟨hy.1, hy.2.1, fun a _ c => hy.2.2 a c, by simp, by simp⟩) x hx
  · have step : Yields (fun h₂ => Adds none h₁ h₂ ∧ (original ≠ [] → cur ≠ []) ∧ (cur = [node] → ∀ c ∈ original, c ∈ (h₂.get node).children))
        (hangChildren q plan.1 cur h₁ 0 original) := fun y hy =>
      ⟨(adds_hangChildren node q plan.1 cur original h₁ 0 y hy).1, (oust_hangChildren node q plan.1 cur original h₁ 0 y hy).1,
        fun a => (oust_hangChildren node q plan.1 cur original h₁ 0 y hy).2 a hn⟩
    refine Yields.bind (step.map (P' := fun x : Heap ℚ × List Addr => Adds none h₁ x.1 ∧ (x.2 ≠ [] → cur ≠ []) ∧
      (cur = [node] → true = false → x.2 ≠ [] → Ousted h₁.next x.1 node) ∧
      (true = true → x.2 = original) ∧ (cur = [node] → true = true → ∀ c ∈ original, c ∈ (x.1.get node).children)) ?_) cont
    exact fun h₂ w => ⟨w.1, w.2.1, by simp, fun _ => rfl, fun a _ => w.2.2 a⟩

/-- **`expand_divide`** by four or more puts new nodes below the node; by less it leaves those that are there. -/
theorem oust_expandDivide (cfg : Config) (h : Heap ℚ) (node : Addr) (hnode : node < h.next) (d : Nat) (hd : 2 ≤ d) (K : Nat) (hK : K ≤ h.next)
    (hc : (h.get node).children ≠ []) (ho : 4 ≤ d ∨ Ousted K h node) : Yields (fun x => Ousted K x.1 node) (expandDivide cfg h node d) := by
  unfold expandDivide
  refine (Yields.self (findNML d)).bind ?_
  rintro ⟨n, m, l, ns⟩ hfr
  have hdeep := findNML_deep hfr hd
  have hdeep4 : 4 ≤ d → 2 ≤ n + m := by
    intro h4
    obtain ⟨n', m', e, hb, -⟩ := findNML_core d (by omega)
    rw [hfr] at e
    cases e
    by_contra hcon
    have : n = 0 ∧ m = 0 ∨ n = 1 ∧ m = 0 ∨ n = 0 ∧ m = 1 := by omega
    rcases this with ⟨rfl, rfl⟩ | ⟨rfl, rfl⟩ | ⟨rfl, rfl⟩ <;> simp [L] at hb <;> omega
  have cont : ∀ (over : Bool) (x : Heap ℚ × Addr), Adds none h x.1 →
      Yields (fun y : Heap ℚ × (Int × Int) => Ousted K y.1 node) (do
        let isRoot := decide ((x.1.get x.2).parents = [])
        let plan ← loopingBranches n m l (branchesCount n m)
        let values := layerValues ((h.get node).value + (l * (h.get node).value) / d) n m
        let lvl ← levelSucc (x.1.get node)
        let original := (x.1.get node).children
        let h := x.1.modify node fun o => { o with children := [] }
        let s ← (List.range n).foldlM (fun s i =>
          divideLayer 2 (2 ^ (i + 1)) (plan (i + 1, 0)) (values.getD (i + 1) 0) (n + m) x.2 (decide (i + 1 = n ∧ m = 0)) original s) (h, lvl, [node])
        let s ← (List.range m).foldlM (fun s i =>
          divideLayer 3 (2 ^ n * 3 ^ (i + 1)) (plan (n, i + 1)) (values.getD (n + i + 1) 0) (n + m) node (decide (i + 1 = m)) original s) s
        let h := if over then joinLoop s.1 node x.2 else s.1
        let h := tagMerge h x.2 (if isRoot then 2 else 3)
        return (h, (lvl, n + m))) := by
    rintro over ⟨h₁, loop⟩ K1
    have n1 : h.next ≤ h₁.next := K1.next
    have hkids : ∀ c ∈ (h.get node).children, c ∈ (h₁.get node).children := K1.kids node hnode (by simp)
    refine Yields.any fun plan => ?_
    refine Yields.any fun lvl => ?_
    simp only
    generalize (h₁.get node).children = original at hkids ⊢
    have hne : original ≠ [] := by
      obtain ⟨c, hc⟩ := List.exists_mem_of_ne_nil _ hc
      exact List.ne_nil_of_mem (hkids c hc)
    generalize hb : (h₁.modify node fun o => { o with children := [] }) = hB
    have nB : hB.next = h₁.next := by rw [← hb]; rfl
    let I : Nat → Bool → Heap ℚ × Int × List Addr → Prop := fun i done s => Adds none hB s.1 ∧ (i = 0 → s.2.2 = [node]) ∧
      (0 < i → s.2.2 ≠ [] → 2 ≤ n + m → Ousted K s.1 node) ∧ (done = true → s.2.2 = original) ∧
      (done = true → n + m = 1 → ∀ c ∈ original, c ∈ (s.1.get node).children)
    have step : ∀ (i q width : Nat) (plan : Nat × Nat) (value : ℚ) (depth : Int) (target : Addr) (last : Bool) (s : Heap ℚ × Int × List Addr),
        (last = true ↔ i + 1 = n + m) → I i false s → Yields (I (i + 1) last) (divideLayer q width plan value depth target last original s) := by
      intro i q width plan value depth target last s hl ⟨w1, w2, w3, _, _⟩ s' hs'
      have ns := w1.next
      obtain ⟨v1, v2, v3, v4, v5⟩ := oust_divideLayer node q width plan value depth target last original s (by omega) s' hs'
      refine ⟨w1.trans v1, by omega, fun _ hs2 h2 => ?_, v4, fun hlast h1 => v5 (w2 (by rw [hl] at hlast; omega)) hlast⟩
      rcases Nat.eq_zero_or_pos i with h0 | h0
      · have hlast : last = false := by
          cases last with
          | false => rfl
          | true => have := hl.1 rfl; omega
        obtain ⟨c, c1, c2⟩ := v3 (w2 h0) hlast hs2
        exact ⟨c, c1, by omega⟩
      · exact v1.ousted (by omega) (by simp) (w3 h0 (v2 hs2) h2)
    have weaken : ∀ {i done s}, I i done s → I i false s := fun ⟨w1, w2, w3, _, _⟩ => ⟨w1, w2, w3, by simp, by simp⟩
    refine (yields_foldlM (fun i s => I i (decide (i = n + m)) s) n _ ⟨Adds.refl none hB, fun _ => rfl, by omega, fun w => ?_, fun w => ?_⟩ ?_).bind ?_
    · have := of_decide_eq_true w; omega
    · have := of_decide_eq_true w; omega
    · intro i hi s S s' hs'
      have := step i _ _ _ _ _ _ _ s (by rw [decide_eq_true_eq]; omega) (weaken S) s' hs'
      have e : decide (i + 1 = n ∧ m = 0) = decide (i + 1 = n + m) := by
        by_cases hx : i + 1 = n + m
        · simp only [hx, decide_true, decide_eq_true_eq]; omega
        · simp only [hx, decide_false, decide_eq_false_iff_not]; omega
      rwa [e] at this
    intro s S
    refine (yields_foldlM (fun i s => I (n + i) (decide (n + i = n + m)) s) m _ S ?_).bind ?_
    · intro i hi s S s' hs'
      have := step (n + i) _ _ _ _ _ _ _ s (by rw [decide_eq_true_eq]; omega) (weaken S) s' hs'
      have e : decide (i + 1 = m) = decide (n + i + 1 = n + m) := by
        by_cases hx : n + i + 1 = n + m
        · simp only [hx, decide_true, decide_eq_true_eq]; omega
        · simp only [hx, decide_false, decide_eq_false_iff_not]; omega
      rwa [e] at this
    rintro s ⟨w1, -, w3, w4, w5⟩
    have n3 := w1.next
    have K4 : Adds none s.1 (tagMerge (if over then joinLoop s.1 node loop else s.1) loop
        (if decide ((h₁.get loop).parents = []) = true then 2 else 3)) := by
      cases over
      · exact adds_tagMerge none _ _ _
      · exact (adds_joinLoop _ _ _).1.trans (adds_tagMerge none _ _ _)
    refine Yields.pure (K4.ousted (by omega) (by simp) ?_)
    rcases (by omega : n + m = 1 ∨ 2 ≤ n + m) with h1 | h2
    · rcases ho with ho | ⟨c, c1, c2⟩
      · have := hdeep4 ho; omega
      · exact ⟨c, w5 (by simp) h1 c (hkids c c1), c2⟩
    · exact w3 (by omega) (by rw [w4 (by simp)]; exact hne) h2
  by_cases hover : (h.get node).value + (l * (h.get node).value) / d > (cfg.limit : ℚ)
  · simp only [hover, decide_true, if_true]
    exact (adds_newNode h _ [] none).bind fun x w => cont true x w.1
  · simp only [hover, decide_false]
    exact cont false (h, node) (Adds.refl none h)

theorem oust_mergeRounds (K : Nat) (y : Addr) (node : Addr) (t : Nat) : ∀ (fuel : Nat) (todo : List Addr) (h : Heap ℚ), node < h.next → y < h.next →
    K ≤ h.next → Ousted K h y → Yields (fun x => Ousted K x.1 y) (mergeRounds node t fuel h todo) := by
  intro fuel
  induction fuel with
  | zero =>
    intro todo h hn hy hK ho
    unfold mergeRounds
    split
    · exact Yields.pure ho
    · intro x hx
      cases hx
  | succ fuel ih =>
    intro todo h hn hy hK ho
    rw [mergeRounds.eq_def]
    by_cases hle : todo.length ≤ t
    · simp only [hle, if_true]
      exact Yields.pure ho
    · simp only [hle, if_false]
      clear hle
      match todo with
      | a :: b :: c :: rest =>
        refine (adds_merge3 h a b c).bind ?_
        rintro ⟨h₂, m⟩ ⟨K2, lm, em, cm⟩
        have lm : h.next ≤ m := lm
        have em : Meek h₂ m := em
        have cm : ∀ y ∈ [a, b, c], m ∈ (h₂.get y).children := cm
        have hne : m ≠ node := by omega
        obtain ⟨f1, f2⟩ := filter_fold node [a, b, c] h₂
        simp only
        generalize [a, b, c].foldl (fun h x => h.modify x fun o => { o with children := o.children.filter fun y => decide (y ≠ node) }) h₂ = h₃ at f1 f2 ⊢
        generalize (h₃.get node).level = lv
        have keepm : ∀ y k, k ∈ (h₃.get y).children →
            k ∈ ((h₃.modify m fun o => { o with level := lv, children := o.children ++ [node] }).get y).children := by
          intro y k hk
          rw [Heap.get_modify]
          split
          · next e => subst e; exact List.mem_append_left _ hk
          · exact hk
        have n2 : h.next ≤ h₂.next := K2.next
        refine ih (m :: rest) _ (by show node < h₃.next; omega) (by show y < h₃.next; omega) (by show K ≤ h₃.next; omega) ?_
        obtain ⟨k, k1, k2⟩ := K2.ousted hy (by simp) ho
        by_cases hd : k ≠ node ∨ y ∉ [a, b, c]
        · exact ⟨k, keepm y k ((f2 y).2.2.2 k k1 hd), k2⟩
        · push Not at hd
          exact ⟨m, keepm y m ((f2 y).2.2.2 m (cm y hd.2) (.inl hne)), by omega⟩
      | [] => intro x hx; cases hx
      | [_] => intro x hx; cases hx
      | [_, _] => intro x hx; cases hx

theorem oust_expandMerge (K : Nat) (y : Addr) (h : Heap ℚ) (node : Addr) (hnode : node < h.next) (hy : y < h.next) (hK : K ≤ h.next) (ho : Ousted K h y)
    (t : Nat) : Yields (fun x => Ousted K x.1 y) (expandMerge h node t) := by
  unfold expandMerge
  split
  · exact Yields.pure ho
  · have step : ∀ fuel todo, Yields (fun x => Trail h x.1 ∧ Ousted K x.1 y) (mergeRounds node t fuel h todo) := fun fuel todo x hx =>
      ⟨(trail_mergeRounds node t fuel todo h hnode x hx).1, oust_mergeRounds K y node t fuel todo h hnode hy hK ho x hx⟩
    refine (step _ _).bind ?_
    rintro ⟨h₂, todo⟩ ⟨T, w⟩
    have T : Trail h h₂ := T
    have K2 : Adds none h₂ (h₂.modify node fun o => { o with parents := todo.reverse }) := adds_parents none h₂ node fun _ => todo.reverse
    exact Yields.pure (K2.ousted (by have := T.next; omega) (by simp) w)

/-- The division by `d` is pending at the node, or it has a child made since. -/
structure Owed (K : Nat) (x : Addr) (d : Nat) (h : Heap ℚ) : Prop where
  next : K ≤ h.next
  kid : ∃ b, Hop h x b
  either : .divide d ∈ (h.get x).expands ∨ Ousted K h x

theorem Trail.kid {h h' : Heap ℚ} (T : Trail h h') {x : Addr} (w : ∃ b, Hop h x b) : ∃ b, Hop h' x b := by
  obtain ⟨b, w⟩ := w
  obtain ⟨c, q, -⟩ := TransGen.head'_iff.1 (T.way x b w)
  exact ⟨c, q⟩

/-- One pending expansion. -/
theorem owed_runExpand (cfg : Config) {K : Nat} {x : Addr} {d : Nat} (hd : 4 ≤ d) {h : Heap ℚ} {U : Addr → Prop} (H : Region h U) (node : Addr) (hnode : U node)
    (e : Expand ℚ) (es : List (Expand ℚ)) (he : (h.get node).expands = e :: es) (W : Owed K x d h) :
    Yields (fun y => Owed K x d y.1) (runExpand cfg (h.modify node fun o => { o with expands := es }) node e) := by
  intro y hy
  have R := routes_runExpand cfg H node hnode e es he y hy
  refine ⟨W.next.trans R.trail.next, R.trail.kid W.kid, ?_⟩
  have hlt := H.inside node hnode
  have hx : x < h.next := by obtain ⟨b, w⟩ := W.kid; exact w.1.1
  generalize hg : (h.modify node fun o => { o with expands := es }) = g at hy
  have gn : g.next = h.next := by rw [← hg]; rfl
  have gc : ∀ y, (g.get y).children = (h.get y).children := fun y => by
    rw [← hg, Heap.get_modify]; split
    · next e => rw [e]
    · rfl
  have ge : ∀ y, y ≠ node → (g.get y).expands = (h.get y).expands := fun y hy => by
    rw [← hg, Heap.get_modify, if_neg hy]
  have gn' : (g.get node).expands = es := by
    rw [← hg, Heap.get_modify, if_pos rfl]
  have go : Ousted K h x → Ousted K g x := fun ⟨c, w1, w2⟩ => ⟨c, by rw [gc]; exact w1, w2⟩
  have hK : K ≤ g.next := by have := W.next; omega
  have hmild : x = node → Mild e := fun w => by
    subst w
    obtain ⟨b, w⟩ := W.kid
    exact w.1.2 e (by rw [he]; simp)
  have pend : e ≠ .divide d → .divide d ∈ (h.get x).expands → .divide d ∈ (g.get x).expands := fun hne w => by
    by_cases ex : x = node
    · subst ex
      rw [gn']
      rw [he] at w
      rcases List.mem_cons.1 w with w | w
      · exact absurd w.symm hne
      · exact w
    · rw [ge x ex]; exact w
  have wild : Adds (some node) g y.1 → x ≠ node → .divide d ∈ (y.1.get x).expands ∨ Ousted K y.1 x := fun A hne => by
    rcases W.either with w | w
    · exact .inl (A.keep x (by omega) _ (by rw [ge x hne]; exact w))
    · exact .inr (A.ousted (by omega) (by simpa using Ne.symm hne) (go w))
  cases e with
  | extract c => exact wild (adds_expandExtract cfg g node c y hy) (fun w => by simpa [Mild] using hmild w)
  | split c => exact wild (adds_expandSplit g node c y hy) (fun w => by simpa [Mild] using hmild w)
  | merge t =>
    rcases W.either with w | w
    · exact .inl ((trail_expandMerge g node (by omega) t y hy).2 x (by omega) _ (pend (by simp) w))
    · exact .inr (oust_expandMerge K x g node (by omega) (by omega) hK (go w) t y hy)
  | divide d' =>
    by_cases hne : x = node
    · subst hne
      have h2 : 2 ≤ d' := by
        rcases hmild rfl with ⟨t, e⟩ | ⟨d'', e, h2⟩
        · cases e
        · cases e; exact h2
      have hk : (g.get x).children ≠ [] := by
        obtain ⟨b, w⟩ := W.kid
        rw [gc]
        exact List.ne_nil_of_mem w.2
      by_cases e4 : d' = d
      · subst e4
        exact .inr (oust_expandDivide cfg g x (by omega) d' h2 K hK hk (.inl hd) y hy)
      · rcases W.either with w | w
        · exact .inl ((adds_expandDivide cfg g x (by omega) d' y hy).1.keep x (by omega) _ (pend (fun q => e4 (by cases q; rfl)) w))
        · exact .inr (oust_expandDivide cfg g x (by omega) d' h2 K hK hk (.inr (go w)) y hy)
    · exact wild (adds_expandDivide cfg g node (by omega) d' y hy).1 hne

/-- What a pending expansion keeps `expand` keeps. -/
theorem invariant_expandAll (cfg : Config) (P : Heap ℚ → Prop)
    (step : ∀ (h : Heap ℚ) (U : Addr → Prop) (node : Addr) (e : Expand ℚ) (es : List (Expand ℚ)), Region h U → U node → (h.get node).expands = e :: es → P h →
      Yields (fun y => P y.1) (runExpand cfg (h.modify node fun o => { o with expands := es }) node e))
    (fuel : Nat) {h : Heap ℚ} {U : Addr → Prop} (H : Region h U) (roots : List Addr) (hr : ∀ r ∈ roots, U r) (us : List (Int × Int)) (hP : P h) :
    Yields (fun x => P x.1) (expandAll cfg fuel h roots us) := by
  have runs : ∀ (node : Addr) (fuel : Nat) (h : Heap ℚ) (U : Addr → Prop), Region h U → U node → P h →
      Yields (fun x => P x.1 ∧ Evolved False 0 h U x.1) (runExpands cfg fuel h node) := by
    intro node fuel
    induction fuel with
    | zero =>
      intro h U H hn hP
      unfold runExpands
      split
      · exact Yields.pure ⟨hP, H.evolved False⟩
      · intro x hx
        cases hx
    | succ fuel ih =>
      intro h U H hn hP
      unfold runExpands
      split
      · exact Yields.pure ⟨hP, H.evolved False⟩
      · next e es he =>
        have one : Yields (fun y => P y.1 ∧ Evolved False 0 h U y.1) (runExpand cfg (h.modify node fun o => { o with expands := es }) node e) := fun y hy =>
          ⟨step h U node e es H hn he hP y hy,
            ((Ends.iff.1 (ends_runExpand (strict := False) cfg H (fun w => w.elim) node hn e es he)).2 y hy).1⟩
        refine one.bind ?_
        rintro ⟨h₂, u⟩ ⟨P2, E2⟩
        refine (ih h₂ _ E2.region (.inl hn) P2).bind ?_
        rintro ⟨h₃, us⟩ ⟨P3, E3⟩
        exact Yields.pure ⟨P3, E2.trans H.inside E3⟩
  have visit : ∀ (s : Marked ℚ × List (Int × Int)) (a : Addr) (U : Addr → Prop), Region s.1.1 U → U a → P s.1.1 →
      Yields (fun s' => P s'.1.1 ∧ Evolved False 0 s.1.1 U s'.1.1) (expandVisit cfg fuel s a) := by
    intro s a U H ha hP
    unfold expandVisit
    refine (runs a fuel s.1.1 U H ha hP).bind ?_
    rintro ⟨h₂, us⟩ R
    exact Yields.pure R
  have walks : ∀ (n : Nat) (s : Marked ℚ × List (Int × Int)) (U : Addr → Prop) (stack : List (Addr × Nat)), Region s.1.1 U → (∀ f ∈ stack, U f.1) → P s.1.1 →
      Yields (fun s' => P s'.1.1 ∧ Evolved False 0 s.1.1 U s'.1.1) (expandWalk cfg fuel n s stack) := by
    intro n
    induction n with
    | zero =>
      intro s U stack H hst hP
      cases stack with
      | nil => exact Yields.pure ⟨hP, H.evolved False⟩
      | cons f stack => intro x hx; cases hx
    | succ n ih =>
      intro s U stack H hst hP
      cases stack with
      | nil => exact Yields.pure ⟨hP, H.evolved False⟩
      | cons f stack =>
        obtain ⟨a, i⟩ := f
        have ua := hst (a, i) (by simp)
        have hst' : ∀ f ∈ stack, U f.1 := fun f hf => hst f (List.mem_cons_of_mem _ hf)
        have hst1 : ∀ f ∈ (a, i + 1) :: stack, U f.1 := fun f hf => by
          rcases List.mem_cons.1 hf with rfl | hf
          · exact ua
          · exact hst' f hf
        rw [expandWalk, walk]
        split
        · exact ih s U stack H hst' hP
        · next c hc =>
          split
          · exact ih s U _ H hst1 hP
          · have uc := H.children a ua c (List.mem_of_getElem? hc)
            have v := visit s c U H uc hP
            split
            · intro x hx
              cases hx
            · next s' e =>
              obtain ⟨P2, E2⟩ := v s' e
              have := ih s' _ ((c, 0) :: (a, i + 1) :: stack) E2.region (fun f hf => by
                rcases List.mem_cons.1 hf with rfl | hf
                · exact .inl uc
                · exact .inl (hst1 f hf)) P2
              intro x hx
              exact ⟨(this x hx).1, E2.trans H.inside (this x hx).2⟩
  unfold expandAll walkAll
  have key : ∀ (rs : List Addr) (s : Marked ℚ × List (Int × Int)) (U : Addr → Prop), Region s.1.1 U → (∀ r ∈ rs, U r) → P s.1.1 →
      Yields (fun s' => P s'.1.1)
        (rs.foldlM (fun s a => walkFrom (expandVisit cfg fuel) (fun s a => s.1.kids a) (fun s a => s.1.seen a) fuel s a) s) := by
    intro rs
    induction rs with
    | nil => exact fun s U H _ hP => Yields.pure hP
    | cons r rs ih =>
      intro s U H hrs hP
      have ur := hrs r (by simp)
      rw [List.foldlM_cons]
      have first : Yields (fun s' => P s'.1.1 ∧ Evolved False 0 s.1.1 U s'.1.1)
          (walkFrom (expandVisit cfg fuel) (fun s a => s.1.kids a) (fun s a => s.1.seen a) fuel s r) := by
        unfold walkFrom
        split
        · exact Yields.pure ⟨hP, H.evolved False⟩
        · have v := visit s r U H ur hP
          split
          · intro x hx
            cases hx
          · next s' e =>
            obtain ⟨P2, E2⟩ := v s' e
            intro x hx
            obtain ⟨P3, E3⟩ := walks fuel s' _ [(r, 0)] E2.region (fun f hf => by
              rw [List.mem_singleton.1 hf]
              exact .inl ur) P2 x hx
            exact ⟨P3, E2.trans H.inside E3⟩
      refine first.bind fun s' ⟨P2, E2⟩ => ?_
      exact ih s' _ E2.region (fun y hy => .inl (hrs y (List.mem_cons_of_mem _ hy))) P2
  refine (key roots ((h, []), us) U H hr hP).bind ?_
  rintro s R
  exact Yields.pure R

/-- Nothing but levels changes. -/
theorem Owed.same {K : Nat} {x : Addr} {d : Nat} {h h' : Heap ℚ} (W : Owed K x d h) (hn : h'.next = h.next)
    (hc : ∀ a, (h'.get a).children = (h.get a).children) (he : ∀ a, (h'.get a).expands = (h.get a).expands) : Owed K x d h' := by
  obtain ⟨h1, ⟨b, h2⟩, h3⟩ := W
  refine ⟨by omega, ⟨b, ⟨⟨by have := h2.1.1; omega, by rw [he]; exact h2.1.2⟩, by rw [hc]; exact h2.2⟩⟩, ?_⟩
  unfold Ousted at *
  rw [he, hc]
  exact h3

theorem Owed.adds {K : Nat} {x : Addr} {d : Nat} {h h' : Heap ℚ} (W : Owed K x d h) (A : Adds none h h') : Owed K x d h' := by
  obtain ⟨h1, h2, h3⟩ := W
  have hx : x < h.next := by obtain ⟨b, w⟩ := h2; exact w.1.1
  exact ⟨h1.trans A.next, A.trail.kid h2, h3.imp (A.keep x hx _) (A.ousted hx (by simp))⟩

/-- **`expand_roots`.** -/
theorem owed_expandRoots (cfg : Config) {K : Nat} {x : Addr} {d : Nat} (hd : 4 ≤ d) {h : Heap ℚ} {U : Addr → Prop} (H : Region h U) (roots : List Addr)
    (hr : ∀ r ∈ roots, U r) {h' : Heap ℚ} (hs : Settles (fun fuel => expandRoots cfg fuel h roots) (.ok h')) (W : Owed K x d h) : Owed K x d h' := by
  obtain ⟨F, hF⟩ := hs
  obtain ⟨rl, -, B1, hB1⟩ := minLevel_settles H roots hr
  cases rl with
  | error err =>
    have := hF (max F B1) (le_max_left _ _)
    have h1 := hB1 (max F B1) (le_max_right _ _)
    simp only at this h1
    unfold expandRoots at this
    rw [h1] at this
    cases this
  | ok low =>
    obtain ⟨B, r, q1, q2⟩ := expandAll_ends (strict := False) cfg h U roots [(1, 1 - low)] H False.elim hr
    cases r with
    | error err =>
      have := hF (max F (max B1 B)) (le_max_left _ _)
      have h1 := hB1 (max F (max B1 B)) (le_trans (le_max_left _ _) (le_max_right _ _))
      have h2 := q2 (max F (max B1 B)) (le_trans (le_max_right _ _) (le_max_right _ _))
      simp only at this h1
      unfold expandRoots at this
      rw [h1] at this
      have this : (expandAll cfg (max F (max B1 B)) h roots [(1, 1 - low)] >>= _) = _ := this
      rw [h2] at this
      cases this
    | ok x =>
      obtain ⟨h₁, us⟩ := x
      have E : Evolved False 0 h U h₁ := (Ends.iff.1 q1).2 _ rfl
      obtain ⟨G, hG⟩ : ∃ G, G = max (max F B1) (max B (childFuel h₁ (Within h U h₁))) := ⟨_, rfl⟩
      have this := hF G (by rw [hG]; exact le_trans (le_max_left _ _) (le_max_left _ _))
      have h1 := hB1 G (by rw [hG]; exact le_trans (le_max_right _ _) (le_max_left _ _))
      have h2 := q2 G (by rw [hG]; exact le_trans (le_max_left _ _) (le_max_right _ _))
      have h3 : childFuel h₁ (Within h U h₁) ≤ G := by rw [hG]; exact le_trans (le_max_right _ _) (le_max_right _ _)
      simp only at this h1
      unfold expandRoots at this
      rw [h1] at this
      have this : (expandAll cfg G h roots [(1, 1 - low)] >>= fun x => x.2.foldlM (tagLevels G roots) x.1 >>= applyLevels G roots) = _ := this
      rw [h2] at this
      have this : (us.foldlM (tagLevels G roots) h₁ >>= applyLevels G roots) = .ok h' := this
      have hr' : ∀ r ∈ roots, Within h U h₁ r := fun r hm => .inl (hr r hm)
      have lv := levels_some E.region roots hr' G h3 us this
      have R := invariant_expandAll cfg (Owed K x d) (fun h U node e es H hn he W => owed_runExpand cfg hd H node hn e es he W) G H roots hr _ W (h₁, us) h2
      obtain ⟨h'', e1, e2, e3⟩ := levels_spec roots hr' G us h₁ E.region lv h3
      rw [this] at e1
      cases e1
      refine Owed.same R e2.next e2.children fun a => ?_
      by_cases hra : Reach h₁ roots a
      · rw [(e3 a).1 hra]
        unfold raised
        split <;> rfl
      · rw [(e3 a).2 hra]

/-- **`Tree.save`.** -/
theorem owed_saveTree (cfg : Config) {K : Nat} {x : Addr} {d : Nat} (hd : 4 ≤ d) {h : Heap ℚ} {roots : List Addr} (H : Region h (Reach h roots))
    {y : Heap ℚ × Saved ℚ × Saved ℚ} (e : Settles (fun fuel => saveTree cfg fuel h roots) (.ok y)) (W : Owed K x d h) : Owed K x d y.1 := by
  obtain ⟨h₂, s2, s1⟩ := saveTree_expands H e
  have S := setLevels_relevelled h roots 0
  have S2 := setLevels_relevelled h₂ roots 0
  rw [s1]
  exact (owed_expandRoots cfg hd (S.toSameGraph.region H) roots (fun r hr => .root hr) s2 (W.same S.next S.children S.expands)).same S2.next S2.children S2.expands

/-- What `attach_leaves` does to the children: those of the sources are added to. -/
theorem attachLeaves_adds {h : Heap ℚ} {t : TreeObj ℚ} {leaves : List Addr} {n : Nat} {x : Heap ℚ × TreeObj ℚ} (e : t.attachLeaves n h leaves = .ok x) :
    leaves.length = t.nSources ∧ t.nSources ≤ t.sources.length ∧ x.2.roots = t.roots ∧ ∃ g, Adds none h g ∧ x.1.next = g.next ∧
      (∀ a, (x.1.get a).children = (g.get a).children ∧ (x.1.get a).expands = (g.get a).expands) ∧
      ∀ p ∈ (t.sources.take t.nSources).zip leaves, p.1 < h.next → p.2 < h.next → ∀ b ∈ (h.get p.2).children, b ∈ (g.get p.1).children := by
  have loop : ∀ (fuel : Nat) (h : Heap ℚ) (t : TreeObj ℚ) (ls : List (List Addr)),
      Yields (fun x => x.2.roots = t.roots ∧ x.1.next = h.next ∧ ∀ a, (x.1.get a).children = (h.get a).children ∧ (x.1.get a).expands = (h.get a).expands)
        (attachLoop fuel h t ls) := by
    intro fuel
    induction fuel with
    | zero =>
      intro h t ls
      cases ls with
      | nil => exact Yields.pure ⟨rfl, rfl, fun _ => ⟨rfl, rfl⟩⟩
      | cons l ls => intro x hx; cases hx
    | succ fuel ih =>
      intro h t ls
      cases ls with
      | nil => exact Yields.pure ⟨rfl, rfl, fun _ => ⟨rfl, rfl⟩⟩
      | cons l ls =>
        unfold attachLoop
        have add : Yields (fun x => x.2.roots = t.roots ∧ Relevelled h x.1) (t.add h l 0) := by
          unfold TreeObj.add
          split
          · intro x hx; cases hx
          · split
            · intro x hx; cases hx
            · exact Yields.pure ⟨rfl, setLevels_relevelled h _ _⟩
        cases ha : t.add h l 0 with
        | error er => intro x hx; cases hx
        | ok y =>
          intro x hx
          obtain ⟨r1, r2⟩ := add y ha
          obtain ⟨w1, w2, w3⟩ := ih _ _ _ x hx
          exact ⟨w1.trans r1, w2.trans r2.next, fun a => ⟨(w3 a).1.trans (r2.children a), (w3 a).2.trans (r2.expands a)⟩⟩
  have adopts : ∀ (p : Addr) (cs : List Addr) (h : Heap ℚ), Adds none h (cs.foldl (adopt p) h) ∧
      (p < h.next → ∀ c ∈ cs, c ∈ ((cs.foldl (adopt p) h).get p).children) := by
    intro p cs
    induction cs with
    | nil => exact fun h => ⟨Adds.refl _ h, by simp⟩
    | cons c cs ih =>
      intro h
      obtain ⟨K, w⟩ := ih (adopt p h c)
      refine ⟨(adds_adopt none h p c).trans K, fun hp y hy => ?_⟩
      rcases List.mem_cons.1 hy with rfl | hy
      · exact K.kids p hp (by simp) y (adopt_child h p y)
      · exact w hp y hy
  have one : ∀ (p : Addr × Addr) (s : Heap ℚ × List (List Addr)), Adds none s.1 (attachOne s p).1 ∧
      (p.1 < s.1.next → ∀ b ∈ (s.1.get p.2).children, b ∈ ((attachOne s p).1.get p.1).children) := by
    rintro ⟨src, r⟩ ⟨h, ls⟩
    unfold attachOne
    obtain ⟨K, w⟩ := adopts src (h.get r).children h
    simp only
    generalize (h.get r).children.foldl (adopt src) h = h₂ at K w ⊢
    by_cases hcs : (h₂.get src).children = []
    · rw [if_pos hcs]
      exact ⟨K, w⟩
    · rw [if_neg hcs]
      by_cases h3 : (h₂.get src).children.length > 3
      · simp only [h3, if_true]
        have T : Adds none h₂ (tagExpand h₂ src (.divide (h₂.get src).children.length)) := Adds.tag _ _ (.inr ⟨_, rfl, by omega⟩)
        exact ⟨K.trans T, fun hp b hb => T.kids src (by have : h.next ≤ h₂.next := K.next; have hp : src < h.next := hp; omega) (by simp) b (w hp b hb)⟩
      · simp only [h3, if_false]
        exact ⟨K, w⟩
  have fold : ∀ (ps : List (Addr × Addr)) (s : Heap ℚ × List (List Addr)), Adds none s.1 (ps.foldl attachOne s).1 ∧
      ∀ p ∈ ps, p.1 < s.1.next → p.2 < s.1.next → ∀ b ∈ (s.1.get p.2).children, b ∈ ((ps.foldl attachOne s).1.get p.1).children := by
    intro ps
    induction ps with
    | nil => exact fun s => ⟨Adds.refl _ _, by simp⟩
    | cons p ps ih =>
      intro s
      obtain ⟨a1, a2⟩ := one p s
      obtain ⟨b1, b2⟩ := ih (attachOne s p)
      have := a1.next
      refine ⟨a1.trans b1, fun y hy h1 h2 b hb => ?_⟩
      rcases List.mem_cons.1 hy with rfl | hy
      · exact b1.kids y.1 (by omega) (by simp) b (a2 h1 b hb)
      · exact b2 y hy (by omega) (by omega) b (a1.kids y.2 h2 (by simp) b hb)
  unfold TreeObj.attachLeaves at e
  split at e
  · cases e
  next hlen =>
  split at e
  · cases e
  next hlen2 =>
  obtain ⟨w1, w2, w3⟩ := loop _ _ _ _ x e
  obtain ⟨f1, f2⟩ := fold ((t.sources.take t.nSources).zip leaves) (h, [])
  exact ⟨not_not.1 hlen, by omega, w1, _, f1, w2, w3, f2⟩

/-- **Attaching** puts what is below the leaves below the roots. -/
theorem attachLeaves_below {h : Heap ℚ} {t : TreeObj ℚ} {leaves : List Addr} {n : Nat} {x : Heap ℚ × TreeObj ℚ} (e : t.attachLeaves n h leaves = .ok x)
    (hs : ∀ a ∈ t.sources, a < h.next ∧ Reach h t.roots a) (hin : ∀ a, Reach h t.roots a → a < h.next) {r z : Addr} (hr : r ∈ leaves)
    (hz : TransGen (Hop h) r z) : Reach x.1 x.2.roots z := by
  obtain ⟨h1, h2, h3, g, A, -, hg, hk⟩ := attachLeaves_adds e
  have up : ∀ a, Reach h t.roots a → Reach x.1 x.2.roots a := by
    intro a ha
    induction ha with
    | root hm => exact .root (by rw [h3]; exact hm)
    | @child b c hb hc ih => exact ih.child (by rw [(hg b).1]; exact A.kids b (hin b hb) (by simp) c hc)
  have hlen : (t.sources.take t.nSources).length = leaves.length := by rw [List.length_take]; omega
  obtain ⟨src, hp⟩ : ∃ src, (src, r) ∈ (t.sources.take t.nSources).zip leaves := by
    obtain ⟨i, hi, rfl⟩ := List.getElem_of_mem hr
    refine ⟨(t.sources.take t.nSources)[i]'(by omega), ?_⟩
    rw [List.mem_iff_getElem]
    exact ⟨i, by rw [List.length_zip]; omega, by simp⟩
  obtain ⟨b, q1, q2⟩ := TransGen.head'_iff.1 hz
  have hsrc := hs src (List.mem_of_mem_take (List.of_mem_zip hp).1)
  have start : Reach x.1 x.2.roots b := (up src hsrc.2).child (by rw [(hg src).1]; exact hk (src, r) hp hsrc.1 q1.1.1 b q1.2)
  clear q1 hz
  induction q2 with
  | refl => exact start
  | @tail a c _ hac ih => exact ih.child (by rw [(hg a).1]; exact A.kids a hac.1.1 (by simp) c hac.2)

end Satis.Graph
