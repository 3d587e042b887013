import Verif.Graph.Lane
/-!
# What an overloaded expansion leaves

An expansion that puts more than the limit on its node loops the surplus into a new node without a level. If a looping branch really leads there, the node
can be reached on a way that no later expansion cuts.
-/

namespace Satis.Graph
open Satis Satis.Cost Satis.Spec

theorem Yields.self {α : Type} (r : Py α) : Yields (fun x => r = .ok x) r := fun _ e => e

/-- Some output of the tree loops, and not all of them. -/
theorem plan_pos {n m l : Nat} (h0 : 0 < l) (hl : l < L n m) {p : Plan} (hp : loopingBranches n m (l : Int) (branchesCount n m) = .ok p) :
    (∃ i, i < n ∧ 0 < (p (i + 1, 0)).1) ∨ ∃ i, i < m ∧ 0 < (p (n, i + 1)).1 := by
  obtain ⟨p', e, hk⟩ := loopingBranches_eq n m l
  rw [hp] at e
  cases e
  obtain ⟨⟨g1, g2, -, -⟩, g5⟩ := gsel_greedy n m l l le_rfl
  cases hg : gsel n m l l with
  | nil =>
    rw [hg] at g2
    simp at g2
    omega
  | cons i rest =>
    have hi : i ∈ gsel n m l l := by rw [hg]; simp
    have hle := g1 i hi
    have hL := g5 i hi
    have hi0 : i ≠ 0 := by
      rintro rfl
      have : Lat n m 0 = L n m := by simp [Lat]
      omega
    have hc : 0 < (p (key n i)).1 := by
      rw [hk i hle]
      exact List.count_pos_iff.2 hi
    unfold key at hc
    rcases Nat.lt_or_ge n i with h | h
    · right
      refine ⟨i - n - 1, by omega, ?_⟩
      rw [show i - n - 1 + 1 = i - n by omega]
      rwa [show min i n = n by omega] at hc
    · left
      refine ⟨i - 1, by omega, ?_⟩
      rw [show i - 1 + 1 = i by omega]
      rwa [show min i n = i by omega, show i - n = 0 by omega] at hc

/-- If the looping part is at least one of the trees below the binary depths, a binary depth has a looping branch. -/
theorem plan_binary {n m l : Nat} (h0 : 3 ^ m ≤ l) (hl : l < L n m) {p : Plan} (hp : loopingBranches n m (l : Int) (branchesCount n m) = .ok p) :
    ∃ i, i < n ∧ 0 < (p (i + 1, 0)).1 := by
  obtain ⟨p', e, hk⟩ := loopingBranches_eq n m l
  rw [hp] at e
  cases e
  have h3 : 0 < 3 ^ m := by positivity
  obtain ⟨i, h1, h2, h3', h4⟩ := firstFit_pos n m (l : Int) (by exact_mod_cast (by omega : 0 < l))
  have hin : i ≤ n := by
    by_contra hc
    have := h4 n (by omega)
    have e : Lat n m n = 3 ^ m := by simp [Lat, L]
    rw [e] at this
    have : l < 3 ^ m := by exact_mod_cast this
    omega
  have hi0 : i ≠ 0 := by
    rintro rfl
    have e : Lat n m 0 = L n m := by simp [Lat]
    rw [e] at h3'
    have : L n m ≤ l := by exact_mod_cast h3'
    omega
  have hi : i ∈ gsel n m l l := by
    obtain ⟨j, rfl⟩ : ∃ j, l = j + 1 := ⟨l - 1, by omega⟩
    rw [gsel, if_neg (by omega), h1]
    simp
  have hc : 0 < (p (key n i)).1 := by
    rw [hk i h2]
    exact List.count_pos_iff.2 hi
  unfold key at hc
  refine ⟨i - 1, by omega, ?_⟩
  rw [show i - 1 + 1 = i by omega]
  rwa [show min i n = i by omega, show i - n = 0 by omega] at hc

/-- The expansion puts more than the limit on a node with the value `v`, and a looping branch leads into the new node. -/
def Overruns (cfg : Config) (v : ℚ) : Expand ℚ → Prop
  | .extract c => ∃ t, extractTotal v c = .ok t ∧ (cfg.limit : ℚ) < t ∧ t ≠ v
  | .divide d => ∃ n m l k, findNML d = .ok (n, m, l, k) ∧ (cfg.limit : ℚ) < v + (l * v) / d ∧ 3 ^ m ≤ l
  | .merge _ => False
  | .split _ => False

theorem findNML_loops {d n m l k : Nat} (h : findNML d = .ok (n, m, l, k)) : l < L n m := by
  by_cases hd : d = 0
  · subst hd
    rw [findNML, if_pos rfl] at h
    cases h
  · obtain ⟨n', m', e, hb⟩ := findNML_best d hd
    rw [h] at e
    simp only [Except.ok.injEq, Prod.mk.injEq] at e
    obtain ⟨rfl, rfl, rfl, -⟩ := e
    have : d ≤ L n m := ((bestShape_iff d n m).1 hb).1
    omega

/-- A node without a level that can be reached from `node` on a way that stays open. -/
def Stranded (h : Heap ℚ) (rs : List Addr) : Prop := ∃ a, Lane none h rs a ∧ (h.get a).level = none

theorem Stranded.keep {h h' : Heap ℚ} (K : Keep none h h') {rs : List Addr} (S : Stranded h rs) : Stranded h' rs := by
  obtain ⟨a, h1, h2⟩ := S
  exact ⟨a, K.lane _ _ h1, K.low a h1.lt h2⟩

/-- **`expand_divide`**. -/
theorem keep_expandDivide (cfg : Config) (h : Heap ℚ) (node : Addr) (hnode : node < h.next) (d : Nat) :
    Yields (fun x => Keep (some node) h x.1 ∧ (heavy (h.get node) = [] → Overruns cfg (h.get node).value (.divide d) → Stranded x.1 [node]))
      (expandDivide cfg h node d) := by
  unfold expandDivide
  refine (Yields.self (findNML d)).bind ?_
  rintro ⟨n, m, l, ns⟩ hfr
  have cont : ∀ (over : Bool) (x : Heap ℚ × Addr), ((∀ N, Keep N h x.1) ∧ x.2 < x.1.next ∧ (over = true → (x.1.get x.2).level = none)) →
      Yields (fun y : Heap ℚ × (Int × Int) => Keep (some node) h y.1 ∧
        (heavy (h.get node) = [] → over = true → 3 ^ m ≤ l → Stranded y.1 [node])) (do
        let isRoot := decide ((x.1.get x.2).parents = [])
        let plan ← loopingBranches n m l (branchesCount n m)
        let values := layerValues ((h.get node).value + (l * (h.get node).value) / d) n m
        let lvl ← levelSucc (x.1.get node)
        let original := (x.1.get node).children
        let h := x.1.modify node fun o => { o with children := [] }
        let s ← (List.range n).foldlM (fun s i =>
          divideLayer 2 (2 ^ (i + 1)) (plan (i + 1, 0)) (values.getD (i + 1) 0) (n + m) x.2 (decide (i + 1 = n ∧ m = 0)) original s) (h, lvl, [node])
        let s ← (List.range m).foldlM (fun s i =>
          divideLayer 3 (2 ^ n * 3 ^ (i + 1)) (plan (n, i + 1)) (values.getD (n + i + 1) 0) (n + m) node (decide (i + 1 = m)) original s) s
        let h := if over then joinLoop s.1 node x.2 else s.1
        let h := tagMerge h x.2 (if isRoot then 2 else 3)
        return (h, (lvl, n + m))) := by
    rintro over ⟨h₁, loop⟩ ⟨K1, hl1, hlow⟩
    have hl1 : loop < h₁.next := hl1
    have n1 : h.next ≤ h₁.next := (K1 none).next
    refine (Yields.self (loopingBranches n m l (branchesCount n m))).bind ?_
    intro plan hpl
    refine Yields.any fun lvl => ?_
    have K2 : Keep (some node) h₁ (h₁.modify node fun o => { o with children := [] }) := Keep.modify rfl rfl rfl fun w => absurd rfl w
    simp only
    generalize hb : (h₁.modify node fun o => { o with children := [] }) = hB at K2 ⊢
    have nB : hB.next = h₁.next := by rw [← hb]; rfl
    have hlow : over = true → (hB.get loop).level = none := fun w => K2.low loop hl1 (hlow w)
    have hbase : heavy (h.get node) = [] → Near node hB node := fun w =>
      ⟨.root (by simp) (by omega), by rw [K2.heavy node (by omega), (K1 none).heavy node hnode]; exact w⟩
    let I : Nat → Prop := fun i => ∃ j, j < i ∧ 0 < (plan (j + 1, 0)).1
    have start : Layered (heavy (h.get node) = []) node loop hB (I 0) (0 = n ∧ m = 0 ∧ 0 < n) (hB, lvl, [node]) :=
      ⟨fun N => Keep.refl N hB, fun w _ a ha => by
        have ha : a ∈ [node] := ha
        rw [List.mem_singleton.1 ha]
        exact hbase w, fun _ ⟨j, hj, _⟩ => absurd hj (by omega)⟩
    refine (yields_foldlM (fun i s => Layered (heavy (h.get node) = []) node loop hB (I i) (i = n ∧ m = 0 ∧ 0 < n) s) n _
      start ?_).bind ?_
    · intro i hi s S s' hs'
      have S0 : Layered (heavy (h.get node) = []) node loop hB (I i) False s := ⟨S.keep, fun w _ => S.near w (by omega), S.loop⟩
      have := keep_divideLayer _ node loop _ _ _ _ _ loop _ _ hB (I i) s S0 (by omega) s' hs'
      refine ⟨this.keep, fun w hw => this.near w ?_, fun w hw => this.loop w ?_⟩
      · rw [decide_eq_true_eq]
        omega
      · obtain ⟨j, hj, hp⟩ := hw
        rcases Nat.lt_or_ge j i with h | h
        · exact .inl ⟨j, h, hp⟩
        · have : j = i := by omega
          subst this
          exact .inr ⟨rfl, hp⟩
    intro s S
    refine (yields_foldlM (fun i s => Layered (heavy (h.get node) = []) node loop hB (I n) ((m = 0 ∧ 0 < n) ∨ i = m ∧ 0 < m) s) m _
      ⟨S.keep, fun w hw => S.near w (by omega), S.loop⟩ ?_).bind ?_
    · intro i hi s S s' hs'
      have S0 : Layered (heavy (h.get node) = []) node loop hB (I n) False s := ⟨S.keep, fun w _ => S.near w (by omega), S.loop⟩
      have := keep_divideLayer _ node loop _ _ _ _ _ node _ _ hB (I n) s S0 (by omega) s' hs'
      refine ⟨this.keep, fun w hw => this.near w ?_, fun w hw => this.loop w (.inl hw)⟩
      rw [decide_eq_true_eq]
      omega
    intro s S
    have K4 : ∀ N, Keep N s.1 (tagMerge (if over then joinLoop s.1 node loop else s.1) loop
        (if decide ((h₁.get loop).parents = []) = true then 2 else 3)) := fun N => by
      cases over
      · exact keep_tagMerge N _ _ _
      · exact (keep_joinLoop N _ _ _).trans (keep_tagMerge N _ _ _)
    refine Yields.pure ⟨(((K1 _).trans K2).trans (S.keep _)).trans (K4 _), fun w ho h3 => ?_⟩
    obtain ⟨i, hi, hp⟩ := plan_binary h3 (findNML_loops hfr) hpl
    have st : Stranded s.1 [node] := ⟨loop, S.loop w ⟨i, hi, hp⟩, (S.keep none).low loop (by omega) (hlow ho)⟩
    exact st.keep (K4 none)
  by_cases hover : (h.get node).value + (l * (h.get node).value) / d > (cfg.limit : ℚ)
  · simp only [hover, decide_true, if_true]
    refine (keep_newNode h _ [] none).bind ?_
    rintro x ⟨w1, w2, w3, w4, w5⟩ y hy
    obtain ⟨z1, z2⟩ := cont true x ⟨w1, by omega, fun _ => w5⟩ y hy
    refine ⟨z1, fun w ho => z2 w rfl ?_⟩
    obtain ⟨n', m', l', k', e, -, h3⟩ := ho
    rw [hfr] at e
    cases e
    exact h3
  · simp only [hover, decide_false]
    intro y hy
    obtain ⟨z1, z2⟩ := cont false (h, node) ⟨fun N => Keep.refl N h, hnode, by simp⟩ y hy
    refine ⟨z1, fun w ho => ?_⟩
    obtain ⟨n', m', l', k', e, h3, -⟩ := ho
    rw [hfr] at e
    cases e
    exact absurd h3 hover

/-- **`expand_extract`**. -/
theorem keep_expandExtract (cfg : Config) (h : Heap ℚ) (node : Addr) (hnode : node < h.next) (c : ℚ) :
    Yields (fun x => Keep (some node) h x.1 ∧ (heavy (h.get node) = [] → Overruns cfg (h.get node).value (.extract c) → Stranded x.1 [node]))
      (expandExtract cfg h node c) := by
  unfold expandExtract
  refine (Yields.self (pyGcd (h.get node).value ((h.get node).value - c))).bind ?_
  intro g hgr
  by_cases hg0 : g = 0
  · simp only [hg0, if_true]
    intro y hy
    cases hy
  simp only [hg0, if_false]
  refine (Yields.self (findNML ((h.get node).value.num / (g : Int)).toNat)).bind ?_
  rintro ⟨n, m, l, ns⟩ hfr
  have htot : extractTotal (h.get node).value c = .ok ((h.get node).value + l * g) := by
    unfold extractTotal
    rw [hgr]
    show (if g = 0 then _ else _) = _
    rw [if_neg hg0]
    show (findNML _ >>= _) = _
    rw [hfr]
    rfl
  have cont : ∀ (over : Bool) (x : Heap ℚ × Addr), ((∀ N, Keep N h x.1) ∧ x.2 < x.1.next ∧ (over = true → (x.1.get x.2).level = none)) →
      Yields (fun y : Heap ℚ × (Int × Int) => Keep (some node) h y.1 ∧
        (heavy (h.get node) = [] → over = true → 0 < l → Stranded y.1 [node])) (do
        let isRoot := decide ((x.1.get x.2).parents = [])
        let nExtract : Int := ⌊c / ((h.get node).value / ((h.get node).value.num / (g : Int)).toNat)⌋
        let p ← loopingBranches n m l (branchesCount n m)
        let q ← loopingBranches n m nExtract (branchesCount n m)
        let r ← loopingBranches n m (((h.get node).value.num / (g : Int)).toNat - nExtract) (branchesCount n m)
        let values := layerValues ((h.get node).value + l * g) n m
        let lvl ← levelSucc (x.1.get node)
        let c0 ← item (x.1.get node).children 0
        let c1 ← item (x.1.get node).children 1
        let extracted := if (x.1.get c0).value = c then c0 else c1
        let overflow := if (x.1.get c0).value = c then c1 else c0
        let h := x.1.modify extracted fun o => { o with parents := [] }
        let h := h.modify overflow fun o => { o with parents := [] }
        let original := (h.get node).children
        let h := h.modify node fun o => { o with children := [] }
        let s ← (List.range n).foldlM (fun s i =>
          extractLayer 2 (2 ^ (i + 1)) (p (i + 1, 0)) (q (i + 1, 0)) (r (i + 1, 0)) (values.getD (i + 1) 0) (n + m) x.2 extracted overflow
            (decide (i + 1 = n ∧ m = 0)) original s) (h, lvl, [node])
        let s ← (List.range m).foldlM (fun s i =>
          extractLayer 3 (2 ^ n * 3 ^ (i + 1)) (p (n, i + 1)) (q (n, i + 1)) (r (n, i + 1)) (values.getD (n + i + 1) 0) (n + m) x.2 extracted
            overflow (decide (i + 1 = m)) original s) s
        let h := if over then joinLoop s.1 node x.2 else s.1
        let h := tagMerge h x.2 (if isRoot then 2 else 3)
        let h := tagMerge h extracted 3
        let h := tagMerge h overflow 3
        return (h, (lvl, n + m))) := by
    rintro over ⟨h₁, loop⟩ ⟨K1, hl1, hlow⟩
    have hl1 : loop < h₁.next := hl1
    have n1 : h.next ≤ h₁.next := (K1 none).next
    refine (Yields.self (loopingBranches n m l (branchesCount n m))).bind ?_
    intro p hpl
    refine Yields.any fun q => ?_
    refine Yields.any fun r => ?_
    refine Yields.any fun lvl => ?_
    refine Yields.any fun c0 => ?_
    refine Yields.any fun c1 => ?_
    simp only
    generalize (if (h₁.get c0).value = c then c0 else c1) = extracted
    generalize (if (h₁.get c0).value = c then c1 else c0) = overflow
    have Ka := fun N => keep_parents N h₁ extracted fun _ => []
    have Kb := fun N => keep_parents N (h₁.modify extracted fun o => { o with parents := [] }) overflow fun _ => []
    have Kc : Keep (some node) ((h₁.modify extracted fun o => { o with parents := [] }).modify overflow fun o => { o with parents := [] })
      (((h₁.modify extracted fun o => { o with parents := [] }).modify overflow fun o => { o with parents := [] }).modify node
        fun o => { o with children := [] }) := Keep.modify rfl rfl rfl fun w => absurd rfl w
    have K2 := ((Ka (some node)).trans (Kb (some node))).trans Kc
    generalize (((h₁.modify extracted fun o => { o with parents := [] }).modify overflow fun o => { o with parents := [] }).get
        node).children = original
    have nB : (((h₁.modify extracted fun o => { o with parents := [] }).modify overflow fun o => { o with parents := [] }).modify node
        fun o => { o with children := [] }).next = h₁.next := rfl
    generalize hb : (((h₁.modify extracted fun o => { o with parents := [] }).modify overflow fun o => { o with parents := [] }).modify node
        fun o => { o with children := [] }) = hB at K2 nB ⊢
    have hlow : over = true → (hB.get loop).level = none := fun w => K2.low loop hl1 (hlow w)
    have hbase : heavy (h.get node) = [] → Near node hB node := fun w =>
      ⟨.root (by simp) (by omega), by rw [K2.heavy node (by omega), (K1 none).heavy node hnode]; exact w⟩
    let I : Nat → Prop := fun i => ∃ j, j < i ∧ 0 < (p (j + 1, 0)).1
    let J : Nat → Prop := fun i => ∃ j, j < i ∧ 0 < (p (n, j + 1)).1
    have start : Layered (heavy (h.get node) = []) node loop hB (I 0) (0 = n ∧ m = 0 ∧ 0 < n) (hB, lvl, [node]) :=
      ⟨fun N => Keep.refl N hB, fun w _ a ha => by
        have ha : a ∈ [node] := ha
        rw [List.mem_singleton.1 ha]
        exact hbase w, fun _ ⟨j, hj, _⟩ => absurd hj (by omega)⟩
    refine (yields_foldlM (fun i s => Layered (heavy (h.get node) = []) node loop hB (I i) (i = n ∧ m = 0 ∧ 0 < n) s) n _
      start ?_).bind ?_
    · intro i hi s S s' hs'
      have S0 : Layered (heavy (h.get node) = []) node loop hB (I i) False s := ⟨S.keep, fun w _ => S.near w (by omega), S.loop⟩
      have := keep_extractLayer _ node _ _ _ _ _ _ _ loop _ _ _ _ hB (I i) s S0 (by omega) s' hs'
      refine ⟨this.keep, fun w hw => this.near w ?_, fun w hw => this.loop w ?_⟩
      · rw [decide_eq_true_eq]
        omega
      · obtain ⟨j, hj, hp⟩ := hw
        rcases Nat.lt_or_ge j i with h | h
        · exact .inl ⟨j, h, hp⟩
        · have : j = i := by omega
          subst this
          exact .inr hp
    intro s S
    refine (yields_foldlM (fun i s => Layered (heavy (h.get node) = []) node loop hB (I n ∨ J i) ((m = 0 ∧ 0 < n) ∨ i = m ∧ 0 < m) s) m _
      ⟨S.keep, fun w hw => S.near w (by omega), fun w hw => S.loop w (hw.resolve_right fun ⟨j, hj, _⟩ => absurd hj (by omega))⟩ ?_).bind ?_
    · intro i hi s S s' hs'
      have S0 : Layered (heavy (h.get node) = []) node loop hB (I n ∨ J i) False s := ⟨S.keep, fun w _ => S.near w (by omega), S.loop⟩
      have := keep_extractLayer _ node _ _ _ _ _ _ _ loop _ _ _ _ hB (I n ∨ J i) s S0 (by omega) s' hs'
      refine ⟨this.keep, fun w hw => this.near w ?_, fun w hw => this.loop w ?_⟩
      · rw [decide_eq_true_eq]
        omega
      · rcases hw with hw | ⟨j, hj, hp⟩
        · exact .inl (.inl hw)
        · rcases Nat.lt_or_ge j i with h | h
          · exact .inl (.inr ⟨j, h, hp⟩)
          · have : j = i := by omega
            subst this
            exact .inr hp
    intro s S
    have K4 : ∀ N, Keep N s.1 (tagMerge (tagMerge (tagMerge (if over then joinLoop s.1 node loop else s.1) loop
        (if decide ((h₁.get loop).parents = []) = true then 2 else 3)) extracted 3) overflow 3) := fun N => by
      refine Keep.trans (Keep.trans ?_ (keep_tagMerge N _ _ _)) (keep_tagMerge N _ _ _)
      cases over
      · exact keep_tagMerge N _ _ _
      · exact (keep_joinLoop N _ _ _).trans (keep_tagMerge N _ _ _)
    refine Yields.pure ⟨(((K1 _).trans K2).trans (S.keep _)).trans (K4 _), fun w ho h3 => ?_⟩
    have st : Stranded s.1 [node] := ⟨loop, S.loop w (plan_pos h3 (findNML_loops hfr) hpl), (S.keep none).low loop (by omega) (hlow ho)⟩
    exact st.keep (K4 none)
  by_cases hover : (h.get node).value + l * g > (cfg.limit : ℚ)
  · simp only [hover, decide_true, if_true]
    refine (keep_newNode h _ [] none).bind ?_
    rintro x ⟨w1, w2, w3, w4, w5⟩ y hy
    obtain ⟨z1, z2⟩ := cont true x ⟨w1, by omega, fun _ => w5⟩ y hy
    refine ⟨z1, fun w ho => z2 w rfl ?_⟩
    obtain ⟨t, e, -, h3⟩ := ho
    rw [htot] at e
    cases e
    rcases Nat.eq_zero_or_pos l with rfl | h
    · simp at h3
    · exact h
  · simp only [hover, decide_false]
    intro y hy
    obtain ⟨z1, z2⟩ := cont false (h, node) ⟨fun N => Keep.refl N h, hnode, by simp⟩ y hy
    refine ⟨z1, fun w ho => ?_⟩
    obtain ⟨t, e, h3, -⟩ := ho
    rw [htot] at e
    cases e
    exact absurd h3 hover

end Satis.Graph
