import Verif.Graph.Copy
import Mathlib.Data.List.Sort
/-!
# What the moves of `src/node.py` do to the heap
-/

namespace Satis.Graph
open Satis

/-- Outcome of a move that consumes the nodes `old` and creates nodes of values `vs` at level `lvl`. -/
structure Grown (h : Heap Int) (old : List Addr) (vs : List Int) (tagOld tagNew : List (Expand Int)) (lvl : Int)
    (h' : Heap Int) : Prop where
  next : h'.next = h.next + vs.length
  nextUid : h'.nextUid = h.nextUid + vs.length
  frame : ∀ a, a < h.next → a ∉ old → h'.get a = h.get a
  used : ∀ a, a ∈ old → h'.get a =
    { h.get a with children := (h.get a).children ++ List.range' h.next vs.length, expands := (h.get a).expands ++ tagOld }
  made : ∀ i (hi : i < vs.length), h'.get (h.next + i) =
    { value := vs[i]
      id := h.nextUid + i
      level := some lvl
      past := old.foldl (fun p a => p.extend (h.get a).past.items) (FastList.new [vs[i]])
      parents := old
      children := []
      expands := tagNew
      levelsToAdd := 0 }

/-- The object created by `Node(v, past, level)`. -/
def freshNode (v : Int) (id : Uid) (past : List Int) (level : Option Int) : NodeObj Int :=
  { value := v, id := id, level := level, past := (FastList.new [v]).extend past, parents := [], children := [], expands := []
    levelsToAdd := 0 }

theorem newNodes_spec (past : List Int) (level : Option Int) : ∀ (vs : List Int) (h : Heap Int), (∀ v ∈ vs, 0 ≤ v) →
    ∃ h', newNodes h past level vs = .ok (h', List.range' h.next vs.length) ∧ h'.next = h.next + vs.length ∧
      h'.nextUid = h.nextUid + vs.length ∧ (∀ a, a < h.next → h'.get a = h.get a) ∧
      ∀ i (hi : i < vs.length), h'.get (h.next + i) = freshNode vs[i] (h.nextUid + i) past level := by
  intro vs
  induction vs with
  | nil => intro h _; exact ⟨h, rfl, rfl, rfl, fun _ _ => rfl, fun i hi => by simp at hi⟩
  | cons v vs ih =>
    intro h hpos
    have hv : ¬ v < 0 := not_lt.2 (hpos v (by simp))
    obtain ⟨h1, h1eq⟩ : ∃ h1, h1 = (({ h with nextUid := h.nextUid + 1 } : Heap Int).alloc (freshNode v h.nextUid past level)).1 :=
      ⟨_, rfl⟩
    have hnew : newNode h v past none level = .ok (h1, h.next) := by
      unfold newNode
      rw [if_neg hv, h1eq]
      rfl
    have hn1 : h1.next = h.next + 1 := by rw [h1eq]; rfl
    have hu1 : h1.nextUid = h.nextUid + 1 := by rw [h1eq]; rfl
    have hg1 : ∀ b, h1.get b = if b = h.next then freshNode v h.nextUid past level else h.get b := by rw [h1eq]; intro b; rfl
    obtain ⟨h', e, en, eu, eg, enew⟩ := ih h1 (fun w hw => hpos w (by simp [hw]))
    refine ⟨h', ?_, ?_, ?_, ?_, ?_⟩
    · unfold newNodes
      rw [hnew]
      show (do
        let (h2, as) ← newNodes h1 past level vs
        pure (h2, h.next :: as)) = _
      rw [e]
      show Except.ok (h', h.next :: List.range' h1.next vs.length) = _
      rw [hn1, List.length_cons, List.range'_succ]
    · rw [en, hn1, List.length_cons]; omega
    · rw [eu, hu1, List.length_cons]; omega
    · intro a ha
      rw [eg a (by omega), hg1, if_neg (by omega)]
    · intro i hi
      cases i with
      | zero =>
        have : h'.get (h.next + 0) = h1.get h.next := eg h.next (by omega)
        rw [this, hg1, if_pos rfl]; rfl
      | succ i =>
        have := enew i (by simpa using hi)
        rw [hn1, hu1] at this
        rw [show h.next + (i + 1) = h.next + 1 + i by omega, this]
        simp only [List.getElem_cons_succ]
        congr 1; omega

theorem linkAll_spec (p : Addr) : ∀ (cs : List Addr) (h : Heap Int), p ∉ cs → cs.Nodup →
    (linkAll h p cs).next = h.next ∧ (linkAll h p cs).nextUid = h.nextUid ∧
    ∀ a, (linkAll h p cs).get a =
      if a = p then { h.get p with children := (h.get p).children ++ cs }
      else if a ∈ cs then { h.get a with parents := (h.get a).parents ++ [p] } else h.get a := by
  intro cs
  induction cs with
  | nil =>
    intro h _ _
    refine ⟨rfl, rfl, fun a => ?_⟩
    show h.get a = _
    split
    · rename_i e; subst e; simp
    · simp
  | cons c cs ih =>
    intro h hp hnd
    have hpc : p ≠ c := fun e => hp (by simp [e])
    have hps : p ∉ cs := fun e => hp (by simp [e])
    have hcc : c ∉ cs := (List.nodup_cons.1 hnd).1
    obtain ⟨i1, i2, i3⟩ := ih (link h p c) hps (List.nodup_cons.1 hnd).2
    have hunf : linkAll h p (c :: cs) = linkAll (link h p c) p cs := rfl
    have hl : ∀ a, (link h p c).get a = if a = c then { h.get c with parents := (h.get c).parents ++ [p] }
        else if a = p then { h.get p with children := (h.get p).children ++ [c] } else h.get a := by
      intro a
      unfold link
      simp only [Heap.get_modify]
      rw [if_neg (Ne.symm hpc)]
    rw [hunf]
    refine ⟨i1, i2, fun a => ?_⟩
    rw [i3 a, hl a, hl p]
    by_cases h1 : a = p
    · subst h1; simp [hpc, List.append_assoc]
    · by_cases h2 : a = c
      · subst h2; simp [h1, hcc]
      · simp [h1, h2]

/-- A fan-out: the nodes created below a single node. -/
theorem fan_grown {h h1 : Heap Int} {a : Addr} (ha : a < h.next) {vs : List Int} (hpos : ∀ v ∈ vs, 0 ≤ v)
    {tag1 tag2 : List (Expand Int)} {lvl : Int}
    (hn : h1.next = h.next) (hu : h1.nextUid = h.nextUid)
    (hg1 : ∀ b, h1.get b = if b = a then { h.get a with expands := (h.get a).expands ++ tag1 } else h.get b) :
    ∃ h2, newNodes h1 (h1.get a).past.items (some lvl) vs = .ok (h2, List.range' h.next vs.length) ∧
      ∀ h3 : Heap Int, h3.next = h2.next → h3.nextUid = h2.nextUid →
        (∀ b, h3.get b = if b = a then { (linkAll h2 a (List.range' h.next vs.length)).get a with
            expands := ((linkAll h2 a (List.range' h.next vs.length)).get a).expands ++ tag2 }
          else (linkAll h2 a (List.range' h.next vs.length)).get b) →
        Grown h [a] vs (tag1 ++ tag2) [] lvl h3 := by
  obtain ⟨h2, e, en, eu, eg, enew⟩ := newNodes_spec (h1.get a).past.items (some lvl) vs h1 hpos
  rw [hn] at e en eg enew
  refine ⟨h2, e, fun h3 f1 f2 f3 => ?_⟩
  have hnotin : a ∉ List.range' h.next vs.length := by rw [List.mem_range'_1]; omega
  obtain ⟨_, _, l3⟩ := linkAll_spec a (List.range' h.next vs.length) h2 hnotin List.nodup_range'
  constructor
  · rw [f1, en]
  · rw [f2, eu, hu]
  · intro b hb hba
    have hba' : b ≠ a := by simpa using hba
    rw [f3, if_neg hba', l3, if_neg hba', if_neg (by rw [List.mem_range'_1]; omega), eg b hb, hg1, if_neg hba']
  · intro b hb
    have hba : b = a := by simpa using hb
    subst hba
    rw [f3, if_pos rfl, l3, if_pos rfl, eg b ha, hg1, if_pos rfl]
    simp
  · intro i hi
    have hne : h.next + i ≠ a := by omega
    rw [f3, if_neg hne, l3, if_neg hne, if_pos (by rw [List.mem_range'_1]; omega), enew i hi, hu, hg1, if_pos rfl]
    simp [freshNode]

theorem tagIf_get (h : Heap Int) (a : Addr) (e : Expand Int) (c : Prop) [Decidable c] (b : Addr) :
    ((if c then h else tagExpand h a e).get b) =
      if b = a then { h.get a with expands := (h.get a).expands ++ if c then [] else [e] } else h.get b := by
  split
  · split
    · rename_i e; subst e; simp
    · rfl
  · rfl

theorem extract_grown (cfg : Config) (h : Heap Int) (a : Addr) (c l : Int) (ha : a < h.next) (hl : (h.get a).level = some l)
    (hc0 : 0 ≤ c) (hc1 : c ≤ (h.get a).value) :
    ∃ h', extract cfg h a c = .ok (h', List.range' h.next 2) ∧
      Grown h [a] ([c, (h.get a).value - c].insertionSort (· ≤ ·)) (if isSpeed cfg c then [] else [.extract c]) [] (l + 1) h' := by
  obtain ⟨h1, h1eq⟩ : ∃ h1 : Heap Int, h1 = if isSpeed cfg c then h else tagExpand h a (.extract c) := ⟨_, rfl⟩
  have hn : h1.next = h.next := by rw [h1eq]; split <;> rfl
  have hu : h1.nextUid = h.nextUid := by rw [h1eq]; split <;> rfl
  have hg1 := fun b => (congrArg (fun (x : Heap Int) => x.get b) h1eq).trans (tagIf_get h a (.extract c) (isSpeed cfg c = true) b)
  have hval : (h1.get a).value = (h.get a).value := by rw [hg1]; simp
  have hlvl : (h1.get a).level = some l := by rw [hg1]; simpa using hl
  have hlen : ([c, (h.get a).value - c].insertionSort (· ≤ ·)).length = 2 := by rw [List.length_insertionSort]; rfl
  obtain ⟨h2, e, hh⟩ := fan_grown (vs := [c, (h.get a).value - c].insertionSort (· ≤ ·)) (lvl := l + 1) (tag2 := []) ha
    (by intro v hv
        rw [(List.perm_insertionSort _ _).mem_iff] at hv
        simp at hv; omega) hn hu hg1
  rw [hlen] at e hh
  refine ⟨linkAll h2 a (List.range' h.next 2), ?_, ?_⟩
  · unfold extract
    simp only [← h1eq]
    rw [levelSucc, hlvl, hval]
    show (do
      let (h, ns) ← newNodes h1 (h1.get a).past.items (some (l + 1)) _
      pure (linkAll h a ns, ns)) = _
    rw [e]; rfl
  · have hnot : a ∉ List.range' h.next 2 := by rw [List.mem_range'_1]; omega
    obtain ⟨l1, l2, _⟩ := linkAll_spec a (List.range' h.next 2) h2 hnot List.nodup_range'
    have := hh (linkAll h2 a (List.range' h.next 2)) l1 l2 (by intro b; split <;> simp_all)
    simpa using this

theorem divide_grown (h : Heap Int) (a : Addr) (d : Nat) (l : Int) (ha : a < h.next) (hl : (h.get a).level = some l)
    (hd : 0 < d) (hv : 0 ≤ (h.get a).value) :
    ∃ h', divide h a d = .ok (h', List.range' h.next d) ∧
      Grown h [a] (List.replicate d ((h.get a).value / (d : Int))) (if d > 3 then [.divide d] else []) [] (l + 1) h' := by
  obtain ⟨h1, h1eq⟩ : ∃ h1 : Heap Int, h1 = if d > 3 then tagExpand h a (.divide d) else h := ⟨_, rfl⟩
  have h1eq' : h1 = if ¬ d > 3 then h else tagExpand h a (.divide d) := by rw [h1eq]; split <;> simp_all
  have hn : h1.next = h.next := by rw [h1eq]; split <;> rfl
  have hu : h1.nextUid = h.nextUid := by rw [h1eq]; split <;> rfl
  have hg1 : ∀ b, h1.get b = if b = a then { h.get a with expands := (h.get a).expands ++ if d > 3 then [.divide d] else [] }
      else h.get b := by
    intro b
    rw [h1eq', tagIf_get]
    by_cases h : d > 3 <;> simp [h]
  have hval : (h1.get a).value = (h.get a).value := by rw [hg1]; simp
  have hlvl : (h1.get a).level = some l := by rw [hg1]; simpa using hl
  obtain ⟨h2, e, hh⟩ := fan_grown (vs := List.replicate d ((h.get a).value / (d : Int))) (lvl := l + 1) (tag2 := []) ha
    (by intro v hv
        have := List.eq_of_mem_replicate hv
        rw [this]; exact Int.ediv_nonneg (by assumption) (by omega)) hn hu hg1
  rw [List.length_replicate] at e hh
  refine ⟨linkAll h2 a (List.range' h.next d), ?_, ?_⟩
  · unfold divide
    simp only [← h1eq]
    rw [if_neg (by omega), levelSucc, hlvl, hval]
    show (do
      let (h, ns) ← newNodes h1 (h1.get a).past.items (some (l + 1)) _
      pure (linkAll h a ns, ns)) = _
    rw [e]; rfl
  · have hnot : a ∉ List.range' h.next d := by rw [List.mem_range'_1]; omega
    obtain ⟨l1, l2, _⟩ := linkAll_spec a (List.range' h.next d) h2 hnot List.nodup_range'
    have := hh (linkAll h2 a (List.range' h.next d)) l1 l2 (by intro b; split <;> simp_all)
    simpa using this

theorem split_grown (cfg : Config) (h : Heap Int) (a : Addr) (c l : Int) (ha : a < h.next) (hl : (h.get a).level = some l)
    (hs : isSpeed cfg c = true) (hc1 : c / 3 * 2 ≤ (h.get a).value) (hc0 : 0 ≤ c / 3) :
    ∃ h', split cfg h a c = .ok (h', List.range' h.next 3) ∧
      Grown h [a] ([c / 3, c / 3, (h.get a).value - c / 3 * 2].insertionSort (· ≤ ·)) [.split c] [] (l + 1) h' := by
  have hlen : ([c / 3, c / 3, (h.get a).value - c / 3 * 2].insertionSort (· ≤ ·)).length = 3 := by
    rw [List.length_insertionSort]; rfl
  obtain ⟨h2, e, hh⟩ := fan_grown (h1 := h) (vs := [c / 3, c / 3, (h.get a).value - c / 3 * 2].insertionSort (· ≤ ·)) (lvl := l + 1)
    (tag1 := []) (tag2 := [.split c]) ha
    (by intro v hv
        rw [(List.perm_insertionSort _ _).mem_iff] at hv
        simp at hv; omega) rfl rfl (by
          intro b
          by_cases hb : b = a
          · subst hb; simp
          · simp [hb])
  rw [hlen] at e hh
  refine ⟨tagExpand (linkAll h2 a (List.range' h.next 3)) a (.split c), ?_, ?_⟩
  · unfold split
    rw [hs, levelSucc, hl]
    show (do
      let (h, ns) ← newNodes h (h.get a).past.items (some (l + 1)) _
      pure (tagExpand (linkAll h a ns) a (.split c), ns)) = _
    rw [e]; rfl
  · have hnot : a ∉ List.range' h.next 3 := by rw [List.mem_range'_1]; omega
    obtain ⟨l1, l2, _⟩ := linkAll_spec a (List.range' h.next 3) h2 hnot List.nodup_range'
    exact hh (tagExpand (linkAll h2 a (List.range' h.next 3)) a (.split c)) l1 l2 (by intro b; rfl)

/-- Linking the inputs of a merge. -/
theorem mergeLink_spec (m : Addr) : ∀ (old : List Addr) (h : Heap Int), m ∉ old → old.Nodup →
    (old.foldl (mergeLink m) h).next = h.next ∧ (old.foldl (mergeLink m) h).nextUid = h.nextUid ∧
    ∀ a, (old.foldl (mergeLink m) h).get a =
      if a = m then { h.get m with
        parents := (h.get m).parents ++ old
        past := old.foldl (fun p x => p.extend (h.get x).past.items) (h.get m).past }
      else if a ∈ old then { h.get a with children := (h.get a).children ++ [m] } else h.get a := by
  intro old
  induction old with
  | nil =>
    intro h _ _
    refine ⟨rfl, rfl, fun a => ?_⟩
    show h.get a = _
    split
    · rename_i e; subst e; simp
    · simp
  | cons x old ih =>
    intro h hm hnd
    have hmx : m ≠ x := fun e => hm (by simp [e])
    have hmo : m ∉ old := fun e => hm (by simp [e])
    have hxo : x ∉ old := (List.nodup_cons.1 hnd).1
    obtain ⟨i1, i2, i3⟩ := ih (mergeLink m h x) hmo (List.nodup_cons.1 hnd).2
    have hl : ∀ a, (mergeLink m h x).get a =
        if a = m then { h.get m with parents := (h.get m).parents ++ [x], past := (h.get m).past.extend (h.get x).past.items }
        else if a = x then { h.get x with children := (h.get x).children ++ [m] } else h.get a := by
      intro a
      unfold mergeLink link
      by_cases h1 : a = m
      · subst h1; simp [hmx, Ne.symm hmx]
      · simp [h1]
    rw [List.foldl_cons]
    refine ⟨i1, i2, fun a => ?_⟩
    rw [i3 a]
    have hpast : ∀ (p : FastList Int), old.foldl (fun p y => p.extend ((mergeLink m h x).get y).past.items) p =
        old.foldl (fun p y => p.extend (h.get y).past.items) p := by
      intro p
      apply List.foldl_ext
      intro p y hy
      have h1 : y ≠ m := fun e => hmo (e ▸ hy)
      have h2 : y ≠ x := fun e => hxo (e ▸ hy)
      rw [hl, if_neg h1, if_neg h2]
    by_cases h1 : a = m
    · subst h1
      rw [if_pos rfl, if_pos rfl, hpast, hl, if_pos rfl]
      simp
    · rw [if_neg h1, if_neg h1, hl, if_neg h1]
      by_cases h2 : a = x
      · subst h2; simp [hxo]
      · simp [h2]

theorem maxLevelSucc_ok {h : Heap Int} : ∀ (nodes : List Addr), nodes ≠ [] → (∀ a ∈ nodes, (h.get a).level.isSome) →
    ∃ l : Int, maxLevelSucc h nodes = .ok l ∧ (∃ a ∈ nodes, (h.get a).level = some (l - 1)) ∧
      ∀ a ∈ nodes, ∀ k, (h.get a).level = some k → k < l := by
  intro nodes hne hs
  cases nodes with
  | nil => exact absurd rfl hne
  | cons a as =>
    obtain ⟨k, hk⟩ := Option.isSome_iff_exists.1 (hs a (by simp))
    have key : ∀ (as : List Addr) (m : Int), (∀ b ∈ as, (h.get b).level.isSome) →
        ∃ l : Int, as.foldlM (fun m b => do
          let l ← levelSucc (h.get b)
          return max m l) m = (Except.ok l : Py Int) ∧ (l = m ∨ ∃ b ∈ as, (h.get b).level = some (l - 1)) ∧ m ≤ l ∧
          ∀ b ∈ as, ∀ k, (h.get b).level = some k → k < l := by
      intro as
      induction as with
      | nil => intro m _; exact ⟨m, rfl, Or.inl rfl, le_rfl, by simp⟩
      | cons b bs ih =>
        intro m hs
        obtain ⟨kb, hkb⟩ := Option.isSome_iff_exists.1 (hs b (by simp))
        obtain ⟨l, e1, e2, e3, e4⟩ := ih (max m (kb + 1)) (fun c hc => hs c (by simp [hc]))
        refine ⟨l, ?_, ?_, by omega, ?_⟩
        · rw [List.foldlM_cons, levelSucc, hkb]
          exact e1
        · rcases e2 with e2 | ⟨c, hc, e2⟩
          · by_cases hm : m ≤ kb + 1
            · right; refine ⟨b, by simp, ?_⟩; rw [hkb]; congr 1; omega
            · left; omega
          · right; exact ⟨c, by simp [hc], e2⟩
        · intro c hc k hk
          rcases List.mem_cons.1 hc with rfl | hc
          · rw [hkb] at hk; injection hk with hk; omega
          · exact e4 c hc k hk
    obtain ⟨l, e1, e2, e3, e4⟩ := key as (k + 1) (fun b hb => hs b (by simp [hb]))
    refine ⟨l, ?_, ?_, ?_⟩
    · have hls : levelSucc (h.get a) = .ok (k + 1) := by unfold levelSucc; rw [hk]
      unfold maxLevelSucc
      dsimp only
      rw [hls]
      exact e1
    · rcases e2 with e2 | ⟨c, hc, e2⟩
      · exact ⟨a, by simp, by rw [hk, e2]; congr 1; omega⟩
      · exact ⟨c, by simp [hc], e2⟩
    · intro c hc j hj
      rcases List.mem_cons.1 hc with rfl | hc
      · rw [hk] at hj; injection hj with hj; omega
      · exact e4 c hc j hj

theorem merge_grown (share : Int → Nat → Int) (h : Heap Int) (nodes : List Addr) (hlt : ∀ a ∈ nodes, a < h.next)
    (hnd : nodes.Nodup) (h2 : 2 ≤ nodes.length) (hlv : ∀ a ∈ nodes, (h.get a).level.isSome)
    (hch : ∀ a ∈ nodes, (h.get a).children = []) (hv : ∀ a ∈ nodes, 0 ≤ (h.get a).value) :
    ∃ h' l, merge share h nodes = .ok (h', h.next) ∧ maxLevelSucc h nodes = .ok l ∧
      Grown h nodes [(nodes.map fun a => (h.get a).value).sum] [] (if nodes.length > 3 then [.merge 3] else []) l h' := by
  have hne : nodes ≠ [] := by rintro rfl; simp at h2
  obtain ⟨l, hl, _, _⟩ := maxLevelSucc_ok (h := h) nodes hne hlv
  have hsum : (nodes.map fun a => sharedValue share (h.get a)).foldl (· + ·) 0 = (nodes.map fun a => (h.get a).value).sum := by
    rw [← List.sum_eq_foldl]
    congr 1
    apply List.map_congr_left
    intro a ha
    unfold sharedValue
    rw [if_pos (hch a ha)]
  obtain ⟨v, hvdef⟩ : ∃ v, v = (nodes.map fun a => (h.get a).value).sum := ⟨_, rfl⟩
  rw [← hvdef] at hsum ⊢
  have hv0 : ¬ v < 0 := by
    rw [hvdef, not_lt]
    apply List.sum_nonneg
    intro x hx
    obtain ⟨a, ha, rfl⟩ := List.mem_map.1 hx
    exact hv a ha
  obtain ⟨h1, h1eq⟩ : ∃ h1, h1 = (({ h with nextUid := h.nextUid + 1 } : Heap Int).alloc (freshNode v h.nextUid [] (some l))).1 :=
    ⟨_, rfl⟩
  have hnew : newNode h v [] none (some l) = .ok (h1, h.next) := by
    unfold newNode
    rw [if_neg hv0, h1eq]
    rfl
  have hg1 : ∀ b, h1.get b = if b = h.next then freshNode v h.nextUid [] (some l) else h.get b := by rw [h1eq]; intro b; rfl
  obtain ⟨h2', h2eq⟩ : ∃ h2 : Heap Int, h2 = if nodes.length > 3 then tagExpand h1 h.next (.merge 3) else h1 := ⟨_, rfl⟩
  have hn2 : h2'.next = h.next + 1 := by rw [h2eq, h1eq]; split <;> rfl
  have hu2 : h2'.nextUid = h.nextUid + 1 := by rw [h2eq, h1eq]; split <;> rfl
  have hg2 : ∀ b, h2'.get b = if b = h.next then
      { freshNode v h.nextUid [] (some l) with expands := if nodes.length > 3 then [.merge 3] else [] } else h.get b := by
    intro b
    rw [h2eq]
    by_cases h3 : nodes.length > 3
    · rw [if_pos h3, if_pos h3]
      unfold tagExpand
      rw [Heap.get_modify, hg1, hg1, if_pos rfl]
      by_cases hb : b = h.next
      · rw [if_pos hb, if_pos hb]; rfl
      · rw [if_neg hb, if_neg hb, if_neg hb]
    · rw [if_neg h3, if_neg h3, hg1]; rfl
  have hnot : h.next ∉ nodes := fun hm => absurd (hlt _ hm) (lt_irrefl _)
  obtain ⟨m1, m2, m3⟩ := mergeLink_spec h.next nodes h2' hnot hnd
  refine ⟨nodes.foldl (mergeLink h.next) h2', l, ?_, hl, ?_⟩
  · unfold merge
    simp only [hsum, hl]
    show (do
      let (h, m) ← newNode h v [] none (some l)
      if nodes.length ≤ 1 then (throw PyErr.systemExit : Py PUnit)
      let h := if nodes.length > 3 then tagExpand h m (.merge 3) else h
      pure (nodes.foldl (mergeLink m) h, m)) = _
    rw [hnew]
    show (do
      if nodes.length ≤ 1 then (throw PyErr.systemExit : Py PUnit)
      pure (nodes.foldl (mergeLink h.next) (if nodes.length > 3 then tagExpand h1 h.next (.merge 3) else h1), h.next)) = _
    rw [← h2eq, if_neg (by omega)]
    rfl
  · constructor
    · rw [m1, hn2]; rfl
    · rw [m2, hu2]; rfl
    · intro a ha hna
      rw [m3, if_neg (by omega), if_neg hna, hg2, if_neg (by omega)]
    · intro a ha
      have := hlt a ha
      rw [m3, if_neg (by omega), if_pos ha, hg2, if_neg (by omega)]
      simp
    · intro i hi
      have : i = 0 := by simpa using hi
      subst this
      rw [m3]
      simp only [Nat.add_zero]
      rw [if_pos trivial, hg2, if_pos rfl]
      have hp : nodes.foldl (fun p x => p.extend (h2'.get x).past.items) (FastList.new [v]) =
          nodes.foldl (fun p x => p.extend (h.get x).past.items) (FastList.new [v]) := by
        apply List.foldl_ext
        intro p y hy
        rw [hg2, if_neg (by have := hlt y hy; omega)]
      simp only [freshNode, FastList.extend, List.foldl_nil] at hp ⊢
      simp [hp]

end Satis.Graph
