import Verif.Graph.Model
import Verif.Utils.FastListLemmas
import Mathlib.Data.List.Count
import Mathlib.Algebra.Order.BigOperators.Group.List
/-!
# Lemmas about heaps and about `_deepcopy`
-/

namespace Satis.Graph
open Satis

set_option linter.unusedSectionVars false

variable {V : Type}

namespace Heap

@[simp] theorem get_set (h : Heap V) (a : Addr) (o : NodeObj V) (b : Addr) :
    (h.set a o).get b = if b = a then o else h.get b := rfl
@[simp] theorem next_set (h : Heap V) (a : Addr) (o : NodeObj V) : (h.set a o).next = h.next := rfl
@[simp] theorem nextUid_set (h : Heap V) (a : Addr) (o : NodeObj V) : (h.set a o).nextUid = h.nextUid := rfl
@[simp] theorem get_modify (h : Heap V) (a : Addr) (f : NodeObj V → NodeObj V) (b : Addr) :
    (h.modify a f).get b = if b = a then f (h.get a) else h.get b := rfl
@[simp] theorem next_modify (h : Heap V) (a : Addr) (f : NodeObj V → NodeObj V) : (h.modify a f).next = h.next := rfl
@[simp] theorem nextUid_modify (h : Heap V) (a : Addr) (f : NodeObj V → NodeObj V) : (h.modify a f).nextUid = h.nextUid := rfl
@[simp] theorem get_alloc (h : Heap V) (o : NodeObj V) (b : Addr) :
    (h.alloc o).1.get b = if b = h.next then o else h.get b := rfl
@[simp] theorem next_alloc (h : Heap V) (o : NodeObj V) : (h.alloc o).1.next = h.next + 1 := rfl
@[simp] theorem nextUid_alloc (h : Heap V) (o : NodeObj V) : (h.alloc o).1.nextUid = h.nextUid := rfl
@[simp] theorem addr_alloc (h : Heap V) (o : NodeObj V) : (h.alloc o).2 = h.next := rfl

/-- `h'` extends `h`: nothing allocated in `h` was changed. -/
structure Ext (h h' : Heap V) : Prop where
  get : ∀ a, a < h.next → h'.get a = h.get a
  next : h.next ≤ h'.next
  nextUid : h.nextUid ≤ h'.nextUid

theorem Ext.refl (h : Heap V) : Ext h h := ⟨fun _ _ => rfl, le_rfl, le_rfl⟩

theorem Ext.trans {h1 h2 h3 : Heap V} (a : Ext h1 h2) (b : Ext h2 h3) : Ext h1 h3 :=
  ⟨fun x hx => (b.get x (lt_of_lt_of_le hx a.next)).trans (a.get x hx), a.next.trans b.next, a.nextUid.trans b.nextUid⟩

end Heap

/-- `a` can be reached from `rs` along child references. -/
inductive Reach (h : Heap V) (rs : List Addr) : Addr → Prop
  | root {a} : a ∈ rs → Reach h rs a
  | child {a b} : Reach h rs a → b ∈ (h.get a).children → Reach h rs b

theorem Reach.mono {h : Heap V} {rs rs' : List Addr} (hs : ∀ a ∈ rs, Reach h rs' a) {a : Addr} (ha : Reach h rs a) :
    Reach h rs' a := by
  induction ha with
  | root h => exact hs _ h
  | child _ hc ih => exact ih.child hc

/-- The copy of `d` recorded in the dictionary `copied_nodes`. -/
def img (h0 : Heap V) (copied : Dict Uid Addr) (d : Addr) : Addr := (copied.get? (h0.get d).id).getD 0

/-- `d` has been copied. -/
def Done (h0 : Heap V) (copied : Dict Uid Addr) (d : Addr) : Prop := (copied.get? (h0.get d).id).isSome

theorem done_get {h0 : Heap V} {copied : Dict Uid Addr} {d : Addr} (h : Done h0 copied d) :
    copied.get? (h0.get d).id = some (img h0 copied d) := by
  unfold img Done at *
  obtain ⟨b, hb⟩ := Option.isSome_iff_exists.1 h
  rw [hb]; rfl

/-- Children still to be attached to the copy at `b`. -/
def pend (stack : List (Addr × Option Addr)) (b : Addr) : List Addr := (stack.filter fun e => decide (e.2 = some b)).map Prod.fst

section
variable [LinearOrder V] [Zero V]

/-- What is assumed of the original graph: `R` is closed under children, allocated, with distinct ids and
non-negative values. -/
structure Good (h0 : Heap V) (R : Addr → Prop) : Prop where
  closed : ∀ a b, R a → b ∈ (h0.get a).children → R b
  lt : ∀ a, R a → a < h0.next
  inj : ∀ a b, R a → R b → (h0.get a).id = (h0.get b).id → a = b
  nonneg : ∀ a, R a → ¬ (h0.get a).value < 0

/-- Invariant of the copying loop. `C d` lists the children of `d` attached so far, in order of attachment. -/
structure CopyInv (h0 : Heap V) (R : Addr → Prop) (org : Addr → Addr) (C : Addr → List Addr) (s : CopyState V) : Prop where
  ext : Heap.Ext h0 s.heap
  uid : s.heap.nextUid = h0.nextUid
  range : ∀ d, R d → Done h0 s.copied d → h0.next ≤ img h0 s.copied d ∧ img h0 s.copied d < s.heap.next
  inj : ∀ d e, R d → R e → Done h0 s.copied d → Done h0 s.copied e → img h0 s.copied d = img h0 s.copied e → d = e
  onto : ∀ b, h0.next ≤ b → b < s.heap.next → ∃ d, R d ∧ Done h0 s.copied d ∧ img h0 s.copied d = b
  attrs : ∀ d, R d → Done h0 s.copied d →
    (s.heap.get (img h0 s.copied d)).value = (h0.get d).value ∧ (s.heap.get (img h0 s.copied d)).id = (h0.get d).id ∧
    (s.heap.get (img h0 s.copied d)).level = (h0.get d).level ∧ (s.heap.get (img h0 s.copied d)).expands = (h0.get d).expands ∧
    (s.heap.get (img h0 s.copied d)).levelsToAdd = 0
  past : ∀ d, R d → Done h0 s.copied d →
    (s.heap.get (img h0 s.copied d)).past = (FastList.new [(h0.get d).value]).extend (h0.get (org d)).past.items
  children : ∀ d, R d → Done h0 s.copied d →
    (s.heap.get (img h0 s.copied d)).children = (C d).map (img h0 s.copied) ∧
    C d ++ pend s.stack (img h0 s.copied d) = (h0.get d).children.reverse ∧ ∀ c ∈ C d, Done h0 s.copied c
  parents : ∀ d, R d → Done h0 s.copied d →
    (∀ e, R e → Done h0 s.copied e → (s.heap.get (img h0 s.copied d)).parents.count (img h0 s.copied e) = (C e).count d) ∧
    ∀ x ∈ (s.heap.get (img h0 s.copied d)).parents, ∃ e, R e ∧ Done h0 s.copied e ∧ img h0 s.copied e = x
  stack : ∀ e ∈ s.stack, R e.1 ∧ ∀ x, e.2 = some x → ∃ d, R d ∧ Done h0 s.copied d ∧ img h0 s.copied d = x

theorem pend_cons_self (c x : Addr) (rest) : pend ((c, some x) :: rest) x = c :: pend rest x := by simp [pend]
theorem pend_cons_ne (c : Addr) (p : Option Addr) (rest) (b : Addr) (h : p ≠ some b) : pend ((c, p) :: rest) b = pend rest b := by
  simp [pend, h]
theorem pend_append (s t : List (Addr × Option Addr)) (b : Addr) : pend (s ++ t) b = pend s b ++ pend t b := by simp [pend]
theorem pend_push (l : List Addr) (x b : Addr) : pend ((l.map fun c => (c, some x)).reverse) b = if b = x then l.reverse else [] := by
  unfold pend
  rw [List.filter_reverse, List.filter_map]
  by_cases h : b = x
  · subst h; simp [Function.comp_def]
  · rw [if_neg h]
    have : ((fun e : Addr × Option Addr => decide (e.2 = some b)) ∘ fun c => (c, some x)) = fun _ => false := by
      funext c; simp [Ne.symm h]
    rw [this]; simp
theorem pend_nil_of (s : List (Addr × Option Addr)) (b : Addr) (h : ∀ e ∈ s, e.2 ≠ some b) : pend s b = [] := by
  unfold pend
  rw [List.map_eq_nil_iff, List.filter_eq_nil_iff]
  intro e he; simpa using h e he

/-- Processing an entry whose node has been copied already. -/
theorem copyStep_done {h0 : Heap V} {R : Addr → Prop} (hg : Good h0 R) {org C} {h : Heap V} {copied : Dict Uid Addr}
    {node parent rest} (self : Addr) (inv : CopyInv h0 R org C ⟨h, copied, (node, parent) :: rest⟩)
    (hd : Done h0 copied node) :
    ∃ C' s', copyStep self node parent rest h copied = .ok s' ∧ CopyInv h0 R org C' s' ∧ s'.stack = rest ∧ s'.copied = copied := by
  obtain ⟨hR, hp⟩ := inv.stack _ (List.mem_cons_self ..)
  simp only at hR hp
  have hnode : h.get node = h0.get node := inv.ext.get _ (hg.lt _ hR)
  have hlook : copied.get? (h.get node).id = some (img h0 copied node) := by rw [hnode]; exact done_get hd
  have hrange := inv.range
  have hinj := inv.inj
  simp only at hrange hinj
  unfold copyStep
  rw [hlook]
  simp only
  cases parent with
  | none =>
    refine ⟨C, _, rfl, ?_, rfl, rfl⟩
    refine { ext := inv.ext, uid := inv.uid, range := inv.range, inj := inv.inj, onto := inv.onto, attrs := inv.attrs, past := inv.past,
             children := ?_, parents := inv.parents, stack := fun e he => inv.stack e (List.mem_cons_of_mem _ he) }
    intro d hdR hdd
    obtain ⟨a, b, c⟩ := inv.children d hdR hdd
    refine ⟨a, ?_, c⟩
    simpa [pend_cons_ne] using b
  | some p =>
    obtain ⟨e, heR, hed, rfl⟩ := hp p rfl
    have hn := hrange node hR hd
    have he := hrange e heR hed
    refine ⟨fun d => if d = e then C e ++ [node] else C d, _, rfl, ?_, rfl, rfl⟩
    have hget : ∀ b, (appendChild (appendParent h (img h0 copied node) (some (img h0 copied e))) (img h0 copied node)
        (some (img h0 copied e))).get b = { h.get b with
          parents := if b = img h0 copied node then (h.get b).parents ++ [img h0 copied e] else (h.get b).parents
          children := if b = img h0 copied e then (h.get b).children ++ [img h0 copied node] else (h.get b).children } := by
      intro b
      simp only [appendChild, appendParent, Heap.get_modify]
      by_cases h1 : b = img h0 copied e
      · by_cases h2 : b = img h0 copied node
        · rw [if_pos h1, if_pos h1, if_pos h2, if_pos (h1 ▸ h2), ← h2]
        · rw [if_pos h1, if_pos h1, if_neg h2, if_neg (h1 ▸ h2), ← h1]
      · by_cases h2 : b = img h0 copied node
        · rw [if_neg h1, if_neg h1, if_pos h2, if_pos h2, ← h2]
        · rw [if_neg h1, if_neg h1, if_neg h2, if_neg h2]
    constructor
    · refine ⟨?_, inv.ext.next, inv.ext.nextUid⟩
      intro a ha
      rw [hget, if_neg (by omega), if_neg (by omega)]
      exact inv.ext.get a ha
    · exact inv.uid
    · exact inv.range
    · exact inv.inj
    · exact inv.onto
    · intro d hdR hdd
      rw [hget]; exact inv.attrs d hdR hdd
    · intro d hdR hdd
      rw [hget]; exact inv.past d hdR hdd
    · intro d hdR hdd
      rw [hget]
      obtain ⟨a, b, c⟩ := inv.children d hdR hdd
      simp only at a b c hdd ⊢
      by_cases hde : d = e
      · subst hde
        rw [if_pos rfl, if_pos rfl, a]
        refine ⟨by simp, ?_, ?_⟩
        · rw [pend_cons_self] at b; simpa using b
        · intro c' hc'
          rcases List.mem_append.1 hc' with h | h
          · exact c c' h
          · simp at h; subst h; exact hd
      · rw [if_neg hde, if_neg (fun hh => hde (hinj _ _ hdR heR hdd hed hh)), a]
        refine ⟨rfl, ?_, c⟩
        rwa [pend_cons_ne] at b
        intro hh
        exact hde (hinj _ _ hdR heR hdd hed (by simpa using hh.symm))
    · intro d hdR hdd
      rw [hget]
      obtain ⟨a, b⟩ := inv.parents d hdR hdd
      simp only at a b hdd ⊢
      constructor
      · intro e' heR' hed'
        have ha := a e' heR' hed'
        by_cases hdn : d = node
        · subst hdn
          rw [if_pos rfl, List.count_append, ha]
          by_cases hee : e' = e
          · subst hee; rw [if_pos rfl, List.count_append]; simp
          · rw [if_neg hee, List.count_cons_of_ne]
            · simp
            · intro hh; exact hee (hinj _ _ heR' heR hed' hed hh.symm)
        · rw [if_neg (fun hh => hdn (hinj _ _ hdR hR hdd hd hh)), ha]
          by_cases hee : e' = e
          · subst hee
            rw [if_pos rfl, List.count_append, List.count_cons_of_ne (Ne.symm hdn)]; simp
          · rw [if_neg hee]
      · intro x hx
        split at hx
        · rcases List.mem_append.1 hx with h | h
          · exact b x h
          · simp at h; exact ⟨e, heR, hed, h.symm⟩
        · exact b x hx
    · intro e he
      exact inv.stack e (List.mem_cons_of_mem _ he)

theorem img_set_ne {h0 : Heap V} {copied : Dict Uid Addr} {node d : Addr} {x : Addr} (h : (h0.get d).id ≠ (h0.get node).id) :
    img h0 (copied.set (h0.get node).id x) d = img h0 copied d := by
  unfold img; rw [Dict.get?_set, if_neg h]

theorem done_set {h0 : Heap V} {copied : Dict Uid Addr} {node d : Addr} {x : Addr} :
    Done h0 (copied.set (h0.get node).id x) d ↔ (h0.get d).id = (h0.get node).id ∨ Done h0 copied d := by
  unfold Done; rw [Dict.get?_set]
  split
  · rename_i h; simp [h]
  · rename_i h; simp [h]

theorem img_set_self {h0 : Heap V} {copied : Dict Uid Addr} {node : Addr} {x : Addr} :
    img h0 (copied.set (h0.get node).id x) node = x := by
  unfold img; rw [Dict.get?_set, if_pos rfl]; rfl

open Classical in
/-- Processing an entry whose node has not been copied yet. -/
theorem copyStep_new {h0 : Heap V} {R : Addr → Prop} (hg : Good h0 R) {org C} {h : Heap V} {copied : Dict Uid Addr}
    {node parent rest} (self : Addr) (hself : self < h0.next) (inv : CopyInv h0 R org C ⟨h, copied, (node, parent) :: rest⟩)
    (hd : ¬ Done h0 copied node) :
    ∃ C' s', copyStep self node parent rest h copied = .ok s' ∧
      CopyInv h0 R (fun d => if d = node then self else org d) C' s' ∧
      s'.stack = ((h0.get node).children.map fun c => (c, some h.next)).reverse ++ rest ∧
      s'.copied = copied.set (h0.get node).id h.next := by
  obtain ⟨hR, hp⟩ := inv.stack _ (List.mem_cons_self ..)
  simp only at hR hp
  have hnode : h.get node = h0.get node := inv.ext.get _ (hg.lt _ hR)
  have hsget : h.get self = h0.get self := inv.ext.get _ hself
  have hlook : copied.get? (h.get node).id = none := by
    rw [hnode]; unfold Done at hd; simpa using hd
  have hrange := inv.range
  have hinj := inv.inj
  have hext := inv.ext
  simp only at hrange hinj hext
  -- other nodes keep their copy
  have himg : ∀ d, R d → d ≠ node → img h0 (copied.set (h0.get node).id h.next) d = img h0 copied d :=
    fun d hdR hdn => img_set_ne (fun hh => hdn (hg.inj _ _ hdR hR hh))
  have hdone : ∀ d, R d → Done h0 (copied.set (h0.get node).id h.next) d → d = node ∨ (d ≠ node ∧ Done h0 copied d) := by
    intro d hdR hdd
    by_cases hdn : d = node
    · exact Or.inl hdn
    · rcases done_set.1 hdd with h | h
      · exact absurd (hg.inj _ _ hdR hR h) hdn
      · exact Or.inr ⟨hdn, h⟩
  have hnn : ∀ d, Done h0 copied d → d ≠ node := fun d h hh => hd (hh ▸ h)
  have hmono : ∀ d, Done h0 copied d → Done h0 (copied.set (h0.get node).id h.next) d := fun d h => done_set.2 (Or.inr h)
  have hself' : Done h0 (copied.set (h0.get node).id h.next) node := done_set.2 (Or.inl rfl)
  unfold copyStep
  rw [hlook]
  have hnew : newNode h (h.get node).value [] (some (h.get node).id) none = .ok (h.alloc
      { value := (h0.get node).value, id := (h0.get node).id, level := none,
        past := FastList.new [(h0.get node).value], parents := [], children := [], expands := [], levelsToAdd := 0 }) := by
    unfold newNode
    rw [hnode, if_neg (hg.nonneg _ hR)]
    rfl
  rw [hnew]
  simp only [hsget, hnode, Heap.addr_alloc]
  -- the final heap
  generalize hH : appendChild _ h.next parent = H
  have hget : ∀ b, H.get b = if b = h.next then
      { value := (h0.get node).value, id := (h0.get node).id, level := (h0.get node).level,
        past := (FastList.new [(h0.get node).value]).extend (h0.get self).past.items, parents := parent.toList,
        children := [], expands := (h0.get node).expands, levelsToAdd := 0 }
      else if parent = some b then { h.get b with children := (h.get b).children ++ [h.next] } else h.get b := by
    intro b
    subst hH
    cases parent with
    | none =>
      simp only [appendChild, Heap.get_modify, Heap.get_alloc, if_true]
      split
      · rfl
      · simp
    | some p =>
      obtain ⟨e, heR, hed, rfl⟩ := hp p rfl
      have hlt := (hrange e heR hed).2
      simp only [appendChild, Heap.get_modify, Heap.get_alloc, if_true]
      by_cases h1 : b = h.next
      · subst h1
        have : h.next ≠ img h0 copied e := by omega
        simp [this]
      · by_cases h2 : b = img h0 copied e
        · subst h2; simp [h1]
        · simp [h1, h2, Ne.symm h2]
  have hnext : H.next = h.next + 1 := by subst hH; cases parent <;> rfl
  have huid : H.nextUid = h.nextUid := by subst hH; cases parent <;> rfl
  clear hH hnew
  refine ⟨fun d => if d = node then [] else if parent = some (img h0 copied d) ∧ R d ∧ Done h0 copied d then C d ++ [node] else C d,
    _, rfl, ?_, rfl, rfl⟩
  have hh0 : h0.next ≤ h.next := hext.next
  have hb : ∀ d, R d → Done h0 copied d → img h0 copied d ≠ h.next := fun d hdR hdd => by have := hrange d hdR hdd; omega
  constructor
  · refine ⟨?_, ?_, ?_⟩
    · intro a ha
      show H.get a = _
      rw [hget, if_neg (by omega), if_neg]
      · exact hext.get a ha
      · rintro rfl
        obtain ⟨e, heR, hed, hee⟩ := hp a rfl
        have := hrange e heR hed; omega
    · show h0.next ≤ H.next; omega
    · show h0.nextUid ≤ H.nextUid; rw [huid]; exact hext.nextUid
  · exact huid.trans inv.uid
  · intro d hdR hdd
    show h0.next ≤ img h0 _ d ∧ img h0 _ d < H.next
    rcases hdone d hdR hdd with rfl | ⟨hdn, hdd⟩
    · simp only [img_set_self]; omega
    · simp only [himg d hdR hdn]; have := hrange d hdR hdd; omega
  · intro d e hdR heR hdd hed
    simp only
    rcases hdone d hdR hdd with h1 | ⟨hdn, hdd'⟩ <;> rcases hdone e heR hed with h2 | ⟨hen, hed'⟩
    · intro; rw [h1, h2]
    · rw [h1, img_set_self, himg e heR hen]; intro hh; exact absurd hh.symm (hb e heR hed')
    · rw [h2, img_set_self, himg d hdR hdn]; intro hh; exact absurd hh (hb d hdR hdd')
    · rw [himg e heR hen, himg d hdR hdn]; exact hinj d e hdR heR hdd' hed'
  · intro b hb1 hb2
    simp only at hb1 hb2 ⊢
    by_cases hbn : b = h.next
    · exact ⟨node, hR, hself', by rw [img_set_self, hbn]⟩
    · obtain ⟨d, hdR, hdd, hdb⟩ := inv.onto b hb1 (by simp only; omega)
      exact ⟨d, hdR, hmono d hdd, by rw [himg d hdR (hnn d hdd)]; exact hdb⟩
  · intro d hdR hdd
    simp only
    rcases hdone d hdR hdd with rfl | ⟨hdn, hdd⟩
    · rw [img_set_self, hget, if_pos rfl]; simp
    · rw [himg d hdR hdn, hget, if_neg (hb d hdR hdd)]
      have := inv.attrs d hdR hdd
      simp only at this
      split <;> exact this
  · intro d hdR hdd
    simp only
    rcases hdone d hdR hdd with rfl | ⟨hdn, hdd⟩
    · rw [img_set_self, hget, if_pos rfl, if_pos rfl]
    · rw [himg d hdR hdn, hget, if_neg (hb d hdR hdd), if_neg hdn]
      have := inv.past d hdR hdd
      simp only at this
      split <;> exact this
  · intro d hdR hdd
    simp only
    have hpush : ∀ b, pend (((h0.get node).children.map fun c => (c, some h.next)).reverse ++ rest) b =
        (if b = h.next then (h0.get node).children.reverse else []) ++ pend rest b := by
      intro b; rw [pend_append, pend_push]
    rcases hdone d hdR hdd with rfl | ⟨hdn, hdd⟩
    · rw [img_set_self, hget, if_pos rfl, if_pos rfl]
      refine ⟨rfl, ?_, by simp⟩
      rw [hpush, if_pos rfl, pend_nil_of, List.append_nil, List.nil_append]
      intro e he hh
      obtain ⟨_, hx⟩ := inv.stack e (List.mem_cons_of_mem _ he)
      obtain ⟨d', hd'R, hd'd, hd'x⟩ := hx _ hh
      exact hb d' hd'R hd'd hd'x
    · obtain ⟨a, b, c⟩ := inv.children d hdR hdd
      simp only at a b c
      rw [himg d hdR hdn, hget, if_neg (hb d hdR hdd), if_neg hdn, hpush, if_neg (hb d hdR hdd), List.nil_append]
      have hcR : ∀ c' ∈ C d, R c' := by
        intro c' hc'
        apply hg.closed d c' hdR
        rw [← List.mem_reverse, ← b]; exact List.mem_append_left _ hc'
      have hmap : (C d).map (img h0 (copied.set (h0.get node).id h.next)) = (C d).map (img h0 copied) :=
        List.map_congr_left fun c' hc' => himg c' (hcR c' hc') (hnn c' (c c' hc'))
      by_cases hpar : parent = some (img h0 copied d)
      · rw [if_pos hpar, if_pos ⟨hpar, hdR, hdd⟩, List.map_append, hmap]
        refine ⟨?_, ?_, ?_⟩
        · simp only [a, List.map_cons, List.map_nil, img_set_self]
        · rw [hpar, pend_cons_self] at b; simpa using b
        · intro c' hc'
          rcases List.mem_append.1 hc' with h | h
          · exact hmono _ (c c' h)
          · simp at h; subst h; exact hself'
      · rw [if_neg hpar, if_neg (fun hh => hpar hh.1), hmap]
        refine ⟨a, ?_, fun c' hc' => hmono _ (c c' hc')⟩
        rwa [pend_cons_ne _ _ _ _ hpar] at b
  · intro d hdR hdd
    simp only
    have hCnode : ∀ e, R e → Done h0 copied e → (C e).count node = 0 := by
      intro e heR hed
      rw [List.count_eq_zero]
      intro hmem
      exact hd ((inv.children e heR hed).2.2 node hmem)
    rcases hdone d hdR hdd with rfl | ⟨hdn, hdd⟩
    · rw [img_set_self, hget, if_pos rfl]
      simp only
      constructor
      · intro e heR hed
        rcases hdone e heR hed with rfl | ⟨hen, hed⟩
        · rw [img_set_self, if_pos rfl, List.count_nil, List.count_eq_zero]
          intro hh
          cases parent with
          | none => simp at hh
          | some p =>
            obtain ⟨e, heR, hed, hee⟩ := hp p rfl
            simp at hh
            exact hb e heR hed (hee.trans hh.symm)
        · rw [himg e heR hen, if_neg hen]
          by_cases hpar : parent = some (img h0 copied e)
          · rw [if_pos ⟨hpar, heR, hed⟩, hpar, List.count_append, hCnode e heR hed]; simp
          · rw [if_neg (fun hh => hpar hh.1), hCnode e heR hed, List.count_eq_zero]
            intro hh
            exact hpar (by simpa using hh)
      · intro x hx
        have hx' : parent = some x := by simpa using hx
        obtain ⟨e, heR, hed, hee⟩ := hp x hx'
        exact ⟨e, heR, hmono e hed, by rw [himg e heR (hnn e hed)]; exact hee⟩
    · obtain ⟨a, b⟩ := inv.parents d hdR hdd
      simp only at a b
      have hpar : (H.get (img h0 copied d)).parents = (h.get (img h0 copied d)).parents := by
        rw [hget, if_neg (hb d hdR hdd)]; split <;> rfl
      rw [himg d hdR hdn, hpar]
      constructor
      · intro e heR hed
        rcases hdone e heR hed with rfl | ⟨hen, hed⟩
        · rw [img_set_self, if_pos rfl, List.count_nil, List.count_eq_zero]
          intro hh
          obtain ⟨e, heR, hed, hee⟩ := b _ hh
          exact hb e heR hed hee
        · rw [himg e heR hen, if_neg hen, a e heR hed]
          split
          · rw [List.count_append, List.count_cons_of_ne (Ne.symm hdn)]; simp
          · rfl
      · intro x hx
        obtain ⟨e, heR, hed, hee⟩ := b x hx
        exact ⟨e, heR, hmono e hed, by rw [himg e heR (hnn e hed)]; exact hee⟩
  · intro e he
    simp only at he ⊢
    rcases List.mem_append.1 he with he | he
    · simp only [List.mem_reverse, List.mem_map] at he
      obtain ⟨c, hc, rfl⟩ := he
      refine ⟨hg.closed _ _ hR hc, ?_⟩
      intro x hx
      simp only [Option.some.injEq] at hx
      exact ⟨node, hR, hself', by rw [img_set_self, hx]⟩
    · obtain ⟨h1, h2⟩ := inv.stack e (List.mem_cons_of_mem _ he)
      refine ⟨h1, fun x hx => ?_⟩
      obtain ⟨d, hdR, hdd, hdx⟩ := h2 x hx
      exact ⟨d, hdR, hmono d hdd, by rw [himg d hdR (hnn d hdd)]; exact hdx⟩


/-- References from nodes that have not been copied yet. -/
def todo (h0 : Heap V) (copied : Dict Uid Addr) : Nat :=
  ((List.range h0.next).map fun a => if (copied.get? (h0.get a).id).isSome then 0 else (h0.get a).children.length).sum

theorem sum_range_le {f g : Nat → Nat} (n : Nat) (h : ∀ i, i < n → f i ≤ g i) :
    ((List.range n).map f).sum ≤ ((List.range n).map g).sum := by
  induction n with
  | zero => simp
  | succ n ih =>
    simp only [List.range_succ, List.map_append, List.sum_append, List.map_cons, List.map_nil, List.sum_singleton]
    exact Nat.add_le_add (ih fun i hi => h i (by omega)) (h n (by omega))

theorem sum_range_le_add {f g : Nat → Nat} (n k x : Nat) (hk : k < n) (h : ∀ i, i < n → f i ≤ g i) (hx : f k + x ≤ g k) :
    ((List.range n).map f).sum + x ≤ ((List.range n).map g).sum := by
  induction n with
  | zero => omega
  | succ n ih =>
    simp only [List.range_succ, List.map_append, List.sum_append, List.map_cons, List.map_nil, List.sum_singleton]
    by_cases hkn : k = n
    · subst hkn
      have := sum_range_le k (fun i hi => h i (by omega))
      omega
    · have := ih (by omega) (fun i hi => h i (by omega))
      have := h n (by omega)
      omega

theorem todo_set {h0 : Heap V} {copied : Dict Uid Addr} {node : Addr} {x : Addr} (hlt : node < h0.next)
    (hd : ¬ Done h0 copied node) : todo h0 (copied.set (h0.get node).id x) + (h0.get node).children.length ≤ todo h0 copied := by
  unfold todo
  refine sum_range_le_add _ node _ hlt ?_ ?_
  · intro i _
    rw [Dict.get?_set]
    by_cases h : (h0.get i).id = (h0.get node).id
    · simp [h]
    · simp [h]
  · rw [Dict.get?_set, if_pos rfl]
    unfold Done at hd
    simp [hd]

theorem copyLoop_spec {h0 : Heap V} {R : Addr → Prop} (hg : Good h0 R) (self : Addr) (hself : self < h0.next) :
    ∀ fuel (s : CopyState V) org C, CopyInv h0 R org C s → todo h0 s.copied + s.stack.length ≤ fuel →
    ∃ org' C' s', copyLoop self fuel s = .ok s' ∧ CopyInv h0 R org' C' s' ∧ s'.stack = [] ∧
      (∀ d, R d → Done h0 s.copied d → Done h0 s'.copied d ∧ img h0 s'.copied d = img h0 s.copied d ∧ org' d = org d) ∧
      (∀ d, R d → Done h0 s'.copied d → Done h0 s.copied d ∨ (org' d = self ∧ Reach h0 (s.stack.map Prod.fst) d)) ∧
      (∀ e ∈ s.stack, Done h0 s'.copied e.1) := by
  intro fuel
  induction fuel with
  | zero =>
    intro s org C inv hf
    have hs : s.stack = [] := List.length_eq_zero_iff.1 (by omega)
    refine ⟨org, C, s, ?_, inv, hs, fun d _ h => ⟨h, rfl, rfl⟩, fun d _ h => Or.inl h, by simp [hs]⟩
    unfold copyLoop; rw [hs]
  | succ fuel ih =>
    intro s org C inv hf
    obtain ⟨h, copied, stack⟩ := s
    cases stack with
    | nil =>
      refine ⟨org, C, _, ?_, inv, rfl, fun d _ h => ⟨h, rfl, rfl⟩, fun d _ h => Or.inl h, by simp⟩
      unfold copyLoop; rfl
    | cons e rest =>
      obtain ⟨node, parent⟩ := e
      have hR : R node := (inv.stack _ (List.mem_cons_self ..)).1
      simp only [List.length_cons] at hf
      by_cases hd : Done h0 copied node
      · obtain ⟨C1, s1, h1, inv1, hs1, hc1⟩ := copyStep_done hg self inv hd
        obtain ⟨org', C', s', i1, i2, i3, i4, i5, i6⟩ := ih s1 org C1 inv1 (by rw [hs1, hc1]; omega)
        refine ⟨org', C', s', ?_, i2, i3, ?_, ?_, ?_⟩
        · unfold copyLoop; simp only [h1]; exact i1
        · rw [hc1] at i4; exact i4
        · intro d hdR hdd
          rcases i5 d hdR hdd with h | ⟨h, h'⟩
          · left; rw [hc1] at h; exact h
          · right
            refine ⟨h, ?_⟩
            rw [hs1] at h'
            exact h'.mono fun a ha => .root (by simp; right; simpa using ha)
        · intro e he
          rcases List.mem_cons.1 he with rfl | he
          · exact (i4 node hR (hc1 ▸ hd)).1
          · exact i6 e (hs1 ▸ he)
      · obtain ⟨C1, s1, h1, inv1, hs1, hc1⟩ := copyStep_new hg self hself inv hd
        have ht := todo_set (x := h.next) (hg.lt _ hR) hd
        obtain ⟨org', C', s', i1, i2, i3, i4, i5, i6⟩ := ih s1 _ C1 inv1 (by rw [hs1, hc1]; simp; omega)
        rw [hc1, hs1] at *
        have hnd : Done h0 (copied.set (h0.get node).id h.next) node := done_set.2 (Or.inl rfl)
        refine ⟨org', C', s', ?_, i2, i3, ?_, ?_, ?_⟩
        · unfold copyLoop; simp only [h1]; exact i1
        · intro d hdR hdd
          have hdn : d ≠ node := fun hh => hd (hh ▸ hdd)
          obtain ⟨a, b, c⟩ := i4 d hdR (done_set.2 (Or.inr hdd))
          rw [if_neg hdn] at c
          refine ⟨a, ?_, c⟩
          rw [b, img_set_ne (fun hh => hdn (hg.inj _ _ hdR hR hh))]
        · intro d hdR hdd
          have hnode : Reach h0 (List.map Prod.fst ((node, parent) :: rest)) node := .root (by simp)
          rcases i5 d hdR hdd with h | ⟨h, h'⟩
          · rcases done_set.1 h with h2 | h2
            · have hdn := hg.inj _ _ hdR hR h2
              subst hdn
              right
              refine ⟨?_, hnode⟩
              have := (i4 d hdR hnd).2.2
              rwa [if_pos rfl] at this
            · exact Or.inl h2
          · right
            refine ⟨h, ?_⟩
            refine h'.mono fun a ha => ?_
            simp only [List.map_append, List.map_reverse, List.map_map, List.mem_append, List.mem_reverse, List.mem_map] at ha
            rcases ha with ⟨c, hc, rfl⟩ | ⟨e, he, rfl⟩
            · exact hnode.child hc
            · exact .root (by simp; right; exact ⟨_, he⟩)
        · intro e he
          rcases List.mem_cons.1 he with rfl | he
          · exact (i4 node hR hnd).1
          · exact i6 e (List.mem_append_right _ he)

theorem edgeCount_mono {h0 h : Heap V} (he : Heap.Ext h0 h) : edgeCount h0 ≤ edgeCount h := by
  unfold edgeCount
  obtain ⟨k, hk⟩ := Nat.exists_eq_add_of_le he.next
  rw [hk, List.range_add, List.map_append, List.sum_append]
  refine le_trans (sum_range_le h0.next (g := fun a => (h.get a).children.length) fun i hi => ?_) (Nat.le_add_right _ _)
  rw [he.get i hi]

theorem todo_le (h0 : Heap V) (copied : Dict Uid Addr) : todo h0 copied ≤ edgeCount h0 := by
  unfold todo edgeCount
  refine sum_range_le _ fun i _ => ?_
  split <;> omega

/-- One call of `_deepcopy`. -/
theorem deepcopyNode_spec {h0 : Heap V} {R : Addr → Prop} (hg : Good h0 R) {org C} {h : Heap V} {copied : Dict Uid Addr}
    (inv : CopyInv h0 R org C ⟨h, copied, []⟩) (r : Addr) (hr : R r) :
    ∃ org' C' h' copied', deepcopyNode h r copied = .ok (h', copied', img h0 copied' r) ∧ CopyInv h0 R org' C' ⟨h', copied', []⟩ ∧
      (∀ d, R d → Done h0 copied d → Done h0 copied' d ∧ img h0 copied' d = img h0 copied d ∧ org' d = org d) ∧
      (∀ d, R d → Done h0 copied' d → Done h0 copied d ∨ (org' d = r ∧ Reach h0 [r] d)) ∧ Done h0 copied' r := by
  have inv1 : CopyInv h0 R org C ⟨h, copied, [(r, none)]⟩ := by
    refine { ext := inv.ext, uid := inv.uid, range := inv.range, inj := inv.inj, onto := inv.onto, attrs := inv.attrs,
             past := inv.past, children := ?_, parents := inv.parents, stack := ?_ }
    · intro d hdR hdd
      have := inv.children d hdR hdd
      simpa [pend] using this
    · intro e he
      simp at he; subst he
      exact ⟨hr, by simp⟩
  obtain ⟨org', C', s', i1, i2, i3, i4, i5, i6⟩ := copyLoop_spec hg r (hg.lt r hr) (edgeCount h + 1) _ org C inv1 (by
    have h1 := todo_le h0 copied
    have h2 := edgeCount_mono inv.ext
    simp only [List.length_singleton] at *
    omega)
  have hdr : Done h0 s'.copied r := i6 (r, none) (by simp)
  obtain ⟨h', copied', stack'⟩ := s'
  simp only at i3 hdr
  subst i3
  refine ⟨org', C', h', copied', ?_, i2, i4, ?_, hdr⟩
  · unfold deepcopyNode
    rw [i1]
    simp only
    rw [i2.ext.get r (hg.lt r hr), done_get hdr]
  · intro d hdR hdd
    exact i5 d hdR hdd

/-- Nodes reachable from a copied node have been copied. -/
theorem done_closed {h0 : Heap V} {R : Addr → Prop} {org C} {h : Heap V} {copied : Dict Uid Addr}
    (inv : CopyInv h0 R org C ⟨h, copied, []⟩) (hg : Good h0 R) {a d : Addr} (ha : R a) (hd : Done h0 copied a)
    (hr : Reach h0 [a] d) : R d ∧ Done h0 copied d := by
  induction hr with
  | root h => simp at h; subst h; exact ⟨ha, hd⟩
  | child hr hc ih =>
    refine ⟨hg.closed _ _ ih.1 hc, ?_⟩
    obtain ⟨_, h2, h3⟩ := inv.children _ ih.1 ih.2
    apply h3
    simp only [pend, List.filter_nil, List.map_nil, List.append_nil] at h2
    rw [h2]; simpa using hc

/-- The first element of `rs` from which `d` can be reached. -/
def IsFirst (h0 : Heap V) (rs : List Addr) (d r : Addr) : Prop :=
  ∃ l1 l2, rs = l1 ++ r :: l2 ∧ Reach h0 [r] d ∧ ∀ x ∈ l1, ¬ Reach h0 [x] d

theorem deepcopyNodes_spec {h0 : Heap V} {R : Addr → Prop} (hg : Good h0 R) : ∀ (rs : List Addr) {org C} {h : Heap V}
    {copied : Dict Uid Addr} (_ : CopyInv h0 R org C ⟨h, copied, []⟩) (_ : ∀ r ∈ rs, R r),
    ∃ org' C' h' copied', deepcopyNodes h copied rs = .ok (h', copied', rs.map (img h0 copied')) ∧
      CopyInv h0 R org' C' ⟨h', copied', []⟩ ∧
      (∀ d, R d → Done h0 copied d → Done h0 copied' d ∧ img h0 copied' d = img h0 copied d ∧ org' d = org d) ∧
      (∀ d, R d → Done h0 copied' d → Done h0 copied d ∨ IsFirst h0 rs d (org' d)) ∧
      (∀ r ∈ rs, Done h0 copied' r) := by
  intro rs
  induction rs with
  | nil =>
    intro org C h copied inv _
    exact ⟨org, C, h, copied, rfl, inv, fun d _ h => ⟨h, rfl, rfl⟩, fun d _ h => Or.inl h, by simp⟩
  | cons r rs ih =>
    intro org C h copied inv hR
    have hr := hR r (by simp)
    obtain ⟨org1, C1, h1, c1, e1, inv1, m1, n1, d1⟩ := deepcopyNode_spec hg inv r hr
    obtain ⟨org2, C2, h2, c2, e2, inv2, m2, n2, d2⟩ := ih inv1 (fun x hx => hR x (by simp [hx]))
    refine ⟨org2, C2, h2, c2, ?_, inv2, ?_, ?_, ?_⟩
    · unfold deepcopyNodes
      rw [e1]
      simp only [e2, List.map_cons]
      rw [(m2 r hr d1).2.1]
    · intro d hdR hdd
      obtain ⟨a1, a2, a3⟩ := m1 d hdR hdd
      obtain ⟨b1, b2, b3⟩ := m2 d hdR a1
      exact ⟨b1, b2.trans a2, b3.trans a3⟩
    · intro d hdR hdd
      by_cases h1d : Done h0 c1 d
      · rcases n1 d hdR h1d with h | ⟨h, h'⟩
        · exact Or.inl h
        · right
          refine ⟨[], rs, ?_, ?_, by simp⟩
          · rw [(m2 d hdR h1d).2.2, h]; rfl
          · rw [(m2 d hdR h1d).2.2, h]; exact h'
      · rcases n2 d hdR hdd with h | ⟨l1, l2, hl, hr2, hno⟩
        · exact absurd h h1d
        · right
          refine ⟨r :: l1, l2, by rw [hl]; rfl, hr2, ?_⟩
          intro x hx
          rcases List.mem_cons.1 hx with rfl | hx
          · intro hh
            exact h1d (done_closed inv1 hg hr d1 hh).2
          · exact hno x hx
    · intro x hx
      rcases List.mem_cons.1 hx with rfl | hx
      · exact (m2 x hr d1).1
      · exact d2 x hx


/-- The state before the first call. -/
theorem copyInv_init (h0 : Heap V) (R : Addr → Prop) : CopyInv h0 R id (fun _ => []) ⟨h0, [], []⟩ := by
  have hn : ∀ d, ¬ Done h0 [] d := fun d h => by simp [Done, Dict.get?] at h
  exact { ext := Heap.Ext.refl _, uid := rfl, range := fun d _ h => absurd h (hn d), inj := fun d _ _ _ h => absurd h (hn d),
          onto := fun b h1 h2 => by simp only at h1 h2; omega, attrs := fun d _ h => absurd h (hn d),
          past := fun d _ h => absurd h (hn d), children := fun d _ h => absurd h (hn d),
          parents := fun d _ h => absurd h (hn d), stack := by simp }

theorem setLevels_get (l : List Addr) (k : Int) (h : Heap V) (a : Addr) :
    (setLevels h l k).get a = if a ∈ l then { h.get a with level := some k } else h.get a := by
  unfold setLevels
  induction l generalizing h with
  | nil => simp
  | cons b l ih =>
    rw [List.foldl_cons, ih]
    by_cases h1 : a ∈ l
    · by_cases h2 : a = b
      · subst h2; simp [h1]
      · simp [h1, h2]
    · by_cases h2 : a = b
      · subst h2; simp [h1]
      · simp [h1, h2]

@[simp] theorem setLevels_next (l : List Addr) (k : Int) (h : Heap V) : (setLevels h l k).next = h.next := by
  unfold setLevels
  induction l generalizing h with
  | nil => rfl
  | cons b l ih => rw [List.foldl_cons, ih]; rfl

@[simp] theorem setLevels_nextUid (l : List Addr) (k : Int) (h : Heap V) : (setLevels h l k).nextUid = h.nextUid := by
  unfold setLevels
  induction l generalizing h with
  | nil => rfl
  | cons b l ih => rw [List.foldl_cons, ih]; rfl

/-- `h'` is `h` plus a copy, under the renaming `φ`, of the nodes in `R`; `rs` are the starting points, in order. -/
structure CopyOf (h : Heap V) (R : Addr → Prop) (rs : List Addr) (φ : Addr → Addr) (h' : Heap V) : Prop where
  ext : Heap.Ext h h'
  uid : h'.nextUid = h.nextUid
  range : ∀ d, R d → h.next ≤ φ d ∧ φ d < h'.next
  inj : ∀ d e, R d → R e → φ d = φ e → d = e
  onto : ∀ b, h.next ≤ b → b < h'.next → ∃ d, R d ∧ φ d = b
  value : ∀ d, R d → (h'.get (φ d)).value = (h.get d).value
  id : ∀ d, R d → (h'.get (φ d)).id = (h.get d).id
  expands : ∀ d, R d → (h'.get (φ d)).expands = (h.get d).expands
  levelsToAdd : ∀ d, R d → (h'.get (φ d)).levelsToAdd = 0
  level : ∀ d, R d → (h'.get (φ d)).level = if d ∈ rs then some 0 else (h.get d).level
  past : ∀ d, R d → ∃ r, IsFirst h rs d r ∧
    (h'.get (φ d)).past = (FastList.new [(h.get d).value]).extend (h.get r).past.items
  children : ∀ d, R d → (h'.get (φ d)).children = ((h.get d).children.map φ).reverse
  parents : ∀ d, R d → (∀ e, R e → (h'.get (φ d)).parents.count (φ e) = (h.get e).children.count d) ∧
    ∀ x ∈ (h'.get (φ d)).parents, ∃ e, R e ∧ φ e = x

theorem lookupAll_eq {h0 h' : Heap V} {copied : Dict Uid Addr} (l : List Addr) (hd : ∀ d ∈ l, Done h0 copied d)
    (hid : ∀ d ∈ l, (h'.get d).id = (h0.get d).id) : lookupAll h' copied l = .ok (l.map (img h0 copied)) := by
  induction l with
  | nil => rfl
  | cons a l ih =>
    unfold lookupAll
    rw [hid a (by simp), done_get (hd a (by simp)), ih (fun d h => hd d (by simp [h])) (fun d h => hid d (by simp [h]))]
    rfl

theorem lookupLevels_eq {h0 h' : Heap V} {copied : Dict Uid Addr} (ls : List (List Addr)) (hd : ∀ l ∈ ls, ∀ d ∈ l, Done h0 copied d)
    (hid : ∀ l ∈ ls, ∀ d ∈ l, (h'.get d).id = (h0.get d).id) : lookupLevels h' copied ls = .ok (ls.map (List.map (img h0 copied))) := by
  induction ls with
  | nil => rfl
  | cons a l ih =>
    unfold lookupLevels
    rw [lookupAll_eq a (hd a (by simp)) (hid a (by simp)), ih (fun d h => hd d (by simp [h])) (fun d h => hid d (by simp [h]))]
    rfl

/-- The tree returned by `Tree.deepcopy`. -/
def copyTree (t : TreeObj V) (φ : Addr → Addr) : TreeObj V :=
  { roots := t.roots.map φ
    sources := t.sources.map φ
    levels := t.levels.map (List.map φ)
    past := (FastList.empty : FastList (List V)).extend t.past.items
    currentLevel := t.currentLevel
    sourceValues := t.sourceValues
    nSources := t.roots.length
    size := t.size }

/-- `Tree.deepcopy` never raises and makes a copy. -/
theorem deepcopy_spec (h : Heap V) (t : TreeObj V) (hg : Good h (Reach h t.roots))
    (hs : ∀ a ∈ t.sources, Reach h t.roots a) (hl : ∀ l ∈ t.levels, ∀ a ∈ l, Reach h t.roots a) :
    ∃ h' φ, t.deepcopy h = .ok (h', copyTree t φ) ∧ CopyOf h (Reach h t.roots) t.roots φ h' := by
  obtain ⟨org, C, h1, copied, e1, inv, _, first, droots⟩ :=
    deepcopyNodes_spec hg t.roots (copyInv_init h _) (fun r hr => Reach.root hr)
  have hdone : ∀ d, Reach h t.roots d → Done h copied d := by
    intro d hd
    induction hd with
    | root hr => exact droots _ hr
    | child hr hc ih =>
      exact (done_closed inv hg hr ih (.child (.root (by simp)) hc)).2
  have hroot : ∀ d, Reach h t.roots d → (img h copied d ∈ t.roots.map (img h copied) ↔ d ∈ t.roots) := by
    intro d hd
    constructor
    · intro hm
      obtain ⟨r, hr, hrd⟩ := List.mem_map.1 hm
      rwa [← inv.inj r d (.root hr) hd (droots r hr) (hdone d hd) hrd]
    · exact List.mem_map_of_mem
  have hold : ∀ a, a < h.next → a ∉ t.roots.map (img h copied) := by
    intro a ha hm
    obtain ⟨r, hr, hrd⟩ := List.mem_map.1 hm
    have := (inv.range r (.root hr) (droots r hr)).1
    simp only at this
    omega
  have hid : ∀ d, Reach h t.roots d → ((setLevels h1 (t.roots.map (img h copied)) 0).get d).id = (h.get d).id := by
    intro d hd
    rw [setLevels_get, if_neg (hold d (hg.lt d hd)), inv.ext.get d (hg.lt d hd)]
  refine ⟨setLevels h1 (t.roots.map (img h copied)) 0, img h copied, ?_, ?_⟩
  · unfold TreeObj.deepcopy
    rw [e1]
    simp only [bind, Except.bind, newTree]
    rw [lookupAll_eq t.sources (fun d hd => hdone d (hs d hd)) (fun d hd => hid d (hs d hd))]
    simp only
    rw [lookupLevels_eq t.levels (fun l hl' d hd => hdone d (hl l hl' d hd)) (fun l hl' d hd => hid d (hl l hl' d hd))]
    simp [copyTree, pure, Except.pure]
  · have hget : ∀ d, Reach h t.roots d → (setLevels h1 (t.roots.map (img h copied)) 0).get (img h copied d) =
        if d ∈ t.roots then { h1.get (img h copied d) with level := some 0 } else h1.get (img h copied d) := by
      intro d hd
      rw [setLevels_get]
      simp only [hroot d hd]
    have hend : ∀ d, Reach h t.roots d → C d = (h.get d).children.reverse := by
      intro d hd
      have := (inv.children d hd (hdone d hd)).2.1
      simpa [pend] using this
    constructor
    · refine ⟨?_, ?_, ?_⟩
      · intro a ha
        rw [setLevels_get, if_neg (hold a ha)]
        exact inv.ext.get a ha
      · simpa using inv.ext.next
      · simpa using inv.ext.nextUid
    · simpa using inv.uid
    · intro d hd
      simpa using inv.range d hd (hdone d hd)
    · intro d e hd he
      exact inv.inj d e hd he (hdone d hd) (hdone e he)
    · intro b hb1 hb2
      obtain ⟨d, a, _, b⟩ := inv.onto b hb1 (by simpa using hb2)
      exact ⟨d, a, b⟩
    · intro d hd
      rw [hget d hd]; have := (inv.attrs d hd (hdone d hd)).1; split <;> exact this
    · intro d hd
      rw [hget d hd]; have := (inv.attrs d hd (hdone d hd)).2.1; split <;> exact this
    · intro d hd
      rw [hget d hd]; have := (inv.attrs d hd (hdone d hd)).2.2.2.1; split <;> exact this
    · intro d hd
      rw [hget d hd]; have := (inv.attrs d hd (hdone d hd)).2.2.2.2; split <;> exact this
    · intro d hd
      rw [hget d hd]; have := (inv.attrs d hd (hdone d hd)).2.2.1
      split
      · rfl
      · exact this
    · intro d hd
      refine ⟨org d, ?_, ?_⟩
      · rcases first d hd (hdone d hd) with h | h
        · simp [Done, Dict.get?] at h
        · exact h
      · rw [hget d hd]; have := inv.past d hd (hdone d hd); split <;> exact this
    · intro d hd
      have := (inv.children d hd (hdone d hd)).1
      rw [hend d hd, List.map_reverse] at this
      rw [hget d hd]; split <;> exact this
    · intro d hd
      obtain ⟨a, b⟩ := inv.parents d hd (hdone d hd)
      have hp : ((setLevels h1 (t.roots.map (img h copied)) 0).get (img h copied d)).parents = (h1.get (img h copied d)).parents := by
        rw [hget d hd]; split <;> rfl
      rw [hp]
      refine ⟨fun e he => ?_, fun x hx => ?_⟩
      · have := a e he (hdone e he)
        simp only at this
        rw [this, hend e he, List.count_reverse]
      · obtain ⟨e, he, _, h⟩ := b x hx
        exact ⟨e, he, h⟩

end
end Satis.Graph
