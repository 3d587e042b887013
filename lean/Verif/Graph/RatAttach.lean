import Verif.Graph.Attach
import Verif.Graph.Expand
/-!
# Attaching the targets does not depend on whether values are integers or rationals
-/

namespace Satis.Graph
open Satis

theorem Heap.modify_toRat {h : Heap Int} {a : Addr} {f : NodeObj Int → NodeObj Int} {f' : NodeObj ℚ → NodeObj ℚ}
    (hf : ∀ o, (f o).toRat = f' o.toRat) : (h.modify a f).toRat = h.toRat.modify a f' := by
  unfold Heap.modify Heap.set Heap.toRat
  simp only [Heap.mk.injEq, and_true]
  funext b
  split
  · exact hf _
  · rfl

theorem adopt_toRat (p : Addr) (h : Heap Int) (c : Addr) : (adopt p h c).toRat = adopt p h.toRat c := by
  unfold adopt
  rw [Heap.modify_toRat (f' := fun o => { o with parents := [p] }) (fun _ => rfl),
    Heap.modify_toRat (f' := fun o => { o with children := o.children ++ [c] }) (fun _ => rfl)]

theorem adoptAll_toRat (p : Addr) (cs : List Addr) : ∀ h : Heap Int, (cs.foldl (adopt p) h).toRat = cs.foldl (adopt p) h.toRat := by
  induction cs with
  | nil => intro h; rfl
  | cons c cs ih => intro h; rw [List.foldl_cons, List.foldl_cons, ih, adopt_toRat]

theorem tagDivide_toRat (h : Heap Int) (a : Addr) (d : Nat) : (tagExpand h a (.divide d)).toRat = tagExpand h.toRat a (.divide d) := by
  unfold tagExpand
  refine Heap.modify_toRat fun o => ?_
  unfold NodeObj.toRat
  simp

theorem setLevels_toRat (l : List Addr) (lvl : Int) : ∀ h : Heap Int, (setLevels h l lvl).toRat = setLevels h.toRat l lvl := by
  unfold setLevels
  induction l with
  | nil => intro h; rfl
  | cons c cs ih =>
    intro h
    rw [List.foldl_cons, List.foldl_cons, ih, Heap.modify_toRat (f' := fun o => { o with level := some lvl }) (fun _ => rfl)]

theorem bisectLoop_cast {α : Type} (key : α → Int) (l : List α) (x : Int) : ∀ fuel lo hi,
    bisectLoop (fun a => (key a : ℚ)) l (x : ℚ) fuel lo hi = bisectLoop key l x fuel lo hi := by
  intro fuel
  induction fuel with
  | zero => intro lo hi; rfl
  | succ n ih =>
    intro lo hi
    unfold bisectLoop
    simp only [ih, Int.cast_lt]

theorem insort_cast {α : Type} (key : α → Int) (l : List α) (x : α) : insort (fun a => (key a : ℚ)) l x = insort key l x := by
  unfold insort bisectRight
  rw [bisectLoop_cast]

theorem insortAll_cast {α : Type} (key : α → Int) (xs : List α) : ∀ l : List α, insortAll (fun a => (key a : ℚ)) l xs = insortAll key l xs := by
  unfold insortAll
  induction xs with
  | nil => intro l; rfl
  | cons x xs ih => intro l; rw [List.foldl_cons, List.foldl_cons, insort_cast, ih]

/-- A heap and a tree, read as rationals. -/
def both (x : Heap Int × TreeObj Int) : Heap ℚ × TreeObj ℚ := (x.1.toRat, x.2.toRat)

theorem castList_inj : Function.Injective fun l : List Int => l.map fun (z : ℤ) => (z : ℚ) :=
  List.map_injective_iff.2 Int.cast_injective

theorem add_toRat (h : Heap Int) (t : TreeObj Int) (nodes : List Addr) (cost : Int) :
    t.toRat.add h.toRat nodes cost = (t.add h nodes cost).map both := by
  cases nodes with
  | nil => rfl
  | cons n0 ns =>
    unfold TreeObj.add
    have hl : t.toRat.levels.getLast? = t.levels.getLast? := rfl
    simp only [hl]
    cases t.levels.getLast? with
    | none => rfl
    | some last =>
      have hm : ∀ s, h.toRat.mem s (h.toRat.get n0).parents = h.mem s (h.get n0).parents := fun s => rfl
      have hk : (fun a => (h.toRat.get a).value) = fun a => (((h.get a).value : Int) : ℚ) := rfl
      simp only [hm, hk, insortAll_cast]
      show Except.ok _ = Except.ok _
      congr 1
      unfold both
      have e1 := setLevels_toRat (insortAll (fun a => (h.get a).value) (last.filter fun s => !h.mem s (h.get n0).parents) (n0 :: ns)) (t.currentLevel + 1) h
      refine Prod.ext ?_ ?_
      · exact e1.symm
      · have hc : t.toRat.currentLevel = t.currentLevel := rfl
        rw [hc, ← e1]
        unfold TreeObj.toRat
        simp only [TreeObj.mk.injEq, true_and, and_true]
        refine ⟨?_, ?_⟩
        · unfold FastList.append FastList.contains
          have hcs : (t.sourceValues.map fun (z : ℤ) => (z : ℚ)) ∈ (t.past.set.map fun l => l.map fun (z : ℤ) => (z : ℚ)) ↔
              t.sourceValues ∈ t.past.set := List.mem_map_of_injective castList_inj
          by_cases hx : t.sourceValues ∈ t.past.set
          · simp [hx, hcs.2 hx]
          · have hx' : ¬ _ := fun q => hx (hcs.1 q)
            rw [if_neg (by simpa only [decide_eq_true_eq] using hx')]
            simp only [hx, decide_false, Bool.false_eq_true, if_false, List.map_append, List.map_cons, List.map_nil]
        · unfold valuesOf
          rw [List.map_map]
          rfl

theorem attachOne_toRat (h : Heap Int) (ls : List (List Addr)) (sl : Addr × Addr) :
    attachOne (h.toRat, ls) sl = ((attachOne (h, ls) sl).1.toRat, (attachOne (h, ls) sl).2) := by
  unfold attachOne
  have e := adoptAll_toRat sl.1 (h.get sl.2).children h
  have e0 : (h.toRat.get sl.2).children = (h.get sl.2).children := rfl
  simp only [e0, ← e]
  have e1 : ∀ h' : Heap Int, (h'.toRat.get sl.1).children = (h'.get sl.1).children := fun _ => rfl
  simp only [e1]
  split
  · rfl
  · split
    · rw [← tagDivide_toRat]
    · rfl

theorem attachAll_toRat (ps : List (Addr × Addr)) : ∀ (h : Heap Int) (ls : List (List Addr)),
    ps.foldl attachOne (h.toRat, ls) = ((ps.foldl attachOne (h, ls)).1.toRat, (ps.foldl attachOne (h, ls)).2) := by
  induction ps with
  | nil => intro h ls; rfl
  | cons p ps ih =>
    intro h ls
    rw [List.foldl_cons, List.foldl_cons, attachOne_toRat, ih]

theorem attachLoop_toRat : ∀ (fuel : Nat) (h : Heap Int) (t : TreeObj Int) (ls : List (List Addr)),
    attachLoop fuel h.toRat t.toRat ls = (attachLoop fuel h t ls).map both := by
  intro fuel
  induction fuel with
  | zero =>
    intro h t ls
    cases ls <;> rfl
  | succ n ih =>
    intro h t ls
    cases ls with
    | nil => rfl
    | cons l ls =>
      simp only [attachLoop, add_toRat]
      cases t.add h l 0 with
      | error e => rfl
      | ok x =>
        obtain ⟨h', t'⟩ := x
        exact ih h' t' _

/-- `attach_leaves` on the same tree and heap with rational values. -/
theorem attachLeaves_toRat (fuel : Nat) (h : Heap Int) (t : TreeObj Int) (leaves : List Addr) :
    t.toRat.attachLeaves fuel h.toRat leaves = (t.attachLeaves fuel h leaves).map both := by
  unfold TreeObj.attachLeaves
  have e1 : t.toRat.nSources = t.nSources := rfl
  have e2 : t.toRat.sources = t.sources := rfl
  simp only [e1, e2, attachAll_toRat, attachLoop_toRat]
  split
  · rfl
  · split <;> rfl

end Satis.Graph
