import Verif.Graph.Calm
import Verif.Graph.DataTextLemmas
/-!
# The arguments of the pending expansions stay whole
-/

namespace Satis.Graph
open Satis

/-- The values of the pending expansions of all nodes are whole numbers. -/
def AllWhole (h : Heap ℚ) : Prop := ∀ a, ∀ e ∈ (h.get a).expands, Whole e

theorem toRat_whole (h : Heap Int) : AllWhole h.toRat := by
  intro a e he
  obtain ⟨e', -, rfl⟩ := List.mem_map.1 he
  cases e' <;> simp [Whole]

variable {h : Heap ℚ}

theorem AllWhole.keep (W : AllWhole h) (a : Addr) (f : NodeObj ℚ → NodeObj ℚ) (hf : ∀ o, (f o).expands = o.expands) : AllWhole (h.modify a f) := by
  intro b e he
  rw [Heap.get_modify] at he
  split at he
  · next w =>
    subst w
    rw [hf] at he
    exact W b e he
  · exact W b e he

theorem AllWhole.tag (W : AllWhole h) (a : Addr) {e : Expand ℚ} (he : Whole e) : AllWhole (tagExpand h a e) := by
  intro b e' he'
  unfold tagExpand at he'
  rw [Heap.get_modify] at he'
  split at he'
  · next w =>
    subst w
    rcases List.mem_append.1 he' with w | w
    · exact W b e' w
    · rw [List.mem_singleton.1 w]
      exact he
  · exact W b e' he'

theorem AllWhole.newNode (W : AllWhole h) (v : ℚ) (p : List ℚ) (i : Option Uid) (l : Option Int) :
    Yields (fun x => AllWhole x.1) (newNode h v p i l) := by
  unfold Graph.newNode
  split
  · intro x hx
    cases hx
  · refine Yields.pure ?_
    intro b e he
    cases i <;> simp only [Heap.alloc] at he <;> split at he <;> first | exact W b e he | simp at he

theorem AllWhole.fold {β : Type} (f : Heap ℚ → β → Heap ℚ) (hf : ∀ h x, AllWhole h → AllWhole (f h x)) :
    ∀ (l : List β) (h : Heap ℚ), AllWhole h → AllWhole (l.foldl f h)
  | [], _, W => W
  | x :: l, h, W => AllWhole.fold f hf l _ (hf h x W)

theorem Yields.fold {α β : Type} {P : α → Prop} (f : α → β → Py α) (hf : ∀ s x, P s → Yields P (f s x)) :
    ∀ (l : List β) (s : α), P s → Yields P (l.foldlM f s)
  | [], _, W => Yields.pure W
  | x :: l, s, W => by
    rw [List.foldlM_cons]
    exact (hf s x W).bind fun s' W' => Yields.fold f hf l s' W'

theorem Yields.either {α β : Type} {P : α → Prop} {P' : β → Prop} {c : Prop} [Decidable c] {r r' : Py α} {f : α → Py β} (h1 : Yields P r) (h2 : Yields P r')
    (hf : ∀ x, P x → Yields P' (f x)) : Yields P' (if c then r >>= f else r' >>= f) := by
  split
  · exact h1.bind hf
  · exact h2.bind hf

theorem Yields.unless {β : Type} {P' : β → Prop} {c : Prop} [Decidable c] {er : PyErr} {f : Unit → Py β}
    (hf : Yields P' (f ())) : Yields P' (if c then (.error er : Py Unit) >>= f else f ()) := by
  split
  · intro x hx
    cases hx
  · exact hf

theorem AllWhole.link (W : AllWhole h) (p c : Addr) : AllWhole (link h p c) := by
  refine AllWhole.keep (AllWhole.keep W _ _ ?_) _ _ ?_ <;> exact fun _ => rfl

theorem AllWhole.adopt (W : AllWhole h) (p c : Addr) : AllWhole (adopt p h c) := by
  refine AllWhole.keep (AllWhole.keep W _ _ ?_) _ _ ?_ <;> exact fun _ => rfl

theorem AllWhole.tagMerge (W : AllWhole h) (a : Addr) (t : Nat) : AllWhole (tagMerge h a t) := by
  unfold Graph.tagMerge
  split
  · exact W.tag a trivial
  · exact W

theorem AllWhole.joinLoop (W : AllWhole h) (a b : Addr) : AllWhole (joinLoop h a b) :=
  AllWhole.fold _ (fun _ _ W => W.link _ _) _ _ W

theorem AllWhole.newLayer (k off : Nat) (value : ℚ) (lvl depth : Int) (cur : List Addr) (W : AllWhole h) :
    ∀ j, Yields (fun x => AllWhole x.1) (newLayer k off value lvl depth cur h j) := by
  intro j
  induction j with
  | zero => exact Yields.pure W
  | succ j ih =>
    rw [Graph.newLayer]
    refine ih.bind ?_
    rintro ⟨h₂, as⟩ W2
    have W2 : AllWhole h₂ := W2
    refine (AllWhole.newNode W2 value [] none (some lvl)).bind ?_
    rintro ⟨h₃, a⟩ W3
    have W3 : AllWhole h₃ := W3
    refine Yields.any fun p => ?_
    refine Yields.pure ?_
    dsimp only
    refine AllWhole.keep (AllWhole.keep (AllWhole.keep W3 _ _ ?_) _ _ ?_) _ _ ?_ <;> exact fun _ => rfl

theorem AllWhole.hangChildren (k off : Nat) (cur : List Addr) : ∀ (cs : List Addr) (h : Heap ℚ) (j : Nat), AllWhole h →
    Yields AllWhole (hangChildren k off cur h j cs) := by
  intro cs
  induction cs with
  | nil => exact fun h j W => Yields.pure W
  | cons c cs ih =>
    intro h j W
    rw [Graph.hangChildren]
    exact Yields.any fun p => ih _ _ (W.adopt p c)

theorem AllWhole.reroute (k off : Nat) (target : Addr) (cur : List Addr) (W : AllWhole h) : ∀ j, Yields AllWhole (reroute k off target cur h j) := by
  intro j
  induction j with
  | zero => exact Yields.pure W
  | succ j ih =>
    rw [Graph.reroute]
    exact ih.bind fun h₂ W2 => Yields.any fun p => Yields.pure (AllWhole.link W2 _ _)

theorem AllWhole.divideLayer (k width : Nat) (plan : Nat × Nat) (value : ℚ) (depth : Int) (target : Addr) (last : Bool) (original : List Addr)
    (s : Heap ℚ × Int × List Addr) (W : AllWhole s.1) : Yields (fun x => AllWhole x.1) (divideLayer k width plan value depth target last original s) := by
  unfold Graph.divideLayer
  refine Yields.either (P := fun x : Heap ℚ × List Addr => AllWhole x.1)
    ((AllWhole.hangChildren k plan.1 s.2.2 original s.1 0 W).map fun _ w => w) (AllWhole.newLayer _ _ _ _ _ _ W _) ?_
  rintro ⟨h₂, new⟩ W2
  have W2 : AllWhole h₂ := W2
  exact (AllWhole.reroute k 0 target s.2.2 W2 plan.1).bind fun h₃ W3 => Yields.pure W3

theorem AllWhole.expandDivide (cfg : Config) (W : AllWhole h) (node : Addr) (divisor : Nat) :
    Yields (fun x => AllWhole x.1) (expandDivide cfg h node divisor) := by
  unfold Graph.expandDivide
  refine Yields.any ?_
  rintro ⟨n, m, l, x⟩
  refine Yields.either (P := fun x : Heap ℚ × Addr => AllWhole x.1) (W.newNode _ _ _ _) (Yields.pure W) ?_
  rintro ⟨h₂, loop⟩ W2
  have W2 : AllWhole h₂ := W2
  refine Yields.any fun plan => Yields.any fun lvl => ?_
  refine (Yields.fold (P := fun s : Heap ℚ × Int × List Addr => AllWhole s.1) _ (fun s x w => AllWhole.divideLayer _ _ _ _ _ _ _ _ s w) _ _
    (by dsimp only; refine AllWhole.keep W2 _ _ ?_; exact fun _ => rfl)).bind fun s3 W3 => ?_
  refine (Yields.fold (P := fun s : Heap ℚ × Int × List Addr => AllWhole s.1) _ (fun s x w => AllWhole.divideLayer _ _ _ _ _ _ _ _ s w) _ _
    W3).bind fun s4 W4 => ?_
  refine Yields.pure (AllWhole.tagMerge ?_ _ _)
  split
  · exact AllWhole.joinLoop W4 _ _
  · exact W4

theorem AllWhole.extractLayer (k width : Nat) (p q r : Nat × Nat) (value : ℚ) (depth : Int) (loop extracted overflow : Addr) (last : Bool)
    (original : List Addr) (s : Heap ℚ × Int × List Addr) (W : AllWhole s.1) :
    Yields (fun x => AllWhole x.1) (extractLayer k width p q r value depth loop extracted overflow last original s) := by
  unfold Graph.extractLayer
  refine Yields.either (P := fun x : Heap ℚ × List Addr => AllWhole x.1) (Yields.pure W) (AllWhole.newLayer _ _ _ _ _ _ W _) ?_
  rintro ⟨h₂, new⟩ W2
  have W2 : AllWhole h₂ := W2
  exact (AllWhole.reroute k 0 loop s.2.2 W2 p.1).bind fun h₃ W3 => (AllWhole.reroute k _ extracted s.2.2 W3 _).bind fun h₄ W4 =>
    (AllWhole.reroute k _ overflow s.2.2 W4 _).bind fun h₅ W5 => Yields.pure W5

theorem AllWhole.expandExtract (cfg : Config) (W : AllWhole h) (node : Addr) (c : ℚ) :
    Yields (fun x => AllWhole x.1) (expandExtract cfg h node c) := by
  unfold Graph.expandExtract
  refine Yields.any fun g => Yields.unless (Yields.any ?_)
  rintro ⟨n, m, l, x⟩
  refine Yields.either (P := fun x : Heap ℚ × Addr => AllWhole x.1) (W.newNode _ _ _ _) (Yields.pure W) ?_
  rintro ⟨h₂, loop⟩ W2
  have W2 : AllWhole h₂ := W2
  refine Yields.any fun p => Yields.any fun q => Yields.any fun r => Yields.any fun lvl => Yields.any fun c0 => Yields.any fun c1 => ?_
  refine (Yields.fold (P := fun s : Heap ℚ × Int × List Addr => AllWhole s.1) _ (fun s x w => AllWhole.extractLayer _ _ _ _ _ _ _ _ _ _ _ _ s w) _ _
    (by dsimp only; refine AllWhole.keep (AllWhole.keep (AllWhole.keep W2 _ _ ?_) _ _ ?_) _ _ ?_ <;> exact fun _ => rfl)).bind fun s3 W3 => ?_
  refine (Yields.fold (P := fun s : Heap ℚ × Int × List Addr => AllWhole s.1) _ (fun s x w => AllWhole.extractLayer _ _ _ _ _ _ _ _ _ _ _ _ s w) _ _
    W3).bind fun s4 W4 => ?_
  refine Yields.pure (AllWhole.tagMerge (AllWhole.tagMerge (AllWhole.tagMerge ?_ _ _) _ _) _ _)
  split
  · exact AllWhole.joinLoop W4 _ _
  · exact W4

theorem AllWhole.merge (share : ℚ → Nat → ℚ) (W : AllWhole h) (nodes : List Addr) : Yields (fun x => AllWhole x.1) (merge share h nodes) := by
  unfold Graph.merge
  refine Yields.any fun lvl => (AllWhole.newNode W _ _ _ _).bind ?_
  rintro ⟨h₂, m⟩ W2
  have W2 : AllWhole h₂ := W2
  refine Yields.unless (Yields.pure ?_)
  refine AllWhole.fold _ (fun h' x w => ?_) _ _ ?_
  · unfold mergeLink
    dsimp only
    refine AllWhole.keep (w.link _ _) _ _ ?_
    exact fun _ => rfl
  · split
    · exact AllWhole.tag W2 m trivial
    · exact W2

theorem AllWhole.mergeRounds (node : Addr) (threshold : Nat) : ∀ (fuel : Nat) (h : Heap ℚ) (todo : List Addr), AllWhole h →
    Yields (fun x => AllWhole x.1) (mergeRounds node threshold fuel h todo) := by
  intro fuel
  induction fuel with
  | zero =>
    intro h todo W
    unfold Graph.mergeRounds
    split
    · exact Yields.pure W
    · intro x hx
      cases hx
  | succ fuel ih =>
    intro h todo W
    unfold Graph.mergeRounds
    split
    · exact Yields.pure W
    · split
      · next f' fuel' a b c rest e hle =>
        cases e
        refine (AllWhole.merge _ W _).bind ?_
        rintro ⟨h₂, m⟩ W2
        have W2 : AllWhole h₂ := W2
        refine ih _ _ (AllWhole.keep (AllWhole.fold _ (fun h' x w => ?_) [a, b, c] _ W2) _ _ ?_)
        · refine w.keep _ _ ?_
          exact fun _ => rfl
        · exact fun _ => rfl
      · next e _ => cases e
      · intro x hx
        cases hx

theorem AllWhole.expandMerge (W : AllWhole h) (node : Addr) (t : Nat) : Yields (fun x => AllWhole x.1) (expandMerge h node t) := by
  unfold Graph.expandMerge
  split
  · exact Yields.pure W
  · exact (AllWhole.mergeRounds _ _ _ _ _ W).bind fun x Wx => Yields.pure (by dsimp only; refine AllWhole.keep Wx _ _ ?_; exact fun _ => rfl)

theorem AllWhole.expandSplit (W : AllWhole h) (node : Addr) (c : ℚ) : Yields (fun x => AllWhole x.1) (expandSplit h node c) := by
  unfold Graph.expandSplit
  refine Yields.any fun lvl => (AllWhole.newNode W _ _ _ _).bind ?_
  rintro ⟨h₂, m⟩ W2
  have W2 : AllWhole h₂ := W2
  refine Yields.pure (AllWhole.fold _ (fun h' x w => ?_) _ _ (by refine AllWhole.keep (AllWhole.keep W2 _ _ ?_) _ _ ?_ <;> exact fun _ => rfl))
  split
  · refine AllWhole.keep (AllWhole.keep w _ _ ?_) _ _ ?_ <;> exact fun _ => rfl
  · refine w.keep _ _ ?_
    exact fun _ => rfl

theorem AllWhole.runExpand (cfg : Config) (W : AllWhole h) (node : Addr) (e : Expand ℚ) : Yields (fun x => AllWhole x.1) (runExpand cfg h node e) := by
  cases e with
  | extract c => exact W.expandExtract cfg node c
  | divide d => exact W.expandDivide cfg node d
  | merge t => exact W.expandMerge node t
  | split c => exact W.expandSplit node c

theorem AllWhole.runExpands (cfg : Config) : ∀ (fuel : Nat) (h : Heap ℚ) (node : Addr), AllWhole h →
    Yields (fun x => AllWhole x.1) (runExpands cfg fuel h node) := by
  intro fuel
  induction fuel with
  | zero =>
    intro h node W
    unfold Graph.runExpands
    split
    · exact Yields.pure W
    · intro x hx
      cases hx
  | succ fuel ih =>
    intro h node W
    unfold Graph.runExpands
    split
    · exact Yields.pure W
    · next e es he =>
      refine (AllWhole.runExpand cfg ?_ node e).bind ?_
      · intro b e' he'
        rw [Heap.get_modify] at he'
        split at he'
        · next w =>
          subst w
          exact W b e' (by rw [he]; exact List.mem_cons_of_mem _ he')
        · exact W b e' he'
      · rintro ⟨h₂, u⟩ W2
        exact (ih _ _ W2).bind fun x Wx => Yields.pure Wx

theorem yields_walk {S : Type} {P : S → Prop} {visit : S → Addr → Py S} {kids : S → Addr → List Addr} {seen : S → Addr → Bool}
    (hv : ∀ s a, P s → Yields P (visit s a)) : ∀ (fuel : Nat) (s : S) (stack : List (Addr × Nat)), P s → Yields P (walk visit kids seen fuel s stack) := by
  intro fuel
  induction fuel with
  | zero =>
    intro s stack w
    cases stack with
    | nil => exact Yields.pure w
    | cons f stack =>
      intro x hx
      cases hx
  | succ fuel ih =>
    intro s stack w
    cases stack with
    | nil => exact Yields.pure w
    | cons f stack =>
      obtain ⟨a, i⟩ := f
      rw [walk]
      split
      · exact ih _ _ w
      · split
        · exact ih _ _ w
        · next c _ _ =>
          cases e : visit s c with
          | error er =>
            intro x hx
            cases hx
          | ok s' => exact ih _ _ (hv s c w s' e)

theorem yields_walkAll {S : Type} {P : S → Prop} {visit : S → Addr → Py S} {kids : S → Addr → List Addr} {seen : S → Addr → Bool}
    (hv : ∀ s a, P s → Yields P (visit s a)) (fuel : Nat) (as : List Addr) (s : S) (w : P s) : Yields P (walkAll visit kids seen fuel s as) := by
  refine Yields.fold _ (fun s a w => ?_) as s w
  unfold walkFrom
  split
  · exact Yields.pure w
  · cases e : visit s a with
    | error er =>
      intro x hx
      cases hx
    | ok s' => exact yields_walk hv _ _ _ (hv s a w s' e)

theorem AllWhole.expandRoots (cfg : Config) (fuel : Nat) (W : AllWhole h) (roots : List Addr) : Yields AllWhole (expandRoots cfg fuel h roots) := by
  unfold Graph.expandRoots
  refine Yields.any fun low => ?_
  have h1 : Yields (fun x => AllWhole x.1) (expandAll cfg fuel h roots [(1, 1 - low)]) := by
    unfold expandAll
    refine (yields_walkAll (P := fun s : Marked ℚ × List (Int × Int) => AllWhole s.1.1) (fun s a w => ?_) fuel roots _ W).bind fun s w => Yields.pure w
    unfold expandVisit
    exact (AllWhole.runExpands cfg fuel _ a w).bind fun x Wx => Yields.pure Wx
  refine h1.bind ?_
  rintro ⟨h₂, us⟩ W2
  have W2 : AllWhole h₂ := W2
  refine (Yields.fold (P := AllWhole) _ (fun h' u w => ?_) us _ W2).bind fun h₃ W3 => ?_
  · unfold tagLevels
    refine (yields_walkAll (P := fun s : Marked ℚ => AllWhole s.1) (fun s a w => ?_) fuel roots _ w).bind fun s w => Yields.pure w
    unfold tagVisit
    split
    · intro x hx
      cases hx
    · refine Yields.pure ?_
      split
      · dsimp only
        refine AllWhole.keep w _ _ ?_
        exact fun _ => rfl
      · exact w
  · unfold applyLevels
    refine (yields_walkAll (P := fun s : Marked ℚ => AllWhole s.1) (fun s a w => ?_) fuel roots _ W3).bind fun s w => Yields.pure w
    unfold applyVisit
    split
    · intro x hx
      cases hx
    · refine Yields.pure ?_
      dsimp only
      refine AllWhole.keep w _ _ ?_
      exact fun _ => rfl

theorem AllWhole.setLevels (W : AllWhole h) (l : List Addr) (lvl : Int) : AllWhole (setLevels h l lvl) :=
  AllWhole.fold _ (fun _ _ w => by refine w.keep _ _ ?_; exact fun _ => rfl) l h W

/-- What is written describes nodes of one heap with whole arguments. -/
theorem AllWhole.saveNodes (fuel : Nat) (W : AllWhole h) (roots : List Addr) :
    Yields (fun x => AllWhole x.1 ∧ ∀ d ∈ x.2.2, ∀ e ∈ d.expands, Whole e) (saveNodes fuel h roots) := by
  unfold Graph.saveNodes
  split
  · intro x hx
    cases hx
  · refine Yields.any fun g => ?_
    refine Yields.bind (P := fun ds : List (NodeData ℚ) => ∀ d ∈ ds, ∀ e ∈ d.expands, Whole e) ?_ fun ds hd => Yields.pure ⟨W.setLevels _ _, hd⟩
    unfold wrap
    refine Yields.any fun s => Yields.pure fun d hd e he => ?_
    obtain ⟨a, -, rfl⟩ := List.mem_map.1 hd
    exact W.setLevels _ _ a e he

theorem AllWhole.attachLoop : ∀ (fuel : Nat) (h : Heap ℚ) (t : TreeObj ℚ) (levels : List (List Addr)), AllWhole h →
    Yields (fun x => AllWhole x.1) (attachLoop fuel h t levels) := by
  intro fuel
  induction fuel with
  | zero =>
    intro h t levels W
    cases levels with
    | nil => exact Yields.pure W
    | cons l ls =>
      intro x hx
      cases hx
  | succ fuel ih =>
    intro h t levels W
    cases levels with
    | nil => exact Yields.pure W
    | cons l ls =>
      rw [Graph.attachLoop]
      have hadd : Yields (fun x => AllWhole x.1) (t.add h l 0) := by
        unfold TreeObj.add
        split
        · intro x hx
          cases hx
        · split
          · intro x hx
            cases hx
          · exact Yields.pure (W.setLevels _ _)
      split
      · intro x hx
        cases hx
      · next h' t' e => exact ih _ _ _ (hadd _ e)

theorem AllWhole.attachLeaves (fuel : Nat) (t : TreeObj ℚ) (leaves : List Addr) (W : AllWhole h) :
    Yields (fun x => AllWhole x.1) (t.attachLeaves fuel h leaves) := by
  unfold TreeObj.attachLeaves
  split
  · intro x hx
    cases hx
  · split
    · intro x hx
      cases hx
    · refine AllWhole.attachLoop _ _ _ _ ?_
      generalize (t.sources.take t.nSources).zip leaves = l
      have : ∀ (l : List (Addr × Addr)) (s : Heap ℚ × List (List Addr)), AllWhole s.1 → AllWhole (l.foldl attachOne s).1 := by
        intro l
        induction l with
        | nil => exact fun s w => w
        | cons p l ih =>
          intro s w
          refine ih _ ?_
          unfold attachOne
          have w' : AllWhole ((s.1.get p.2).children.foldl (Graph.adopt p.1) s.1) := AllWhole.fold _ (fun _ _ w => w.adopt _ _) _ _ w
          simp only
          split
          · exact w'
          · simp only
            split
            · exact w'.tag _ trivial
            · exact w'
      exact this l (h, []) W

theorem AllWhole.concludeAll (cfg : Config) (fuel : Nat) (leaves : List Addr) : ∀ (ts : List (TreeObj ℚ)) (h : Heap ℚ), AllWhole h →
    Yields (fun x => ∀ s ∈ x.2, (∀ d ∈ s.1.2, ∀ e ∈ d.expands, Whole e) ∧ ∀ d ∈ s.2.2, ∀ e ∈ d.expands, Whole e) (concludeAll cfg fuel leaves h ts) := by
  intro ts
  induction ts with
  | nil => exact fun h W => Yields.pure (by simp)
  | cons t ts ih =>
    intro h W
    rw [Graph.concludeAll]
    refine (W.attachLeaves fuel t leaves).bind ?_
    rintro ⟨h₂, t₂⟩ W2
    have W2 : AllWhole h₂ := W2
    refine Yields.bind (P := fun x => AllWhole x.1 ∧ (∀ d ∈ x.2.1.2, ∀ e ∈ d.expands, Whole e) ∧ ∀ d ∈ x.2.2.2, ∀ e ∈ d.expands, Whole e) ?_ ?_
    · unfold saveTree
      refine (AllWhole.saveNodes fuel W2 _).bind ?_
      rintro ⟨h₃, b⟩ ⟨W3, b3⟩
      refine (AllWhole.expandRoots cfg fuel W3 _).bind fun h₄ W4 => ?_
      refine (AllWhole.saveNodes fuel W4 _).bind ?_
      rintro ⟨h₅, a⟩ ⟨W5, a5⟩
      exact Yields.pure ⟨W5, b3, a5⟩
    · rintro ⟨h₃, s⟩ ⟨W3, s3⟩
      refine (ih h₃ W3).bind ?_
      rintro ⟨h₄, rest⟩ hrest
      refine Yields.pure fun s' hs' => ?_
      rcases List.mem_cons.1 hs' with rfl | hs'
      · exact s3
      · exact hrest s' hs'

end Satis.Graph
