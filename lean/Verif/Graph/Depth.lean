import Verif.Graph.WrapLemmas
import Verif.Graph.LevelWalk
/-!
# The traversals with a bound on the depth of the calls (`src/node.py:64-90,142-151,204-236,501-549`)

`Graph/Traverse.lean` and `Graph/Save.lean` let the recursive methods call each other as deep as they like. Python raises `RecursionError` when the
calls are nested too deep (the code never changes the bound, 1000 frames). Here the same traversals are run with at most `limit` calls of the method active at
the same time; `limit` stands for the bound of Python less the frames of the callers and of the functions a single visit calls (a number of
frames that does not depend on the graph). The result `none` stands for `RecursionError`.
-/

namespace Satis.Graph
open Satis

/-- The next statement, unless `RecursionError` was raised. -/
def andThen {α β : Type} (r : Py (Option α)) (f : α → Py (Option β)) : Py (Option β) :=
  match r with
  | .error e => .error e
  | .ok none => .ok none
  | .ok (some x) => f x

/-- `walk` with a bound: the frames `(a, i) :: stack` belong to `stack.length + 1` active calls; one more is made only if the bound allows it. -/
def walkIn {S : Type} (limit : Nat) (visit : S → Addr → Py S) (kids : S → Addr → List Addr) (seen : S → Addr → Bool) :
    Nat → S → List (Addr × Nat) → Py (Option S)
  | _, s, [] => .ok (some s)
  | 0, _, _ :: _ => .error .diverge
  | fuel + 1, s, (a, i) :: stack =>
    match (kids s a)[i]? with
    | none => walkIn limit visit kids seen fuel s stack
    | some c =>
      if seen s c then walkIn limit visit kids seen fuel s ((a, i + 1) :: stack)
      else if limit < stack.length + 2 then .ok none
      else match visit s c with
        | .error e => .error e
        | .ok s' => walkIn limit visit kids seen fuel s' ((c, 0) :: (a, i + 1) :: stack)

/-- The call on one node: one call is active, also if the node was seen before. -/
def walkFromIn {S : Type} (limit : Nat) (visit : S → Addr → Py S) (kids : S → Addr → List Addr) (seen : S → Addr → Bool) (fuel : Nat)
    (s : S) (a : Addr) : Py (Option S) :=
  if limit < 1 then .ok none
  else if seen s a then .ok (some s)
  else match visit s a with
    | .error e => .error e
    | .ok s' => walkIn limit visit kids seen fuel s' [(a, 0)]

/-- `for root in roots: root.method(seen)`. -/
def walkAllIn {S : Type} (limit : Nat) (visit : S → Addr → Py S) (kids : S → Addr → List Addr) (seen : S → Addr → Bool) (fuel : Nat) :
    S → List Addr → Py (Option S)
  | s, [] => .ok (some s)
  | s, a :: as => andThen (walkFromIn limit visit kids seen fuel s a) fun s => walkAllIn limit visit kids seen fuel s as

variable {V : Type}

/-- `src/node.py:546-549`: the nodes entered by `populate`. -/
def populateOrderIn (limit fuel : Nat) (h : Heap V) (roots : List Addr) : Py (Option (List Addr)) :=
  andThen (walkAllIn limit populateVisit (fun s a => s.1.kids a) (fun s a => s.1.seen a) fuel ((h, []), []) roots) fun s => .ok (some s.2)

/-- `src/node.py:64-90` `wrap`. -/
def wrapIn (limit fuel : Nat) (h : Heap V) (root : Addr) : Py (Option (List (NodeData V))) :=
  andThen (walkFromIn limit populateVisit (fun s a => s.1.kids a ++ (s.1.1.get a).parents) (fun s a => s.1.seen a) fuel ((h, []), []) root)
    fun s => .ok (some (s.2.map (nodeData h)))

/-- `src/node.py:539-583` `Node.save(roots, filename, unit_flow_ratio)`: the picture and the data that are written. `RecursionError` is caught; the picture is
written before the data is gathered. (If `populate` raises then the code has not set the levels of all roots.) -/
def saveNodesIn (limit fuel : Nat) (h : Heap V) (roots : List Addr) : Py (Heap V × Option (Drawing V) × Option (List (NodeData V))) :=
  let h := setLevels h roots 0
  match roots with
  | [] => .error .indexError
  | r :: _ => do
    match ← populateOrderIn limit fuel h roots with
    | none => return (h, none, none)
    | some as =>
      let d ← wrapIn limit fuel h r
      return (h, some (drawing h as), d)

/-- `src/node.py:519-523`: `min_level_after_zero`. -/
def minLevelIn (limit fuel : Nat) (h : Heap V) (roots : List Addr) : Py (Option Int) :=
  andThen (walkAllIn limit minLevelVisit (fun s a => (s.2.1.get a).children) (fun s a => s.2.seen a) fuel ((2 : Int) ^ 32, (h, []))
    (roots.flatMap fun r => (h.get r).children)) fun s => .ok (some s.1)

/-- `src/node.py:530-533`: the entries of `levels_updates`, one after the other. -/
def tagLevelsIn (limit fuel : Nat) (roots : List Addr) : Heap V → List (Int × Int) → Py (Option (Heap V))
  | h, [] => .ok (some h)
  | h, u :: us => andThen (walkAllIn limit (tagVisit u.1 u.2) Marked.kids Marked.seen fuel (h, []) roots) fun s => tagLevelsIn limit fuel roots s.1 us

/-- `src/node.py:535-537`. -/
def applyLevelsIn (limit fuel : Nat) (roots : List Addr) (h : Heap V) : Py (Option (Heap V)) :=
  andThen (walkAllIn limit applyVisit Marked.kids Marked.seen fuel (h, []) roots) fun s => .ok (some s.1)

/-- `src/node.py:525-528`: all roots are expanded. -/
def expandAllIn (limit : Nat) (cfg : Config) (fuel : Nat) (h : Heap ℚ) (roots : List Addr) (us : List (Int × Int)) :
    Py (Option (Heap ℚ × List (Int × Int))) :=
  andThen (walkAllIn limit (expandVisit cfg fuel) (fun s a => s.1.kids a) (fun s a => s.1.seen a) fuel ((h, []), us) roots)
    fun s => .ok (some (s.1.1, s.2))

/-- `src/node.py:518-537` `expand_roots(roots)`. -/
def expandRootsIn (limit : Nat) (cfg : Config) (fuel : Nat) (h : Heap ℚ) (roots : List Addr) : Py (Option (Heap ℚ)) :=
  andThen (minLevelIn limit fuel h roots) fun low =>
  andThen (expandAllIn limit cfg fuel h roots [(1, 1 - low)]) fun x =>
  andThen (tagLevelsIn limit fuel roots x.1 x.2) fun h => applyLevelsIn limit fuel roots h

/-! ## The bound either makes no difference or raises -/

/-- `r` is `RecursionError` or the same as `t`. -/
def Agrees {α : Type} (r : Py (Option α)) (t : Py α) : Prop := r = .ok none ∨ r = t.map some

theorem Agrees.bind {α β : Type} {r : Py (Option α)} {t : Py α} {f : α → Py (Option β)} {g : α → Py β} (h : Agrees r t)
    (hf : ∀ x, Agrees (f x) (g x)) : Agrees (andThen r f) (t >>= g) := by
  rcases h with h | h
  · exact .inl (by rw [h]; rfl)
  · rw [h]
    cases t with
    | error e => exact .inr rfl
    | ok x => exact hf x

theorem Agrees.pure {α : Type} (x : α) : Agrees (.ok (some x)) (Pure.pure x : Py α) := .inr rfl

/-- A path of different nodes from one of the nodes `rs`, from its end to its start. -/
inductive Simple (K : Addr → List Addr) (rs : List Addr) : List Addr → Prop
  | root {a} : a ∈ rs → Simple K rs [a]
  | step {a b p} : Simple K rs (a :: p) → b ∈ K a → b ∉ a :: p → Simple K rs (b :: a :: p)

theorem Simple.mono {K : Addr → List Addr} {rs rs' : List Addr} (h : ∀ a ∈ rs, a ∈ rs') {p : List Addr} (hp : Simple K rs p) : Simple K rs' p := by
  induction hp with
  | root ha => exact .root (h _ ha)
  | step _ hb hn ih => exact .step ih hb hn

theorem Simple.from {K : Addr → List Addr} {rs p : List Addr} (hp : Simple K rs p) : ∀ a ∈ p, From K rs a := by
  induction hp with
  | root ha => exact fun a h => by rw [List.mem_singleton.1 h]; exact .root ha
  | step _ hb _ ih =>
    intro x hx
    rcases List.mem_cons.1 hx with rfl | hx
    · exact .step (ih _ (by simp)) hb
    · exact ih x hx

theorem Simple.nodup {K : Addr → List Addr} {rs p : List Addr} (hp : Simple K rs p) : p.Nodup := by
  induction hp with
  | root _ => simp
  | step _ _ hn ih => exact List.nodup_cons.2 ⟨hn, ih⟩

section
variable {S : Type} {limit : Nat} {visit : S → Addr → Py S} {kids : S → Addr → List Addr} {seen : S → Addr → Bool}

theorem walkIn_agrees : ∀ fuel s stack, Agrees (walkIn limit visit kids seen fuel s stack) (walk visit kids seen fuel s stack) := by
  intro fuel
  induction fuel with
  | zero =>
    intro s stack
    cases stack with
    | nil => exact .inr rfl
    | cons f stack => exact .inr rfl
  | succ fuel ih =>
    intro s stack
    match stack with
    | [] => exact .inr rfl
    | (a, i) :: stack =>
      rw [walkIn, walk]
      cases (kids s a)[i]? with
      | none => exact ih _ _
      | some c =>
        dsimp only
        split
        · exact ih _ _
        · split
          · exact .inl rfl
          · cases visit s c with
            | error e => exact .inr rfl
            | ok s' => exact ih _ _

theorem walkFromIn_agrees (fuel : Nat) (s : S) (a : Addr) :
    Agrees (walkFromIn limit visit kids seen fuel s a) (walkFrom visit kids seen fuel s a) := by
  unfold walkFromIn walkFrom
  split
  · exact .inl rfl
  · split
    · exact .inr rfl
    · cases visit s a with
      | error e => exact .inr rfl
      | ok s' => exact walkIn_agrees _ _ _

theorem walkAllIn_agrees (fuel : Nat) : ∀ (as : List Addr) (s : S),
    Agrees (walkAllIn limit visit kids seen fuel s as) (walkAll visit kids seen fuel s as) := by
  intro as
  induction as with
  | nil => exact fun s => .inr rfl
  | cons a as ih =>
    intro s
    have e : walkAll visit kids seen fuel s (a :: as) = walkFrom visit kids seen fuel s a >>= fun s => walkAll visit kids seen fuel s as := rfl
    rw [walkAllIn, e]
    exact (walkFromIn_agrees fuel s a).bind ih

/-! ## Enough room: as many calls as nodes are marked -/

theorem walkIn_enough (μ : S → Nat) (hv : ∀ s a s', visit s a = .ok s' → μ s' = μ s + 1) :
    ∀ fuel s stack s', walk visit kids seen fuel s stack = .ok s' →
      μ s ≤ μ s' ∧ (stack.length ≤ μ s → μ s' ≤ limit → walkIn limit visit kids seen fuel s stack = .ok (some s')) := by
  intro fuel
  induction fuel with
  | zero =>
    intro s stack s' h
    cases stack with
    | nil =>
      cases h
      exact ⟨le_rfl, fun _ _ => rfl⟩
    | cons f stack => cases h
  | succ fuel ih =>
    intro s stack s' h
    match stack with
    | [] =>
      cases h
      exact ⟨le_rfl, fun _ _ => rfl⟩
    | (a, i) :: stack =>
      rw [walk] at h
      rw [walkIn]
      cases hc : (kids s a)[i]? with
      | none =>
        rw [hc] at h
        obtain ⟨h1, h2⟩ := ih _ _ _ h
        exact ⟨h1, fun hl hm => h2 (by rw [List.length_cons] at hl; omega) hm⟩
      | some c =>
        rw [hc] at h
        dsimp only at h ⊢
        by_cases hs : seen s c
        · rw [if_pos hs] at h ⊢
          obtain ⟨h1, h2⟩ := ih _ _ _ h
          exact ⟨h1, fun hl hm => h2 hl hm⟩
        · rw [if_neg hs] at h ⊢
          cases hvis : visit s c with
          | error e => rw [hvis] at h; cases h
          | ok s₁ =>
            rw [hvis] at h
            dsimp only at h ⊢
            obtain ⟨h1, h2⟩ := ih _ _ _ h
            have := hv _ _ _ hvis
            refine ⟨by omega, fun hl hm => ?_⟩
            rw [List.length_cons] at hl
            rw [if_neg (by omega)]
            exact h2 (by simp only [List.length_cons]; omega) hm

theorem walkFromIn_enough (μ : S → Nat) (hv : ∀ s a s', visit s a = .ok s' → μ s' = μ s + 1) (fuel : Nat) (s : S) (a : Addr) (s' : S)
    (h : walkFrom visit kids seen fuel s a = .ok s') :
    μ s ≤ μ s' ∧ (μ s' ≤ limit → 1 ≤ limit → walkFromIn limit visit kids seen fuel s a = .ok (some s')) := by
  unfold walkFrom at h
  unfold walkFromIn
  by_cases hs : seen s a
  · rw [if_pos hs] at h ⊢
    cases h
    exact ⟨le_rfl, fun _ h1 => by rw [if_neg (by omega)]⟩
  · rw [if_neg hs] at h ⊢
    cases hvis : visit s a with
    | error e => rw [hvis] at h; cases h
    | ok s₁ =>
      rw [hvis] at h
      obtain ⟨h1, h2⟩ := walkIn_enough (limit := limit) μ hv _ _ _ _ h
      have := hv _ _ _ hvis
      refine ⟨by omega, fun hm hl => ?_⟩
      rw [if_neg (by omega)]
      exact h2 (by simp only [List.length_cons, List.length_nil]; omega) hm

theorem walkAllIn_enough (μ : S → Nat) (hv : ∀ s a s', visit s a = .ok s' → μ s' = μ s + 1) (fuel : Nat) : ∀ (as : List Addr) (s s' : S),
    walkAll visit kids seen fuel s as = .ok s' →
    μ s ≤ μ s' ∧ (μ s' ≤ limit → 1 ≤ limit → walkAllIn limit visit kids seen fuel s as = .ok (some s')) := by
  intro as
  induction as with
  | nil =>
    intro s s' h
    cases h
    exact ⟨le_rfl, fun _ _ => rfl⟩
  | cons a as ih =>
    intro s s' h
    have e : walkAll visit kids seen fuel s (a :: as) = walkFrom visit kids seen fuel s a >>= fun s => walkAll visit kids seen fuel s as := rfl
    rw [e] at h
    cases h0 : walkFrom visit kids seen fuel s a with
    | error x => rw [h0] at h; cases h
    | ok s₁ =>
      rw [h0] at h
      obtain ⟨q1, q2⟩ := ih s₁ s' h
      obtain ⟨p1, p2⟩ := walkFromIn_enough (limit := limit) μ hv fuel s a s₁ h0
      refine ⟨by omega, fun hm hl => ?_⟩
      rw [walkAllIn, p2 (by omega) hl]
      exact q2 hm hl

/-! ## Enough room: the calls on the stack are a path of different nodes -/

theorem walkIn_paths (K : Addr → List Addr) (rs : List Addr) (I : S → Prop) (hk : ∀ s a c, I s → c ∈ kids s a → c ∈ K a)
    (hv : ∀ s a s', I s → visit s a = .ok s' → I s' ∧ seen s' a = true ∧ ∀ b, seen s b = true → seen s' b = true)
    (hp : ∀ p, Simple K rs p → p.length ≤ limit) :
    ∀ fuel s stack, I s → (stack = [] ∨ ∃ r ∈ rs, Simple K [r] (stack.map Prod.fst)) → (∀ f ∈ stack, seen s f.1 = true) →
      walkIn limit visit kids seen fuel s stack = (walk visit kids seen fuel s stack).map some ∧
        ∀ s', walk visit kids seen fuel s stack = .ok s' → I s' := by
  intro fuel
  induction fuel with
  | zero =>
    intro s stack hI _ _
    cases stack with
    | nil => exact ⟨rfl, fun s' h => by cases h; exact hI⟩
    | cons f stack => exact ⟨rfl, fun s' h => by cases h⟩
  | succ fuel ih =>
    intro s stack hI hS hm
    match stack with
    | [] => exact ⟨rfl, fun s' h => by cases h; exact hI⟩
    | (a, i) :: stack =>
      obtain ⟨r, hr, hS⟩ := hS.resolve_left (by simp)
      rw [walkIn, walk]
      cases hc : (kids s a)[i]? with
      | none =>
        refine ih s stack hI ?_ fun f hf => hm f (List.mem_cons_of_mem _ hf)
        cases stack with
        | nil => exact .inl rfl
        | cons f stack =>
          cases hS with
          | step h1 _ _ => exact .inr ⟨r, hr, h1⟩
      | some c =>
        dsimp only
        have hmem : c ∈ kids s a := List.mem_of_getElem? hc
        by_cases hs : seen s c
        · rw [if_pos hs, if_pos hs]
          refine ih s ((a, i + 1) :: stack) hI (.inr ⟨r, hr, hS⟩) fun f hf => ?_
          rcases List.mem_cons.1 hf with rfl | hf
          · exact hm (a, i) (by simp)
          · exact hm f (List.mem_cons_of_mem _ hf)
        · have hS' : Simple K [r] (c :: a :: stack.map Prod.fst) := .step hS (hk s a c hI hmem) (by
            intro hin
            obtain ⟨f, hf, e⟩ := List.mem_map.1 (show c ∈ ((a, i) :: stack).map Prod.fst from hin)
            exact hs (e ▸ hm f hf))
          have hlen := hp _ (hS'.mono (by simpa using hr))
          simp only [List.length_cons, List.length_map] at hlen
          rw [if_neg hs, if_neg hs, if_neg (by omega)]
          cases hvis : visit s c with
          | error e => exact ⟨rfl, fun s' h => by cases h⟩
          | ok s₁ =>
            obtain ⟨v1, v2, v3⟩ := hv s c s₁ hI hvis
            refine ih s₁ ((c, 0) :: (a, i + 1) :: stack) v1 (.inr ⟨r, hr, hS'⟩) fun f hf => ?_
            rcases List.mem_cons.1 hf with rfl | hf
            · exact v2
            · rcases List.mem_cons.1 hf with rfl | hf
              · exact v3 _ (hm (a, i) (by simp))
              · exact v3 _ (hm f (List.mem_cons_of_mem _ hf))

theorem walkFromIn_paths (K : Addr → List Addr) (rs : List Addr) (I : S → Prop) (hk : ∀ s a c, I s → c ∈ kids s a → c ∈ K a)
    (hv : ∀ s a s', I s → visit s a = .ok s' → I s' ∧ seen s' a = true ∧ ∀ b, seen s b = true → seen s' b = true)
    (hp : ∀ p, Simple K rs p → p.length ≤ limit) (fuel : Nat) (s : S) (a : Addr) (hI : I s) (ha : a ∈ rs) :
    walkFromIn limit visit kids seen fuel s a = (walkFrom visit kids seen fuel s a).map some ∧
      ∀ s', walkFrom visit kids seen fuel s a = .ok s' → I s' := by
  have h1 : 1 ≤ limit := hp [a] (.root ha)
  unfold walkFromIn walkFrom
  rw [if_neg (by omega)]
  by_cases hs : seen s a
  · rw [if_pos hs, if_pos hs]
    exact ⟨rfl, fun s' h => by cases h; exact hI⟩
  · rw [if_neg hs, if_neg hs]
    cases hvis : visit s a with
    | error e => exact ⟨rfl, fun s' h => by cases h⟩
    | ok s₁ =>
      obtain ⟨v1, v2, v3⟩ := hv s a s₁ hI hvis
      exact walkIn_paths K rs I hk hv hp fuel s₁ [(a, 0)] v1 (.inr ⟨a, ha, .root (by simp)⟩) fun f hf => by
        rw [List.mem_singleton.1 hf]
        exact v2

theorem walkAllIn_paths (K : Addr → List Addr) (rs : List Addr) (I : S → Prop) (hk : ∀ s a c, I s → c ∈ kids s a → c ∈ K a)
    (hv : ∀ s a s', I s → visit s a = .ok s' → I s' ∧ seen s' a = true ∧ ∀ b, seen s b = true → seen s' b = true)
    (hp : ∀ p, Simple K rs p → p.length ≤ limit) (fuel : Nat) : ∀ (as : List Addr) (s : S), I s → (∀ a ∈ as, a ∈ rs) →
    walkAllIn limit visit kids seen fuel s as = (walkAll visit kids seen fuel s as).map some := by
  intro as
  induction as with
  | nil => exact fun s _ _ => rfl
  | cons a as ih =>
    intro s hI ha
    have e : walkAll visit kids seen fuel s (a :: as) = walkFrom visit kids seen fuel s a >>= fun s => walkAll visit kids seen fuel s as := rfl
    obtain ⟨q1, q2⟩ := walkFromIn_paths K rs I hk hv hp fuel s a hI (ha a (by simp))
    rw [walkAllIn, e, q1]
    cases hx : walkFrom visit kids seen fuel s a with
    | error x => rfl
    | ok s₁ => exact ih s₁ (q2 s₁ hx) fun b hb => ha b (List.mem_cons_of_mem _ hb)

/-! ## Too little room: the calls on the stack are a path -/

/-- Every loop on the stack belongs to a node as far from the start as there are loops below it. -/
def Stacked (D : Nat → Addr → Prop) : List (Addr × Nat) → Prop
  | [] => True
  | f :: stack => D stack.length f.1 ∧ Stacked D stack

theorem walkIn_near (I : S → Prop) (D : Nat → Addr → Prop) (hk : ∀ s n a c, I s → D n a → c ∈ kids s a → D (n + 1) c)
    (hv : ∀ s n a s', I s → D n a → n < limit → visit s a = .ok s' → I s') :
    ∀ fuel s stack s', I s → Stacked D stack → walkIn limit visit kids seen fuel s stack = .ok (some s') → I s' := by
  intro fuel
  induction fuel with
  | zero =>
    intro s stack s' hI hD h
    cases stack with
    | nil => cases h; exact hI
    | cons f stack => cases h
  | succ fuel ih =>
    intro s stack s' hI hD h
    match stack with
    | [] => cases h; exact hI
    | (a, i) :: stack =>
      rw [walkIn] at h
      cases hc : (kids s a)[i]? with
      | none =>
        rw [hc] at h
        exact ih _ _ _ hI hD.2 h
      | some c =>
        rw [hc] at h
        dsimp only at h
        split at h
        · exact ih _ ((a, i + 1) :: stack) _ hI ⟨hD.1, hD.2⟩ h
        · split at h
          · cases h
          · rename_i hl
            have hDc := hk s _ a c hI hD.1 (List.mem_of_getElem? hc)
            cases hvis : visit s c with
            | error e => rw [hvis] at h; cases h
            | ok s₁ =>
              rw [hvis] at h
              exact ih _ ((c, 0) :: (a, i + 1) :: stack) _ (hv _ _ _ _ hI hDc (by simp only [List.length_cons] at *; omega) hvis) ⟨hDc, hD.1, hD.2⟩ h

theorem walkFromIn_near (I : S → Prop) (D : Nat → Addr → Prop) (hk : ∀ s n a c, I s → D n a → c ∈ kids s a → D (n + 1) c)
    (hv : ∀ s n a s', I s → D n a → n < limit → visit s a = .ok s' → I s') (fuel : Nat) (s : S) (a : Addr) (s' : S) (hI : I s) (ha : D 0 a)
    (h : walkFromIn limit visit kids seen fuel s a = .ok (some s')) : I s' := by
  unfold walkFromIn at h
  split at h
  · cases h
  · split at h
    · cases h; exact hI
    · cases hvis : visit s a with
      | error e => rw [hvis] at h; cases h
      | ok s₁ =>
        rw [hvis] at h
        exact walkIn_near I D hk hv _ _ [(a, 0)] _ (hv _ _ _ _ hI ha (by omega) hvis) ⟨ha, trivial⟩ h

theorem walkAllIn_near (I : S → Prop) (D : Nat → Addr → Prop) (hk : ∀ s n a c, I s → D n a → c ∈ kids s a → D (n + 1) c)
    (hv : ∀ s n a s', I s → D n a → n < limit → visit s a = .ok s' → I s') (fuel : Nat) : ∀ (as : List Addr) (s s' : S), I s →
    (∀ a ∈ as, D 0 a) → walkAllIn limit visit kids seen fuel s as = .ok (some s') → I s' := by
  intro as
  induction as with
  | nil =>
    intro s s' hI _ h
    cases h
    exact hI
  | cons a as ih =>
    intro s s' hI ha h
    rw [walkAllIn] at h
    cases h0 : walkFromIn limit visit kids seen fuel s a with
    | error x => rw [h0] at h; cases h
    | ok o =>
      rw [h0] at h
      cases o with
      | none => cases h
      | some s₁ => exact ih s₁ s' (walkFromIn_near I D hk hv fuel s a s₁ hI (ha a (by simp)) h0) (fun b hb => ha b (by simp [hb])) h

end

/-! ## The traversals of the code -/

/-- There is a path of `n` links from one of the nodes `rs`. -/
inductive Hops (K : Addr → List Addr) (rs : List Addr) : Nat → Addr → Prop
  | root {a} : a ∈ rs → Hops K rs 0 a
  | step {n a b} : Hops K rs n a → b ∈ K a → Hops K rs (n + 1) b

theorem populateOrderIn_agrees (limit fuel : Nat) (h : Heap V) (roots : List Addr) :
    Agrees (populateOrderIn limit fuel h roots) (populateOrder fuel h roots) := (walkAllIn_agrees _ _ _).bind fun _ => .pure _

theorem wrapIn_agrees (limit fuel : Nat) (h : Heap V) (root : Addr) : Agrees (wrapIn limit fuel h root) (wrap fuel h root) :=
  (walkFromIn_agrees _ _ _).bind fun _ => .pure _

theorem minLevelIn_agrees (limit fuel : Nat) (h : Heap V) (roots : List Addr) :
    Agrees (minLevelIn limit fuel h roots) (minLevelAfterZero fuel h roots) := (walkAllIn_agrees _ _ _).bind fun _ => .pure _

theorem tagLevelsIn_agrees (limit fuel : Nat) (roots : List Addr) : ∀ (us : List (Int × Int)) (h : Heap V),
    Agrees (tagLevelsIn limit fuel roots h us) (us.foldlM (tagLevels fuel roots) h) := by
  intro us
  induction us with
  | nil => exact fun h => .pure h
  | cons u us ih =>
    intro h
    rw [tagLevelsIn, List.foldlM_cons, tagLevels, bind_assoc]
    exact (walkAllIn_agrees _ _ _).bind fun s => ih s.1

theorem applyLevelsIn_agrees (limit fuel : Nat) (roots : List Addr) (h : Heap V) :
    Agrees (applyLevelsIn limit fuel roots h) (applyLevels fuel roots h) := (walkAllIn_agrees _ _ _).bind fun _ => .pure _

theorem expandAllIn_agrees (limit : Nat) (cfg : Config) (fuel : Nat) (h : Heap ℚ) (roots : List Addr) (us : List (Int × Int)) :
    Agrees (expandAllIn limit cfg fuel h roots us) (expandAll cfg fuel h roots us) := (walkAllIn_agrees _ _ _).bind fun _ => .pure _

theorem expandRootsIn_agrees (limit : Nat) (cfg : Config) (fuel : Nat) (h : Heap ℚ) (roots : List Addr) :
    Agrees (expandRootsIn limit cfg fuel h roots) (expandRoots cfg fuel h roots) := by
  refine (minLevelIn_agrees _ _ _ _).bind fun low => ?_
  refine (expandAllIn_agrees _ _ _ _ _ _).bind fun x => ?_
  exact (tagLevelsIn_agrees _ _ _ _ _).bind fun h => applyLevelsIn_agrees _ _ _ _

end Satis.Graph
