import Verif.Graph.GrowExpand
/-!
# The traversal that expands ends, although it changes the graph it runs over
-/

namespace Satis.Graph
open Satis Satis.Cost
open scoped Classical in
/-- The number of nodes of the part that were not entered yet. -/
noncomputable def unseenCount (h : Heap ℚ) (U : Addr → Prop) (seen : List Uid) : Nat :=
  ((Finset.range h.next).filter fun a => U a ∧ (h.get a).id ∉ seen).card

theorem unseenCount_lt {h : Heap ℚ} {U : Addr → Prop} {seen : List Uid} {c : Addr} (hc : c < h.next) (hU : U c)
    (hs : (h.get c).id ∉ seen) : unseenCount h U (seen ++ [(h.get c).id]) < unseenCount h U seen := by
  unfold unseenCount
  apply Finset.card_lt_card
  rw [Finset.ssubset_iff_of_subset]
  · exact ⟨c, by simp [hc, hU, hs], by simp⟩
  · intro a
    simp only [Finset.mem_filter, Finset.mem_range, List.mem_append, List.mem_singleton, not_or]
    tauto

/-- The rounds left in the loops on the stack. -/
def roundsLeft (h : Heap ℚ) (stack : List (Addr × Nat)) : Nat := (stack.map fun f => (h.get f.1).children.length - f.2 + 1).sum

/-- The recursive calls of `expand`. -/
abbrev expandWalk (cfg : Config) (F fuel : Nat) (s : Marked ℚ × List (Int × Int)) (stack : List (Addr × Nat)) :
    Py (Marked ℚ × List (Int × Int)) :=
  walk (expandVisit cfg F) (fun s a => s.1.kids a) (fun s a => s.1.seen a) fuel s stack

/-- What a call of `expand` has done. -/
structure Expanded (strict : Prop) (h : Heap ℚ) (U : Addr → Prop) (seen : List Uid) (s : Marked ℚ × List (Int × Int)) : Prop where
  evolved : Evolved strict 0 h U s.1.1
  once : seen.Nodup → s.1.2.Nodup
  more : ∀ i ∈ seen, i ∈ s.1.2
  ids : ∀ i ∈ s.1.2, i ∈ seen ∨ ∃ a, Within h U s.1.1 a ∧ (s.1.1.get a).id = i

theorem Region.expanded {strict : Prop} {h : Heap ℚ} {U : Addr → Prop} (H : Region h U) (seen : List Uid) (us : List (Int × Int)) :
    Expanded strict h U seen ((h, seen), us) :=
  ⟨H.evolved strict, _root_.id, fun _ h => h, fun _ h => .inl h⟩

theorem Expanded.trans {strict : Prop} {h : Heap ℚ} {U : Addr → Prop} (hU : ∀ a, U a → a < h.next) {seen : List Uid}
    {s s' : Marked ℚ × List (Int × Int)} (A : Expanded strict h U seen s) (B : Expanded strict s.1.1 (Within h U s.1.1) s.1.2 s') :
    Expanded strict h U seen s' := by
  have C := A.evolved.trans hU B.evolved
  have up : ∀ a, Within s.1.1 (Within h U s.1.1) s'.1.1 a → Within h U s'.1.1 a := by
    have := A.evolved.next
    have := B.evolved.next
    rintro a ((h | ⟨h1, h2⟩) | ⟨h1, h2⟩)
    · exact .inl h
    · exact .inr ⟨h1, by omega⟩
    · exact .inr ⟨by omega, h2⟩
  refine ⟨C, fun h => B.once (A.once h), fun i hi => B.more i (A.more i hi), fun i hi => ?_⟩
  rcases B.ids i hi with h | ⟨a, w, e⟩
  · rcases A.ids i h with h | ⟨a, w, e⟩
    · exact .inl h
    · exact .inr ⟨a, up a (.inl w), (B.evolved.id a w).trans e⟩
  · exact .inr ⟨a, up a w, e⟩

theorem expandVisit_ends {strict : Prop} (cfg : Config) {h : Heap ℚ} {U : Addr → Prop} (H : Region h U) (T : strict → Tame cfg h U)
    (seen : List Uid) (us : List (Int × Int)) (c : Addr) (hc : U c) (hs : (h.get c).id ∉ seen) :
    ∃ r, Ends (fun s => Expanded strict h U seen s ∧ (h.get c).id ∈ s.1.2 ∧ (s.1.1 = h ∧ s.1.2 = seen ++ [(h.get c).id] ∨ pendingWeight s.1.1 < pendingWeight h)) r ∧
      ∀ F, pendingWeight h ≤ F → expandVisit cfg F ((h, seen), us) c = r := by
  obtain ⟨A, hm⟩ := ends_runExpands (strict := strict) cfg c (pendingWeight h) h U H T hc le_rfl
  refine ⟨expandVisit cfg (pendingWeight h) ((h, seen), us) c, ?_, fun F hF => ?_⟩
  · unfold expandVisit
    refine A.bind ?_
    rintro ⟨h₁, us₁⟩ ⟨B, -, hor⟩
    have hid : (h₁.get c).id = (h.get c).id := B.id c hc
    refine ⟨⟨B, fun hn => ?_, fun i hi => List.mem_append_left _ hi, fun i hi => ?_⟩, by simp, ?_⟩
    · exact List.nodup_append.2 ⟨hn, by simp, fun x hx y hy => by
        rw [List.mem_singleton] at hy
        rintro rfl
        exact hs (hy ▸ hx)⟩
    · rcases List.mem_append.1 hi with hi | hi
      · exact .inl hi
      · rw [List.mem_singleton.1 hi]
        exact .inr ⟨c, .inl hc, hid⟩
    · rcases hor with ⟨-, h2⟩ | h2
      · cases h2
        exact .inl ⟨rfl, rfl⟩
      · exact .inr h2
  · unfold expandVisit
    show (runExpands cfg F h c >>= _) = (runExpands cfg (pendingWeight h) h c >>= _)
    rw [hm F hF]

theorem expandWalk_ends {strict : Prop} (cfg : Config) : ∀ (P n w : Nat) (h : Heap ℚ) (U : Addr → Prop) (seen : List Uid) (us : List (Int × Int))
    (stack : List (Addr × Nat)), pendingWeight h = P → unseenCount h U seen = n → roundsLeft h stack = w → Region h U →
    (strict → Tame cfg h U) → (∀ f ∈ stack, U f.1) →
    ∃ B r, Ends (Expanded strict h U seen) r ∧
      ∀ F, pendingWeight h ≤ F → ∀ fuel, B ≤ fuel → expandWalk cfg F fuel ((h, seen), us) stack = r := by
  intro P
  induction P using Nat.strong_induction_on with
  | _ P ihP =>
  intro n
  induction n using Nat.strong_induction_on with
  | _ n ihn =>
  intro w
  induction w using Nat.strong_induction_on with
  | _ w ihw =>
  intro h U seen us stack hP hn hw H T hst
  cases stack with
  | nil => exact ⟨0, .ok ((h, seen), us), H.expanded seen us, fun F _ fuel _ => by rw [expandWalk, walk]⟩
  | cons f stack =>
    obtain ⟨a, i⟩ := f
    have ha : U a := hst (a, i) (by simp)
    have hst' : ∀ f ∈ stack, U f.1 := fun f hf => hst f (List.mem_cons_of_mem _ hf)
    have hst1 : ∀ f ∈ (a, i + 1) :: stack, U f.1 := fun f hf => by
      rcases List.mem_cons.1 hf with rfl | hf
      · exact ha
      · exact hst' f hf
    have hwork : roundsLeft h ((a, i) :: stack) = (h.get a).children.length - i + 1 + roundsLeft h stack := by simp [roundsLeft]
    rw [hwork] at hw
    cases hc : (h.get a).children[i]? with
    | none =>
      obtain ⟨B, r, h1, h2⟩ := ihw (roundsLeft h stack) (by omega) h U seen us stack hP hn rfl H T hst'
      refine ⟨B + 1, r, h1, fun F hF fuel hfuel => ?_⟩
      obtain ⟨j, rfl⟩ : ∃ j, fuel = j + 1 := ⟨fuel - 1, by omega⟩
      rw [expandWalk, walk]
      simp only [Marked.kids, hc]
      exact h2 F hF j (by omega)
    | some c =>
      have hlen := (List.getElem?_eq_some_iff.1 hc).1
      have hUc : U c := H.children a ha c (List.mem_of_getElem? hc)
      have hwork1 : roundsLeft h ((a, i + 1) :: stack) = (h.get a).children.length - (i + 1) + 1 + roundsLeft h stack := by simp [roundsLeft]
      by_cases hm : (h.get c).id ∈ seen
      · obtain ⟨B, r, h1, h2⟩ := ihw (roundsLeft h ((a, i + 1) :: stack)) (by omega) h U seen us _ hP hn rfl H T hst1
        refine ⟨B + 1, r, h1, fun F hF fuel hfuel => ?_⟩
        obtain ⟨j, rfl⟩ : ∃ j, fuel = j + 1 := ⟨fuel - 1, by omega⟩
        rw [expandWalk, walk]
        simp only [Marked.kids, hc, Marked.seen, hm, decide_true, if_true]
        exact h2 F hF j (by omega)
      · obtain ⟨rv, hv1, hv2⟩ := expandVisit_ends (strict := strict) cfg H T seen us c hUc hm
        have step : ∀ F, pendingWeight h ≤ F → ∀ j, expandWalk cfg F (j + 1) ((h, seen), us) ((a, i) :: stack) =
            rv >>= fun s' => expandWalk cfg F j s' ((c, 0) :: (a, i + 1) :: stack) := fun F hF j => by
          rw [expandWalk, walk]
          simp only [Marked.kids, hc, Marked.seen, hm, decide_false, Bool.false_eq_true, if_false, hv2 F hF]
          cases rv <;> rfl
        cases rv with
        | error e =>
          refine ⟨1, .error e, hv1, fun F hF fuel hfuel => ?_⟩
          obtain ⟨j, rfl⟩ : ∃ j, fuel = j + 1 := ⟨fuel - 1, by omega⟩
          exact step F hF j
        | ok s' =>
          obtain ⟨⟨h₁, seen₁⟩, us₁⟩ := s'
          obtain ⟨X, hin, hor⟩ := hv1
          have G := X.evolved
          have hst2 : ∀ f ∈ (c, 0) :: (a, i + 1) :: stack, Within h U h₁ f.1 := fun f hf => by
            rcases List.mem_cons.1 hf with rfl | hf
            · exact .inl hUc
            · exact .inl (hst1 f hf)
          have T1 : strict → Tame cfg h₁ (Within h U h₁) := fun hs => (T hs).evolved hs G
          have hpend := G.pending
          have hpend : pendingWeight h₁ ≤ pendingWeight h := hpend
          obtain ⟨B, r, h1, h2⟩ : ∃ B r, Ends (Expanded strict h₁ (Within h U h₁) seen₁) r ∧
              ∀ F, pendingWeight h₁ ≤ F → ∀ fuel, B ≤ fuel → expandWalk cfg F fuel ((h₁, seen₁), us₁) ((c, 0) :: (a, i + 1) :: stack) = r := by
            rcases hor with ⟨e1, e2⟩ | hlt
            · have e1 : h₁ = h := e1
              have e2 : seen₁ = seen ++ [(h.get c).id] := e2
              subst e1
              have hWU : Within h₁ U h₁ = U := by
                funext x
                unfold Within
                simp only [eq_iff_iff, or_iff_left_iff_imp]
                intro hx
                omega
              rw [hWU] at hst2 T1 ⊢
              exact ihn (unseenCount h₁ U seen₁) (by rw [e2, ← hn]; exact unseenCount_lt (H.inside c hUc) hUc hm) _ h₁ U seen₁ us₁ _ hP rfl rfl H T1
                hst2
            · have hlt : pendingWeight h₁ < pendingWeight h := hlt
              exact ihP (pendingWeight h₁) (by omega) _ _ h₁ (Within h U h₁) seen₁ us₁ _ rfl rfl rfl G.region T1 hst2
          refine ⟨B + 1, r, h1.mono fun s hs => X.trans H.inside hs, fun F hF fuel hfuel => ?_⟩
          obtain ⟨j, rfl⟩ : ∃ j, fuel = j + 1 := ⟨fuel - 1, by omega⟩
          rw [step F hF j]
          exact h2 F (by omega) j (by omega)

theorem expandRootsWalk_ends {strict : Prop} (cfg : Config) : ∀ (roots : List Addr) (h : Heap ℚ) (U : Addr → Prop) (seen : List Uid)
    (us : List (Int × Int)), Region h U → (strict → Tame cfg h U) → (∀ r ∈ roots, U r) →
    ∃ B r, Ends (fun s => Expanded strict h U seen s ∧ ∀ x ∈ roots, (h.get x).id ∈ s.1.2) r ∧ ∀ F, pendingWeight h ≤ F → ∀ fuel, B ≤ fuel →
      roots.foldlM (fun s a => walkFrom (expandVisit cfg F) (fun s a => s.1.kids a) (fun s a => s.1.seen a) fuel s a) ((h, seen), us) = r := by
  intro roots
  induction roots with
  | nil => exact fun h U seen us H T _ => ⟨0, .ok ((h, seen), us), ⟨H.expanded seen us, by simp⟩, fun F _ fuel _ => rfl⟩
  | cons x roots ih =>
    intro h U seen us H T hr
    have hx := hr x (by simp)
    have hr' : ∀ r ∈ roots, U r := fun y hy => hr y (List.mem_cons_of_mem _ hy)
    -- the call on the first root
    obtain ⟨B₁, r₁, h1, h2⟩ : ∃ B r, Ends (fun s => Expanded strict h U seen s ∧ (h.get x).id ∈ s.1.2) r ∧
        ∀ F, pendingWeight h ≤ F → ∀ fuel, B ≤ fuel →
          walkFrom (expandVisit cfg F) (fun s a => s.1.kids a) (fun s a => s.1.seen a) fuel ((h, seen), us) x = r := by
      by_cases hm : (h.get x).id ∈ seen
      · refine ⟨0, .ok ((h, seen), us), ⟨H.expanded seen us, hm⟩, fun F _ fuel _ => ?_⟩
        unfold walkFrom
        simp [Marked.seen, hm]
      · obtain ⟨rv, hv1, hv2⟩ := expandVisit_ends (strict := strict) cfg H T seen us x hx hm
        have step : ∀ F, pendingWeight h ≤ F → ∀ fuel,
            walkFrom (expandVisit cfg F) (fun s a => s.1.kids a) (fun s a => s.1.seen a) fuel ((h, seen), us) x =
            rv >>= fun s' => expandWalk cfg F fuel s' [(x, 0)] := fun F hF fuel => by
          unfold walkFrom
          simp only [Marked.seen, hm, decide_false, Bool.false_eq_true, if_false, hv2 F hF]
          cases rv <;> rfl
        cases rv with
        | error e => exact ⟨0, .error e, hv1, fun F hF fuel _ => step F hF fuel⟩
        | ok s' =>
          obtain ⟨⟨h₁, seen₁⟩, us₁⟩ := s'
          obtain ⟨X, hin, -⟩ := hv1
          have G := X.evolved
          obtain ⟨B, r, h1, h2⟩ := expandWalk_ends (strict := strict) cfg _ _ _ h₁ (Within h U h₁) seen₁ us₁ [(x, 0)] rfl rfl rfl G.region
            (fun hs => (T hs).evolved hs G) (fun f hf => by rw [List.mem_singleton.1 hf]; exact .inl hx)
          refine ⟨B, r, h1.mono fun s hs => ⟨X.trans H.inside hs, hs.more _ hin⟩, fun F hF fuel hfuel => ?_⟩
          rw [step F hF fuel]
          exact h2 F (by have := G.pending; exact le_trans this hF) fuel hfuel
    cases r₁ with
    | error e =>
      refine ⟨B₁, .error e, h1, fun F hF fuel hfuel => ?_⟩
      rw [List.foldlM_cons, h2 F hF fuel hfuel]
      rfl
    | ok s =>
      obtain ⟨⟨h₁, seen₁⟩, us₁⟩ := s
      obtain ⟨X, hin⟩ := h1
      have G := X.evolved
      obtain ⟨B₂, r₂, h3, h4⟩ := ih h₁ (Within h U h₁) seen₁ us₁ G.region (fun hs => (T hs).evolved hs G) (fun y hy => .inl (hr' y hy))
      refine ⟨max B₁ B₂, r₂, h3.mono fun s hs => ⟨X.trans H.inside hs.1, fun y hy => ?_⟩, fun F hF fuel hfuel => ?_⟩
      · rcases List.mem_cons.1 hy with rfl | hy
        · exact hs.1.more _ hin
        · have := hs.2 y hy
          rwa [show (h₁.get y).id = (h.get y).id from G.id y (hr' y hy)] at this
      · rw [List.foldlM_cons, h2 F hF fuel (le_trans (le_max_left _ _) hfuel)]
        exact h4 F (by have := G.pending; exact le_trans this hF) fuel (le_trans (le_max_right _ _) hfuel)

/-- **`expand` on all roots** ends, on every graph. -/
theorem expandAll_ends {strict : Prop} (cfg : Config) (h : Heap ℚ) (U : Addr → Prop) (roots : List Addr) (us : List (Int × Int))
    (H : Region h U) (T : strict → Tame cfg h U) (hr : ∀ r ∈ roots, U r) :
    ∃ B r, Ends (fun x => Evolved strict 0 h U x.1) r ∧ ∀ fuel, B ≤ fuel → expandAll cfg fuel h roots us = r := by
  obtain ⟨B, r, h1, h2⟩ := expandRootsWalk_ends (strict := strict) cfg roots h U [] us H T hr
  refine ⟨max B (pendingWeight h), r >>= fun s => .ok (s.1.1, s.2), h1.bind fun s hs => hs.1.evolved, fun fuel hfuel => ?_⟩
  unfold expandAll walkAll
  rw [h2 fuel (le_trans (le_max_right _ _) hfuel) fuel (le_trans (le_max_left _ _) hfuel)]
  rfl

end Satis.Graph
