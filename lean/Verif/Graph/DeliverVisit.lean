import Verif.Graph.TallyStep
/-!
# A visit of the walk that expands
-/

namespace Satis.Graph
open Satis Satis.Cost

variable {Z : Addr → Prop} {Q : Terms} {cfg : Config} {speeds : List Nat} {roots : List Addr} {supply : Addr → ℚ} {h h' : Heap ℚ} {U : Addr → Prop}
  {T : Addr → ℚ} {f : Addr → Addr → ℚ}

/-- The network after a visit. -/
structure Visited (Z : Addr → Prop) (Q : Terms) (speeds : List Nat) (roots : List Addr) (supply : Addr → ℚ) (h h' : Heap ℚ) (U W : Addr → Prop)
    (node : Addr) (X : Addr → Prop) : Prop where
  mixed : ∃ T' f', Mixed Z Q speeds roots supply h' (Within h U h') T' f'
  done : (h'.get node).expands = []
  advance : Advance Z h h' U W node X
  evolved : Evolved True 0 h U h'
  kept : tally roots h' (Within h U h') = tally roots h U

theorem evolved_run (M : Mixed Z Q speeds roots supply h U T f) (Tm : Tame cfg h U) {node : Addr} (hU : U node) {e : Expand ℚ} {es : List (Expand ℚ)}
    (he : (h.get node).expands = e :: es) {u : Int × Int} (hr : runExpand cfg (popped h node es) node e = .ok (h', u)) :
    Evolved True 0 h U h' :=
  ((Ends.iff.1 (ends_runExpand (strict := True) cfg M.region (fun _ => Tm) node hU e es he)).2 _ hr).1

/-- The division or the extraction that is pending. -/
theorem Mixed.out_run (M : Mixed Z Q speeds roots supply h U T f) (Tm : Tame cfg h U) {node : Addr} (hU : U node) {e : Expand ℚ} {post : List (Expand ℚ)}
    (he : (h.get node).expands = e :: post) (O : Outlet Z speeds roots h T f node [e]) (hpost : ∀ e ∈ post, e = .merge (cap roots node))
    (hA : ¬ Above h U node) :
    ∃ h' u, ∃ V : ℚ, 0 < V ∧ V ≤ cfg.limit ∧ runExpand cfg (popped h node post) node e = .ok (h', u) ∧ Unfolded Z roots h h' node V ∧
      T node = (h.get node).value ∧ (node ∈ roots ↔ (h.get node).parents = []) ∧ ∀ c ∈ (h.get node).children, f node c = (h.get c).value := by
  cases O with
  | divide d q1 q2 q3 q4 =>
    have hv : 0 < (h.get node).value := by
      obtain ⟨c, hc⟩ := List.exists_mem_of_length_pos (by rw [q1.count]; have := q1.two; omega : 0 < (h.get node).children.length)
      have h1 := M.pos node hU c hc
      rw [(q4 c hc).1, q1.share c hc] at h1
      have h2 := q1.nonneg
      exact lt_of_le_of_ne h2 fun e => by rw [← e] at h1; simp at h1
    obtain ⟨h', u, V, w1, w2, w3, w4⟩ := M.divide_run Tm hU he hpost q1 q3 hv hA q4
    exact ⟨h', u, V, w1, w2, w3, w4, q2, q3, fun c hc => (q4 c hc).1⟩
  | extract v c x y q1 q2 q3 q4 =>
    obtain ⟨h', u, V, w1, w2, w3, w4⟩ := M.extract_run Tm hU he hpost q1 q3 hA q4
    exact ⟨h', u, V, w1, w2, w3, w4, q2, q3, fun c hc => (q4 c hc).1⟩

theorem runExpands_nil (cfg : Config) (F : Nat) {node : Addr} (he : (h.get node).expands = []) : runExpands cfg F h node = .ok (h, []) := by
  rw [runExpands.eq_def]
  simp only [he]

theorem runExpands_cons (cfg : Config) (F : Nat) {node : Addr} {e : Expand ℚ} {es : List (Expand ℚ)} (he : (h.get node).expands = e :: es)
    {u : Int × Int} (hr : runExpand cfg (popped h node es) node e = .ok (h', u)) :
    runExpands cfg (F + 1) h node = runExpands cfg F h' node >>= fun x => .ok (x.1, u :: x.2) := by
  rw [runExpands.eq_def]
  simp only [he]
  rw [show h.modify node (fun o => { o with expands := es }) = popped h node es from rfl, hr]
  rfl

theorem runExpands_zero (cfg : Config) {node : Addr} {e : Expand ℚ} {es : List (Expand ℚ)} (he : (h.get node).expands = e :: es) :
    runExpands cfg 0 h node = .error .diverge := by
  rw [runExpands.eq_def]
  simp only [he]

/-- Two stages of a visit. -/
theorem Visited.trans {W X Y : Addr → Prop} {h₁ h₂ : Heap ℚ} {node : Addr} (R : Region h U) (hn : U node) (A : Advance Z h h₁ U W node X)
    (E : Evolved True 0 h U h₁) (K : tally roots h₁ (Within h U h₁) = tally roots h U) (V : Visited Z Q speeds roots supply h₁ h₂ (Within h U h₁) W node Y) :
    Visited Z Q speeds roots supply h h₂ U W node (fun a => X a ∨ Y a) := by
  have e := within_within (U := U) E.next V.evolved.next
  refine ⟨?_, V.done, A.trans R hn E.region V.advance, E.trans R.inside V.evolved, ?_⟩
  · rw [← e]
    exact V.mixed
  · rw [← e, V.kept, K]

/-- The merges that are pending in the end. -/
theorem Mixed.posts {node : Addr} {W : Addr → Prop} (hZ : Z node) : ∀ (post : List (Expand ℚ)) (F : Nat) (h : Heap ℚ) (U : Addr → Prop) (T : Addr → ℚ)
    (f : Addr → Addr → ℚ), Mixed Z Q speeds roots supply h U T f → Tame cfg h U → U node → (∀ a, W a → U a) → (h.get node).expands = post →
    (∀ e ∈ post, e = .merge (cap roots node)) → ¬ Above h U node →
    (∀ a, W a → a ∈ (h.get node).parents → (h.get a).children = [node] ∨
      a ∉ (h.get node).parents.drop (untouched (cap roots node) (h.get node).parents.length)) →
    runExpands cfg F h node = .error .diverge ∨
      ∃ h' us X, runExpands cfg F h node = .ok (h', us) ∧ Visited Z Q speeds roots supply h h' U W node X := by
  intro post
  induction post with
  | nil =>
    intro F h U T f M _ _ _ he _ _ _
    refine .inr ⟨h, [], _, runExpands_nil cfg F he, ⟨T, f, ?_⟩, he, Advance.refl Z h U W node, M.region.evolved True, by rw [within_self]⟩
    rw [within_self]
    exact M
  | cons e post ih =>
    intro F h U T f M Tm hU hW he hm hA hq
    cases F with
    | zero => exact .inl (runExpands_zero cfg he)
    | succ F =>
      have hm0 := hm e (by simp)
      subst hm0
      have hmerge : ∀ e ∈ (h.get node).expands, ∃ t, e = .merge t := fun e w => by
        rw [he] at w
        exact ⟨_, hm e w⟩
      have hP : Parted (cap roots node) (h.get node).parents := by
        have := (M.fits node hU).resolve_left hA
        unfold Lodges at this
        rw [loops_merges hmerge, List.map_nil, List.append_nil] at this
        have := Parted.map this (Sum.elim id (fun _ => 0)) (fun x hx y hy e => by
          rcases x with x | x <;> rcases y with y | y <;> simp at hx hy e ⊢
          exact e)
        simpa [Function.comp_def] using this
      have O : Outlet Z speeds roots h T f node [] := by
        obtain ⟨mg, es, po, q1, q2, -⟩ := M.jobs node hU
        have : es = [] := by
          by_contra w
          obtain ⟨⟨e, w1, w2⟩, -⟩ := q2.below w
          obtain ⟨t, w3⟩ := hmerge e (by rw [q1, w1]; simp)
          exact w2 t w3
        rw [← this]
        exact q2
      obtain ⟨h₁, u, hr, N⟩ := M.merge_run (cfg := cfg) hU post (cap_bounds roots node).1 hP
      have E := evolved_run M Tm hU he hr
      have T1 := Tm.evolved trivial E
      have A := N.advance W hW M hU he E.region hq
      obtain ⟨T', f', M1⟩ := M.join hU (es := []) (post := post) he O (fun e w => hm e (List.mem_cons_of_mem _ w)) N le_rfl (.inl hZ) hA (by
        apply parted_few
        rw [loops_merges hmerge]
        simpa using N.few) (fun hb => by
        obtain ⟨y, hy⟩ := Option.ne_none_iff_exists'.1 hb
        refine ⟨?_, together_few ?_⟩
        · have := ((M.labels y hy).tidy node hU).resolve_left hA
          rw [loops_merges hmerge, List.map_nil, List.append_nil] at this
          have := this.map (Sum.elim id (fun _ => 0)) (fun x hx y hy e => by
            rcases x with x | x <;> rcases y with y | y <;> simp at hx hy e ⊢
            exact e)
          simpa [Function.comp_def] using this
        · rw [loops_merges hmerge]
          have := N.few
          have := (cap_bounds roots node).2
          simp
          omega) hP (fun w => cap_ne w) E.region T1.levels
      have e1 : (h₁.get node).expands = post := by rw [N.keptNode]
      rw [runExpands_cons cfg F he hr]
      rcases ih F h₁ _ T' f' M1 T1 (.inl hU) (fun a ha => .inl (hW a ha)) e1 (fun e w => hm e (List.mem_cons_of_mem _ w))
        (fun w => hA (A.down node hU w)) (fun a _ _ => .inr (by
          unfold untouched
          rw [if_pos N.few, List.drop_length]
          simp)) with w | ⟨h', us, Y, w, V⟩
      · exact .inl (by rw [w]; rfl)
      · exact .inr ⟨h', u :: us, _, by rw [w]; rfl, V.trans M.region hU A E (N.tally M hU he hA)⟩

/-- Nodes whose children are looked after. -/
abbrev strictly (Z U : Addr → Prop) (node : Addr) : Addr → Prop := fun a => ¬ Z node ∧ U a

/-- Everything but a merge that comes first. -/
theorem Mixed.rest (M : Mixed Z Q speeds roots supply h U T f) (Tm : Tame cfg h U) {node : Addr} (hU : U node) (hA : ¬ Above h U node)
    (hQ : ∀ b, Q.bound b → cfg.limit ≤ b) {W : Addr → Prop} (hW : ∀ a, W a → ¬ Z node ∧ U a) {es post : List (Expand ℚ)} (he : (h.get node).expands = es ++ post)
    (O : Outlet Z speeds roots h T f node es) (hpost : ∀ e ∈ post, e = .merge (cap roots node)) (hZ : Z node ∨ post = []) (F : Nat) :
    runExpands cfg F h node = .error .diverge ∨
      ∃ h' us X, runExpands cfg F h node = .ok (h', us) ∧ Visited Z Q speeds roots supply h h' U W node X := by
  by_cases hes : es = []
  · subst hes
    rcases hZ with hZ | hZ
    · exact Mixed.posts hZ post F h U T f M Tm hU (fun a ha => (hW a ha).2) he hpost hA fun a ha => absurd hZ (hW a ha).1
    · subst hZ
      have he : (h.get node).expands = [] := he
      refine .inr ⟨h, [], _, runExpands_nil cfg F he, ⟨T, f, ?_⟩, he, Advance.refl Z h U W node, M.region.evolved True, by rw [within_self]⟩
      rw [within_self]
      exact M
  · obtain ⟨⟨e, rfl, hem⟩, h2, hb⟩ := O.below hes
    have he' : (h.get node).expands = e :: post := he
    cases F with
    | zero => exact .inl (runExpands_zero cfg he')
    | succ F =>
      obtain ⟨h₁, u, V, v0, v1, hr, S, q1, q2, q3⟩ := M.out_run Tm hU he' O hpost hA
      have E := evolved_run M Tm hU he' hr
      have T1 := Tm.evolved trivial E
      have A := S.advance W (fun a ha => (hW a ha).2) M.region hU ⟨e, by rw [he']; simp, hem⟩ (fun c hc => (hb c hc).1) (fun w => by rw [w] at h2; simp at h2)
      obtain ⟨T', f', M1⟩ := M.spread hU S.spread rfl (fun c hc => ⟨(hb c hc).1, q3 c hc, (hb c hc).2⟩) q1 hA v0 (fun b w => v1.trans (hQ b w))
        S.merges S.few S.fit S.fitOut S.light E.region (fun y hy => by
          have Y := M.labels y hy
          refine ⟨?_, S.neat ((Y.tidy node hU).resolve_left hA), fun c hc => S.neatOut c hc (fun x hx => Y.tidyOut node hU x hx c hc)
            fun d hd => Y.tidyDiv node hU d hd c hc⟩
          rw [Y.owed node hU e (by rw [he']; simp) hem, ← S.charged e (by rw [he']; simp) hem]) S.lead T1.levels
      have hA1 : ¬ Above h₁ (Within h U h₁) node := fun w => hA (A.down node hU w)
      rw [runExpands_cons cfg F he' hr]
      rcases Mixed.posts (W := W) (.inr rfl) _ F h₁ _ T' f' M1 T1 (.inl hU) (fun a ha => .inl (hW a ha).2) rfl S.merges hA1 (fun a ha hp =>
        S.gentle q2.1 M.region.inside (fun p hp => ⟨M.region.parents node hU p hp, fun w => M.apart node hU (w ▸ hp)⟩)
          ((M.easy node hU).resolve_left (hW a ha).1) a (hW a ha).2 hp) with w | ⟨h', us, Y, w, V⟩
      · exact .inl (by rw [w]; rfl)
      · refine .inr ⟨h', u :: us, _, by rw [w]; rfl, Visited.trans (Y := Y) M.region hU A E (S.tally M hU hA) ⟨?_, V.done, ?_, V.evolved, V.kept⟩⟩
        · obtain ⟨T2, f2, M2⟩ := V.mixed
          exact ⟨T2, f2, M2.calm V.done fun w => hA1 (V.advance.down node (.inl hU) w)⟩
        · have B := V.advance
          refine { B with same := fun a ha hne => ?_ }
          rcases B.same a ha hne with q | ⟨q, q'⟩
          · exact .inl q
          · exact .inr ⟨q.resolve_right hne, q'⟩

/-- What a node has to do is done when it is visited. -/
theorem Mixed.visit (M : Mixed Z Q speeds roots supply h U T f) (Tm : Tame cfg h U) {node : Addr} (hU : U node) (hA : ¬ Above h U node)
    (hQ : ∀ b, Q.bound b → cfg.limit ≤ b) (F : Nat) :
    runExpands cfg F h node = .error .diverge ∨
      ∃ h' us X, runExpands cfg F h node = .ok (h', us) ∧ Visited Z Q speeds roots supply h h' U (strictly Z U node) node X := by
  obtain ⟨mg, es, post, he, O, hmg⟩ := M.jobs node hU
  rcases hmg with ⟨rfl, G, rfl⟩ | ⟨rfl, h1, h2, h3⟩
  · have he' : (h.get node).expands = .merge 3 :: (es ++ []) := by rw [he]; simp
    cases F with
    | zero => exact .inl (runExpands_zero cfg he')
    | succ F =>
      have hcap : cap roots node = 3 := cap_ne G.inner
      have hmany := G.many
      have hP : Parted 3 (h.get node).parents := List.disjoint_take_drop G.nodup le_rfl
      obtain ⟨h₁, u, hr, N⟩ := M.merge_run (cfg := cfg) hU (es ++ []) (by omega : 2 ≤ 3) hP
      have E := evolved_run M Tm hU he' hr
      have T1 := Tm.evolved trivial E
      have A := N.advance (strictly Z U node) (fun a ha => ha.2) M hU he' E.region fun a _ hp => .inl (G.only a hp).2.1
      obtain ⟨T', f', M1⟩ := M.join hU he' O (by simp) N (by omega) (.inr ⟨rfl, fun p hp => (G.only p hp).2.1⟩) hA (by
        obtain ⟨ms, o1, o2⟩ := N.order
        rcases o2 with ⟨-, o2⟩ | ⟨m, o2, o3, -⟩
        · omega
        · rw [hcap]
          apply parted_nodup
          · rw [o1, o2, List.nodup_append]
            refine ⟨G.nodup.sublist (List.take_sublist _ _), List.nodup_singleton m, fun x hx y hy e => ?_⟩
            rw [List.mem_singleton.1 hy] at e
            have := M.region.inside x (M.region.parents node hU x (List.mem_of_mem_take hx))
            omega
          · rw [o1, o2]
            have := untouched_pos hmany
            have := untouched_le hmany
            rw [List.length_append, List.length_take, List.length_singleton]
            omega) (fun hb => by
        obtain ⟨y, hy⟩ := Option.ne_none_iff_exists'.1 hb
        refine ⟨together_nodup G.nodup, ?_⟩
        have hl : Together (loops h node) := by
          have := (((M.labels y hy).tidy node hU).resolve_left hA).right.map (Sum.elim (fun _ => (0, 0)) id) (fun x hx y hy e => by
            rcases x with x | x <;> rcases y with y | y <;> simp at hx hy e ⊢
            exact e)
          simpa [Function.comp_def] using this
        obtain ⟨ms, o1, o2⟩ := N.order
        rcases o2 with ⟨-, o2⟩ | ⟨m, o2, o3, -⟩
        · omega
        · refine together_append ?_ hl
          rw [o1, o2, List.nodup_append]
          refine ⟨G.nodup.sublist (List.take_sublist _ _), List.nodup_singleton m, fun x hx y hy e => ?_⟩
          rw [List.mem_singleton.1 hy] at e
          have := M.region.inside x (M.region.parents node hU x (List.mem_of_mem_take hx))
          omega) hP (fun _ => rfl) E.region T1.levels
      have e1 : (h₁.get node).expands = es ++ [] := by rw [N.keptNode]
      have O1 : Outlet Z speeds roots h₁ T' f' node es := by
        obtain ⟨mg, es', post', w1, w2, w3⟩ := M1.jobs node (.inl hU)
        rcases w3 with ⟨-, w3, -⟩ | ⟨rfl, w3, -, -⟩
        · have := w3.many
          have := N.few
          omega
        · rw [e1, List.append_nil, List.nil_append] at w1
          have : post' = [] := by
            by_contra q
            obtain ⟨e, hx⟩ := List.exists_mem_of_ne_nil _ q
            have hes : es ≠ [] := fun w => by rw [w] at w1; simp at w1; exact q w1.2
            obtain ⟨⟨e', k1, k2⟩, -⟩ := O.below hes
            have hx' : e ∈ es := by rw [w1]; simp [hx]
            rw [k1, List.mem_singleton] at hx'
            exact k2 _ (hx'.symm.trans (w3 e hx))
          rw [this, List.append_nil] at w1
          rw [w1]
          exact w2
      rw [runExpands_cons cfg F he' hr]
      rcases M1.rest T1 (.inl hU) (fun w => hA (A.down node hU w)) hQ (W := strictly Z U node) (fun a ha => ⟨ha.1, .inl ha.2⟩) e1 O1 (by simp) (.inr rfl) F
        with w | ⟨h', us, Y, w, V⟩
      · exact .inl (by rw [w]; rfl)
      · exact .inr ⟨h', u :: us, _, by rw [w]; rfl, V.trans M.region hU A E (N.tally M hU he' hA)⟩
  · exact M.rest Tm hU hA hQ (fun a ha => ha) he O h1 h3 F

end Satis.Graph
