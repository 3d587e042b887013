import Verif.Solver.Facts
import Verif.Solver.Stop
/-!
# The proposed moves
-/

namespace Satis.Solver
open Satis Satis.Graph Satis.Utils Satis.Cost

theorem Yields.some {r : Py (Option Move)} {cond : Prop} {m m' : Move} (h : Yields r cond m) (e : r = .ok (some m')) :
    cond ∧ m' = m := by
  by_cases hc : cond
  · rw [h.1 hc] at e
    injection e with e; injection e with e
    exact ⟨hc, e.symm⟩
  · rw [h.2 hc] at e
    injection e with e; cases e

theorem Proposed.net {P : Problem} (hP : P.WF) {h0 : Heap Int} {s : Search} {t : TreeObj Int} {g : Net} {loc : Nat → Addr}
    (hr0 : Rep h0 t g loc) (hr : Rep s.heap t g loc) (hg : g.WF) {m : Move} (h : Proposed P h0 s t m) :
    m.sim = (g.child P.cfg m.op m.cost).vals ∧ Adm P.cfg g m.op ∧ seenState s t m.sim = false ∧
      (∀ i ∈ m.op.consumed, ∃ v, g.vals[i]? = some v ∧ ¬ Needed P.targetValues g.vals v) := by
  have hvals : valuesOf h0 t.sources = g.vals := by
    rw [← hr0.vals, ← hr0.values hg]; rfl
  have hcu := mem_computeCantUse (targets := P.targetValues) hP.counts (valuesOf h0 t.sources)
  simp only [hvals] at hcu
  have hval : ∀ i, i < g.srcs.length → (h0.get (loc (g.src i))).value = (g.node (g.src i)).value := fun i hi =>
    hr0.nodes.value _ ((hg.memSrcs _).1 (Net.src_mem hi)).1
  have hpos : ∀ i, i < g.srcs.length → 0 < (g.node (g.src i)).value := fun i hi =>
    hg.pos _ ((hg.memSrcs _).1 (Net.src_mem hi)).1
  cases h with
  | @extract i a c m h1 h2 =>
    rw [hvals] at h2
    have hc : t.sources[i]? = some a ∧ 0 < c ∧ 2 * c < (h0.get a).value := by
      unfold extractCands at h1
      simp only [List.mem_flatMap, List.mem_map, Prod.exists, Prod.mk.injEq, List.mem_zipIdx_iff_getElem?, List.mem_range] at h1
      obtain ⟨a', i', h3, k, hk, rfl, rfl, rfl⟩ := h1
      exact ⟨h3, by omega, by omega⟩
    obtain ⟨h3, h4, h5⟩ := hc
    obtain ⟨h6, rfl⟩ := hr.src_loc h3
    rw [hval i h6] at h5
    obtain ⟨q1, rfl⟩ := (extractMove_yields hr hg hcu h6 h4 h5).some h2
    refine ⟨rfl, ⟨h6, h4, by omega⟩, by simpa using q1.2.2, ?_⟩
    intro j hj
    simp only [Op.consumed, List.mem_singleton] at hj
    subst hj
    exact ⟨_, Net.vals_get h6, q1.1.1⟩
  | @divide i a d m h1 h2 =>
    rw [hvals] at h2
    have hc : t.sources[i]? = some a ∧ d ∈ getDivisors (h0.get a).value := by
      unfold divideCands at h1
      simp only [List.mem_flatMap, List.mem_map, Prod.exists, Prod.mk.injEq, List.mem_zipIdx_iff_getElem?] at h1
      obtain ⟨a', i', h3, k, hk, rfl, rfl, rfl⟩ := h1
      exact ⟨h3, hk⟩
    obtain ⟨h3, h4⟩ := hc
    obtain ⟨h6, rfl⟩ := hr.src_loc h3
    rw [hval i h6] at h4
    have h5 : 2 ≤ d ∧ (d : Int) ∣ (g.node (g.src i)).value := by
      simp only [getDivisors, List.mem_filter, List.mem_range'_1, decide_eq_true_eq, ← Int.dvd_iff_emod_eq_zero] at h4
      exact ⟨h4.1.1, h4.2⟩
    obtain ⟨q1, rfl⟩ := (divideMove_yields hr hg hcu h6 h5.1 h5.2).some h2
    refine ⟨rfl, ⟨h6, h5.1, h5.2⟩, by simpa using q1.2.2, ?_⟩
    intro j hj
    simp only [Op.consumed, List.mem_singleton] at hj
    subst hj
    exact ⟨_, Net.vals_get h6, q1.1.1⟩
  | @split i a m h1 h2 =>
    rw [hvals] at h2
    rw [List.mem_zipIdx_iff_getElem?] at h1
    obtain ⟨h6, e⟩ := hr.src_loc h1
    simp only at e h6
    subst e
    obtain ⟨q1, rfl⟩ := (splitMove_yields hP hr hg hcu h6).some h2
    refine ⟨rfl, ⟨h6, ?_, ?_, ?_⟩, by simpa using q1.2, ?_⟩
    · obtain ⟨⟨w, hw, e⟩, _⟩ := q1.1.2.1
      unfold isSpeed
      rw [decide_eq_true_eq, List.mem_map]; exact ⟨w, hw, e⟩
    · have := q1.1.2.2.1
      have := hP.gcd
      omega
    · have := q1.1.2.2.2.1
      have := hP.gcd
      omega
    · intro j hj
      simp only [Op.consumed, List.mem_singleton] at hj
      subst hj
      exact ⟨_, Net.vals_get h6, q1.1.1⟩
  | @merge k cands idx vs m h1 h2 h3 h4 =>
    rw [hvals] at h4
    have hmc : mergeCands t k = .ok ((combinations (List.range g.srcs.length) k).map fun idx =>
        (idx, idx.map fun i => (g.node (g.src i)).value)) := by
      unfold mergeCands
      rw [hr.nSources]
      apply mapM_ok
      intro idx hidx
      rw [mem_combinations] at hidx
      rw [hr.vals, pick_vals idx (sublist_range_lt hidx.1)]
    rw [h2] at hmc
    injection hmc with hmc
    subst hmc
    obtain ⟨idx', hidx, e⟩ := List.mem_map.1 h3
    injection e with e1 e2
    subst e1; subst e2
    rw [mem_combinations] at hidx
    have ha : Adm P.cfg g (.merge idx') := ⟨hidx.1, by rw [hidx.2]; exact h1⟩
    obtain ⟨q1, rfl⟩ := (mergeMove_yields hr hg hcu ha _).some h4
    refine ⟨rfl, ha, by simpa using q1.2, ?_⟩
    intro j hj
    have hj' := sublist_range_lt hidx.1 j hj
    exact ⟨_, Net.vals_get hj', q1.1.1 j hj⟩

end Satis.Solver
