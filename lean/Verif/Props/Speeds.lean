import Verif.Side.SpeedsFacts

/-!
C74: the graph of belt speeds of `tests/generate.py` is complete.
-/

namespace Satis.Speeds

/-- C74.  Whatever positive first speeds up to the bound it is given, the script ends; the nodes are exactly the speeds
that can be reached by halving, thirds, doubling and tripling, each once; two nodes are joined exactly if one is twice
or three times the other, by one edge, whose label is that factor. -/
theorem C74_speeds (limit : ℕ) (start : List ℕ) (hnd : start.Nodup) (hpos : ∀ v ∈ start, 0 < v ∧ v ≤ limit) :
    ∃ g, (∀ fuel, limit < fuel → generate fuel limit start = some g) ∧
      g.nodes.Nodup ∧ (∀ v, v ∈ g.nodes ↔ Reached limit start v) ∧
      (∀ u v, g.hasEdge u v = true ↔ u ∈ g.nodes ∧ v ∈ g.nodes ∧ ∃ k, Ratio k u v) ∧
      (∀ e ∈ g.edges, Ratio e.2.2 e.1 e.2.1) ∧
      g.edges.Pairwise (fun e f => ¬ ((e.1 = f.1 ∧ e.2.1 = f.2.1) ∨ (e.1 = f.2.1 ∧ e.2.1 = f.1))) := by
  have h0 : Fine limit start ⟨start, []⟩ :=
    ⟨hnd, fun v hv => (hpos v hv).1, fun v hv => (hpos v hv).2, fun v hv => .start hv, fun e he => by simp at he,
      List.Pairwise.nil⟩
  obtain ⟨g, h1, h2, h3, h4⟩ := loop_ends limit 0 ⟨start, []⟩ h0 (List.Subset.refl _) (Nat.zero_le _) (by omega)
    (fun v hv => by simp at hv)
  refine ⟨g, h1, h2.nodup, ?_, ?_, fun e he => (h2.ends e he).2.2, h2.once⟩
  · intro v
    refine ⟨h2.reached v, fun hv => ?_⟩
    induction hv with
    | start h => exact h3 h
    | up k _ hk hl ih => exact (h4 _ ih k _ ⟨hk, Or.inl rfl⟩ hl).1
    | down k _ hk hl ih => exact (h4 _ ih k _ ⟨hk, Or.inr rfl⟩ hl).1
  · intro u v
    constructor
    · intro h
      obtain ⟨e, he, h⟩ := hasEdge_iff.mp h
      obtain ⟨a, b, c⟩ := h2.ends e he
      rcases h with ⟨rfl, rfl⟩ | ⟨rfl, rfl⟩
      · exact ⟨a, b, _, c⟩
      · exact ⟨b, a, _, c.symm⟩
    · rintro ⟨hu, hv, k, hk⟩
      exact (h4 u hu k v hk (h2.bound v hv)).2

/-- The factor between two speeds is determined, so the label is too. -/
theorem C74_label {k l a b : ℕ} (ha : 0 < a) (h : Ratio k a b) (h' : Ratio l a b) : k = l := h.label ha h'

-- With the bound 12 and the first speed 4: eight speeds, nine edges.
example : (generate 13 12 [4]).map (fun g => (g.nodes, g.edges.length)) =
    some ([4, 2, 8, 12, 1, 6, 3, 9], 9) := by decide +kernel

-- The speeds of the script itself give the nodes and edges stored in tests/graph_data.json.
example : (generate 2001 2000 [60, 120, 270, 480, 780, 1200]).map
    (fun g => (g.nodes.length, g.edges.length)) = some (61, 87) := by decide +kernel

/-- tests/graph_data.json: the ids of the nodes. -/
def storedNodes : List ℕ :=
    [5, 10, 15, 20, 25, 30, 40, 45, 50, 60, 65, 75, 80, 90, 100, 120, 130, 135, 150, 160, 180, 195, 200, 225,
    240, 260, 270, 300, 320, 360, 390, 400, 405, 450, 480, 520, 540, 585, 600, 640, 675, 720, 780, 800, 810,
    900, 960, 1040, 1080, 1170, 1200, 1215, 1280, 1350, 1440, 1560, 1600, 1620, 1755, 1800, 1920]

/-- tests/graph_data.json: the links, the slower speed first, with their labels. -/
def storedLinks : List (ℕ × ℕ × ℕ) :=
    [(5, 10, 2), (5, 15, 3), (10, 20, 2), (10, 30, 3), (15, 30, 2), (15, 45, 3), (20, 40, 2), (20, 60, 3),
    (25, 50, 2), (25, 75, 3), (30, 60, 2), (30, 90, 3), (40, 80, 2), (40, 120, 3), (45, 90, 2), (45, 135,
    3), (50, 100, 2), (50, 150, 3), (60, 120, 2), (60, 180, 3), (65, 130, 2), (65, 195, 3), (75, 150, 2),
    (75, 225, 3), (80, 160, 2), (80, 240, 3), (90, 180, 2), (90, 270, 3), (100, 200, 2), (100, 300, 3),
    (120, 240, 2), (120, 360, 3), (130, 260, 2), (130, 390, 3), (135, 270, 2), (135, 405, 3), (150, 300, 2),
    (150, 450, 3), (160, 320, 2), (160, 480, 3), (180, 360, 2), (180, 540, 3), (195, 390, 2), (195, 585, 3),
    (200, 400, 2), (200, 600, 3), (225, 450, 2), (225, 675, 3), (240, 480, 2), (240, 720, 3), (260, 520, 2),
    (260, 780, 3), (270, 540, 2), (270, 810, 3), (300, 600, 2), (300, 900, 3), (320, 640, 2), (320, 960, 3),
    (360, 720, 2), (360, 1080, 3), (390, 780, 2), (390, 1170, 3), (400, 800, 2), (400, 1200, 3), (405, 810,
    2), (405, 1215, 3), (450, 900, 2), (450, 1350, 3), (480, 960, 2), (480, 1440, 3), (520, 1040, 2), (520,
    1560, 3), (540, 1080, 2), (540, 1620, 3), (585, 1170, 2), (585, 1755, 3), (600, 1200, 2), (600, 1800,
    3), (640, 1280, 2), (640, 1920, 3), (675, 1350, 2), (720, 1440, 2), (780, 1560, 2), (800, 1600, 2),
    (810, 1620, 2), (900, 1800, 2), (960, 1920, 2)]

example : (generate 2001 2000 [60, 120, 270, 480, 780, 1200]).map (fun g =>
    storedNodes.all (fun v => g.nodes.contains v) &&
      storedLinks.all (fun e => g.edges.contains e || g.edges.contains (e.2.1, e.1, e.2.2))) = some true := by
  decide +kernel

end Satis.Speeds
