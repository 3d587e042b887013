import Verif.Graph.PlainSpec
import Verif.Graph.DeliverWalk
import Verif.Cost.Unique
/-!
# Networks that are not expanded at all
-/

namespace Satis.Graph
open Satis Satis.Cost Satis.Spec

variable {speeds : List Nat} {roots : List Addr} {h : Heap ℚ}

theorem places_perm {n m : Nat} {b b' s s' : List Nat} (hb : b.Perm b') (hs : s.Perm s') : places n m b s = places n m b' s' := by
  unfold places
  simp only [hb.count_eq, hs.count_eq]

theorem gcd_quot {v c : Nat} (hc : 0 < c) (hv : c < v) : v / Nat.gcd v c ≠ 0 := by
  have hg : 0 < Nat.gcd v c := Nat.gcd_pos_of_pos_right v hc
  have := Nat.div_pos (Nat.le_of_dvd (by omega) (Nat.gcd_dvd_left v c)) hg
  omega

theorem gcd_quot_sub {v c : Nat} (hc : 0 < c) : (v - c) / Nat.gcd v c = v / Nat.gcd v c - c / Nat.gcd v c := by
  have hg : 0 < Nat.gcd v c := Nat.gcd_pos_of_pos_right v hc
  apply Nat.div_eq_of_eq_mul_left hg
  rw [Nat.sub_mul, Nat.div_mul_cancel (Nat.gcd_dvd_left v c), Nat.div_mul_cancel (Nat.gcd_dvd_right v c)]

theorem back_divide (v : ℚ) {d : Nat} (hd : 2 ≤ d) : Back v [.divide d] (backs v (.divide d)) := by
  obtain ⟨n, m, h1, h2⟩ := findNML_best d (by omega)
  have : backs v (.divide d) = places n m [] (gsel n m (L n m - d) (L n m - d)) := by
    simp [backs, h1]
  rw [this]
  exact .divide h2 (gsel_fewest n m _)

theorem back_extract {v c : Nat} (hc : 0 < c) (hv : c < v) : Back (v : ℚ) [.extract (c : ℚ)] (backs (v : ℚ) (.extract (c : ℚ))) := by
  obtain ⟨n, m, h1, h2⟩ := findNML_best _ (gcd_quot hc hv)
  have : backs (v : ℚ) (.extract (c : ℚ)) = places n m [] (gsel n m (L n m - v / Nat.gcd v c) (L n m - v / Nat.gcd v c)) := by
    simp [backs, h1]
  rw [this]
  exact .extract rfl h2 (gsel_fewest n m _)

theorem Job.back {a : Addr} {es : List (Expand ℚ)} (J : Job speeds h a es) : Back (h.get a).value es (es.flatMap (backs (h.get a).value)) := by
  cases J with
  | leaf => exact .none
  | pass => exact .none
  | few => exact .none
  | belt => exact .none
  | divide d q => simpa using back_divide (h.get a).value q.two
  | extract v c x y q =>
    have := back_extract q.pos q.lt
    rw [← q.value] at this
    simpa using this

theorem forth_spec {v c : Nat} (k : Nat) (hc : 0 < c) (hv : c < v) : Forth v c k (forth v c k) := by
  obtain ⟨n, m, h1, h2⟩ := findNML_best _ (gcd_quot hc hv)
  refine ⟨n, m, _, _, _, h2, gsel_fewest n m _, gsel_fewest n m _, gsel_fewest n m _, ?_⟩
  unfold forth
  simp only [Rat.num_natCast, Int.toNat_natCast, h1, Nat.cast_inj, gcd_quot_sub hc]
  rfl

theorem Back.eq {v : ℚ} {es : List (Expand ℚ)} {ls : List (Nat × Nat)} (B : Back v es ls)
    (hz : ∀ w c : Nat, v = w → .extract (c : ℚ) ∈ es → w / Nat.gcd w c ≠ 0) (hd : ∀ d, .divide d ∈ es → d ≠ 0) :
    ls = es.flatMap (backs v) := by
  cases B with
  | none => rfl
  | @divide d n m sel h1 h2 =>
    obtain ⟨n', m', f, h'⟩ := findNML_best d (hd d (by simp))
    obtain ⟨rfl, rfl⟩ := bestShape_unique h1 h'
    simp only [List.flatMap_cons, List.flatMap_nil, List.append_nil, backs, f]
    exact places_perm (.refl _) (fewest_unique n m _ _ le_rfl sel h2)
  | @extract w c n m sel e h1 h2 =>
    obtain ⟨n', m', f, h'⟩ := findNML_best (w / Nat.gcd w c) (hz w c e (by simp))
    obtain ⟨rfl, rfl⟩ := bestShape_unique h1 h'
    rw [e]
    simp only [List.flatMap_cons, List.flatMap_nil, List.append_nil, backs, Rat.num_natCast, Int.toNat_natCast, f]
    exact places_perm (.refl _) (fewest_unique n m _ _ le_rfl sel h2)

theorem Forth.eq {v c k : Nat} {ls : List (Nat × Nat)} (F : Forth v c k ls) (hc : 0 < c) (hv : c < v) : ls = forth v c k := by
  obtain ⟨n, m, l, o, r, h1, h2, h3, h4, e⟩ := F
  obtain ⟨n', m', l', o', r', h1', h2', h3', h4', e'⟩ := forth_spec k hc hv
  obtain ⟨rfl, rfl⟩ := bestShape_unique h1 h1'
  have u : ∀ {x s s'}, FewestCover n m x s → FewestCover n m x s' → s.Perm s' := fun {x s s'} w w' =>
    (fewest_unique n m _ _ le_rfl s w).trans (fewest_unique n m _ _ le_rfl s' w').symm
  rw [e, e']
  split
  · exact places_perm (u h2 h2') (u h3 h3')
  · exact places_perm ((u h2 h2').append (u h3 h3')) (u h4 h4')

/-- The belts that lead back to a node of a sound network. -/
theorem Job.back_eq {a : Addr} {es : List (Expand ℚ)} {ls : List (Nat × Nat)} (J : Job speeds h a es) (B : Back (h.get a).value es ls) :
    ls = es.flatMap (backs (h.get a).value) := by
  refine B.eq (fun w c hw hc => ?_) fun d hd => ?_
  · cases J with
    | extract v c' x y q =>
      rw [q.value] at hw
      obtain rfl : v = w := by exact_mod_cast hw
      simp only [List.mem_singleton, Expand.extract.injEq] at hc
      obtain rfl : c = c' := by exact_mod_cast hc
      exact gcd_quot q.pos q.lt
    | _ => simp at hc
  · cases J with
    | divide d' q =>
      have := q.two
      simp only [List.mem_singleton, Expand.divide.injEq] at hd
      omega
    | _ => simp at hd

theorem Sound.root_iff (S : Sound speeds h roots) {a : Addr} (ha : Reach h roots a) : a ∈ roots ↔ (h.get a).parents = [] := by
  refine ⟨S.top a, fun e => ?_⟩
  cases ha with
  | root w => exact w
  | @child b _ hb hc =>
    exfalso
    have h1 := S.links b a hb (.child hb hc)
    rw [e] at h1
    have := List.count_pos_iff.2 hc
    simp at h1
    omega

theorem Sound.jobs' (S : Sound speeds h roots) (U : ∀ a, Reach h roots a → ∀ c, .split c ∉ (h.get a).expands) {a : Addr} (ha : Reach h roots a) :
    ∃ es, Job speeds h a es ∧ (h.get a).expands = (if 3 < (h.get a).parents.length then [.merge 3] else []) ++ es ∧
      loops h a = es.flatMap (backs (h.get a).value) := by
  obtain ⟨es, h1, h2⟩ := S.jobs a ha
  rcases h1 with h1 | ⟨c, h1, -⟩
  · refine ⟨es, h1, h2, ?_⟩
    unfold loops
    rw [h2]
    split <;> simp [backs]
  · refine absurd ?_ (U a ha c)
    rw [h2, h1]
    simp

/-- An extraction that is pending, and its children. -/
theorem Sound.taken (S : Sound speeds h roots) (U : ∀ a, Reach h roots a → ∀ c, .split c ∉ (h.get a).expands) {a z : Addr} (ha : Reach h roots a)
    {v c : Nat} (hv : (h.get a).value = v) (hc : .extract (c : ℚ) ∈ (h.get a).expands) (hz : z ∈ (h.get a).children) :
    0 < c ∧ c < v ∧ ∀ (k : Nat) (ls ls' : List (Nat × Nat)), (h.get z).value = k → Forth v c k ls → Back (h.get z).value (h.get z).expands ls' →
      ls = forth v c (h.get z).value ∧ ls' = loops h z := by
  obtain ⟨es, J, h1, -⟩ := S.jobs' U ha
  obtain ⟨es', J', h1', h2'⟩ := S.jobs' U (.child ha hz)
  have hin : .extract (c : ℚ) ∈ es := by
    rw [h1] at hc
    rcases List.mem_append.1 hc with w | w
    · split at w <;> simp at w
    · exact w
  cases J with
  | extract v' c' x y q =>
    rw [q.value] at hv
    obtain rfl : v' = v := by exact_mod_cast hv
    simp only [List.mem_singleton, Expand.extract.injEq] at hin
    obtain rfl : c = c' := by exact_mod_cast hin
    refine ⟨q.pos, q.lt, fun k ls ls' hk hf hb => ?_⟩
    rw [S.tree a ha (by rw [q.children]; simp) z hz] at h1'
    simp only [List.length_singleton, Nat.reduceLT, if_false, List.nil_append] at h1'
    rw [h1'] at hb
    rw [J'.back_eq hb, hf.eq q.pos q.lt, h2', hk]
    exact ⟨rfl, rfl⟩
  | _ => simp at hin

/-- The belts that will lead back to a node are those that `loops` computes. -/
theorem Sound.back_loops (S : Sound speeds h roots) (U : ∀ a, Reach h roots a → ∀ c, .split c ∉ (h.get a).expands) {a : Addr} (ha : Reach h roots a)
    {es : List (Expand ℚ)} {ls : List (Nat × Nat)} (he : (h.get a).expands = es ∨ (h.get a).expands = .merge 3 :: es)
    (hb : Back (h.get a).value es ls) : ls = loops h a := by
  obtain ⟨es', J, h1, h2⟩ := S.jobs' U ha
  have hes : es = es' := by
    have nm : ∀ e ∈ es', ∀ t, e ≠ .merge t := by
      intro e he' t
      cases J <;> simp_all
    have nm' : ∀ e ∈ es, ∀ t, e ≠ .merge t := by
      intro e he' t
      cases hb <;> simp_all
    rw [h1] at he
    split at he
    · rcases he with he | he
      · exact absurd rfl (nm' (.merge 3) (by rw [← he]; simp) 3)
      · simpa using he.symm
    · rcases he with he | he
      · simpa using he.symm
      · exact absurd rfl (nm (.merge 3) (by rw [List.nil_append] at he; rw [he]; simp) 3)
  subst hes
  rw [J.back_eq hb, ← h2]

/-- Room for the belts can be checked with the trees that expansion makes. -/
theorem Sound.roomy (S : Sound speeds h roots) (U : ∀ a, Reach h roots a → ∀ c, .split c ∉ (h.get a).expands)
    (B : ∀ a, Reach h roots a → (∀ p ∈ (h.get a).parents, ∀ c, .extract c ∉ (h.get p).expands) →
      Lodges (cap roots a) h a (h.get a).parents)
    (F : ∀ a, Reach h roots a → ∀ v c : Nat, (h.get a).value = v → .extract c ∈ (h.get a).expands → ∀ z ∈ (h.get a).children,
      Lodges 3 h z (forth v c (h.get z).value)) : Roomy h roots := by
  refine ⟨U, fun a ha hp es ls he hb => ?_, fun a ha v c hv hc z hz k ls ls' hk hf hb => ?_⟩
  · rw [S.back_loops U ha he hb]
    exact B a ha hp
  · obtain ⟨-, -, w⟩ := S.taken U ha hv hc hz
    obtain ⟨rfl, rfl⟩ := w k ls ls' hk hf hb
    exact F a ha v c hv hc z hz

/-- So can tidiness. -/
theorem Sound.tidy (S : Sound speeds h roots) (U : ∀ a, Reach h roots a → ∀ c, .split c ∉ (h.get a).expands)
    (B : ∀ a, Reach h roots a → (∀ p ∈ (h.get a).parents, ∀ c, .extract c ∉ (h.get p).expands) → Together (loops h a))
    (F : ∀ a, Reach h roots a → ∀ v c : Nat, (h.get a).value = v → .extract c ∈ (h.get a).expands → ∀ z ∈ (h.get a).children,
      Together ((forth v c (h.get z).value).map Sum.inl ++ (loops h z).map Sum.inr)) : Tidy h roots := by
  refine ⟨fun a ha hp es ls he hb => ?_, fun a ha v c hv hc z hz k ls ls' hk hf hb => ?_⟩
  · rw [S.back_loops U ha he hb]
    exact B a ha hp
  · obtain ⟨-, -, w⟩ := S.taken U ha hv hc hz
    obtain ⟨rfl, rfl⟩ := w k ls ls' hk hf hb
    exact F a ha v c hv hc z hz

theorem Sound.light (S : Sound speeds h roots) (U : ∀ a, Reach h roots a → ∀ c, .split c ∉ (h.get a).expands)
    (F : ∀ a, Reach h roots a → ∀ v c : Nat, (h.get a).value = v → .extract c ∈ (h.get a).expands → ∀ z ∈ (h.get a).children,
      (h.get z).value = c → (forth v c c).length + (loops h z).length ≤ 3 ∨ (forth v c c).length ≤ 1) : Light h roots := by
  intro a ha v c hv hc z hz hk ls ls' hf hb
  obtain ⟨-, -, w⟩ := S.taken U ha hv hc hz
  obtain ⟨rfl, rfl⟩ := w c ls ls' hk hf hb
  rw [hk]
  exact F a ha v c hv hc z hz hk

/-- Nodes that take what is left of extractions. -/
def Remainder (h : Heap ℚ) (roots : List Addr) (z : Addr) : Prop :=
  ∃ a, Reach h roots a ∧ ∃ c : Nat, .extract (c : ℚ) ∈ (h.get a).expands ∧ z ∈ (h.get a).children ∧ (h.get z).value ≠ c

theorem Sound.trailing (S : Sound speeds h roots) (U : ∀ a, Reach h roots a → ∀ c, .split c ∉ (h.get a).expands) :
    Trailing (Remainder h roots) h (Reach h roots) := by
  rintro z ⟨a, ha, c, hc, hz, hzc⟩
  refine ⟨.child ha hz, fun p hp hzp => ?_⟩
  obtain ⟨es, J, h1, -⟩ := S.jobs' U ha
  have hin : .extract (c : ℚ) ∈ es := by
    rw [h1] at hc
    rcases List.mem_append.1 hc with w | w
    · split at w <;> simp at w
    · exact w
  have h2 : 2 ≤ (h.get a).children.length := by
    cases J with
    | extract v' c' x y q =>
      rw [q.children]
      simp
    | _ => simp at hin
  have hpar := S.tree a ha h2 z hz
  have : p ∈ (h.get z).parents := by
    rw [← List.count_pos_iff, ← S.links p z hp (.child ha hz)]
    exact List.count_pos_iff.2 hzp
  rw [hpar, List.mem_singleton] at this
  subst this
  exact ⟨c, hc, hzc⟩

open Classical in
/-- What nodes carry after the divisions and extractions pending for them. -/
noncomputable def dues (h : Heap ℚ) (roots : List Addr) (a : Addr) : Option ℚ :=
  if Reach h roots a then (h.get a).expands.findSome? fun e => match e with
    | .merge _ => none
    | e => some (charge (h.get a).value e)
  else none

theorem Sound.dues_none (S : Sound speeds h roots) {a : Addr} (ha : dues h roots a ≠ none) : Reach h roots a ∧ Pends h a := by
  unfold dues at ha
  split at ha
  · rename_i w
    refine ⟨w, ?_⟩
    by_contra q
    refine ha (List.findSome?_eq_none_iff.2 fun e he => ?_)
    cases e with
    | merge t => rfl
    | _ => exact absurd ⟨_, he, by simp⟩ q
  · exact absurd rfl ha

theorem Sound.dues_some (S : Sound speeds h roots) (U : ∀ a, Reach h roots a → ∀ c, .split c ∉ (h.get a).expands) {a : Addr} (ha : Reach h roots a)
    {e : Expand ℚ} (he : e ∈ (h.get a).expands) (hm : ∀ t, e ≠ .merge t) : dues h roots a = some (charge (h.get a).value e) := by
  obtain ⟨es, J, h1, -⟩ := S.jobs' U ha
  have hin : e ∈ es := by
    rw [h1] at he
    rcases List.mem_append.1 he with w | w
    · split at w
      · exact absurd (List.mem_singleton.1 w) (hm 3)
      · simp at w
    · exact w
  have hes : es = [e] := by cases J <;> simp_all
  unfold dues
  rw [if_pos ha, h1, hes, List.findSome?_append]
  cases e with
  | merge t => exact absurd rfl (hm t)
  | _ => split <;> rfl

theorem Sound.pends_two (S : Sound speeds h roots) (U : ∀ a, Reach h roots a → ∀ c, .split c ∉ (h.get a).expands) {a : Addr} (ha : Reach h roots a)
    (P : Pends h a) : 2 ≤ (h.get a).children.length := by
  obtain ⟨es, J, h1, -⟩ := S.jobs' U ha
  obtain ⟨e, he, hm⟩ := P
  rw [h1] at he
  rcases List.mem_append.1 he with w | w
  · split at w
    · exact absurd (List.mem_singleton.1 w) (hm 3)
    · simp at w
  · cases J with
    | divide d q => rw [q.count]; exact q.two
    | extract v c x y q => rw [q.children]; simp
    | _ => simp at w

/-- What a node carries after its expansion. -/
theorem Sound.dues_spec (S : Sound speeds h roots) (U : ∀ a, Reach h roots a → ∀ c, .split c ∉ (h.get a).expands) {a : Addr} (ha : Reach h roots a)
    {es : List (Expand ℚ)} {V : ℚ} (he : (h.get a).expands = es ∨ (h.get a).expands = .merge 3 :: es) (hV : Passes (h.get a).value es V) :
    dues h roots a = some V := by
  obtain ⟨es', J, h1, -⟩ := S.jobs' U ha
  cases hV with
  | @divide d n m hb =>
    have hin : .divide d ∈ (h.get a).expands := by rcases he with he | he <;> rw [he] <;> simp
    rw [S.dues_some U ha hin (by simp)]
    have hd : .divide d ∈ es' := by
      rw [h1] at hin
      rcases List.mem_append.1 hin with w | w
      · split at w <;> simp at w
      · exact w
    cases J with
    | divide d' q =>
      obtain rfl : d = d' := by simpa using hd
      have h2 := q.two
      obtain ⟨n', m', f, hb'⟩ := findNML_best d (by omega)
      obtain ⟨rfl, rfl⟩ := bestShape_unique hb hb'
      have hle : d ≤ L n m := complete_leaves n m ▸ hb.enough
      have hd0 : (d : ℚ) ≠ 0 := by exact_mod_cast (by omega : d ≠ 0)
      simp only [charge, f, Nat.cast_sub hle]
      congr 1
      unfold L
      push_cast
      field_simp
      ring
    | _ => simp at hd
  | @extract w c n m ev hb =>
    have hin : .extract (c : ℚ) ∈ (h.get a).expands := by rcases he with he | he <;> rw [he] <;> simp
    rw [S.dues_some U ha hin (by simp)]
    have hd : .extract (c : ℚ) ∈ es' := by
      rw [h1] at hin
      rcases List.mem_append.1 hin with w | w
      · split at w <;> simp at w
      · exact w
    cases J with
    | extract v c' x y q =>
      rw [q.value] at ev
      obtain rfl : v = w := by exact_mod_cast ev
      simp only [List.mem_singleton, Expand.extract.injEq] at hd
      obtain rfl : c = c' := by exact_mod_cast hd
      obtain ⟨n', m', f, hb'⟩ := findNML_best _ (gcd_quot q.pos q.lt)
      obtain ⟨rfl, rfl⟩ := bestShape_unique hb hb'
      have hle : v / Nat.gcd v c ≤ L n m := complete_leaves n m ▸ hb.enough
      simp only [charge, q.value, Rat.num_natCast, Int.toNat_natCast, f, Nat.cast_sub hle]
      congr 1
      have hg : (v : ℚ) = (v / Nat.gcd v c : ℕ) * (Nat.gcd v c : ℕ) := by
        exact_mod_cast (Nat.div_mul_cancel (Nat.gcd_dvd_left v c)).symm
      unfold L
      push_cast
      rw [sub_mul, ← hg]
      ring
    | _ => simp at hd

open Classical in
/-- Before the walk. -/
theorem Sound.mixed (P : Sound speeds h roots) (R : Roomy h roots) (Z : Addr → Prop) (hZ : ∀ a, Reach h roots a → ∀ c : Nat, .extract (c : ℚ) ∈ (h.get a).expands →
    ∀ z ∈ (h.get a).children, Z z ∨ (h.get z).value = c ∧ Light h roots) (limit : ℚ) :
    Mixed Z ⟨fun b => limit ≤ b ∧ ∀ a, Reach h roots a → (h.get a).value ≤ b, if Tidy h roots then some (dues h roots) else none⟩ speeds roots (fun a => if a ∈ roots then (h.get a).value else 0) h
      (Reach h roots) (fun a => (h.get a).value) (fun a c => if (h.get a).children.length = 1 then (h.get a).value else (h.get c).value) := by
  have once : ∀ a, Reach h roots a → 2 ≤ (h.get a).children.length → ∀ c ∈ (h.get a).children, (h.get a).children.count c = 1 := by
    intro a ha h2 c hc
    rw [P.links a c ha (.child ha hc), P.tree a ha h2 c hc]
    simp
  have lodge : ∀ a, Reach h roots a → (∀ p ∈ (h.get a).parents, ∀ c, .extract c ∉ (h.get p).expands) → Lodges (cap roots a) h a (h.get a).parents := by
    intro a ha hp
    obtain ⟨es, J, he, hl⟩ := P.jobs' R.unsplit ha
    have := R.back a ha hp es _ (by rw [he]; split <;> simp) J.back
    rw [← hl] at this
    exact this
  refine ⟨P.region, P.levels, fun a ha => (P.positive a ha).le, fun a ha w => ?_, fun r hr => .root hr, fun a ha => if_neg ha, P.links, fun a ha => ?_,
    fun a ha => ?_, fun a ha => ?_, fun a ha => ?_, fun r hr => ?_, fun a ha c hc => ?_, fun b hb a ha => hb.2 a ha,
    ⟨fun a => ((h.get a).level.getD 0), fun a ha c hc => ?_⟩, fun y hy => ?_⟩
  · have : a ∈ (h.get a).children := by
      have := P.links a a ha ha
      rw [← List.count_pos_iff, this, List.count_pos_iff]
      exact w
    obtain ⟨l, m, h1, h2, h3⟩ := P.down a ha a this
    rw [h1] at h2
    obtain rfl : l = m := by simpa using h2
    exact lt_irrefl _ h3
  · by_cases q : a ∈ roots
    · rw [P.top a q]
      simp [q]
    · rcases P.merge a ha q with ⟨p, h1, h2⟩ | ⟨-, h1, h2⟩
      · rw [h1]
        simp only [q, if_false, List.map_cons, List.map_nil, List.sum_cons, List.sum_nil]
        rw [if_neg (by omega)]
        ring
      · simp only [q, if_false, zero_add]
        rw [h2]
        congr 1
        apply List.map_congr_left
        intro p hp
        rw [(h1 p hp).2.1]
        simp
  · obtain ⟨es, J, he, hl⟩ := P.jobs' R.unsplit ha
    refine ⟨_, es, [], by rw [he, List.append_nil], ?_, ?_⟩
    · cases J with
      | leaf q => exact .leaf q rfl
      | pass c q => exact .share (by rw [q]; simp) (by rw [q]; simp) (fun x _ => by rw [q]; simp)
      | few q1 q2 =>
        refine .share (fun e => by rw [e] at q1; simp at q1) (by omega) (fun c hc => ?_)
        rw [if_neg (by omega)]
        exact q2 c hc
      | belt x y q1 q2 q3 =>
        have hne : x ≠ y := fun e => by
          have := once a ha (by rw [q1]; simp) x (by rw [q1]; simp)
          rw [q1, e] at this
          simp at this
        refine .belt x y q1 hne ?_ ?_
        · rw [q1]; simpa using q2
        · rw [q1]; simpa using q3
      | divide d q =>
        have h2 : 2 ≤ (h.get a).children.length := by rw [q.count]; exact q.two
        refine .divide d q rfl (P.root_iff ha) fun c hc => ?_
        have hp := P.tree a ha h2 c hc
        have hcr : Reach h roots c := .child ha hc
        have hnr : c ∉ roots := fun w => by rw [P.top c w] at hp; simp at hp
        refine ⟨if_neg (by omega), hp, hnr, ?_⟩
        have hno : ∀ p ∈ (h.get c).parents, ∀ x, .extract x ∉ (h.get p).expands := by
          rw [hp]
          intro p hp' x
          rw [List.mem_singleton.1 hp', he]
          split <;> simp
        have := lodge c hcr hno
        unfold Lodges at this ⊢
        rw [hp, cap, if_neg hnr] at this
        have := this.map (Sum.map (fun _ => ()) id) (by
          intro x hx y hy e
          simp only [List.map_cons, List.map_nil, List.cons_append, List.nil_append, List.mem_cons, List.mem_map] at hx hy
          rcases hx with rfl | ⟨x, -, rfl⟩ <;> rcases hy with rfl | ⟨y, -, rfl⟩ <;> simp at e ⊢
          exact e)
        simpa [Function.comp_def] using this
      | extract v c x y q =>
        have h2 : 2 ≤ (h.get a).children.length := by rw [q.children]; simp
        refine .extract v c x y q rfl (P.root_iff ha) fun z hz => ?_
        have hp := P.tree a ha h2 z hz
        have hzr : Reach h roots z := .child ha hz
        have hnr : z ∉ roots := fun w => by rw [P.top z w] at hp; simp at hp
        obtain ⟨es', J', he', hl'⟩ := P.jobs' R.unsplit hzr
        have hval : ∃ k : Nat, (h.get z).value = k := by
          have hcast : ((v - c : Nat) : ℚ) = (v : ℚ) - c := by
            rw [Nat.cast_sub q.lt.le]
          rw [q.children] at hz
          simp only [List.mem_cons, List.not_mem_nil, or_false] at hz
          rcases hz with rfl | rfl <;> rcases q.share with w | w
          · exact ⟨c, w.1⟩
          · exact ⟨v - c, by rw [w.2, hcast]⟩
          · exact ⟨v - c, by rw [w.2, hcast]⟩
          · exact ⟨c, w.1⟩
        obtain ⟨k, hk⟩ := hval
        have hin : .extract (c : ℚ) ∈ (h.get a).expands := by rw [he]; simp
        have hez : (h.get z).expands = es' := by rw [he', hp]; simp
        have hback := J'.back
        rw [← hez, hk] at hback
        rw [hk] at hl'
        have hf := forth_spec k q.pos q.lt
        refine ⟨if_neg (by omega), hp, hnr, ?_, ?_⟩
        · have := R.room a ha v c q.value hin z hz k _ _ hk hf (by rw [hk]; exact hback)
          rw [hez, ← hl'] at this
          rw [hk]
          exact this
        · rcases hZ a ha c hin z hz with hZ | ⟨hZ, L⟩
          · exact .inl hZ
          · obtain rfl : k = c := by
              rw [hk] at hZ
              exact_mod_cast hZ
            have := L a ha v k q.value hin z hz hZ _ _ hf (by rw [hk]; exact hback)
            rw [hez, ← hl'] at this
            rw [hk]
            exact .inr this
    · by_cases q : 3 < (h.get a).parents.length
      · have hnr : a ∉ roots := fun w => by rw [P.top a w] at q; simp at q
        rw [if_pos q]
        refine .inl ⟨rfl, ⟨q, ?_, ?_, hnr⟩, rfl⟩
        all_goals rcases P.merge a ha hnr with ⟨p, h1, h2⟩ | ⟨h0, h1, h2⟩
        · rw [h1] at q; simp at q
        · exact h0
        · rw [h1] at q; simp at q
        · exact h1
      · rw [if_neg q]
        refine .inr ⟨rfl, by simp, .inl ?_, .inr rfl⟩
        unfold cap
        split
        · next w => rw [P.top a w]; simp
        · omega
  · by_cases q : ∀ p ∈ (h.get a).parents, ∀ c, .extract c ∉ (h.get p).expands
    · exact .inr (lodge a ha q)
    · push Not at q
      obtain ⟨p, hp, c, hc⟩ := q
      have hpr := P.region.parents a ha p hp
      refine .inl ⟨p, hpr, ?_, _, hc, by simp⟩
      rw [← List.count_pos_iff, P.links p a hpr ha, List.count_pos_iff]
      exact hp
  · refine .inr (.inr ?_)
    by_cases q : a ∈ roots
    · rw [P.top a q]
      simp
    · rcases P.merge a ha q with ⟨p, h1, -⟩ | ⟨-, h1, -⟩
      · rw [h1]
        simp
      · exact .inr fun p hp => (h1 p hp).2.1
  · simp only [hr, if_true]
    exact P.positive r (.root hr)
  · split
    · exact P.positive a ha
    · exact P.positive c (.child ha hc)
  · obtain ⟨l, m, h1, h2, h3⟩ := P.down a ha c hc
    simp only [h1, h2, Option.getD_some]
    exact ⟨h3.le, fun _ => h3⟩
  · have Td : Tidy h roots := by
      by_contra q
      rw [if_neg q] at hy
      simp at hy
    rw [if_pos Td] at hy
    obtain rfl : dues h roots = y := by simpa using hy
    have neat : ∀ a, Reach h roots a → (∀ p ∈ (h.get a).parents, ∀ c, .extract c ∉ (h.get p).expands) → Together (loops h a) := fun a ha hp => by
      obtain ⟨es, J, he, hl⟩ := P.jobs' R.unsplit ha
      rw [hl]
      exact Td.back a ha hp es _ (by rw [he]; split <;> simp) J.back
    refine ⟨fun a ha => .inl ⟨rfl, fun w => (P.dues_none w).2⟩, fun a ha e he hm => P.dues_some R.unsplit ha he hm, fun a ha => ?_, fun a ha p hp hb => ?_,
      fun a ha => ?_, fun a ha c hc z hz => ?_, fun a ha d hd z hz => ?_⟩
    · by_contra w
      have := P.region.inside a (P.dues_none w).1
      omega
    · have hpr := P.region.parents a ha p hp
      have hc : a ∈ (h.get p).children := by
        rw [← List.count_pos_iff, P.links p a hpr ha, List.count_pos_iff]
        exact hp
      have h2 : 2 ≤ (h.get p).children.length := by
        rcases hb with hb | ⟨c, hc', hb⟩
        · exact P.pends_two R.unsplit hpr (P.dues_none hb).2
        · by_contra q
          have : (h.get p).children.length = 1 := by
            have := List.length_pos_of_mem hc
            omega
          rw [this] at hb
          simp at hb
          exact hb.1 this
      have := P.tree p hpr h2 a hc
      refine ⟨fun w => ?_, by rw [this]; rfl⟩
      rw [P.top a w] at this
      simp at this
    · by_cases q : ∀ p ∈ (h.get a).parents, ∀ c, .extract c ∉ (h.get p).expands
      · refine .inr (together_append ?_ (neat a ha q))
        by_cases r : a ∈ roots
        · rw [P.top a r]
          exact List.nodup_nil
        · rcases P.merge a ha r with ⟨p, h1, -⟩ | ⟨h1, -⟩
          · rw [h1]
            exact List.nodup_singleton p
          · exact h1
      · push Not at q
        obtain ⟨p, hp, c, hc⟩ := q
        have hpr := P.region.parents a ha p hp
        refine .inl ⟨p, hpr, ?_, _, hc, by simp⟩
        rw [← List.count_pos_iff, P.links p a hpr ha, List.count_pos_iff]
        exact hp
    · obtain ⟨es, J, he, -⟩ := P.jobs' R.unsplit ha
      have hin : .extract c ∈ es := by
        have := hc
        rw [he] at this
        rcases List.mem_append.1 this with w | w
        · split at w <;> simp at w
        · exact w
      cases J with
      | extract v c' x y q =>
        obtain rfl : c = c' := by simpa using hin
        have h2 : 2 ≤ (h.get a).children.length := by rw [q.children]; simp
        have hp := P.tree a ha h2 z hz
        have hval : ∃ k : Nat, (h.get z).value = k := by
          have hcast : ((v - c' : Nat) : ℚ) = (v : ℚ) - c' := by
            rw [Nat.cast_sub q.lt.le]
          rw [q.children] at hz
          simp only [List.mem_cons, List.not_mem_nil, or_false] at hz
          rcases hz with rfl | rfl <;> rcases q.share with w | w
          · exact ⟨c', w.1⟩
          · exact ⟨v - c', by rw [w.2, hcast]⟩
          · exact ⟨v - c', by rw [w.2, hcast]⟩
          · exact ⟨c', w.1⟩
        obtain ⟨k, hk⟩ := hval
        obtain ⟨es', J', he', hl'⟩ := P.jobs' R.unsplit (.child ha hz)
        have hez : (h.get z).expands = es' := by rw [he', hp]; simp
        have := Td.room a ha v c' q.value hc z hz k _ _ hk (forth_spec k q.pos q.lt) (by rw [hez]; exact J'.back)
        rw [hl', q.value, hk, ← hk]
        rw [← hk] at this
        exact this
      | _ => simp at hin
    · refine neat z (.child ha hz) fun p hp c hc => ?_
      have h2 := P.pends_two R.unsplit ha ⟨_, hd, by simp⟩
      rw [P.tree a ha h2 z hz, List.mem_singleton] at hp
      subst hp
      have h1 := P.dues_some R.unsplit ha hc (by simp)
      obtain ⟨es, J, he, -⟩ := P.jobs' R.unsplit ha
      rw [he] at hc hd
      cases J <;> split at hc <;> simp_all

end Satis.Graph
