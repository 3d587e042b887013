import Verif.Side.ChunkFiles
import Mathlib.Data.List.Infix

/-!
C87: the chunk files of `save_formatted_simulations` hold the texts of all simulations, in order and none twice, and no simulation more is put
into a file that has reached the size asked for.
-/

namespace Satis.ChunkFiles

/-- What the chunk files must be: all texts in order, every file but the last has reached the size, no file had reached it before its last text. -/
structure Chunked {τ : Type} (size : List τ → ℕ) (chunk : ℕ) (texts : List τ) (files : List (List τ)) : Prop where
  all : files.flatten = texts
  some : files ≠ []
  full : ∀ file ∈ files.dropLast, chunk ≤ size file ∧ file ≠ []
  last : ∀ file ∈ files.getLast?, file = [] ∨ size file < chunk
  soon : ∀ file ∈ files, ∀ p, p ≠ [] → p ≠ file → p <+: file → size p < chunk

variable {σ τ : Type} {size : List τ → ℕ} {chunk : ℕ}

theorem fill_chunked : ∀ (ts : List τ) (closed : List (List τ)) (cur : List τ),
    (∀ file ∈ closed, (chunk ≤ size file ∧ file ≠ []) ∧ ∀ p, p ≠ [] → p ≠ file → p <+: file → size p < chunk) →
    (∀ p, p ≠ [] → p <+: cur → size p < chunk) → Chunked size chunk (closed.flatten ++ cur ++ ts) (fill size chunk ts closed cur)
  | [], closed, cur, h1, h2 => by
    rw [fill]
    refine ⟨by simp, by simp, ?_, ?_, ?_⟩
    · rw [List.dropLast_concat]
      exact fun f hf => (h1 f hf).1
    · rw [List.getLast?_concat]
      rintro f ⟨⟩
      by_cases q : cur = []
      · exact .inl q
      · exact .inr (h2 cur q (List.prefix_refl _))
    · intro f hf p hp hne hpre
      rcases List.mem_append.1 hf with hf | hf
      · exact (h1 f hf).2 p hp hne hpre
      · rw [List.mem_singleton.1 hf] at hpre
        exact h2 p hp hpre
  | t :: ts, closed, cur, h1, h2 => by
    rw [fill]
    split
    · rename_i q
      have := fill_chunked ts (closed ++ [cur ++ [t]]) [] (fun f hf => by
        rcases List.mem_append.1 hf with hf | hf
        · exact h1 f hf
        · rw [List.mem_singleton.1 hf]
          refine ⟨⟨q, by simp⟩, fun p hp hne hpre => ?_⟩
          rcases List.prefix_concat_iff.1 hpre with w | w
          · exact absurd w hne
          · exact h2 p hp w) (fun p hp hpre => absurd (List.prefix_nil.1 hpre) hp)
      simpa using this
    · rename_i q
      have := fill_chunked ts closed (cur ++ [t]) h1 fun p hp hpre => by
        rcases List.prefix_concat_iff.1 hpre with w | w
        · rw [w]
          omega
        · exact h2 p hp w
      simpa using this

/-- For every way of formatting, every size of a file and every size of a chunk. -/
theorem C87_chunks (format : σ → τ) (size : List τ → ℕ) (chunk : ℤ) (sims : List σ) (hsims : sims ≠ []) (generated : List σ) :
    (chunk < 0 → save format size chunk (some sims) generated = [sims.map format]) ∧
    (0 ≤ chunk → Chunked size chunk.toNat (sims.map format) (save format size chunk (some sims) generated)) := by
  have hc : chosen (some sims) generated = sims := by
    cases sims with
    | nil => exact absurd rfl hsims
    | cons _ _ => rfl
  refine ⟨fun h => ?_, fun h => ?_⟩
  · rw [save, hc, if_pos h]
  · rw [save, hc, if_neg (not_lt.2 h)]
    simpa using fill_chunked (size := size) (chunk := chunk.toNat) (sims.map format) [] [] (by simp) (fun p hp hpre => absurd (List.prefix_nil.1 hpre) hp)

/-- The specification says which files there are: it leaves one possibility only. -/
theorem C87_unique (texts : List τ) (files files' : List (List τ)) (h : Chunked size chunk texts files) (h' : Chunked size chunk texts files') :
    files = files' := by
  induction files generalizing texts files' with
  | nil => exact absurd rfl h.some
  | cons f fs ih =>
    cases files' with
    | nil => exact absurd rfl h'.some
    | cons g gs =>
      have hall := h.all.trans h'.all.symm
      rw [List.flatten_cons, List.flatten_cons] at hall
      have key : ∀ {f g : List τ} {fs gs : List (List τ)}, Chunked size chunk texts (f :: fs) → Chunked size chunk texts (g :: gs) →
          f ++ fs.flatten = g ++ gs.flatten → f <+: g → f = g := by
        intro f g fs gs h h' hall hp
        by_contra q
        cases fs with
        | nil =>
          rw [List.flatten_nil, List.append_nil] at hall
          obtain ⟨r, rfl⟩ := hp
          rw [List.append_assoc] at hall
          have := List.append_right_eq_self.1 hall.symm
          rw [List.append_eq_nil_iff] at this
          rw [this.1, List.append_nil] at q
          exact q rfl
        | cons f' fs =>
          have a := h.full f (by simp)
          have b := h'.soon g (by simp) f a.2 q hp
          omega
      have hfg : f = g := by
        rcases List.append_eq_append_iff.1 hall with ⟨r, hr, -⟩ | ⟨r, hr, -⟩
        · exact key h h' hall ⟨r, hr.symm⟩
        · exact (key h' h hall.symm ⟨r, hr.symm⟩).symm
      subst hfg
      rw [List.append_cancel_left_eq] at hall
      cases fs with
      | nil =>
        cases gs with
        | nil => rfl
        | cons g' gs =>
          have a := h'.full f (by simp)
          have b := h.last f (by simp)
          rcases b with b | b
          · exact absurd b a.2
          · omega
      | cons f' fs =>
        cases gs with
        | nil =>
          have a := h.full f (by simp)
          have b := h'.last f (by simp)
          rcases b with b | b
          · exact absurd b a.2
          · omega
        | cons g' gs =>
          have tail : ∀ {f g : List τ} {fs : List (List τ)}, Chunked size chunk texts (f :: g :: fs) → Chunked size chunk (g :: fs).flatten (g :: fs) :=
            fun {f g fs} h => ⟨rfl, by simp, fun x hx => h.full x (by rw [List.dropLast_cons_cons]; exact List.mem_cons_of_mem _ hx),
              fun x hx => h.last x (by rw [List.getLast?_cons_cons]; exact hx), fun x hx => h.soon x (List.mem_cons_of_mem _ hx)⟩
          rw [ih _ _ (tail h) (by rw [hall]; exact tail h')]

/-- An empty list of simulations counts as none: the generated ones are written instead. -/
theorem C87_empty_list (format : σ → τ) (size : List τ → ℕ) (chunk : ℤ) (generated : List σ) :
    save format size chunk (some []) generated = save format size chunk none generated := rfl

-- Five texts of one to three characters in chunks of four; chunks of no size; one file.
example : save id (fun l => l.flatten.length) 4 (some [[1], [2, 3, 4], [5], [6, 7], [8, 9]]) [] = [[[1], [2, 3, 4]], [[5], [6, 7], [8, 9]], []] ∧
    save id (fun l => l.flatten.length) 0 (some [[1], [2, 3]]) [] = [[[1]], [[2, 3]], []] ∧
    save id (fun l => l.flatten.length) (-1) (some [[1], [2, 3]]) [] = [[[1], [2, 3]]] := by decide +kernel

end Satis.ChunkFiles
