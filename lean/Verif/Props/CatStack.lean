import Verif.Model.CatStack
import Verif.Props.Logic

/-!
# C30: `cat` and `stack`
-/

namespace CrypTen
variable {n : ℕ}

/-- The word of each entry is the operand's. -/
theorem cat_word {m : ℕ} {J : Fin (m + 1) → Type} (x : (t : Fin (m + 1)) → AST n (J t)) (t : Fin (m + 1)) (j : J t) :
    reveal (catAST x).share ⟨t, j⟩ = reveal (x t).share j := by
  rw [reveal_apply, reveal_apply]; rfl

/-- Exactly what a slice of the result decodes to, whatever the scales. -/
theorem C30_cat_any_scale {m : ℕ} {J : Fin (m + 1) → Type} (x : (t : Fin (m + 1)) → AST n (J t)) (hx : ∀ t, 0 < (x t).scale) (t : Fin (m + 1)) (j : J t) :
    (catAST x).value ⟨t, j⟩ = (x t).value j * (x t).scale / (x 0).scale := by
  have h : ((x t).scale : ℚ) ≠ 0 := by exact_mod_cast (hx t).ne'
  rw [AST.value, AST.value, cat_word, div_mul_cancel₀ _ h]; rfl

/-- **C30 for operands of the same precision**: every slice decodes to what its operand decodes to. -/
theorem C30_cat_partial {m : ℕ} {J : Fin (m + 1) → Type} (x : (t : Fin (m + 1)) → AST n (J t)) (h : ∀ t, (x t).scale = (x 0).scale) (t : Fin (m + 1)) (j : J t) :
    (catAST x).scale = (x t).scale ∧ (catAST x).value ⟨t, j⟩ = (x t).value j := by
  refine ⟨(h t).symm, ?_⟩
  rw [AST.value, AST.value, cat_word, h t]; rfl

/-- **C30 is false for operands of different precision**: a slice decodes to its operand only if the operand is zero there or has the first operand's scale. -/
theorem C30_cat_wrong {m : ℕ} {J : Fin (m + 1) → Type} (x : (t : Fin (m + 1)) → AST n (J t)) (hx : ∀ t, 0 < (x t).scale) (t : Fin (m + 1)) (j : J t)
    (h : (x t).scale ≠ (x 0).scale) (hv : (x t).value j ≠ 0) : (catAST x).value ⟨t, j⟩ ≠ (x t).value j := by
  have h0 : ((x 0).scale : ℚ) ≠ 0 := by exact_mod_cast (hx 0).ne'
  rw [C30_cat_any_scale x hx]
  intro e
  rw [div_eq_iff h0] at e
  exact h (by exact_mod_cast mul_left_cancel₀ hv e)

/-- Concatenating the comparison bit 1 (scale 1) after the number 1 (16 bits) gives 1 and 1/65536. -/
example : ∃ x : (t : Fin 2) → AST 2 Unit, (x 0).value () = 1 ∧ (x 1).value () = 1 ∧ (x 0).scale = 2 ^ 16 ∧ (x 1).scale = 1 ∧
    (catAST x).value ⟨0, ()⟩ = 1 ∧ (catAST x).value ⟨1, ()⟩ = 1 / 65536 := by
  have e0 : (holder 2 Unit 65536 (2 ^ 16)).value () = 1 := by rw [holder_value (z := 65536) (hz := by decide)]; norm_num
  have e1 : (holder 2 Unit 1 1).value () = 1 := by rw [holder_value (z := 1) (hz := by decide)]; norm_num
  have hpos : ∀ t : Fin 2, 0 < (if t = 0 then holder 2 Unit 65536 (2 ^ 16) else holder 2 Unit 1 1).scale := by
    intro t; by_cases h : t = 0
    · rw [if_pos h]; decide
    · rw [if_neg h]; decide
  refine ⟨fun t => if t = 0 then holder 2 Unit 65536 (2 ^ 16) else holder 2 Unit 1 1, e0, e1, rfl, rfl, ?_, ?_⟩
  · rw [C30_cat_any_scale _ hpos]
    show (holder 2 Unit 65536 (2 ^ 16)).value () * ((2 ^ 16 : ℕ) : ℚ) / ((2 ^ 16 : ℕ) : ℚ) = _
    rw [e0]; norm_num
  · rw [C30_cat_any_scale _ hpos]
    show (holder 2 Unit 1 1).value () * ((1 : ℕ) : ℚ) / ((2 ^ 16 : ℕ) : ℚ) = _
    rw [e1]; norm_num

/-- A list of encrypted tensors passes the type coordination unchanged. -/
theorem coordinate_enc {κ : Type} (new : (κ → ℚ) → AST n κ) : ∀ l : List (AST n κ), l ≠ [] → coordinate new (l.map CatArg.enc) = .ok l
  | [], h => absurd rfl h
  | [x], _ => rfl
  | x :: y :: l, _ => by
    have ih := coordinate_enc new (y :: l) (by simp)
    simp only [List.map_cons] at ih ⊢
    rw [coordinate, ih]; rfl

/-- A list that contains a plain tensor or number always raises, although the helper means to encrypt it (it replaces the wrong element). -/
theorem C30_mixed_raises {κ : Type} (new : (κ → ℚ) → AST n κ) : ∀ l : List (CatArg n κ), (∃ y, CatArg.pub y ∈ l) → ∃ e, coordinate new l = .error e
  | [], h => by simp at h
  | [.enc x], h => by simp at h
  | [.pub y], _ => ⟨_, rfl⟩
  | a :: b :: rest, h => by
    by_cases hb : ∃ y, CatArg.pub y ∈ b :: rest
    · obtain ⟨e, he⟩ := C30_mixed_raises new (b :: rest) hb
      rw [coordinate.eq_def]
      cases b <;> cases a <;> simp only [he] <;> exact ⟨_, rfl⟩
    · obtain ⟨y, hy⟩ := h
      rcases List.mem_cons.1 hy with h1 | h1
      · subst h1
        cases b with
        | enc x => exact ⟨_, by rw [coordinate]; rfl⟩
        | pub z => exact absurd ⟨z, List.mem_cons_self⟩ hb
      · exact absurd ⟨y, h1⟩ hb

end CrypTen
