import Verif.Spec.Truncate
import Verif.Lemmas.Int64
import Verif.Lemmas.Linear

/-! Wrap counting and rounding, over the integers. -/

namespace CrypTen
variable {n : ℕ} {ι : Type}

theorem toInt_add_cases (a b : I64) :
    (a + b).toInt = a.toInt + b.toInt ∨ (a + b).toInt = a.toInt + b.toInt - 2 ^ 64 ∨ (a + b).toInt = a.toInt + b.toInt + 2 ^ 64 := by
  have h1 := toInt_ge a; have h2 := toInt_lt a; have h3 := toInt_ge b; have h4 := toInt_lt b
  rw [BitVec.toInt_add]
  generalize a.toInt = x at *; generalize b.toInt = y at *
  norm_num at h1 h2 h3 h4
  unfold Int.bmod; norm_num; omega

theorem boolI64_eq_ofInt (b : Bool) : boolI64 b = BitVec.ofInt 64 (if b then 1 else 0) := by cases b <;> rfl

theorem ofInt_sub64 (a b : ℤ) : BitVec.ofInt 64 (a - b) = BitVec.ofInt 64 a - BitVec.ofInt 64 b := by
  rw [eq_sub_iff_add_eq, ← ofInt_add64, sub_add_cancel]

theorem countWrapsLoop_spec (l : List I64) : ∀ prev result : I64, ∃ k : ℤ,
    countWrapsLoop prev result l = result + BitVec.ofInt 64 (k + minCollisionsFrom prev l) ∧
    prev.toInt + (l.map BitVec.toInt).sum = (prev + l.sum).toInt + 2 ^ 64 * k := by
  induction l with
  | nil => intro prev result; exact ⟨0, by simp [countWrapsLoop, minCollisionsFrom], by simp⟩
  | cons cur rest ih =>
    intro prev result
    set b1 : Bool := prev.toInt < 0 && cur.toInt < 0 && (cur + prev).toInt > 0 with hb1
    set b2 : Bool := prev.toInt > 0 && cur.toInt > 0 && (cur + prev).toInt < 0 with hb2
    obtain ⟨k, hk1, hk2⟩ := ih (cur + prev) (result - boolI64 b1 + boolI64 b2)
    set col : ℤ := if prev.toInt = -2 ^ 63 ∧ cur.toInt = -2 ^ 63 then 1 else 0 with hcol
    set z1 : ℤ := if b1 then 1 else 0 with hz1
    set z2 : ℤ := if b2 then 1 else 0 with hz2
    refine ⟨k + z2 - z1 - col, ?_, ?_⟩
    · have : countWrapsLoop prev result (cur :: rest) = countWrapsLoop (cur + prev) (result - boolI64 b1 + boolI64 b2) rest := rfl
      rw [this, hk1]
      have e : k + z2 - z1 - col + (minCollisionsFrom prev (cur :: rest) : ℕ) = k + (minCollisionsFrom (cur + prev) rest : ℕ) + z2 - z1 := by
        simp only [minCollisionsFrom, hcol]; push_cast; ring
      rw [e, boolI64_eq_ofInt, boolI64_eq_ofInt, ← hz1, ← hz2]
      simp only [ofInt_sub64, ofInt_add64]
      ring
    · rw [List.map_cons, List.sum_cons, List.sum_cons, ← add_assoc, ← add_assoc prev, add_comm prev cur]
      have hstep : cur.toInt + prev.toInt = (cur + prev).toInt + 2 ^ 64 * (z2 - z1 - col) := by
        have h1 := toInt_ge prev; have h2 := toInt_lt prev; have h3 := toInt_ge cur; have h4 := toInt_lt cur
        have h5 := toInt_ge (cur + prev); have h6 := toInt_lt (cur + prev)
        have hc := toInt_add_cases cur prev
        simp only [hz1, hz2, hcol, hb1, hb2, Bool.and_eq_true, decide_eq_true_eq, and_assoc]
        generalize (cur + prev).toInt = s at *
        generalize prev.toInt = a at *; generalize cur.toInt = b at *
        norm_num at h1 h2 h3 h4 h5 h6 hc ⊢
        split <;> split <;> split <;> omega
      linarith

theorem countWraps_spec (l : List I64) : ∃ k : ℤ, countWraps l = BitVec.ofInt 64 (k + minCollisions l) ∧
    (l.map BitVec.toInt).sum = l.sum.toInt + 2 ^ 64 * k := by
  cases l with
  | nil => exact ⟨0, rfl, by simp⟩
  | cons a l =>
    obtain ⟨k, h1, h2⟩ := countWrapsLoop_spec l a 0#64
    refine ⟨k, ?_, ?_⟩
    · simp only [countWraps, minCollisions, h1]; simp
    · simpa using h2

theorem tdivI64_ofInt (a : I64) {y : ℤ} (hy : 0 < y) (hy' : y < 2 ^ 63) : tdivI64 a (BitVec.ofInt 64 y) = BitVec.ofInt 64 (a.toInt.tdiv y) := by
  rw [tdivI64, toInt_ofInt64 (by linarith) hy']

theorem tdiv_bounds (a : ℤ) {y : ℤ} (hy : 0 < y) :
    a = y * a.tdiv y + a.tmod y ∧ |a.tmod y| ≤ y - 1 := by
  refine ⟨(Int.mul_tdiv_add_tmod a y).symm, ?_⟩
  rcases le_or_gt 0 a with h | h
  · rw [abs_of_nonneg (Int.tmod_nonneg y h)]
    have := Int.tmod_lt_of_pos a hy; omega
  · have h1 : a.tmod y ≤ 0 := by
      have := Int.tmod_nonneg y (a := -a) (by omega)
      rw [Int.neg_tmod] at this; omega
    rw [abs_of_nonpos h1]
    have := Int.lt_tmod_of_pos a hy; omega

theorem ofInt_sum {α : Type} (s : Finset α) (f : α → ℤ) : BitVec.ofInt 64 (∑ p ∈ s, f p) = ∑ p ∈ s, BitVec.ofInt 64 (f p) := by
  classical
  induction s using Finset.induction_on with
  | empty => simp
  | insert a s ha ih => rw [Finset.sum_insert ha, Finset.sum_insert ha, ofInt_add64, ih]

end CrypTen
