import Verif.Model.Arith
import Mathlib.Algebra.BigOperators.Pi
import Mathlib.Tactic.Ring
import Mathlib.Tactic.Abel

/-! Additivity of the torch functions and of `reveal`. -/

namespace CrypTen
variable {n : ℕ} {ι ι' κ : Type}

theorem reveal_apply (s : Shares n ι) (i : ι) : reveal s i = ∑ p, s p i := by
  simp [reveal, Finset.sum_apply]

theorem list_map_sum_add {α : Type} (l : List α) (f g : α → I64) :
    (l.map fun a => f a + g a).sum = (l.map f).sum + (l.map g).sum := by
  induction l with
  | nil => simp
  | cons a l ih => simp only [List.map_cons, List.sum_cons, ih]; abel

theorem list_map_sum_zero {α : Type} (l : List α) : (l.map fun _ => (0 : I64)).sum = 0 := by
  induction l with
  | nil => rfl
  | cons a l ih => simp only [List.map_cons, List.sum_cons, ih, add_zero]

/-- A finite sum commutes with a list sum. -/
theorem list_sum_comm {α : Type} (l : List α) (f : Fin n → α → I64) :
    ∑ p, (l.map (f p)).sum = (l.map fun a => ∑ p, f p a).sum := by
  induction l with
  | nil => simp
  | cons a l ih => simp only [List.map_cons, List.sum_cons, Finset.sum_add_distrib, ih]

theorem reveal_addShares (s t : Shares n ι) : reveal (addShares s t) = reveal s + reveal t := by
  simp [reveal, addShares, Finset.sum_add_distrib]

theorem reveal_subShares (s t : Shares n ι) : reveal (subShares s t) = reveal s - reveal t := by
  simp [reveal, subShares, Finset.sum_sub_distrib]

theorem reveal_negShares (s : Shares n ι) : reveal (negShares s) = -reveal s := by
  simp [reveal, negShares, Finset.sum_neg_distrib]

theorem reveal_addPublic [NeZero n] (s : Shares n ι) (y : Tensor ι) : reveal (addPublic s y) = reveal s + y := by
  have : ∀ p, addPublic s y p = s p + if p = 0 then y else 0 := by
    intro p; simp only [addPublic]; split <;> simp
  simp only [reveal, this, Finset.sum_add_distrib]
  simp

theorem reveal_subPublic [NeZero n] (s : Shares n ι) (y : Tensor ι) : reveal (subPublic s y) = reveal s - y := by
  have : ∀ p, subPublic s y p = s p - if p = 0 then y else 0 := by
    intro p; simp only [subPublic]; split <;> simp
  simp only [reveal, this, Finset.sum_sub_distrib]
  simp

theorem reveal_rsubPublic [NeZero n] (s : Shares n ι) (y : Tensor ι) : reveal (rsubPublic s y) = y - reveal s := by
  rw [rsubPublic, reveal_addPublic, reveal_negShares]; abel

theorem reveal_mulInt (s : Shares n ι) (y : Tensor ι) : reveal (mulInt s y) = reveal s * y := by
  simp [reveal, mulInt, Finset.sum_mul]

theorem apply_sum_left (T : BilinearOp ι ι' κ) (s : Shares n ι) (y : Tensor ι') :
    ∑ p, T.apply (s p) y = T.apply (∑ p, s p) y := by
  funext k
  simp only [Finset.sum_apply, BilinearOp.apply]
  rw [list_sum_comm]
  congr 2
  funext ij
  rw [Finset.sum_mul]

theorem apply_sum_right (T : BilinearOp ι ι' κ) (x : Tensor ι) (s : Shares n ι') :
    ∑ p, T.apply x (s p) = T.apply x (∑ p, s p) := by
  funext k
  simp only [Finset.sum_apply, BilinearOp.apply]
  rw [list_sum_comm]
  congr 2
  funext ij
  rw [Finset.mul_sum]

theorem apply_add_left (T : BilinearOp ι ι' κ) (x x' : Tensor ι) (y : Tensor ι') :
    T.apply (x + x') y = T.apply x y + T.apply x' y := by
  funext k
  simp only [BilinearOp.apply, Pi.add_apply, ← list_map_sum_add, add_mul]

theorem apply_add_right (T : BilinearOp ι ι' κ) (x : Tensor ι) (y y' : Tensor ι') :
    T.apply x (y + y') = T.apply x y + T.apply x y' := by
  funext k
  simp only [BilinearOp.apply, Pi.add_apply, ← list_map_sum_add, mul_add]

theorem apply_zero_left (T : BilinearOp ι ι' κ) (y : Tensor ι') : T.apply 0 y = 0 := by
  have := apply_add_left T 0 0 y
  rw [add_zero] at this
  simpa using this

theorem apply_zero_right (T : BilinearOp ι ι' κ) (x : Tensor ι) : T.apply x 0 = 0 := by
  have := apply_add_right T x 0 0
  rw [add_zero] at this
  simpa using this

theorem apply_neg_left (T : BilinearOp ι ι' κ) (x : Tensor ι) (y : Tensor ι') : T.apply (-x) y = -T.apply x y := by
  have := apply_add_left T x (-x) y
  rw [add_neg_cancel, apply_zero_left] at this
  exact (neg_eq_of_add_eq_zero_right this.symm).symm

theorem apply_neg_right (T : BilinearOp ι ι' κ) (x : Tensor ι) (y : Tensor ι') : T.apply x (-y) = -T.apply x y := by
  have := apply_add_right T x y (-y)
  rw [add_neg_cancel, apply_zero_right] at this
  exact (neg_eq_of_add_eq_zero_right this.symm).symm

theorem apply_sub_left (T : BilinearOp ι ι' κ) (x x' : Tensor ι) (y : Tensor ι') :
    T.apply (x - x') y = T.apply x y - T.apply x' y := by
  rw [sub_eq_add_neg, apply_add_left, apply_neg_left, sub_eq_add_neg]

theorem apply_sub_right (T : BilinearOp ι ι' κ) (x : Tensor ι) (y y' : Tensor ι') :
    T.apply x (y - y') = T.apply x y - T.apply x y' := by
  rw [sub_eq_add_neg, apply_add_right, apply_neg_right, sub_eq_add_neg]

theorem reveal_bilinearPublic (T : BilinearOp ι ι' κ) (s : Shares n ι) (y : Tensor ι') :
    reveal (bilinearPublic T s y) = T.apply (reveal s) y := by
  simp only [reveal, bilinearPublic, apply_sum_left]

theorem reveal_reindex (g : κ → ι) (s : Shares n ι) :
    reveal (mapShares (Torch.reindex g) s) = Torch.reindex g (reveal s) := by
  funext k; simp [reveal_apply, mapShares, Torch.reindex]

theorem reveal_sums (src : κ → List ι) (s : Shares n ι) :
    reveal (mapShares (Torch.sums src) s) = Torch.sums src (reveal s) := by
  funext k
  simp only [reveal_apply, mapShares, Torch.sums]
  rw [list_sum_comm]
  congr 2
  funext i; rw [reveal_apply]

theorem reveal_padPrivate (g : κ → Option ι) (s : Shares n ι) (v : Fin n → I64) :
    reveal (padPrivate g s v) = Torch.pad g (reveal s) (∑ p, v p) := by
  funext k
  simp only [reveal_apply, padPrivate, Torch.pad]
  cases g k <;> simp

theorem reveal_padPublic [NeZero n] (g : κ → Option ι) (s : Shares n ι) (v : I64) :
    reveal (padPublic g s v) = Torch.pad g (reveal s) v := by
  have : padPublic g s v = padPrivate g s (fun p => if p = 0 then v else 0) := rfl
  rw [this, reveal_padPrivate]
  congr 1
  exact (Finset.sum_ite_eq' Finset.univ (0 : Fin n) (fun _ => v)).trans (if_pos (Finset.mem_univ _))

theorem reveal_indexAddPrivate [DecidableEq ι] (e : List κ) (tgt : κ → ι) (s : Shares n ι) (t : Shares n κ) :
    reveal (indexAddPrivate e tgt s t) = Torch.indexAdd e tgt (reveal s) (reveal t) := by
  funext i
  simp only [reveal_apply, indexAddPrivate, Torch.indexAdd, Finset.sum_add_distrib]
  rw [list_sum_comm]
  congr 3
  funext j; rw [reveal_apply]

theorem reveal_indexAddPublic [NeZero n] [DecidableEq ι] (e : List κ) (tgt : κ → ι) (s : Shares n ι) (t : Tensor κ) :
    reveal (indexAddPublic e tgt s t) = Torch.indexAdd e tgt (reveal s) t := by
  have h : indexAddPublic e tgt s t = indexAddPrivate e tgt s (fun p => if p = 0 then t else 0) := by
    funext p i
    simp only [indexAddPublic, indexAddPrivate]
    split
    · rfl
    · have := list_map_sum_zero (e.filter (fun j => tgt j = i))
      simp only [Torch.indexAdd]
      have h2 : List.map (0 : Tensor κ) (List.filter (fun j => decide (tgt j = i)) e) =
        List.map (fun _ => (0 : I64)) (List.filter (fun j => decide (tgt j = i)) e) := rfl
      rw [h2, this, add_zero]
  rw [h, reveal_indexAddPrivate]
  congr 1
  simp [reveal]

theorem reveal_overwritePrivate (pick : ι → Option κ) (s : Shares n ι) (t : Shares n κ) :
    reveal (overwritePrivate pick s t) = Torch.overwrite pick (reveal s) (reveal t) := by
  funext i
  simp only [reveal_apply, overwritePrivate, Torch.overwrite]
  cases pick i <;> simp

end CrypTen
