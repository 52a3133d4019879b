import Verif.Model.Truncate
import Verif.Lemmas.Linear
import Verif.Lemmas.Binary

/-!
# C17: replicated sharing
-/

namespace CrypTen
variable {n : ℕ} {ι ι' κ : Type}

theorem repPrev_three : repPrev (0 : Fin 3) = 2 ∧ repPrev (1 : Fin 3) = 0 ∧ repPrev (2 : Fin 3) = 1 := by decide

/-- **C17 (three parties).** Products of every bilinear kind, squares and AND are correct for every sharing. The full claim is for every number
of parties the library accepts; missing: four and more parties, where it is false (below). -/
theorem C17_replicated_three_parties_partial (T : BilinearOp ι ι' κ) (x : Shares 3 ι) (y : Shares 3 ι') (u v : Shares 3 ι) :
    (∃ z, replicatedProduct T x y = some z ∧ reveal z = T.apply (reveal x) (reveal y)) ∧
    (∃ z, replicatedSquare u = some z ∧ ∀ i, reveal z i = reveal u i * reveal u i) ∧
    (∃ z, replicatedAnd u v = some z ∧ ∀ i, revealX z i = revealX u i &&& revealX v i) := by
  obtain ⟨h0, h1, h2⟩ := repPrev_three
  refine ⟨⟨_, rfl, ?_⟩, ⟨_, rfl, fun i => ?_⟩, ⟨_, rfl, fun i => ?_⟩⟩
  · simp only [reveal, Fin.sum_univ_three, h0, h1, h2]
    simp only [apply_add_left, apply_add_right]
    abel
  · simp only [reveal_apply, Fin.sum_univ_three, h0, h1, h2]
    ring
  · simp only [revealX, xorList, List.ofFn_succ, List.ofFn_zero, Fin.succ_zero_eq_one, Fin.succ_one_eq_two, h0, h1, h2]
    generalize u 0 i = a; generalize u 1 i = b; generalize u 2 i = c
    generalize v 0 i = d; generalize v 1 i = e; generalize v 2 i = f
    ext k hk
    simp only [BitVec.getElem_xor, BitVec.getElem_and]
    have hz : ∀ w : I64, (w ^^^ 0)[k] = w[k] := by intro w; simp
    simp only [BitVec.ofNat_eq_ofNat, BitVec.getElem_zero]
    cases a[k] <;> cases b[k] <;> cases c[k] <;> cases d[k] <;> cases e[k] <;> cases f[k] <;> rfl

/-- With fewer than three parties all replicated protocols refuse. -/
theorem C17_replicated_too_few_parties [NeZero n] (hn : n < 3) (T : BilinearOp ι ι' κ) (x : Shares n ι) (y : Shares n ι') (u v : Shares n ι) :
    replicatedProduct T x y = none ∧ replicatedSquare u = none ∧ replicatedAnd u v = none := by
  simp [replicatedProduct, replicatedSquare, replicatedAnd, replicateShares, hn]

/-- **C17 is refuted for four or more parties.** For every such number of parties the library accepts the call and there are shares for which the
revealed product is not the product of the secrets. -/
theorem C17_replicated_wrong_from_four (hn : 4 ≤ n) [NeZero n] :
    ∃ (x y : Shares n Unit) (z : Shares n Unit), replicatedProduct (Torch.mulOp id id) x y = some z ∧
      reveal z () ≠ reveal x () * reveal y () := by
  refine ⟨fun p _ => if p.val = 0 then 1 else 0, fun p _ => if p.val = 2 then 1 else 0, ?_⟩
  simp only [replicatedProduct, replicateShares, if_neg (by omega : ¬ n < 3), Option.bind_eq_bind, Option.bind_some]
  refine ⟨_, rfl, ?_⟩
  · have hx : reveal (n := n) (ι := Unit) (fun p _ => if p.val = 0 then 1 else 0) () = 1 := by
      rw [reveal_apply]
      have := Finset.sum_ite_eq' (M := I64) Finset.univ (⟨0, by omega⟩ : Fin n) (fun _ => 1)
      simp only [Finset.mem_univ, if_true] at this
      refine Eq.trans (Finset.sum_congr rfl fun p _ => ?_) this
      simp only [Fin.ext_iff]
    have hy : reveal (n := n) (ι := Unit) (fun p _ => if p.val = 2 then 1 else 0) () = 1 := by
      rw [reveal_apply]
      have := Finset.sum_ite_eq' (M := I64) Finset.univ (⟨2, by omega⟩ : Fin n) (fun _ => 1)
      simp only [Finset.mem_univ, if_true] at this
      refine Eq.trans (Finset.sum_congr rfl fun p _ => ?_) this
      simp only [Fin.ext_iff]
    rw [hx, hy, reveal_apply]
    rw [Finset.sum_eq_zero]
    · decide
    · intro p _
      have hp := p.isLt
      have hprev : (repPrev p).val = if p.val = 0 then n - 1 else p.val - 1 := by
        simp only [repPrev]
        split
        · next h => rw [h, Nat.mod_eq_of_lt (by omega)]; omega
        · rw [show p.val + n - 1 = (p.val - 1) + n by omega, Nat.add_mod_right, Nat.mod_eq_of_lt (by omega)]
      rw [Pi.add_apply, Pi.add_apply]
      simp only [BilinearOp.apply, Torch.mulOp, List.map_cons, List.map_nil, List.sum_cons, List.sum_nil, add_zero, hprev]
      have e1 : (if p.val = 0 then (1 : I64) else 0) * (if p.val = 2 then 1 else 0) = 0 := by
        split <;> split <;> first | omega | rfl
      have e2 : (if p.val = 0 then (1 : I64) else 0) * (if (if p.val = 0 then n - 1 else p.val - 1) = 2 then 1 else 0) = 0 := by
        by_cases h : p.val = 0
        · simp only [h, if_true]; rw [if_neg (by omega)]; rfl
        · rw [if_neg h, zero_mul]
      have e3 : (if (if p.val = 0 then n - 1 else p.val - 1) = 0 then (1 : I64) else 0) * (if p.val = 2 then 1 else 0) = 0 := by
        by_cases h : p.val = 2
        · rw [if_neg (by rw [if_neg (by omega)]; omega), zero_mul]
        · rw [if_neg h, mul_zero]
      rw [e1, e2, e3]; rfl

/-- **C17 (truncation).** The three-party truncation reveals the two-party truncation of the sharing `(x0, x1 + x2)`; with another number of
parties it refuses. Together with C14 this bounds its error. -/
theorem C17_replicated_truncate (z x : Shares 3 ι) (y : ι → ℤ) (hz : reveal z = 0) :
    ∃ w, replicatedTruncate z x y = some w ∧
      reveal w = reveal (truncLocal (n := 2) (fun p => if p = 0 then x 0 else x 1 + x 2) y) := by
  refine ⟨_, rfl, ?_⟩
  funext i
  have hz' := congrFun hz i
  rw [reveal_apply] at hz'
  rw [reveal_apply, reveal_apply, Finset.sum_add_distrib, hz']
  simp only [Fin.sum_univ_three, Fin.sum_univ_two, truncLocal]
  simp

theorem C17_replicated_truncate_refuses [NeZero n] (hn : n ≠ 3) (z x : Shares n ι) (y : ι → ℤ) : replicatedTruncate z x y = none := by
  simp [replicatedTruncate, hn]

example : ∃ z : Shares 3 Unit, reveal z = 0 ∧ z ≠ 0 := by
  refine ⟨fun p _ => if p = 0 then 5 else if p = 1 then -3 else -2, ?_, ?_⟩
  · funext i; cases i; decide
  · intro h; have := congrFun (congrFun h 0) (); revert this; decide

end CrypTen
