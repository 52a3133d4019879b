import Verif.Props.Gradients

/-!
# C43: the gradient of batch normalisation, with respect to input, weight and bias together
-/

namespace CrypTen
open ContinuousLinearMap Grad
variable {γ ι : Type} [Fintype γ] [Fintype ι]

/-- From the gradients of the normalised inputs of every channel to those of the layer. -/
theorem bn_joint (N : γ → (ι → ℝ) → ι → ℝ) (B : γ → (ι → ℝ) → ι → ℝ) (x : γ × ι → ℝ) (w b : γ → ℝ) (h : ∀ c, IsVJP (N c) (fun p => x (c, p)) (B c)) :
    IsVJP (fun (z : (γ × ι) ⊕ (γ ⊕ γ) → ℝ) (q : γ × ι) => N q.1 (fun p => z (.inl (q.1, p))) q.2 * z (.inr (.inl q.1)) + z (.inr (.inr q.1))) (Sum.elim x (Sum.elim w b))
      fun g => Sum.elim (fun q => B q.1 (fun p => g (q.1, p)) q.2 * w q.1) (Sum.elim (fun c => ∑ p, g (c, p) * N c (fun p => x (c, p)) p) fun c => ∑ p, g (c, p)) := by
  classical
  intro g
  set z₀ : (γ × ι) ⊕ (γ ⊕ γ) → ℝ := Sum.elim x (Sum.elim w b)
  have e : (fun z : (γ × ι) ⊕ (γ ⊕ γ) → ℝ => ∑ q : γ × ι, g q * (N q.1 (fun p => z (.inl (q.1, p))) q.2 * z (.inr (.inl q.1)) + z (.inr (.inr q.1))))
      = fun z => ∑ c, ((∑ p, g (c, p) * N c (fun p => z (.inl (c, p))) p) * z (.inr (.inl c)) + z (.inr (.inr c)) * ∑ p, g (c, p)) := by
    funext z
    rw [Fintype.sum_prod_type]
    refine Finset.sum_congr rfl fun c _ => ?_
    rw [Finset.sum_mul, Finset.mul_sum, ← Finset.sum_add_distrib]
    exact Finset.sum_congr rfl fun p _ => by ring
  rw [e]
  have hc : ∀ c, HasFDerivAt (fun z : (γ × ι) ⊕ (γ ⊕ γ) → ℝ => (∑ p, g (c, p) * N c (fun p => z (.inl (c, p))) p) * z (.inr (.inl c)) + z (.inr (.inr c)) * ∑ p, g (c, p))
      (linearFn (Sum.elim (fun q => if q.1 = c then B c (fun p => g (c, p)) q.2 * w c else 0) (Sum.elim (fun c' => if c' = c then ∑ p, g (c, p) * N c (fun p => x (c, p)) p else 0) fun c' => if c' = c then ∑ p, g (c, p) else 0))) z₀ := by
    intro c
    have hr : HasFDerivAt (fun (z : (γ × ι) ⊕ (γ ⊕ γ) → ℝ) (p : ι) => z (.inl (c, p))) (ContinuousLinearMap.pi fun p => (proj (.inl (c, p)) : ((γ × ι) ⊕ (γ ⊕ γ) → ℝ) →L[ℝ] ℝ)) z₀ :=
      hasFDerivAt_pi.2 fun p => hasFDerivAt_apply _ _
    have h1 := HasFDerivAt.comp z₀ (f := fun (z : (γ × ι) ⊕ (γ ⊕ γ) → ℝ) (p : ι) => z (.inl (c, p))) (h c fun p => g (c, p)) hr
    have h2 := (h1.mul (hasFDerivAt_apply (.inr (.inl c)) z₀)).add ((hasFDerivAt_apply (.inr (.inr c)) z₀).mul_const (∑ p, g (c, p)))
    refine HasFDerivAt.congr_fderiv h2 ?_
    symm
    ext v
    rw [linearFn_apply]
    simp only [Fintype.sum_sum_type, Sum.elim_inl, Sum.elim_inr, add_apply, smul_apply, proj_apply, smul_eq_mul, ContinuousLinearMap.comp_apply, linearFn_apply, ite_mul, zero_mul, Finset.sum_ite_eq', Finset.mem_univ, if_true, Fintype.sum_prod_type]
    have : ∑ c', ∑ p, (if c' = c then B c (fun p => g (c, p)) p * w c * v (.inl (c', p)) else 0) = ∑ p, B c (fun p => g (c, p)) p * w c * v (.inl (c, p)) := by
      rw [Finset.sum_eq_single c]
      · simp
      · intro c' _ hne; simp [hne]
      · simp
    rw [this]
    show _ = (∑ p, g (c, p) * N c (fun p => x (c, p)) p) * v (.inr (.inl c)) + w c * ∑ p, B c (fun p => g (c, p)) p * v (.inl (c, p)) + _
    rw [Finset.mul_sum]
    have : ∑ p, B c (fun p => g (c, p)) p * w c * v (.inl (c, p)) = ∑ p, w c * (B c (fun p => g (c, p)) p * v (.inl (c, p))) := Finset.sum_congr rfl fun p _ => by ring
    rw [this]
    ring
  refine HasFDerivAt.congr_fderiv (HasFDerivAt.fun_sum fun c _ => hc c) ?_
  symm
  ext v
  rw [linearFn_apply]
  simp only [sum_apply, linearFn_apply, Fintype.sum_sum_type, Sum.elim_inl, Sum.elim_inr, Finset.sum_add_distrib, ite_mul, zero_mul, Finset.sum_ite_eq', Finset.mem_univ, if_true, Fintype.sum_prod_type]
  congr 1
  refine Finset.sum_congr rfl fun c _ => ?_
  rw [Finset.sum_eq_single c]
  · simp
  · intro c' _ hne; simp [hne]
  · simp

/-- **C43 (`batchnorm`).** In training mode and in evaluation mode, for any number of channels and positions, `backward` returns the gradients of input, weight and bias. -/
theorem C43_batchnorm_all [Nonempty ι] (ε : ℝ) (hε : 0 < ε) (running : Option ((γ → ℝ) × (γ → ℝ))) (x : γ × ι → ℝ) (w b : γ → ℝ) :
    IsVJP (fun z : (γ × ι) ⊕ (γ ⊕ γ) → ℝ => (bnForward ε running (fun q => z (.inl q)) (fun c => z (.inr (.inl c))) fun c => z (.inr (.inr c))).1) (Sum.elim x (Sum.elim w b))
      fun g => let saved := (bnForward ε running x w b).2
        let r := bnBackward running.isNone saved.1 w saved.2 g
        Sum.elim r.1 (Sum.elim r.2.1 r.2.2) := by
  classical
  cases running with
  | none =>
    have h := bn_joint (γ := γ) (ι := ι) (fun _ => batchnormF ε 1 0) (fun c => batchnormB 1 (bnInv ε fun p => x (c, p)) (bnNorm ε fun p => x (c, p))) x w b fun c => C43_batchnorm ε 1 0 hε _
    refine cast (congr (congrFun (congrArg IsVJP ?_) _) ?_) h
    · funext z q
      simp [bnForward, batchnormF, bnNorm]
    · funext g
      simp only [bnForward, bnBackward, Option.isNone_none, if_true]
      congr 1
      · funext q
        simp only [batchnormB, bnNorm, mul_one, add_mul]
        congr 1
        · congr 1
          · ring
          · rw [← Finset.sum_mul]; ring
        · have : ∑ p, (x (q.1, p) - bnMean fun p => x (q.1, p)) * (bnInv ε fun p => x (q.1, p)) * (g (q.1, p) * w q.1) = (∑ p, (x (q.1, p) - bnMean fun p => x (q.1, p)) * (bnInv ε fun p => x (q.1, p)) * g (q.1, p)) * w q.1 := by
            rw [Finset.sum_mul]; exact Finset.sum_congr rfl fun p _ => by ring
          rw [this]; ring
      · congr 1
        funext c
        simp [batchnormF, bnNorm]
  | some r =>
    obtain ⟨m, inv⟩ := r
    have h := bn_joint (γ := γ) (ι := ι) (fun c z p => (z p - m c) * inv c) (fun c g p => g p * inv c) x w b fun c => isVJP_map (φ := fun _ t => (t - m c) * inv c) (φ' := fun _ => inv c)
      (fun p => by simpa using ((hasDerivAt_id (x (c, p))).sub_const (m c)).mul_const (inv c)) fun g p => rfl
    refine cast (congr (congrFun (congrArg IsVJP ?_) _) ?_) h
    · funext z q
      simp [bnForward]
    · funext g
      simp only [bnForward, bnBackward, Option.isNone_some, Bool.false_eq_true, if_false]
      congr 1
      funext q
      ring

end CrypTen
