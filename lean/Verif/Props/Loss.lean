import Verif.Model.Loss
import Verif.Spec.Loss
import Verif.Lemmas.NdIdx
import Verif.Props.ShapeGrad2
import Mathlib.Analysis.SpecialFunctions.Log.Deriv
import Mathlib.Analysis.SpecialFunctions.ExpDeriv

/-!
# C79: loss functions
-/

namespace CrypTen.Loss
open NdTensor LossSpec

theorem sumEntries_list (s : List ℕ) (f : List ℕ → ℝ) : sumEntries s f = ((allIdx s).map f).sum := by
  rw [ShapeGrad.sumEntries_eq_sum, idxSet, List.sum_toFinset _ (nodup_allIdx s)]

theorem length_allIdx (s : List ℕ) : (allIdx s).length = s.prod := by
  induction s with
  | nil => rfl
  | cons n s ih => simp [allIdx, List.length_flatMap, ih]

theorem mean_eq (t : NdTensor ℝ) : mean t = meanOver t.shape t.data := by rw [mean, meanOver, sumEntries_list, length_allIdx]

/-- What an argument is worth to an encrypted loss: the encrypted tensor, or the plain tensor of party 0. -/
def seen {n : ℕ} [NeZero n] : Arg n → NdTensor ℝ
  | .crypt x => x
  | .torch x => x 0

theorem call_encrypted {n : ℕ} [NeZero n] (encrypted skip : Bool) (k : Kind) (x y : Arg n) (h : encrypted = true ∨ x.isCrypt = true ∨ y.isCrypt = true) :
    call encrypted skip k x y = (k.value skip (seen x) (seen y)).map fun v _ => v := by
  have h1 : (encrypted || x.isCrypt || y.isCrypt) = true := by rcases h with h | h | h <;> simp [h]
  rw [call, prepare, if_pos h1]
  cases x <;> cases y <;> rfl

/-- **Encrypted losses that are means.** If the loss or one of its arguments is encrypted, every party gets the documented mean over all entries of the prediction and the target, for tensors of every shape; the call fails exactly if the shapes differ. -/
theorem C79_mean {n : ℕ} [NeZero n] (encrypted : Bool) (x y : Arg n) (h : encrypted = true ∨ x.isCrypt = true ∨ y.isCrypt = true) (k : Kind) (term : ℝ → ℝ → ℝ)
    (hk : (k = .mse ∧ term = fun a b => (a - b) ^ 2) ∨ (k = .l1 ∧ term = fun a b => |a - b|) ∨ (k = .bce ∧ term = bceTerm)
      ∨ (k = .bceWithLogits ∧ term = fun a b => bceTerm (logistic a) b)
      ∨ ∃ alpha, alpha ≠ 0 ∧ k = .rappor alpha ∧ term = fun a b => bceTerm (response alpha (logistic a)) b) :
    call encrypted false k x y = if (seen x).shape = (seen y).shape then some fun _ => meanOver (seen x).shape fun i => term ((seen x).data i) ((seen y).data i) else none := by
  have hb : ∀ (s : List ℕ) (f : List ℕ → ℝ) (t : NdTensor ℝ), bceValue ⟨s, f⟩ t = meanOver s fun i => bceTerm (f i) (t.data i) := by
    intro s f t
    have e : ∀ l : List (List ℕ), -(l.map fun i => t.data i * Real.log (f i) + (1 - t.data i) * Real.log (1 - f i)).sum = (l.map fun i => bceTerm (f i) (t.data i)).sum := by
      intro l
      induction l with
      | nil => simp
      | cons a l ih => rw [List.map_cons, List.map_cons, List.sum_cons, List.sum_cons, ← ih, bceTerm]; ring
    rw [bceValue, mean_eq, meanOver, meanOver, ← neg_div]
    exact congrArg (· / _) (e _)
  rw [call_encrypted _ _ _ _ _ h]
  rcases hk with ⟨rfl, rfl⟩ | ⟨rfl, rfl⟩ | ⟨rfl, rfl⟩ | ⟨rfl, rfl⟩ | ⟨alpha, ha, rfl, rfl⟩
  · simp only [Kind.value, mse, mean_eq, zipWith]; split <;> rfl
  · simp only [Kind.value, l1, mean_eq, zipWith]; split <;> rfl
  · simp only [Kind.value, bce]
    split
    · simp only [Option.map_some, Bool.false_eq_true, if_false]
      rw [hb (seen x).shape (seen x).data]
    · rfl
  · simp only [Kind.value, bceWithLogits]
    split
    · simp only [Option.map_some, Bool.false_eq_true, if_false]
      rw [hb]; rfl
    · rfl
  · simp only [Kind.value, rappor, if_neg ha]
    split
    · simp only [Option.map_some, Bool.false_eq_true, if_false]
      rw [hb]; rfl
    · rfl


/-- Prediction encrypted, target plain, two parties. -/
example : call (n := 2) false false .mse (.crypt ⟨[2], fun _ => 3⟩) (.torch fun p => ⟨[2], fun _ => (p : ℕ)⟩) = some fun _ => 9 := by
  rw [C79_mean false _ _ (.inr (.inl rfl)) _ _ (.inl ⟨rfl, rfl⟩)]
  simp [seen, meanOver, allIdx]
  norm_num

/-- The cross-entropy after squeezing, for two or more dimensions. -/
theorem value_oneHot (N C : ℕ) (rest : List ℕ) (x y : NdTensor ℝ) (hx : x.shape = N :: C :: rest) (hy : y.shape = N :: C :: rest) (cls : ℕ → List ℕ → ℕ)
    (hc : Classes N C rest cls) (hoh : ∀ i, ValidIdx y.shape i → y.data i = oneHot cls i) :
    crossEntropyValue false x y = some (crossEntropyLoss N C rest x.data cls) := by
  rw [crossEntropyValue, if_pos (by rw [hx, hy])]
  simp only [hx, hy, List.length_cons, softmax, Bool.false_eq_true, if_false]
  rw [if_pos (by omega)]
  congr 1
  rw [crossEntropyLoss]
  congr 1
  rw [sumEntries]
  refine Finset.sum_congr rfl fun n hn => ?_
  rw [sumEntries]
  simp only [ShapeGrad.sumEntries_eq_sum]
  rw [Finset.sum_comm, ← List.sum_toFinset _ (nodup_allIdx rest)]
  refine Finset.sum_congr rfl fun r hr => ?_
  have hr := mem_idxSet.1 hr
  rw [Finset.mem_range] at hn
  have hlt := hc n r hn hr
  rw [Finset.sum_eq_single_of_mem (cls n r) (Finset.mem_range.2 hlt)]
  · have hv : ValidIdx y.shape (n :: cls n r :: r) := by
      rw [hy]; exact .cons hn (.cons hlt hr)
    rw [hoh _ hv, oneHot, if_pos rfl, mul_one]
    have hpos : 0 < ∑ j ∈ Finset.range C, Real.exp (x.data (n :: j :: r)) := Finset.sum_pos (fun _ _ => Real.exp_pos _) ⟨_, Finset.mem_range.2 hlt⟩
    simp only [List.getD_cons_succ, List.getD_cons_zero, List.set_cons_succ, List.set_cons_zero]
    rw [Real.log_div (Real.exp_pos _).ne' hpos.ne', Real.log_exp, entropy]
    ring
  · intro c hcm hne
    have hv : ValidIdx y.shape (n :: c :: r) := by
      rw [hy]; exact .cons hn (.cons (Finset.mem_range.1 hcm) hr)
    rw [hoh _ hv, oneHot, if_neg hne]
    simp

/-- Summing over a shape or over the shape without its dimensions of size 1. -/
theorem sum_squeeze (rest : List ℕ) (f : List ℕ → ℝ) : ((allIdx (rest.filter (· ≠ 1))).map fun r => f (expandIdx rest r)).sum = ((allIdx rest).map f).sum := by
  rw [← List.sum_toFinset _ (nodup_allIdx _), ← List.sum_toFinset _ (nodup_allIdx _)]
  refine Finset.sum_bij' (fun r _ => expandIdx rest r) (fun i _ => ShapeGrad.compress rest i) ?_ ?_ ?_ ?_ ?_
  · intro r hr; exact mem_idxSet.2 (ShapeGrad.expand_valid (mem_idxSet.1 hr)).1
  · intro r hr; exact mem_idxSet.2 (ShapeGrad.compress_valid (mem_idxSet.1 hr)).1
  · intro r hr; exact (ShapeGrad.expand_valid (mem_idxSet.1 hr)).2
  · intro r hr; exact (ShapeGrad.compress_valid (mem_idxSet.1 hr)).2
  · intro r hr; rfl


theorem expand_two {N C : ℕ} (hN : N ≠ 1) (hC : C ≠ 1) (rest r : List ℕ) (n c : ℕ) : expandIdx (N :: C :: rest) (n :: c :: r) = n :: c :: expandIdx rest r := by
  rw [expandIdx, expandIdx] <;> simpa

/-- **Cross-entropy.** For scores of shape `(N, C, d_1, …, d_K)` with `N ≠ 1` observations and `C ≠ 1` classes and a one-hot target of the same shape, every party gets the documented cross-entropy: `-x[class] + log Σ_j exp(x[j])`, summed over the positions and averaged over the observations. Dimensions `d_i` may have any size. Not true of a batch of one observation: see the witnesses below. -/
theorem C79_cross_entropy_partial {n : ℕ} [NeZero n] (encrypted : Bool) (x y : Arg n) (h : encrypted = true ∨ x.isCrypt = true ∨ y.isCrypt = true) (N C : ℕ) (rest : List ℕ)
    (hN : N ≠ 1) (hC : C ≠ 1) (hx : (seen x).shape = N :: C :: rest) (hy : (seen y).shape = N :: C :: rest) (cls : ℕ → List ℕ → ℕ) (hc : Classes N C rest cls)
    (hoh : ∀ i, ValidIdx (N :: C :: rest) i → (seen y).data i = oneHot cls i) :
    call encrypted false .crossEntropy x y = some fun _ => crossEntropyLoss N C rest (seen x).data cls := by
  rw [call_encrypted _ _ _ _ _ h, Kind.value, crossEntropy]
  have hf : (N :: C :: rest).filter (· ≠ 1) = N :: C :: rest.filter (· ≠ 1) := by simp [hN, hC]
  rw [value_oneHot N C (rest.filter (· ≠ 1)) (seen x).squeezeAll (seen y).squeezeAll (by rw [squeezeAll, hx, hf]) (by rw [squeezeAll, hy, hf]) (fun n r => cls n (expandIdx rest r))]
  · rw [Option.map_some]
    congr 1
    funext _
    rw [crossEntropyLoss, crossEntropyLoss]
    congr 1
    refine Finset.sum_congr rfl fun n _ => ?_
    rw [← sum_squeeze rest]
    simp only [squeezeAll, hx, expand_two hN hC]
  · intro n r hn hr
    exact hc n _ hn (ShapeGrad.expand_valid hr).1
  · intro i hi
    rw [squeezeAll, hy] at hi ⊢
    have hv := (ShapeGrad.expand_valid hi).1
    rw [hf] at hi
    obtain ⟨n, i, rfl, hn, hi⟩ := validIdx_cons.1 hi
    obtain ⟨c, r, rfl, hn, hi⟩ := validIdx_cons.1 hi
    show (seen y).data _ = _
    rw [hoh _ hv, expand_two hN hC]
    rfl

/-- Two observations, three classes and a dimension of size 1. -/
example : call (n := 2) false false .crossEntropy (.crypt ⟨[2, 3, 1], fun i => (i.sum : ℝ)⟩) (.torch fun _ => ⟨[2, 3, 1], oneHot fun n _ => n⟩)
    = some fun _ => crossEntropyLoss 2 3 [1] (fun i => (i.sum : ℝ)) fun n _ => n :=
  C79_cross_entropy_partial false _ _ (.inr (.inl rfl)) 2 3 [1] (by decide) (by decide) rfl rfl _ (fun n _ h _ => by omega) fun _ _ => rfl

/-- **A batch of one observation.** For scores of shape `(1, C)` the batch dimension is squeezed away, so the sum is divided by the number of classes: every party gets the documented loss divided by `C`. -/
theorem C79_batch_of_one_wrong {n : ℕ} [NeZero n] (encrypted : Bool) (x y : Arg n) (h : encrypted = true ∨ x.isCrypt = true ∨ y.isCrypt = true) (C : ℕ) (hC : C ≠ 1)
    (hx : (seen x).shape = [1, C]) (hy : (seen y).shape = [1, C]) (cls : ℕ → List ℕ → ℕ) (hc : Classes 1 C [] cls) (hoh : ∀ i, ValidIdx [1, C] i → (seen y).data i = oneHot cls i) :
    call encrypted false .crossEntropy x y = some fun _ => crossEntropyLoss 1 C [] (seen x).data cls / C := by
  rw [call_encrypted _ _ _ _ _ h, Kind.value, crossEntropy, crossEntropyValue]
  have hf : [1, C].filter (· ≠ 1) = [C] := by simp [hC]
  have he : ∀ c, expandIdx [1, C] [c] = [0, c] := by
    intro c
    rw [expandIdx, expandIdx]
    · rfl
    · simpa
  have hlt : cls 0 [] < C := hc 0 [] (by omega) .nil
  simp only [squeezeAll, hx, hy, hf, if_true, softmax, Bool.false_eq_true, if_false, List.length_cons, List.length_nil, Option.map_some]
  congr 1
  funext _
  congr 1
  rw [crossEntropyLoss]
  simp only [Finset.sum_range_one, allIdx, List.map_cons, List.map_nil, List.sum_cons, List.sum_nil, add_zero, Nat.cast_one, div_one, sumEntries]
  rw [Finset.sum_eq_single_of_mem (cls 0 []) (Finset.mem_range.2 hlt)]
  · have hpos : 0 < ∑ j ∈ Finset.range C, Real.exp ((seen x).data [0, j]) := Finset.sum_pos (fun _ _ => Real.exp_pos _) ⟨_, Finset.mem_range.2 hlt⟩
    rw [he, hoh _ (.cons (by omega) (.cons hlt .nil)), oneHot, if_pos rfl]
    simp [he]
    rw [Real.log_div (Real.exp_pos _).ne' hpos.ne', Real.log_exp, entropy]
    ring
  · intro c hcm hne
    rw [he, hoh _ (.cons (by omega) (.cons (Finset.mem_range.1 hcm) .nil)), oneHot, if_neg hne]
    simp

/-- One observation, three classes. -/
example : call (n := 2) false false .crossEntropy (.crypt ⟨[1, 3], fun i => (i.sum : ℝ)⟩) (.torch fun _ => ⟨[1, 3], oneHot fun _ _ => 2⟩)
    = some fun _ => crossEntropyLoss 1 3 [] (fun i => (i.sum : ℝ)) (fun _ _ => 2) / (3 : ℕ) :=
  C79_batch_of_one_wrong false _ _ (.inr (.inl rfl)) 3 (by decide) rfl rfl _ (fun _ _ _ _ => by omega) fun _ _ => rfl

/-- The gradient of a batch of one observation is divided by `C` as well. -/
theorem C79_batch_of_one_grad_wrong (C : ℕ) (hC : C ≠ 1) (x y : NdTensor ℝ) (hx : x.shape = [1, C]) (hy : y.shape = [1, C]) (g : ℝ) (c : ℕ) :
    (crossEntropyGrad x.squeezeAll y.squeezeAll g).data [c] = (Real.exp (x.data [0, c]) / ∑ j ∈ Finset.range C, Real.exp (x.data [0, j]) - y.data [0, c]) / C * g := by
  have hf : [1, C].filter (· ≠ 1) = [C] := by simp [hC]
  have he : ∀ c, expandIdx [1, C] [c] = [0, c] := by
    intro c
    rw [expandIdx, expandIdx]
    · rfl
    · simpa
  simp only [crossEntropyGrad, squeezeAll, hx, hy, hf, softmax]
  simp [he]

/-- **A batch of one observation with positions.** For scores of shape `(1, C, D)` the softmax runs over the positions, not over the classes: for scores that are all 0 every party gets `D * log D / C`, while the documented loss is `D * log C`. -/
theorem C79_batch_of_one_positions_wrong {n : ℕ} [NeZero n] (encrypted : Bool) (x y : Arg n) (h : encrypted = true ∨ x.isCrypt = true ∨ y.isCrypt = true) (C D : ℕ) (hC : 1 < C) (hD : 1 < D)
    (hx : seen x = ⟨[1, C, D], fun _ => 0⟩) (hy : (seen y).shape = [1, C, D]) (cls : ℕ → List ℕ → ℕ) (hc : Classes 1 C [D] cls)
    (hoh : ∀ i, ValidIdx [1, C, D] i → (seen y).data i = oneHot cls i) :
    call encrypted false .crossEntropy x y = some (fun _ => D * Real.log D / C) ∧ crossEntropyLoss 1 C [D] (seen x).data cls = D * Real.log C := by
  constructor
  · rw [call_encrypted _ _ _ _ _ h, Kind.value, crossEntropy, crossEntropyValue]
    have hf : [1, C, D].filter (· ≠ 1) = [C, D] := by simp [hC.ne', hD.ne']
    have he : ∀ c d, expandIdx [1, C, D] [c, d] = [0, c, d] := by
      intro c d
      rw [expandIdx, expand_two hC.ne' hD.ne']
      rfl
    simp only [squeezeAll, hx, hy, hf, if_true, softmax, Bool.false_eq_true, if_false, List.length_cons, List.length_nil, Option.map_some]
    congr 1
    funext _
    congr 1
    simp only [sumEntries, he, Real.exp_zero, Finset.sum_const, Finset.card_range, nsmul_eq_mul, mul_one]
    have e : ∀ c ∈ Finset.range C, ∀ d ∈ Finset.range D, -(Real.log (1 / (D : ℝ)) * (seen y).data [0, c, d]) = if c = cls 0 [d] then Real.log D else 0 := by
      intro c hc' d hd
      rw [hoh _ (.cons (by omega) (.cons (Finset.mem_range.1 hc') (.cons (Finset.mem_range.1 hd) .nil))), oneHot]
      split <;> simp
    have e2 : ∑ c ∈ Finset.range C, ∑ d ∈ Finset.range D, -(Real.log (1 / (D : ℝ)) * (seen y).data [0, c, d]) = D * Real.log D := by
      rw [Finset.sum_congr rfl fun c hc' => Finset.sum_congr rfl fun d hd => e c hc' d hd, Finset.sum_comm]
      have : ∀ d ∈ Finset.range D, (∑ c ∈ Finset.range C, if c = cls 0 [d] then Real.log D else 0) = Real.log D := by
        intro d hd
        rw [Finset.sum_ite_eq', if_pos]
        exact Finset.mem_range.2 (hc 0 [d] (by omega) (.cons (Finset.mem_range.1 hd) .nil))
      rw [Finset.sum_congr rfl this]
      simp
    exact e2
  · rw [hx, crossEntropyLoss]
    simp [entropy, allIdx, List.sum_replicate]

/-- Two classes and three positions. -/
example : call (n := 2) false false .crossEntropy (.crypt ⟨[1, 2, 3], fun _ => 0⟩) (.torch fun _ => ⟨[1, 2, 3], oneHot fun _ _ => 1⟩) = some fun _ => (3 : ℕ) * Real.log (3 : ℕ) / (2 : ℕ) :=
  (C79_batch_of_one_positions_wrong false _ _ (.inr (.inl rfl)) 2 3 (by decide) (by decide) rfl rfl _ (fun _ _ _ _ => by omega) fun _ _ => rfl).1

/-- **Class indices.** The documentation asks for class indices, one for each observation. With such a target every call fails, whatever the scores (unless there is one class only). -/
theorem C79_class_index_wrong {n : ℕ} [NeZero n] (encrypted skip : Bool) (x y : Arg n) (h : encrypted = true ∨ x.isCrypt = true ∨ y.isCrypt = true) (N C : ℕ) (hC : C ≠ 1)
    (hx : (seen x).shape = [N, C]) (hy : (seen y).shape = [N]) : call encrypted skip .crossEntropy x y = none := by
  rw [call_encrypted _ _ _ _ _ h, Kind.value, crossEntropy, crossEntropyValue, if_neg]
  · rfl
  · simp only [squeezeAll, hx, hy]
    by_cases hN : N = 1 <;> simp [hN, hC]

/-- **RAPPOR.** With `alpha = 0` the loss is the one without randomized response, but `r` of the documented formula is then `1 - p`: for the score 1 and the target 1 the two differ. -/
theorem C79_rappor_wrong {n : ℕ} [NeZero n] :
    ∃ x y : NdTensor ℝ, x.shape = y.shape ∧ call (n := n) false false (.rappor 0) (.crypt x) (.crypt y) ≠ some fun _ => meanOver x.shape fun i => bceTerm (response 0 (logistic (x.data i))) (y.data i) := by
  refine ⟨⟨[1], fun _ => 1⟩, ⟨[1], fun _ => 1⟩, rfl, ?_⟩
  rw [call_encrypted _ _ _ _ _ (.inr (.inl rfl))]
  simp only [Kind.value, rappor, seen, if_true, Option.map_some, Bool.false_eq_true, if_false, ne_eq, Option.some.injEq]
  intro e
  have e := congrFun e 0
  simp [bceValue, mean, zipWith, sumEntries, meanOver, allIdx, bceTerm, response, sigmoid, logistic] at e
  set t := Real.exp (-1) with ht
  have h0 : 0 < t := Real.exp_pos _
  have h1 : t < 1 := by rw [ht, Real.exp_lt_one_iff]; norm_num
  have e1 : 1 - (1 + t)⁻¹ = t / (1 + t) := by field_simp; ring
  rw [e1, Real.log_div h0.ne' (by linarith)] at e
  have : Real.log t = 0 := by linarith
  rw [ht, Real.log_exp] at this
  norm_num at this

/-- **Whose target is used.** A plain tensor given to an encrypted loss counts with the values of party 0 only: the tensors of the other parties make no difference, even if their shapes differ. -/
theorem C79_party_zero {n : ℕ} [NeZero n] (encrypted skip : Bool) (k : Kind) (x : NdTensor ℝ) (y y' : Fin n → NdTensor ℝ) (h0 : y 0 = y' 0) :
    call encrypted skip k (.crypt x) (.torch y) = call encrypted skip k (.crypt x) (.torch y') ∧ call encrypted skip k (.crypt x) (.torch y) = call encrypted skip k (.crypt x) (.crypt (y 0)) := by
  rw [call_encrypted _ _ _ _ _ (.inr (.inl rfl)), call_encrypted _ _ _ _ _ (.inr (.inl rfl)), call_encrypted _ _ _ _ _ (.inr (.inl rfl))]
  simp [seen, h0]

/-- **Plain tensors.** If nothing is encrypted, the mean squared and the mean absolute error give each party the mean of its own tensors; the other losses fail. -/
theorem C79_plain {n : ℕ} [NeZero n] (skip : Bool) (x y : Fin n → NdTensor ℝ) (hs : ∀ p, (x p).shape = (y p).shape) :
    call false skip .mse (.torch x) (.torch y) = some (fun p => meanOver (x p).shape fun i => ((x p).data i - (y p).data i) ^ 2)
    ∧ call false skip .l1 (.torch x) (.torch y) = some (fun p => meanOver (x p).shape fun i => |(x p).data i - (y p).data i|)
    ∧ call false skip .bce (.torch x) (.torch y) = none ∧ call false skip .bceWithLogits (.torch x) (.torch y) = none
    ∧ call false skip .crossEntropy (.torch x) (.torch y) = none ∧ ∀ alpha, call false skip (.rappor alpha) (.torch x) (.torch y) = none := by
  simp [call, prepare, Arg.isCrypt, Kind.plain, Kind.value, mse, l1, hs, mean_eq, zipWith]

/-- **Skipping the forward pass.** With `skip_forward=True` the losses that take it give 0 to every party for tensors of equal shapes; the mean squared and the mean absolute error give the value all the same. -/
theorem C79_skip {n : ℕ} [NeZero n] (encrypted : Bool) (x y : Arg n) (h : encrypted = true ∨ x.isCrypt = true ∨ y.isCrypt = true) (hs : (seen x).shape = (seen y).shape) (k : Kind) :
    call encrypted true k x y = if k.plain then call encrypted false k x y else some fun _ => 0 := by
  rw [call_encrypted _ _ _ _ _ h, call_encrypted _ _ _ _ _ h]
  cases k <;> simp [Kind.plain, Kind.value, bce, bceWithLogits, rappor, crossEntropy, crossEntropyValue, squeezeAll, hs, mse, l1]

/-- The derivative of the entropy of one observation with respect to the score of class `c`. -/
theorem entropy_deriv (C : ℕ) (x : ℕ → ℝ) (c d : ℕ) (hc : c < C) :
    HasDerivAt (fun t => entropy C (fun j => if j = c then t else x j) d)
      (Real.exp (x c) / ∑ j ∈ Finset.range C, Real.exp (x j) - if c = d then 1 else 0) (x c) := by
  have he : ∀ j ∈ Finset.range C, HasDerivAt (fun t => Real.exp (if j = c then t else x j)) (if j = c then Real.exp (x c) else 0) (x c) := by
    intro j _
    by_cases h : j = c
    · simp only [h, if_true]
      exact Real.hasDerivAt_exp _
    · simp only [h, if_false]
      exact hasDerivAt_const _ _
  have hs := HasDerivAt.fun_sum he
  have hx : ∀ j, (if j = c then x c else x j) = x j := fun j => by split <;> simp_all
  have hpos : (∑ j ∈ Finset.range C, Real.exp (if j = c then x c else x j)) ≠ 0 := by
    refine (Finset.sum_pos (fun _ _ => Real.exp_pos _) ⟨c, Finset.mem_range.2 hc⟩).ne'
  have hl := hs.log hpos
  rw [Finset.sum_ite_eq' (Finset.range C) c, if_pos (Finset.mem_range.2 hc)] at hl
  simp only [hx] at hl
  have hd : HasDerivAt (fun t => -(if d = c then t else x d)) (-(if c = d then 1 else 0)) (x c) := by
    by_cases h : d = c
    · simp only [h, if_true]
      exact (hasDerivAt_id _).neg
    · have h' : ¬c = d := fun e => h e.symm
      simp only [h, h', if_false, neg_zero]
      exact hasDerivAt_const _ _
  have := hd.add hl
  rw [neg_add_eq_sub] at this
  exact this

/-- **The gradient of the cross-entropy.** For scores of `C` classes, with one-hot targets, what the backward pass computes for a score is the derivative of the documented loss with respect to that score, times the gradient of the loss. -/
theorem C79_cross_entropy_grad (N C : ℕ) (rest : List ℕ) (x y : NdTensor ℝ) (hx : x.shape = N :: C :: rest) (hy : y.shape = N :: C :: rest)
    (cls : ℕ → List ℕ → ℕ) (hoh : ∀ i, ValidIdx y.shape i → y.data i = oneHot cls i) (g : ℝ) (n c : ℕ) (r : List ℕ) (hv : ValidIdx (N :: C :: rest) (n :: c :: r)) :
    HasDerivAt (fun t => g * crossEntropyLoss N C rest (fun i => if i = n :: c :: r then t else x.data i) cls)
      ((crossEntropyGrad x y g).data (n :: c :: r)) (x.data (n :: c :: r)) := by
  have hn : n < N := by cases hv; assumption
  have hv2 : ValidIdx (C :: rest) (c :: r) := by cases hv; assumption
  have hc : c < C := by cases hv2; assumption
  have hr : ValidIdx rest r := by cases hv2; assumption
  have h1 : ∀ n' ∈ Finset.range N, HasDerivAt (fun t => ∑ r' ∈ idxSet rest, entropy C (fun c' => if n' :: c' :: r' = n :: c :: r then t else x.data (n' :: c' :: r')) (cls n' r'))
      (∑ r' ∈ idxSet rest, if n' = n ∧ r' = r then Real.exp (x.data (n :: c :: r)) / ∑ j ∈ Finset.range C, Real.exp (x.data (n :: j :: r)) - (if c = cls n r then 1 else 0) else 0)
      (x.data (n :: c :: r)) := by
    intro n' _
    refine HasDerivAt.fun_sum fun r' _ => ?_
    by_cases h : n' = n ∧ r' = r
    · obtain ⟨rfl, rfl⟩ := h
      simp only [List.cons.injEq, true_and, and_true, and_self, if_true]
      exact entropy_deriv C (fun j => x.data (n' :: j :: r')) c (cls n' r') hc
    · rw [if_neg h]
      have : ∀ c' t, (if n' :: c' :: r' = n :: c :: r then t else x.data (n' :: c' :: r')) = x.data (n' :: c' :: r') := by
        intro c' t
        rw [if_neg]
        simp only [List.cons.injEq]
        tauto
      simp only [this]
      exact hasDerivAt_const _ _
  have h2 := ((HasDerivAt.fun_sum h1).div_const (N : ℝ)).const_mul g
  have hsum : (∑ n' ∈ Finset.range N, ∑ r' ∈ idxSet rest, if n' = n ∧ r' = r then Real.exp (x.data (n :: c :: r)) / ∑ j ∈ Finset.range C, Real.exp (x.data (n :: j :: r)) - (if c = cls n r then 1 else 0) else 0)
      = Real.exp (x.data (n :: c :: r)) / ∑ j ∈ Finset.range C, Real.exp (x.data (n :: j :: r)) - (if c = cls n r then 1 else 0) := by
    rw [Finset.sum_eq_single_of_mem n (Finset.mem_range.2 hn), Finset.sum_eq_single_of_mem r (mem_idxSet.2 hr), if_pos ⟨rfl, rfl⟩]
    · intro r' _ h; rw [if_neg (fun e => h e.2)]
    · intro n' _ h
      exact Finset.sum_eq_zero fun r' _ => if_neg (fun e => h e.1)
  rw [hsum] at h2
  have hg : (crossEntropyGrad x y g).data (n :: c :: r) = g * ((Real.exp (x.data (n :: c :: r)) / ∑ j ∈ Finset.range C, Real.exp (x.data (n :: j :: r)) - (if c = cls n r then 1 else 0)) / N) := by
    have ht := hoh (n :: c :: r) (by rw [hy]; exact hv)
    simp only [crossEntropyGrad, softmax, hx, hy, List.length_cons, ht, oneHot, List.headD_cons]
    rw [if_pos (by omega)]
    simp only [List.getD_cons_succ, List.getD_cons_zero, List.set_cons_succ, List.set_cons_zero]
    ring
  rw [hg]
  refine h2.congr_of_eventuallyEq (Filter.Eventually.of_forall fun t => ?_)
  simp only [crossEntropyLoss]
  congr 2
  refine Finset.sum_congr rfl fun n' _ => ?_
  rw [idxSet, List.sum_toFinset _ (nodup_allIdx rest)]

/-- Two observations of three classes: the hypotheses are met. -/
example : HasDerivAt (fun t => 1 * crossEntropyLoss 2 3 [] (fun i => if i = [1, 0] then t else 0) fun n _ => n)
    ((crossEntropyGrad ⟨[2, 3], fun _ => 0⟩ ⟨[2, 3], oneHot fun n _ => n⟩ 1).data [1, 0]) 0 :=
  C79_cross_entropy_grad 2 3 [] ⟨[2, 3], fun _ => 0⟩ ⟨[2, 3], oneHot fun n _ => n⟩ rfl rfl (fun n _ => n) (fun _ _ => rfl) 1 1 0 []
    (.cons (by norm_num) (.cons (by norm_num) .nil))

end CrypTen.Loss
