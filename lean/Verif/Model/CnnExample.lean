import Verif.Model.Training

/-!
# The example `mpc_autograd_cnn`

Models `train_encrypted` of /repo/examples/mpc_autograd_cnn/mpc_autograd_cnn.py, with the network `CNN` (lines 158-173) as `crypten.nn.from_pytorch` converts it (modules `Conv`, `ReLU`, `MaxPool2d`, `Reshape`, `Gemm`) and
`Module.update_parameters` (/repo/crypten/nn/module.py:317-346), on shares. All sizes are arbitrary; the example has images of 28 × 28 pixels, of which party 0 holds 20 columns and party 1 the other 8, 16 channels, kernels of
5 × 5, 100 hidden units and 2 classes.

Simplifications: the number of examples is a multiple of the batch size (100 and 5 in the example), so that all batches have the same shape. `crypten.cat`, `unsqueeze` and the indexing of the examples are done before gradients
are recorded in the code; here they are part of the tape, and are repeated for each batch, which are operations on each party's own shares. The planes for `max_pool2d` are numbered by one index.
-/

namespace CrypTen.Cnn
open Program (Regs set)
open Backprop (Tape Grads Spread Part)

/-- Sizes: `q` batches of `N` examples; images of `h` rows and `wa + wb` columns; `O` channels, kernels `kh × kw`; `D` hidden units; `C` classes. -/
structure Dims where
  q : ℕ
  N : ℕ
  h : ℕ
  wa : ℕ
  wb : ℕ
  O : ℕ
  kh : ℕ
  kw : ℕ
  D : ℕ
  C : ℕ

namespace Dims
variable (d : Dims)
/-- Columns of an image. -/
abbrev w : ℕ := d.wa + d.wb
/-- Examples. -/
abbrev S : ℕ := d.q * d.N
/-- Rows after the convolution (`Conv2d(1, 16, kernel_size=5, padding=0)`). -/
abbrev oh : ℕ := d.h + 1 - d.kh
/-- Columns after the convolution. -/
abbrev ow : ℕ := d.w + 1 - d.kw
/-- Rows after `max_pool2d(out, 2)`. -/
abbrev ph : ℕ := d.oh / 2
/-- Columns after `max_pool2d(out, 2)`. -/
abbrev pw : ℕ := d.ow / 2
/-- Features for the first linear layer. -/
abbrev m : ℕ := d.O * (d.ph * d.pw)
end Dims

/-- The registers: images of party 0 and of party 1, the parameters (2-7), all images (8, 9), the batch (10), its labels (11), and the results of the calls in the forward pass. -/
def shape (d : Dims) : ℕ → Type
  | 0 => Fin d.S × Fin d.h × Fin d.wa
  | 1 => Fin d.S × Fin d.h × Fin d.wb
  | 2 => Fin d.O × Fin 1 × Fin d.kh × Fin d.kw
  | 3 => Fin d.O
  | 4 => Fin d.D × Fin d.m
  | 5 => Fin d.D
  | 6 => Fin d.C × Fin d.D
  | 7 => Fin d.C
  | 8 => Fin d.S × Fin d.h × Fin d.w
  | 9 => Fin d.S × Fin 1 × Fin d.h × Fin d.w
  | 10 => Fin d.N × Fin 1 × Fin d.h × Fin d.w
  | 11 => Fin d.N × Fin d.C
  | 12 => Fin d.N × Fin d.O × Fin d.oh × Fin d.ow
  | 13 => Fin 1 × Fin d.O × Fin 1 × Fin 1
  | 14 => Fin d.N × Fin d.O × Fin d.oh × Fin d.ow
  | 15 => Fin d.N × Fin d.O × Fin d.oh × Fin d.ow
  | 16 => Fin (d.N * d.O) × Fin d.oh × Fin d.ow
  | 17 => Fin (d.N * d.O) × Fin d.ph × Fin d.pw
  | 18 => Fin d.N × Fin d.m
  | 19 => Fin d.m × Fin d.D
  | 20 => Fin d.N × Fin d.D
  | 21 => Fin d.N × Fin d.D
  | 22 => Fin d.D
  | 23 => Fin d.N × Fin d.D
  | 24 => Fin d.N × Fin d.D
  | 25 => Fin d.D × Fin d.C
  | 26 => Fin d.N × Fin d.C
  | 27 => Fin d.N × Fin d.C
  | 28 => Fin d.C
  | 29 => Fin d.N × Fin d.C
  | 30 => Fin d.N × Fin d.C
  | 31 => Fin d.N × Fin d.C
  | _ => Unit

/-- The index of the loss. -/
abbrev out : ℕ := 32

/-- `crypten.cat([x_alice_enc, x_bob_enc], dim=2)` (mpc_autograd_cnn.py:53): columns of party 0, then those of party 1. -/
def joinColumns (S h wa wb : ℕ) : Fin S × Fin h × Fin (wa + wb) ≃ (Fin S × Fin h × Fin wa) ⊕ (Fin S × Fin h × Fin wb) where
  toFun z := Sum.elim (fun a => .inl (z.1, z.2.1, a)) (fun b => .inr (z.1, z.2.1, b)) (finSumFinEquiv.symm z.2.2)
  invFun := Sum.elim (fun z => (z.1, z.2.1, finSumFinEquiv (.inl z.2.2))) fun z => (z.1, z.2.1, finSumFinEquiv (.inr z.2.2))
  left_inv z := by
    obtain ⟨s, i, j⟩ := z
    obtain ⟨j, rfl⟩ := finSumFinEquiv.surjective j
    rcases j with j | j <;> simp
  right_inv z := by rcases z with ⟨s, i, j⟩ | ⟨s, i, j⟩ <;> simp

/-- `unsqueeze(1)` (mpc_autograd_cnn.py:54). -/
def channel (S : ℕ) (X : Type) : Fin S × Fin 1 × X ≃ Fin S × X where
  toFun z := (z.1, z.2.2)
  invFun z := (z.1, 0, z.2)
  left_inv z := Prod.ext rfl (Prod.ext (Subsingleton.elim _ _) rfl)
  right_inv _ := rfl

/-- `x_encrypted[start:end]` (mpc_autograd_cnn.py:97), batch `b`: examples `b N, …, b N + N - 1`. -/
def batchPart (q N : ℕ) (X : Type) (b : Fin q) : Part (Fin N × X) (Fin (q * N) × X) where
  pick z := some (finProdFinEquiv (b, z.1), z.2)
  back z := if (finProdFinEquiv.symm z.1).1 = b then some ((finProdFinEquiv.symm z.1).2, z.2) else none
  inv i j := by
    obtain ⟨i, x⟩ := i
    obtain ⟨j, y⟩ := j
    obtain ⟨⟨c, j⟩, rfl⟩ := finProdFinEquiv.surjective j
    simp only [Equiv.symm_apply_apply, Option.some.injEq, Prod.mk.injEq, EmbeddingLike.apply_eq_iff_eq, Option.ite_none_right_eq_some]
    constructor
    · rintro ⟨⟨rfl, rfl⟩, rfl⟩; exact ⟨rfl, rfl, rfl⟩
    · rintro ⟨rfl, rfl, rfl⟩; exact ⟨⟨rfl, rfl⟩, rfl⟩

/-- Broadcasting along leading or trailing dimensions, given by a bijection of the positions. -/
def _root_.CrypTen.Backprop.Spread.ofEquiv {α β : Type} {s : ℕ} (e : Fin s × β ≃ α) : Spread α β := ⟨fun a => (e.symm a).2, s, e, e.bijective, fun p => by rw [e.symm_apply_apply]⟩

/-- `bias.unsqueeze(0)`, then `unsqueeze(-1)` twice (/repo/crypten/nn/module.py:2001-2003). -/
def biasView (O : ℕ) : Fin 1 × Fin O × Fin 1 × Fin 1 ≃ Fin O where
  toFun z := z.2.1
  invFun o := (0, o, 0, 0)
  left_inv z := Prod.ext (Subsingleton.elim _ _) (Prod.ext rfl (Prod.ext (Subsingleton.elim _ _) (Subsingleton.elim _ _)))
  right_inv _ := rfl

/-- The bias is added at all positions of all images (module.py:2004). -/
def biasSpread (N O oh ow : ℕ) : Fin (N * (oh * ow)) × (Fin 1 × Fin O × Fin 1 × Fin 1) ≃ Fin N × Fin O × Fin oh × Fin ow where
  toFun z := ((finProdFinEquiv.symm z.1).1, z.2.2.1, finProdFinEquiv.symm (finProdFinEquiv.symm z.1).2)
  invFun z := (finProdFinEquiv (z.1, finProdFinEquiv z.2.2), 0, z.2.1, 0, 0)
  left_inv z := by
    obtain ⟨p, a, o, b, c⟩ := z
    refine Prod.ext ?_ (Prod.ext (Subsingleton.elim _ _) (Prod.ext rfl (Prod.ext (Subsingleton.elim _ _) (Subsingleton.elim _ _))))
    simp only [Prod.mk.eta, Equiv.apply_symm_apply, Equiv.symm_apply_apply]
  right_inv z := by simp only [Prod.mk.eta, Equiv.apply_symm_apply, Equiv.symm_apply_apply]

/-- The planes of all images and channels. -/
def planes (N O : ℕ) (X : Type) : Fin (N * O) × X ≃ Fin N × Fin O × X where
  toFun z := ((finProdFinEquiv.symm z.1).1, (finProdFinEquiv.symm z.1).2, z.2)
  invFun z := (finProdFinEquiv (z.1, z.2.1), z.2.2)
  left_inv z := by simp only [Prod.mk.eta, Equiv.apply_symm_apply, Equiv.symm_apply_apply]
  right_inv z := by simp only [Prod.mk.eta, Equiv.apply_symm_apply, Equiv.symm_apply_apply]

/-- `out.view(-1, 16 * 12 * 12)` (mpc_autograd_cnn.py:169): the features of an image in row-major order. -/
def flatten (N O ph pw : ℕ) : Fin N × Fin (O * (ph * pw)) ≃ Fin (N * O) × Fin ph × Fin pw where
  toFun z := (finProdFinEquiv (z.1, (finProdFinEquiv.symm z.2).1), finProdFinEquiv.symm (finProdFinEquiv.symm z.2).2)
  invFun z := ((finProdFinEquiv.symm z.1).1, finProdFinEquiv ((finProdFinEquiv.symm z.1).2, finProdFinEquiv z.2))
  left_inv z := by simp only [Prod.mk.eta, Equiv.apply_symm_apply, Equiv.symm_apply_apply]
  right_inv z := by simp only [Prod.mk.eta, Equiv.apply_symm_apply, Equiv.symm_apply_apply]

/-- All entries, for `mean()`. -/
def allEntries (N C : ℕ) : Fin (N * C) × Unit ≃ Fin N × Fin C where
  toFun z := finProdFinEquiv.symm z.1
  invFun z := (finProdFinEquiv z, ())
  left_inv z := by simp only [Prod.mk.eta, Equiv.apply_symm_apply, Equiv.symm_apply_apply]
  right_inv z := by simp only [Prod.mk.eta, Equiv.apply_symm_apply, Equiv.symm_apply_apply]

/-- The windows of `max_pool2d(out, 2)` (mpc_autograd_cnn.py:168). -/
def poolPlaces (d : Dims) : Backprop.Places (3 + 1) (Fin (d.N * d.O) × Fin d.ph × Fin d.pw) (Fin (d.N * d.O) × Fin d.oh × Fin d.ow) :=
  Backprop.maxPool2dPlaces (d.N * d.O) d.oh d.ow 2 2 d.ph d.pw (2, 2) (1, 1) (fun i u => by have h : i.val < d.oh / 2 := i.isLt; have := u.isLt; omega) (fun i u => by have h : i.val < d.ow / 2 := i.isLt; have := u.isLt; omega)

/-- One batch, latest call first: `encrypted_model(x_train)` and `loss(output, y_train)` (mpc_autograd_cnn.py:97-105, 165-173; `Conv.forward`, /repo/crypten/nn/module.py:1963-2005; `Gemm.forward`, module.py:1843-1851, with
`transB`, `alpha` and `beta` = 1.0; `MSELoss.forward`, /repo/crypten/nn/loss.py:65-67). The labels are entered by party 0 (the default `src` of `cryptensor`). -/
def batchTape {n : ℕ} [NeZero n] (d : Dims) (method : MaxMethod) (b : Fin d.q) (y : Fin d.N × Fin d.C → ℚ) : Tape n (shape d) :=
  [⟨32, .mean 31 (Spread.ofEquiv (allEntries d.N d.C) : Spread (Fin d.N × Fin d.C) Unit)⟩,
   ⟨31, .square 30 (Equiv.refl (Fin d.N × Fin d.C))⟩,
   ⟨30, .sub 29 11 (.none (Fin d.N × Fin d.C)) (.none (Fin d.N × Fin d.C))⟩,
   ⟨29, .add 27 28 (.none (Fin d.N × Fin d.C)) (Spread.ofEquiv (Equiv.refl (Fin d.N × Fin d.C)))⟩,
   ⟨28, .mulNum 7 (Equiv.refl (Fin d.C)) 1⟩,
   ⟨27, .mulNum 26 (Equiv.refl (Fin d.N × Fin d.C)) 1⟩,
   ⟨26, .bil 24 25 (Backprop.matmulBil d.N d.D d.C)⟩,
   ⟨25, .view 6 (Equiv.prodComm (Fin d.D) (Fin d.C))⟩,
   ⟨24, .relu 23 (Equiv.refl (Fin d.N × Fin d.D))⟩,
   ⟨23, .add 21 22 (.none (Fin d.N × Fin d.D)) (Spread.ofEquiv (Equiv.refl (Fin d.N × Fin d.D)))⟩,
   ⟨22, .mulNum 5 (Equiv.refl (Fin d.D)) 1⟩,
   ⟨21, .mulNum 20 (Equiv.refl (Fin d.N × Fin d.D)) 1⟩,
   ⟨20, .bil 18 19 (Backprop.matmulBil d.N d.m d.D)⟩,
   ⟨19, .view 4 (Equiv.prodComm (Fin d.m) (Fin d.D))⟩,
   ⟨18, .view 17 (flatten d.N d.O d.ph d.pw)⟩,
   ⟨17, .maximum 16 method 3 (poolPlaces d)⟩,
   ⟨16, .view 15 (planes d.N d.O (Fin d.oh × Fin d.ow))⟩,
   ⟨15, .relu 14 (Equiv.refl (Fin d.N × Fin d.O × Fin d.oh × Fin d.ow))⟩,
   ⟨14, .add 12 13 (.none (Fin d.N × Fin d.O × Fin d.oh × Fin d.ow)) (Spread.ofEquiv (biasSpread d.N d.O d.oh d.ow))⟩,
   ⟨13, .view 3 (biasView d.O)⟩,
   ⟨12, .bil 10 2 (Backprop.conv2dBil d.N 1 d.O d.h d.w d.kh d.kw d.oh d.ow (1, 1) (0, 0) (1, 1))⟩,
   ⟨11, .leaf 0 y⟩,
   ⟨10, .part 9 (batchPart d.q d.N (Fin 1 × Fin d.h × Fin d.w) b)⟩,
   ⟨9, .view 8 (channel d.S (Fin d.h × Fin d.w))⟩,
   ⟨8, .cat 0 1 (joinColumns d.S d.h d.wa d.wb)⟩,
   ⟨7, .param⟩, ⟨6, .param⟩, ⟨5, .param⟩, ⟨4, .param⟩, ⟨3, .param⟩, ⟨2, .param⟩, ⟨1, .param⟩, ⟨0, .param⟩]

section
variable {n : ℕ} [NeZero n] {sh : ℕ → Type}

/-- The body of the loop of `Module.update_parameters` on shares (/repo/crypten/nn/module.py:336-346): the threshold, `grad.mul_(learning_rate)`, `param.sub_(…)`. `thr2` is `square_threshold`. -/
def updateShares {ι : Type} (D : ℕ) (thr2 : Option ℚ) (lr : ℚ) (p g : AST n ι) : Proto n (AST n ι) := do
  let g ← Sgd.usedShares D thr2 g
  let u ← AST.mulPub (elementwise ι) g fun _ => lr
  p.sub u

/-- `Module.update_parameters(learning_rate, grad_threshold)` (module.py:317-346): parameters without a gradient are left alone. -/
def updateParameters (D : ℕ) (thr2 : Option ℚ) (lr : ℚ) (G : Grads n sh) : List ℕ → Regs n sh → Proto n (Regs n sh)
  | [], R => pure R
  | p :: ps, R =>
    match G p with
    | none => updateParameters D thr2 lr G ps R
    | some g => do
      let w ← updateShares D thr2 lr (R p) g
      updateParameters D thr2 lr G ps (set (α := AST n) R p w)

/-- The loop over the batches (mpc_autograd_cnn.py:92-110): forward pass, `zero_grad`, `backward`, `update_parameters`. The results are the parameters and, for each batch, the tensors of its forward pass (the example reveals the
loss, and the outputs of the last batch). -/
def batches (k : ℕ) (thr2 : Option ℚ) (lr : ℚ) (ps : List ℕ) (out : ℕ) : List (Tape n sh) → Regs n sh → Proto n (Regs n sh × List (Regs n sh))
  | [], R => pure (R, [])
  | t :: ts, R => do
    let z ← Backprop.run k t R out
    let R ← updateParameters (2 ^ k) thr2 lr z.2 ps R
    let r ← batches k thr2 lr ps out ts R
    pure (r.1, z.1 :: r.2)

/-- `train_encrypted` (mpc_autograd_cnn.py:70-127): `epochs` times all batches. -/
def trainEncrypted (k : ℕ) (thr2 : Option ℚ) (lr : ℚ) (ps : List ℕ) (out : ℕ) (ts : List (Tape n sh)) (epochs : ℕ) (R : Regs n sh) : Proto n (Regs n sh × List (Regs n sh)) :=
  batches k thr2 lr ps out (List.replicate epochs ts).flatten R

end

/-- The parameters of the network; the tensors are those of `torch.nn.Conv2d` and `torch.nn.Linear`. -/
inductive Entry (d : Dims)
  | W1 (i : Fin d.O × Fin 1 × Fin d.kh × Fin d.kw)
  | b1 (i : Fin d.O)
  | W2 (i : Fin d.D × Fin d.m)
  | b2 (i : Fin d.D)
  | W3 (i : Fin d.C × Fin d.D)
  | b3 (i : Fin d.C)
  deriving DecidableEq

/-- What is encrypted before training (mpc_autograd_cnn.py:48-50, 65): the images of party 0 and party 1, and the model (`model.encrypt()`, by party 0). -/
def tensors {n : ℕ} [NeZero n] (d : Dims) (bob : Fin n) (xa : Fin d.S × Fin d.h × Fin d.wa → ℚ) (xb : Fin d.S × Fin d.h × Fin d.wb → ℚ) (net : Entry d → ℚ) : List (Σ r, Fin n × (shape d r → ℚ)) :=
  [⟨0, 0, xa⟩, ⟨1, bob, xb⟩, ⟨2, 0, fun i => net (.W1 i)⟩, ⟨3, 0, fun i => net (.b1 i)⟩, ⟨4, 0, fun i => net (.W2 i)⟩, ⟨5, 0, fun i => net (.b2 i)⟩, ⟨6, 0, fun i => net (.W3 i)⟩, ⟨7, 0, fun i => net (.b3 i)⟩]

/-- The parameters of the model. -/
def params : List ℕ := [2, 3, 4, 5, 6, 7]

/-- `run_mpc_autograd_cnn` (mpc_autograd_cnn.py:22-67) from the encryption on, with `grad_threshold` (default 100) and the labels `y b` of batch `b`. -/
def runExample {n : ℕ} [NeZero n] (k : ℕ) (d : Dims) (method : MaxMethod) (bob : Fin n) (thr : Option ℚ) (lr : ℚ) (epochs : ℕ) (xa : Fin d.S × Fin d.h × Fin d.wa → ℚ) (xb : Fin d.S × Fin d.h × Fin d.wb → ℚ)
    (y : Fin d.q → Fin d.N × Fin d.C → ℚ) (net : Entry d → ℚ) (init : Regs n (shape d)) : Proto n (Regs n (shape d) × List (Regs n (shape d))) := do
  let R ← Training.encryptAll k (tensors d bob xa xb net) init
  trainEncrypted k (Sgd.squareThreshold thr) lr params out ((List.finRange d.q).map fun b => batchTape d method b (y b)) epochs R

end CrypTen.Cnn
