import Verif.Model.Program

/-!
# The backward pass on encrypted tensors

A user computes with encrypted tensors that require gradients and calls `backward()` on the result. The recorded calls form a tape; the latest call comes first. Register `d` holds the result of the call `d`, a tensor
with index set `sh d`. `forward` makes the calls of the recorded functions' `forward`, `backward` those of their `backward`, on the shares. All tensors have the default encoding of `k` bits.

Simplifications: the calls of `backward` are made in the order of the tape, latest first (/repo/crypten/cryptensor.py:208-262 goes depth first and waits at each tensor for all its users; that both orders lead to the same
data flow is C42). The numbers of the public tensors `torch.ones(…)` and `torch.ones(…).div_(n)` are exact.
-/

namespace CrypTen.Backprop
open Program (Regs set)
variable {n : ℕ} {sh : ℕ → Type}

/-- Broadcasting of an operand (entries `β`) to the shape of the result (entries `α`): `map` is the entry of the operand that is used, `back (·, j)` lists the places where entry `j` is used. -/
structure Spread (α β : Type) where
  map : α → β
  size : ℕ
  back : Fin size × β → α
  bij : Function.Bijective back
  map_back : ∀ p, map (back p) = p.2

/-- No broadcasting. -/
def Spread.none (α : Type) : Spread α α := ⟨id, 1, Prod.snd, ⟨fun _ _ h => Prod.ext (Subsingleton.elim _ _) h, fun i => ⟨(0, i), rfl⟩⟩, fun _ => rfl⟩

/-- A bilinear function, with the functions that its `backward` calls: `left` of the gradient and the second operand, `right` of the first operand and the gradient, whose `batch` results are added (by `_inverse_broadcast` or
by `grad_kernel.sum(0)`). `terms…` bounds the number of products per entry. -/
structure Bil (α β γ : Type) where
  op : BilinearOp α β γ
  left : BilinearOp γ β α
  batch : ℕ
  right : BilinearOp α γ (Fin batch × β)
  terms : ℕ
  termsLeft : ℕ
  termsRight : ℕ

/-- The matrix product and its `backward`: `grad_output.matmul(other.transpose(-2, -1))` and `self_.transpose(-2, -1).matmul(grad_output)` (/repo/crypten/gradients.py:736-768). -/
def matmulBil (p q r : ℕ) : Bil (Fin p × Fin q) (Fin q × Fin r) (Fin p × Fin r) where
  op ij := (List.finRange q).map fun l => ((ij.1, l), (l, ij.2))
  left il := (List.finRange r).map fun j => ((il.1, j), (il.2, j))
  batch := 1
  right lj := (List.finRange p).map fun i => ((i, lj.2.1), (i, lj.2.2))
  terms := q
  termsLeft := r
  termsRight := p

/-- The matrix product of a batch of `m` matrices with one matrix: the gradients of the second operand are added by `_inverse_broadcast` (gradients.py:736-774, 58-76). -/
def batchMatmulBil (m p q r : ℕ) : Bil (Fin m × Fin p × Fin q) (Fin q × Fin r) (Fin m × Fin p × Fin r) where
  op ij := (List.finRange q).map fun l => ((ij.1, ij.2.1, l), (l, ij.2.2))
  left il := (List.finRange r).map fun j => ((il.1, il.2.1, j), (il.2.2, j))
  batch := m
  right lj := (List.finRange p).map fun i => ((lj.1, i, lj.2.1), (lj.1, i, lj.2.2))
  terms := q
  termsLeft := r
  termsRight := p

/-- A convolution without groups: `tap i u` is the position of the input that position `u` of the kernel meets at position `i` of the output, `none` in the padding. Its `backward` (gradients.py:1692-1747) makes a transposed
convolution, and one convolution per example, whose results are added; that the calls there amount to these sums is C63. -/
def convBil (N C O : ℕ) {I U X : Type} [DecidableEq X] (lI : List I) (lU : List U) (tap : I → U → Option X) : Bil (Fin N × Fin C × X) (Fin O × Fin C × U) (Fin N × Fin O × I) where
  op z := (List.finRange C).flatMap fun c => lU.filterMap fun u => (tap z.2.2 u).map fun x => ((z.1, c, x), (z.2.1, c, u))
  left z := (List.finRange O).flatMap fun o => lU.flatMap fun u => lI.filterMap fun i => if tap i u = some z.2.2 then some ((z.1, o, i), (o, z.2.1, u)) else none
  batch := N
  right z := lI.filterMap fun i => (tap i z.2.2.2).map fun x => ((z.1, z.2.2.1, x), (z.1, z.2.1, i))
  terms := C * lU.length
  termsLeft := O * lU.length
  termsRight := lI.length

/-- Positions along one dimension of size `w`, with stride `s`, padding `p`, dilation `e`. -/
def tap1 (s p e w : ℕ) {m l : ℕ} (i : Fin m) (u : Fin l) : Option (Fin w) :=
  if h : p ≤ s * i + e * u ∧ s * i + e * u < w + p then some ⟨s * i + e * u - p, by omega⟩ else none

/-- `a.conv2d(b, stride=s, padding=p, dilation=e)` (gradients.py:1656-1670): `N` images with `C` channels, `O` output channels, sizes `h × w`, kernels `kh × kw`, results `oh × ow`. -/
def conv2dBil (N C O h w kh kw oh ow : ℕ) (s p e : ℕ × ℕ) : Bil (Fin N × Fin C × Fin h × Fin w) (Fin O × Fin C × Fin kh × Fin kw) (Fin N × Fin O × Fin oh × Fin ow) :=
  convBil N C O ((List.finRange oh).product (List.finRange ow)) ((List.finRange kh).product (List.finRange kw)) fun i u =>
    (tap1 s.1 p.1 e.1 h i.1 u.1).bind fun x => (tap1 s.2 p.2 e.2 w i.2 u.2).map fun y => (x, y)

/-- A part of a tensor, or a larger tensor that is filled with zeros: entry `i` of the result is entry `pick i` of the operand, or 0; entry `j` of the operand is used at `back j`, if anywhere. -/
structure Part (α β : Type) where
  pick : α → Option β
  back : β → Option α
  inv : ∀ i j, pick i = some j ↔ back j = some i

/-- The windows of a pooling: the entries of the operand that are pooled for entry `i` of the result, and the results for which entry `j` is used; `size` bounds the length of the first list, `uses` that of the second. -/
structure Windows (α β : Type) where
  win : α → List β
  back : β → List α
  size : ℕ
  uses : ℕ

/-- The windows of `avg_pool2d` on `P` planes of size `h × w`, with kernel `kh × kw`, stride `s` and padding `p` (/repo/crypten/mpc/primitives/arithmetic.py:552-585). Zeros of the padding are left out of the lists. -/
def pool2dWindows (P h w kh kw oh ow : ℕ) (s p : ℕ × ℕ) : Windows (Fin P × Fin oh × Fin ow) (Fin P × Fin h × Fin w) where
  win z := ((List.finRange kh).product (List.finRange kw)).filterMap fun u => (tap1 s.1 p.1 1 h z.2.1 u.1).bind fun x => (tap1 s.2 p.2 1 w z.2.2 u.2).map fun y => (z.1, x, y)
  back z := ((List.finRange kh).product (List.finRange kw)).flatMap fun u => ((List.finRange oh).product (List.finRange ow)).filterMap fun i =>
    if tap1 s.1 p.1 1 h i.1 u.1 = some z.2.1 ∧ tap1 s.2 p.2 1 w i.2 u.2 = some z.2.2 then some (z.1, i.1, i.2) else none
  size := kh * kw
  uses := kh * kw

/-- The windows of a maximum: `win (l, i)` is place `l` of the window of result `i`; `back j` lists the places of entry `j`, at most `uses`. -/
structure Places (m : ℕ) (α β : Type) where
  win : Fin m × α → β
  back : β → List (Fin m × α)
  uses : ℕ

/-- The windows of `max(dim=…)` (gradients.py:1327-1372): all places along the dimension. -/
def Spread.places {α β : Type} (f : Spread β α) (place : β → Fin f.size × α) : Places f.size α β := ⟨f.back, fun j => [place j], 1⟩

/-- The windows of `max_pool2d` (pooling.py:342-420, 123-135) on `P` planes of size `h × w` without padding, with kernel `kh × kw`, stride `s` and dilation `e`; the windows lie inside the planes. -/
def maxPool2dPlaces (P h w kh kw oh ow : ℕ) (s e : ℕ × ℕ) (hh : ∀ (i : Fin oh) (u : Fin kh), s.1 * i + e.1 * u < h) (hw : ∀ (i : Fin ow) (u : Fin kw), s.2 * i + e.2 * u < w) :
    Places (kh * kw) (Fin P × Fin oh × Fin ow) (Fin P × Fin h × Fin w) where
  win p := (p.2.1, ⟨s.1 * p.2.2.1 + e.1 * p.1.divNat, hh _ _⟩, ⟨s.2 * p.2.2.2 + e.2 * p.1.modNat, hw _ _⟩)
  back z := (List.finRange (kh * kw)).flatMap fun l => ((List.finRange oh).product (List.finRange ow)).filterMap fun i =>
    if s.1 * i.1 + e.1 * l.divNat = z.2.1.val ∧ s.2 * i.2 + e.2 * l.modNat = z.2.2.val then some (l, z.1, i.1, i.2) else none
  uses := kh * kw

/-- A recorded call with result `d`. -/
inductive Call (n : ℕ) (sh : ℕ → Type) (d : ℕ) where
  /-- `crypten.cryptensor(x, src=src, requires_grad=True)` -/
  | leaf (src : Fin n) (x : sh d → ℚ)
  /-- a parameter of the model, encrypted before, which is in the register -/
  | param
  /-- `a + b` -/
  | add (a b : ℕ) (f : Spread (sh d) (sh a)) (g : Spread (sh d) (sh b))
  /-- `a + y` for public numbers (`a - y` is `a + (-y)`) -/
  | addPub (a : ℕ) (f : Spread (sh d) (sh a)) (y : sh d → ℚ)
  /-- `a - b` -/
  | sub (a b : ℕ) (f : Spread (sh d) (sh a)) (g : Spread (sh d) (sh b))
  /-- `-a` -/
  | neg (a : ℕ) (e : sh d ≃ sh a)
  /-- `a * b` -/
  | mul (a b : ℕ) (f : Spread (sh d) (sh a)) (g : Spread (sh d) (sh b))
  /-- `a * c` for a floating-point number `c` -/
  | mulNum (a : ℕ) (e : sh d ≃ sh a) (c : ℚ)
  /-- `a.matmul(b)`, `a.conv2d(b)` -/
  | bil (a b : ℕ) (B : Bil (sh a) (sh b) (sh d))
  /-- `a.matmul(y)`, `a * y` and `a.conv2d(y)` for a public tensor of `m` entries -/
  | bilPub (a m : ℕ) (B : Bil (sh a) (Fin m) (sh d)) (y : Fin m → ℚ)
  /-- `a.square()` -/
  | square (a : ℕ) (e : sh d ≃ sh a)
  /-- `a.sum(…)` -/
  | sum (a : ℕ) (f : Spread (sh a) (sh d))
  /-- `a.mean(…)` -/
  | mean (a : ℕ) (f : Spread (sh a) (sh d))
  /-- `a.view(…)`, `a.reshape(…)`, `a.flatten(…)`, `a.t()`, `a.transpose(…)`, `a.permute(…)` -/
  | view (a : ℕ) (e : sh d ≃ sh a)
  /-- `a.relu()` -/
  | relu (a : ℕ) (e : sh d ≃ sh a)
  /-- `a[index]`, `a.pad(…)` with zeros, `a.flip(…)` -/
  | part (a : ℕ) (f : Part (sh d) (sh a))
  /-- `crypten.cat([a, b])`, `crypten.stack([a, b])` -/
  | cat (a b : ℕ) (e : sh d ≃ sh a ⊕ sh b)
  /-- `a.avg_pool2d(…)` -/
  | avg (a : ℕ) (f : Windows (sh d) (sh a))
  /-- `a.max_pool2d(…)` without padding, `a.max(dim=…)` -/
  | maximum (a : ℕ) (method : MaxMethod) (m : ℕ) (f : Places (m + 1) (sh d) (sh a))

/-- The tape, latest call first. -/
abbrev Tape (n : ℕ) (sh : ℕ → Type) : Type := List (Σ d, Call n sh d)

/-- The tensors that a call uses. -/
def Call.operands {d : ℕ} : Call n sh d → List ℕ
  | .leaf .. | .param => []
  | .add a b .. | .sub a b .. | .mul a b .. | .bil a b .. | .cat a b _ => [a, b]
  | .addPub a .. | .bilPub a .. | .neg a .. | .mulNum a .. | .square a .. | .sum a .. | .mean a .. | .view a .. | .relu a .. | .part a _ | .avg a _ | .maximum a .. => [a]

/-- The results on the tape. -/
def regs (t : Tape n sh) : List ℕ := t.map Sigma.fst

/-- Every call has a result of its own and uses results of earlier calls. -/
def Ordered : Tape n sh → Prop
  | [] => True
  | ⟨d, c⟩ :: t => d ∉ regs t ∧ (∀ a ∈ c.operands, a ∈ regs t) ∧ Ordered t

/-- The product of two broadcast tensors. -/
def times {α β γ : Type} (f : α → β) (g : α → γ) : BilinearOp β γ α := fun i => [(f i, g i)]

/-- Entries of a tensor, or zeros. The zeros are shared as zeros; `backward` of `a[index]` encrypts them (gradients.py:465-467). -/
def _root_.CrypTen.AST.choose {ι κ : Type} (f : κ → Option ι) (x : AST n ι) : AST n κ := ⟨fun p i => (f i).elim 0 (x.share p), x.scale⟩

/-- Sums of entries, on the shares: `_sum_pool2d` (arithmetic.py:573-585), and the sums in `_max_pool2d_backward` (/repo/crypten/common/functions/pooling.py:123-135). -/
def _root_.CrypTen.AST.sums {ι κ : Type} (f : κ → List ι) (x : AST n ι) : AST n κ := ⟨fun p i => ((f i).map (x.share p)).sum, x.scale⟩

/-- `crypten.cat`, on the shares (/repo/crypten/__init__.py:449-482). -/
def _root_.CrypTen.AST.join {ι ι' κ : Type} (e : κ → ι ⊕ ι') (x : AST n ι) (y : AST n ι') : AST n κ := ⟨fun p i => (e i).elim (x.share p) (y.share p), x.scale⟩

/-- `max(dim, one_hot=True)` (/repo/crypten/common/functions/maximum.py:51-82, 256-313): the maximum and the one-hot vector. -/
def _root_.CrypTen.AST.maxArgmax [NeZero n] {κ : Type} (k : ℕ) (method : MaxMethod) {m : ℕ} (x : AST n (Fin m × κ)) : Proto n (AST n κ × AST n (Fin m × κ)) :=
  match method with
  | .pairwise => do
    let oneHot ← x.argmaxOneHotPairwise k
    let y ← AST.mul (elementwise (Fin m × κ)) x oneHot
    pure (y.sumFirst, oneHot)
  | method => do
    let mx ← x.maxFirst k method
    let e ← x.eq (2 ^ k) (.enc (mx.reindex Prod.snd))
    let oneHot ← e.weightedIndex k
    pure (mx, oneHot)

/-- The tensors that the calls save: the mask of `relu`, the one-hot vectors of a maximum. -/
abbrev Saved (n : ℕ) (sh : ℕ → Type) : Type := ∀ r, AST n (ℕ × sh r)

/-- `forward` of the recorded function: the result, and the tensor that `relu` or `max_pool2d` saves (for the other functions a copy of the result, which is never read). AutogradAdd, AutogradSub, AutogradMul, AutogradMatMul
(/repo/crypten/gradients.py:655-734), AutogradNeg, AutogradReLU (470-487), AutogradSquare (885-890), AutogradSum (1130-1146), AutogradMean (1188-1204; regular.py:151-161), views (158-284),
AutogradGetItem (455-468), AutogradPad (1425-1441), AutogradCat, AutogradStack (220-245), AutogradAvgPool2D (1444-1507), AutogradMaxPool2D (1509-1574). -/
def Call.forward [NeZero n] (k : ℕ) (R : Regs n sh) {d : ℕ} : Call n sh d → Proto n (AST n (sh d) × AST n (ℕ × sh d))
  | .leaf src x => do
    let s ← Proto.encryptA src (encodePublic (2 ^ k) x)
    pure (⟨s, 2 ^ k⟩, (⟨s, 2 ^ k⟩ : AST n (sh d)).reindex Prod.snd)
  | .param => pure (R d, (R d).reindex Prod.snd)
  | .addPub a f y => pure (((R a).reindex f.map).addPub y, (((R a).reindex f.map).addPub y).reindex Prod.snd)
  | .bilPub a _ B y => do
    let z ← AST.mulPub B.op (R a) y
    pure (z, z.reindex Prod.snd)
  | .add a b f g => do
    let z ← ((R a).reindex f.map).add ((R b).reindex g.map)
    pure (z, z.reindex Prod.snd)
  | .sub a b f g => do
    let z ← ((R a).reindex f.map).sub ((R b).reindex g.map)
    pure (z, z.reindex Prod.snd)
  | .neg a e => pure (((R a).reindex e).neg, (((R a).reindex e).neg).reindex Prod.snd)
  | .mul a b f g => do
    let z ← AST.mul (times f.map g.map) (R a) (R b)
    pure (z, z.reindex Prod.snd)
  | .mulNum a e c => do
    let z ← AST.mulPub (times e fun _ => ()) (R a) fun _ : Unit => c
    pure (z, z.reindex Prod.snd)
  | .bil a b B => do
    let z ← AST.mul B.op (R a) (R b)
    pure (z, z.reindex Prod.snd)
  | .square a e => do
    let z ← ((R a).reindex e).square
    pure (z, z.reindex Prod.snd)
  | .sum a f => pure (((R a).reindex f.back).sumFirst, (((R a).reindex f.back).sumFirst).reindex Prod.snd)
  | .mean a f => do
    let z ← ((R a).reindex f.back).sumFirst.divInt fun _ => f.size
    pure (z, z.reindex Prod.snd)
  | .view a e => pure ((R a).reindex e, ((R a).reindex e).reindex Prod.snd)
  | .relu a e => do
    let mask ← ((R a).reindex e).gt (2 ^ k) (.pub fun _ => 0)
    let z ← AST.mul (elementwise (sh d)) ((R a).reindex e) mask
    pure (z, mask.reindex Prod.snd)
  | .part a f => pure ((R a).choose f.pick, ((R a).choose f.pick).reindex Prod.snd)
  | .cat a b e => pure (AST.join e (R a) (R b), (AST.join e (R a) (R b)).reindex Prod.snd)
  | .avg a f => do
    let z ← ((R a).sums f.win).divInt fun _ => f.size
    pure (z, z.reindex Prod.snd)
  | .maximum a method m f => do
    let r ← ((R a).reindex f.win).maxArgmax k method
    pure (r.1, r.2.reindex fun q => (Fin.ofNat (m + 1) q.1, q.2))

/-- All calls of the tape: the results and what was saved. -/
def forward [NeZero n] (k : ℕ) : Tape n sh → Regs n sh × Saved n sh → Proto n (Regs n sh × Saved n sh)
  | [], s => pure s
  | ⟨d, c⟩ :: t, s => do
    let s ← forward k t s
    let r ← c.forward k s.1
    pure (set (α := AST n) s.1 d r.1, set (sh := fun r => ℕ × sh r) (α := AST n) s.2 d r.2)

/-- `_inverse_broadcast` (gradients.py:58-76). -/
def shrink {α β : Type} (f : Spread α β) (g : AST n α) : AST n β := (g.reindex f.back).sumFirst

/-- `backward` of the recorded function (gradients.py:165-284, 476-492, 665-689, 720-760, 892-895, 1148-1158, 1206-1221, 462-468, 1433-1441, 229-245, 1468-1507; pooling.py:59-140): the gradients of the operands. `R` are the saved tensors, `mask` what `relu` or `max_pool2d` has saved. -/
def Call.backward [NeZero n] (R : Regs n sh) {d : ℕ} (mask : AST n (ℕ × sh d)) (g : AST n (sh d)) : Call n sh d → Proto n (List (Σ a, AST n (sh a)))
  | .leaf .. | .param => pure []
  | .addPub a f _ => pure [⟨a, shrink f g⟩]
  | .bilPub a _ B y => do
    let x ← AST.mulPub B.left g y
    let _ ← AST.mul B.right (R a) g
    pure [⟨a, x⟩]
  | .add a b f h => pure [⟨a, shrink f g⟩, ⟨b, shrink h g⟩]
  | .sub a b f h => pure [⟨a, shrink f g⟩, ⟨b, (shrink h g).neg⟩]
  | .neg a e => pure [⟨a, (g.reindex e.symm).neg⟩]
  | .mul a b f h => do
    let x ← AST.mul (times id h.map) g (R b)
    let y ← AST.mul (times id f.map) g (R a)
    pure [⟨a, shrink f x⟩, ⟨b, shrink h y⟩]
  | .mulNum a e c => do
    let x ← AST.mulPub (times e.symm fun _ => ()) g fun _ : Unit => c
    let _ ← AST.mul (times id e) g (R a)
    pure [⟨a, x⟩]
  | .bil a b B => do
    let x ← AST.mul B.left g (R b)
    let y ← AST.mul B.right (R a) g
    pure [⟨a, x⟩, ⟨b, y.sumFirst⟩]
  | .square a e => do
    let x2 ← AST.mulPub (elementwise (sh a)) (R a) fun _ => 2
    let x ← AST.mul (times e.symm id) g x2
    pure [⟨a, x⟩]
  | .sum a f => do
    let x ← AST.mulPub (times f.map id) g fun _ : sh a => 1
    pure [⟨a, x⟩]
  | .mean a f => do
    let x ← AST.mulPub (times f.map id) g fun _ : sh a => 1 / (f.size : ℚ)
    pure [⟨a, x⟩]
  | .view a e => pure [⟨a, g.reindex e.symm⟩]
  | .relu a e => do
    let x ← AST.mul (elementwise (sh d)) g (mask.reindex fun i => (0, i))
    pure [⟨a, x.reindex e.symm⟩]
  | .part a f => pure [⟨a, g.choose f.back⟩]
  | .cat a b e => pure [⟨a, g.reindex fun j => e.symm (.inl j)⟩, ⟨b, g.reindex fun j => e.symm (.inr j)⟩]
  | .avg a f => do
    let x ← AST.mulPub (fun j => (f.back j).map fun i => (i, ())) g fun _ : Unit => 1 / (f.size : ℚ)
    pure [⟨a, x⟩]
  | .maximum a _ m f => do
    let x ← AST.mul (times Prod.snd id) g (mask.reindex fun q : Fin (m + 1) × sh d => (q.1.val, q.2))
    pure [⟨a, x.sums f.back⟩]

/-- The gradients; `none` if a tensor has none. -/
abbrev Grads (n : ℕ) (sh : ℕ → Type) : Type := ∀ r, Option (AST n (sh r))

/-- A tensor receives a gradient (/repo/crypten/cryptensor.py:232-236). -/
def receive [NeZero n] (G : Grads n sh) (c : Σ a, AST n (sh a)) : Proto n (Grads n sh) :=
  match G c.1 with
  | none => pure (set (α := fun ι => Option (AST n ι)) G c.1 (some c.2))
  | some g => do
    let s ← g.add c.2
    pure (set (α := fun ι => Option (AST n ι)) G c.1 (some s))

/-- All operands of a call receive their gradients (cryptensor.py:247-262). -/
def receiveAll [NeZero n] : List (Σ a, AST n (sh a)) → Grads n sh → Proto n (Grads n sh)
  | [], G => pure G
  | c :: l, G => do
    let G ← receive G c
    receiveAll l G

/-- The backward pass; tensors without a gradient are not reached. -/
def backward [NeZero n] (R : Regs n sh) (S : Saved n sh) : Tape n sh → Grads n sh → Proto n (Grads n sh)
  | [], G => pure G
  | ⟨d, c⟩ :: t, G =>
    match G d with
    | none => backward R S t G
    | some g => do
      let l ← c.backward R (S d) g
      let G ← receiveAll l G
      backward R S t G

/-- The computation, and `out.backward()` for a result with one element, whose gradient is an encryption of one (cryptensor.py:222-231). -/
def run [NeZero n] (k : ℕ) (t : Tape n sh) (init : Regs n sh) (out : ℕ) : Proto n (Regs n sh × Grads n sh) := do
  let s ← forward k t (init, fun r => (init r).reindex Prod.snd)
  let one ← Proto.encryptA (0 : Fin n) (encodePublic (2 ^ k) fun _ : sh out => 1)
  let G ← backward s.1 s.2 t (set (α := fun ι => Option (AST n ι)) (fun _ => none) out (some ⟨one, 2 ^ k⟩))
  pure (s.1, G)

end CrypTen.Backprop
