import Verif.Model.Ring

/-!
# torch functions on plain `int64` tensors

The meaning of the torch functions the library applies to share tensors, on tensors indexed by arbitrary index sets.
Shapes live in the index set: a `(m, k)` matrix is indexed by `Fin m × Fin k`.
-/

namespace CrypTen

/-- Every torch function that only moves entries around – `__getitem__`, `index_select`, `permute`, `transpose`, `reshape`, `view`, `flatten`,
`squeeze`, `unsqueeze`, `expand`, `repeat`, `flip`, `roll`, `narrow`, `gather`, `take`, `unfold`, `unbind`, `split`
(/repo/crypten/common/functions/regular.py:14-55): entry `k` of the result is entry `g k` of the argument, where `g` depends on public data only. -/
def Torch.reindex {ι κ : Type} (g : κ → ι) (x : Tensor ι) : Tensor κ := fun k => x (g k)

/-- `sum(dim)`, `cumsum`, `trace`, `avg_pool2d(divisor_override=1)`: entry `k` of the result is the sum of the entries listed in `src k`. -/
def Torch.sums {ι κ : Type} (src : κ → List ι) (x : Tensor ι) : Tensor κ := fun k => ((src k).map x).sum

/-- `index_add_(dim, index, t)` and `scatter_add_(dim, index, t)`: entry `j` of `t` (for `j` in `entries`) is added to entry `tgt j`. -/
def Torch.indexAdd {ι κ : Type} [DecidableEq ι] (entries : List κ) (tgt : κ → ι) (x : Tensor ι) (t : Tensor κ) : Tensor ι :=
  fun i => x i + ((entries.filter (fun j => tgt j = i)).map t).sum

/-- `scatter_(dim, index, src)`, `__setitem__(index, value)`: entry `i` is overwritten by entry `j` of `t` if `pick i = some j`. -/
def Torch.overwrite {ι κ : Type} (pick : ι → Option κ) (x : Tensor ι) (t : Tensor κ) : Tensor ι :=
  fun i => match pick i with
    | some j => t j
    | none => x i

/-- `torch.nn.functional.pad(x, pad, mode="constant", value=v)`: entry `k` is entry `i` of `x` if `g k = some i`, and `v` otherwise. -/
def Torch.pad {ι κ : Type} (g : κ → Option ι) (x : Tensor ι) (v : I64) : Tensor κ :=
  fun k => match g k with
    | some i => x i
    | none => v

/-- A bilinear torch function (`mul`, `matmul`, `conv1d`, `conv2d`, `conv_transpose1d`, `conv_transpose2d`), given by the list of
index pairs whose products are summed into each output entry. -/
abbrev BilinearOp (ι ι' κ : Type) := κ → List (ι × ι')

/-- Value of a bilinear function. -/
def BilinearOp.apply {ι ι' κ : Type} (T : BilinearOp ι ι' κ) (x : Tensor ι) (y : Tensor ι') : Tensor κ :=
  fun k => ((T k).map fun ij => x ij.1 * y ij.2).sum

/-- `torch.mul` with broadcasting: `a` and `b` map an output index to the operand indices (identity when the shapes agree). -/
def Torch.mulOp {ι ι' κ : Type} (a : κ → ι) (b : κ → ι') : BilinearOp ι ι' κ := fun k => [(a k, b k)]

/-- `torch.matmul` of an `(m, l)` and an `(l, p)` matrix. -/
def Torch.matmulOp (m l p : ℕ) : BilinearOp (Fin m × Fin l) (Fin l × Fin p) (Fin m × Fin p) :=
  fun ij => (List.finRange l).map fun k => ((ij.1, k), (k, ij.2))

/-- Input position read by tap `u` of output position `t`, if it is inside the (unpadded) input. -/
def Torch.tap (len stride padding dilation : ℕ) (t u : ℕ) : Option (Fin len) :=
  let pos := t * stride + u * dilation
  if h : padding ≤ pos ∧ pos - padding < len then some ⟨pos - padding, h.2⟩ else none

/-- `torch.conv1d`, input `(batch, cin, len)`, kernel `(cout, cin / groups, ker)`: output channel `o` belongs to group `o / (cout / groups)`.
Output positions are natural numbers (the output length is a function of public sizes). -/
def Torch.conv1dOp (batch cin len cout cinG ker stride padding dilation groups : ℕ) :
    BilinearOp (Fin batch × Fin cin × Fin len) (Fin cout × Fin cinG × Fin ker) (Fin batch × Fin cout × ℕ) :=
  fun (b, o, t) => (List.finRange cinG).flatMap fun c => (List.finRange ker).flatMap fun u =>
    if hc : (o.val / (cout / groups)) * cinG + c.val < cin then
      match Torch.tap len stride padding dilation t u.val with
      | some i => [((b, ⟨(o.val / (cout / groups)) * cinG + c.val, hc⟩, i), (o, c, u))]
      | none => []
    else []

/-- `torch.conv2d`, input `(batch, cin, h, w)`, kernel `(cout, cin / groups, kh, kw)`. -/
def Torch.conv2dOp (batch cin h w cout cinG kh kw groups : ℕ) (stride padding dilation : ℕ × ℕ) :
    BilinearOp (Fin batch × Fin cin × Fin h × Fin w) (Fin cout × Fin cinG × Fin kh × Fin kw) (Fin batch × Fin cout × ℕ × ℕ) :=
  fun (b, o, t1, t2) => (List.finRange cinG).flatMap fun c => (List.finRange kh).flatMap fun u1 => (List.finRange kw).flatMap fun u2 =>
    if hc : (o.val / (cout / groups)) * cinG + c.val < cin then
      match Torch.tap h stride.1 padding.1 dilation.1 t1 u1.val, Torch.tap w stride.2 padding.2 dilation.2 t2 u2.val with
      | some i, some j => [((b, ⟨(o.val / (cout / groups)) * cinG + c.val, hc⟩, i, j), (o, c, u1, u2))]
      | _, _ => []
    else []

/-- `torch.conv_transpose1d`, input `(batch, cin, len)`, kernel `(cin, cout, ker)`, one group: entry `i` of the input contributes through tap
`u` to output position `i * stride + u * dilation - padding`. -/
def Torch.convTranspose1dOp (batch cin len cout ker stride padding dilation : ℕ) :
    BilinearOp (Fin batch × Fin cin × Fin len) (Fin cin × Fin cout × Fin ker) (Fin batch × Fin cout × ℕ) :=
  fun (b, o, t) => (List.finRange cin).flatMap fun c => (List.finRange len).flatMap fun i => (List.finRange ker).flatMap fun u =>
    if i.val * stride + u.val * dilation = t + padding then [((b, c, i), (c, o, u))] else []

/-- `torch.conv_transpose2d`, input `(batch, cin, h, w)`, kernel `(cin, cout, kh, kw)`, one group. -/
def Torch.convTranspose2dOp (batch cin h w cout kh kw : ℕ) (stride padding dilation : ℕ × ℕ) :
    BilinearOp (Fin batch × Fin cin × Fin h × Fin w) (Fin cin × Fin cout × Fin kh × Fin kw) (Fin batch × Fin cout × ℕ × ℕ) :=
  fun (b, o, t1, t2) => (List.finRange cin).flatMap fun c => (List.finRange h).flatMap fun i => (List.finRange w).flatMap fun j =>
    (List.finRange kh).flatMap fun u1 => (List.finRange kw).flatMap fun u2 =>
      if i.val * stride.1 + u1.val * dilation.1 = t1 + padding.1 ∧ j.val * stride.2 + u2.val * dilation.2 = t2 + padding.2
      then [((b, c, i, j), (c, o, u1, u2))] else []

end CrypTen
