import Verif.Model.Ring

/-!
# 64-bit integer products through doubles

Models `CUDALongTensor.matmul`, the convolutions and `avg_pool2d` (/repo/crypten/cuda/cuda_tensor.py): the words are cut into blocks, the operation is done on the blocks in double precision and the
blocks are put together. All the doubles are natural numbers; doubles above 2^1024 are not modelled.
-/

namespace CrypTen.Cuda

/-- Double precision rounding of a natural number: nearest with 53 significant bits, ties to even (IEEE 754, the torch `double` type). -/
def fp64 (m : ℕ) : ℕ :=
  if m ≤ 2 ^ 53 then m
  else
    let e := Nat.log2 m - 52
    let q := m / 2 ^ e
    let r := m % 2 ^ e
    if r < 2 ^ (e - 1) ∨ (r = 2 ^ (e - 1) ∧ q % 2 = 0) then q * 2 ^ e else (q + 1) * 2 ^ e

/-- The order in which a GPU kernel adds the terms of a sum: any binary tree over the numbers of the terms. -/
inductive Order where
  | leaf (k : ℕ)
  | node (l r : Order)

/-- The terms, from left to right. -/
def Order.leaves : Order → List ℕ
  | .leaf k => [k]
  | .node l r => l.leaves ++ r.leaves

/-- A sum in double precision in the given order, rounding after every addition. -/
def Order.sum (f : ℕ → ℕ) : Order → ℕ
  | .leaf k => f k
  | .node l r => fp64 (l.sum f + r.sum f)

/-- `__BLOCK_SIZE[nb] = ceil(64 / nb)` (cuda_tensor.py:38-44). -/
def blockSize (nb : ℕ) : ℕ := (64 + nb - 1) / nb

/-- `__INDICES[nb]` and `__SHIFTS[nb]` (cuda_tensor.py:45-51). -/
def table (nb : ℕ) : List (ℕ × ℕ) :=
  (List.range nb).flatMap fun i => (List.range nb).flatMap fun j =>
    if (i + j) * blockSize nb ≥ 64 then [] else [(i * nb + j, (i + j) * blockSize nb)]

/-- `__encode_as_fp64` (cuda_tensor.py:156-168): block `i` of a word, `(x >> (bks * i)) & (2**bks - 1)`; the shift is arithmetic. The blocks are below 2^53, so `double()` is exact. -/
def block (nb i : ℕ) (x : I64) : ℕ := (x.sshiftRight (blockSize nb * i) &&& BitVec.ofNat 64 (2 ^ blockSize nb - 1)).toNat

/-- `__decode_as_int64` (cuda_tensor.py:170-187). A double that exceeds 63 bits is wrapped here, while torch leaves its conversion undefined. -/
def decode (nb : ℕ) (z : ℕ → ℕ) : I64 := ((table nb).map fun t => BitVec.ofNat 64 (z t.1) <<< t.2).sum

/-- One entry of a bilinear operation on the blocks: position `idx` of `x.repeat(nb)` is block `idx % nb` of `x`, of `repeat_interleave(y, nb)` block `idx / nb` of `y` (cuda_tensor.py:256-278).
`terms` are the operands whose products are added. -/
def bilinear (nb : ℕ) (order : ℕ → Order) (terms : List (I64 × I64)) : I64 :=
  decode nb fun idx => (order idx).sum fun k =>
    fp64 (block nb (idx % nb) (terms.getD k (0, 0)).1 * block nb (idx / nb) (terms.getD k (0, 0)).2)

/-- One entry of `matmul` (cuda_tensor.py:241-278): the terms are the pairs of a row and a column. `nb = 3 if x.size(-1) < 256 else 4`. -/
def matmul (order : ℕ → Order) (terms : List (I64 × I64)) : I64 := bilinear (if terms.length < 256 then 3 else 4) order terms

/-- Spanned input of the convolutions (cuda_tensor.py:208-212): channel `ch` of `x_encoded.repeat(nb).transpose(0, 1).reshape(bs, nb2 * c, *img)`. -/
def spanX (nb c : ℕ) (x : ℕ → I64) (ch : ℕ) : ℕ := block nb (ch / c % nb) (x (ch % c))

/-- Spanned kernel (cuda_tensor.py:210-213): output channel `o`, input channel `i` of `repeat_interleave(y_encoded, nb).reshape(nb2 * c_out, c_in, *ks)`. -/
def spanY (nb cOut : ℕ) (y : ℕ → ℕ → I64) (o i : ℕ) : ℕ := block nb (o / cOut / nb) (y (o % cOut) i)

/-- One entry of `__patched_conv_ops` for `conv1d`, `conv2d` (cuda_tensor.py:189-223). `ke` kernel elements; `x p ch` is the input under kernel position `p` for this output position, `y p o ch` the kernel.
torch's convolution with `nb2` groups: channel `g * cOut + o` of the output takes the input channels `g * c …`. The number of blocks depends on the kernel elements only. -/
def conv (order : ℕ → Order) (ke c cOut : ℕ) (x : ℕ → ℕ → I64) (y : ℕ → ℕ → ℕ → I64) (o : ℕ) : I64 :=
  let nb := if ke < 256 then 3 else 4
  decode nb fun g => (order g).sum fun k =>
    fp64 (spanX nb c (x (k / c)) (g * c + k % c) * spanY nb cOut (y (k / c)) (g * cOut + o) (k % c))

/-- One entry of `avg_pool2d` (cuda_tensor.py:308-342): the sums of the blocks, put together, then divided with rounding to zero. `window` holds the entries (padding is zero). -/
def avgPool (order : ℕ → Order) (window : List I64) (divisor : ℕ) : I64 :=
  let z : I64 := ((List.range 3).map fun i => BitVec.ofNat 64 ((order i).sum fun k => block 3 i (window.getD k 0)) <<< (blockSize 3 * i)).sum
  BitVec.ofInt 64 (z.toInt.tdiv divisor)

end CrypTen.Cuda
