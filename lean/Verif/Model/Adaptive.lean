import Mathlib.Data.Rat.Floor
import Mathlib.Algebra.BigOperators.Group.List.Basic

/-!
# Adaptive pooling

Models `adaptive_avg_pool2d`, `adaptive_max_pool2d` and `_adaptive_pool2d_helper` (/repo/crypten/common/functions/pooling.py:148-318) and the modules `AdaptiveAvgPool2d` and `AdaptiveMaxPool2d` (/repo/crypten/nn/module.py:2650-2750).

One plane (height and width) is modelled: all operations treat the planes alike. Entries are exact rationals. A plane is the list of its rows, each a function of the column; the width is kept beside it. Python's floats are modelled by an argument `fl`, the rounding of the exact result of one operation; `dbl` is the rounding of IEEE double precision (no overflow, no subnormal numbers).
-/

namespace CrypTen
namespace Adaptive

/-- Round half to even. -/
def roundEven (q : ℚ) : ℤ :=
  if q - ⌊q⌋ < 1 / 2 then ⌊q⌋ else if q - ⌊q⌋ > 1 / 2 then ⌊q⌋ + 1 else if ⌊q⌋ % 2 = 0 then ⌊q⌋ else ⌊q⌋ + 1

/-- The exponent of a positive number: `2 ^ e ≤ x < 2 ^ (e + 1)`. -/
def exponent (x : ℚ) : ℤ := if 1 ≤ x then (Nat.log2 ⌊x⌋.toNat : ℤ) else -((Nat.log2 (⌈x⁻¹⌉.toNat - 1) : ℤ) + 1)

/-- The double nearest to a non-negative number (the rounding of `/` and `*` at pooling.py:225, 232-233). -/
def dbl (x : ℚ) : ℚ := if x ≤ 0 then 0 else roundEven (x / 2 ^ (exponent x - 52)) * 2 ^ (exponent x - 52)

/-- `compute_kernels` (pooling.py:224-243): start and end of each window. Python converts `int(j * step)` and `int(math.ceil((j + 1) * step))` from the rounded product with the rounded quotient. -/
def windows (fl : ℚ → ℚ) (inSize outSize : ℕ) : List (ℕ × ℕ) :=
  (List.range outSize).map fun j : ℕ => (⌊fl (j * fl ((inSize : ℚ) / outSize))⌋.toNat, ⌈fl (((j + 1 : ℕ) : ℚ) * fl ((inSize : ℚ) / outSize))⌉.toNat)

/-- `max_kernel_size` (pooling.py:229-237); `end_index - start_index` as a natural number. -/
def maxKernel (ws : List (ℕ × ℕ)) : ℕ := ws.foldl (fun m w => if w.2 - w.1 > m then w.2 - w.1 else m) 0

/-- Which pooling. -/
inductive Reduction | mean | max
deriving DecidableEq

/-- A row (or column) of numbers. -/
abbrev Row := ℕ → ℚ

/-- `tensor.index_select(dim, torch.arange(a, b))` (pooling.py:248-249, 257-259, 271-274); `none` is the error for an index out of range, or of `arange` for `b < a`. -/
def select (t : List Row) (a b : ℕ) : Option (List Row) := if a ≤ b ∧ b ≤ t.length then some ((t.take b).drop a) else none

/-- `tensor.index_select(dim, torch.tensor(i))` (pooling.py:250, 262-264). -/
def selectOne (t : List Row) (i : ℤ) : Option (List Row) := if 0 ≤ i ∧ i < t.length then some ((t.take (i.toNat + 1)).drop i.toNat) else none

/-- `repeat_row` (pooling.py:246-251). -/
def repeatRow (t : List Row) (ind : ℕ) : Option (List Row) := do
  let x ← select t 0 ind
  let y ← select t ind t.length
  let r ← selectOne t ((ind : ℤ) - 1)
  return x ++ r ++ y

/-- `.mean(dim, keepdim=True)` (pooling.py:260). -/
def meanRow (t : List Row) : Row := fun c => (t.map fun r => r c).sum / t.length

/-- `extended_value` (pooling.py:256-266). -/
def extendedValue (red : Reduction) (t : List Row) (startInd endInd : ℕ) : Option (List Row) :=
  match red with
  | .mean => (select t startInd endInd).map fun s => [meanRow s]
  | .max => selectOne t startInd

/-- `extend_row` (pooling.py:254-275). -/
def extendRow (red : Reduction) (t : List Row) (startInd endInd : ℕ) : Option (List Row) :=
  (extendedValue red t startInd endInd).bind fun ext =>
    if startInd = 0 then some (ext ++ t)
    else (select t 0 startInd).bind fun x => (select t startInd t.length).bind fun y => some (x ++ ext ++ y)

/-- The inner loop `for _ in range(k, stride)` (pooling.py:293-298): `m` rounds left; the state is the tensor and `added_rows`. -/
def extendLoop (red : Reduction) (w : ℕ × ℕ) : ℕ → List Row × ℕ → Option (List Row × ℕ)
  | 0, st => some st
  | m + 1, st => (extendRow red st.1 (w.1 + st.2) (w.2 + st.2)).bind fun t => extendLoop red w m (t, st.2 + 1)

/-- The outer loop (pooling.py:287-306): the rest of the windows, and the state. -/
def windowLoop (red : Reduction) (stride : ℕ) : List (ℕ × ℕ) → List Row × ℕ → Option (List Row × ℕ)
  | [], st => some st
  | w :: ws, st => (extendLoop red w (stride - (w.2 - w.1)) st).bind fun st =>
    match ws with
    | [] => some st
    | w' :: _ =>
      if w.2 > w'.1 then (repeatRow st.1 (w.2 + st.2)).bind fun t => windowLoop red stride ws (t, st.2 + 1)
      else windowLoop red stride ws st

/-- One dimension of `_adaptive_pool2d_helper` (pooling.py:278-310): the new rows and the stride. -/
def adapt (fl : ℚ → ℚ) (red : Reduction) (t : List Row) (outSize : ℕ) : Option (List Row × ℕ) :=
  if outSize > 1 then
    let ws := windows fl t.length outSize
    (windowLoop red (maxKernel ws) ws (t, 0)).map fun st => (st.1, maxKernel ws)
  else some (t, t.length)

/-- A plane: its rows and its width (the last two dimensions at pooling.py:279-281). -/
structure Plane where
  rows : List Row
  width : ℕ

/-- The columns of a plane: the view of dimension -1 (pooling.py:279). -/
def Plane.cols (x : Plane) : List Row := (List.range x.width).map fun c r => (x.rows.getD r fun _ => 0) c

/-- The plane with the given columns. -/
def ofCols (cols : List Row) (height : ℕ) : Plane := ⟨(List.range height).map fun r c => (cols.getD c fun _ => 0) r, cols.length⟩

/-- `_adaptive_pool2d_helper` (pooling.py:199-318): the resized plane, and the kernel size, which is also the stride. -/
def helper (fl : ℚ → ℚ) (red : Reduction) (x : Plane) (oh ow : ℕ) : Option (Plane × ℕ × ℕ) := do
  let (r, sh) ← adapt fl red x.rows oh
  let (c, sw) ← adapt fl red (Plane.cols ⟨r, x.width⟩) ow
  return (ofCols c r.length, sh, sw)

/-- One block of a pooling with kernel size and stride `(sh, sw)`: the entries, row by row (pooling.py:168, 195 call `avg_pool2d`, `max_pool2d`). -/
def block (x : Plane) (sh sw i j : ℕ) : List ℚ :=
  (List.range sh).flatMap fun a => (List.range sw).map fun b => (x.rows.getD (i * sh + a) fun _ => 0) (j * sw + b)

/-- The largest element of a list. -/
def maxL (l : List ℚ) : ℚ := l.foldl max (l.headD 0)

/-- `avg_pool2d(kernel, stride=kernel)` and `max_pool2d(kernel, stride=kernel)` without padding: `none` for an empty kernel or no window. -/
def pool (red : Reduction) (x : Plane) (sh sw : ℕ) : Option Plane :=
  if 0 < sh ∧ 0 < sw ∧ sh ≤ x.rows.length ∧ sw ≤ x.width then
    some ⟨(List.range ((x.rows.length - sh) / sh + 1)).map fun i j => match red with | .mean => (block x sh sw i j).sum / (sh * sw) | .max => maxL (block x sh sw i j), (x.width - sw) / sw + 1⟩
  else none

/-- The argument `output_size`: missing, an integer, or a pair with entries that may be `None`. -/
inductive OutSize | none | int (n : ℕ) | pair (h w : Option ℕ)

/-- `adaptive_avg_pool2d` and `adaptive_max_pool2d` (pooling.py:148-195), without indices. `output_size[0]` raises for an integer. -/
def function (fl : ℚ → ℚ) (red : Reduction) (x : Plane) : OutSize → Option Plane
  | .none => some x
  | .int _ => Option.none
  | .pair Option.none _ => some x
  | .pair (some h) w =>
    if h = x.rows.length ∧ w = some x.width then some x
    else (helper fl red x h (w.getD x.width)).bind fun r => pool red r.1 r.2.1 r.2.2

/-- `AdaptiveAvgPool2d.forward` and `AdaptiveMaxPool2d.forward` (module.py:2684-2693, 2737-2746). -/
def module (fl : ℚ → ℚ) (red : Reduction) (x : Plane) : OutSize → Option Plane
  | .none => Option.none
  | .int n => (helper fl red x n n).bind fun r => pool red r.1 r.2.1 r.2.2
  | .pair h w => (helper fl red x (h.getD x.rows.length) (w.getD x.width)).bind fun r => pool red r.1 r.2.1 r.2.2

end Adaptive
end CrypTen
