import Verif.Model.Logic

/-!
# Random numbers, weighted sampling, maximum

Models `MPCTensor.rand` (/repo/crypten/mpc/mpc.py:216-230), `bernoulli`, `weighted_index` (/repo/crypten/common/functions/sampling.py:53-87), `prod`
(/repo/crypten/common/functions/regular.py:202-225) and /repo/crypten/common/functions/maximum.py.
`p` is `cfg.encoder.precision_bits`. The dimension `dim` is the first index, the other dimensions together are `κ`; a tensor split along `dim` is a list of
rows. `dim=None` is the case of a flattened tensor with `κ = Unit`. The number of halving steps is a floating-point logarithm in the code and an arbitrary
number here.
-/

namespace CrypTen
variable {n : ℕ} {ι κ : Type}

/-- `MPCTensor.rand` (mpc.py:216-230): every party draws `p` random bits, the XOR is converted to an arithmetic sharing.
With `p = 0` the code raises (`torch.stack` of an empty list); the theorems below are about `p > 0`. -/
def mpcRand [NeZero n] (p : ℕ) (κ : Type) : Proto n (AST n κ) := do
  let b ← Proto.kbit p κ
  let a ← b2a p (2 ^ p) (2 ^ p) b
  pure ⟨a, 2 ^ p⟩

/-- `bernoulli` (sampling.py:53-57): `self > rand`. -/
def AST.bernoulli [NeZero n] (p : ℕ) (x : AST n κ) : Proto n (AST n κ) := do
  let r ← mpcRand p κ
  x.gt (2 ^ p) (.enc r)

/-- `cumsum(0)` -/
def AST.cumsum {m : ℕ} (w : AST n (Fin m × κ)) : AST n (Fin m × κ) := ⟨fun q jk => ∑ i : Fin m, if i ≤ jk.1 then w.share q (i, jk.2) else 0, w.scale⟩

/-- `index_select(0, m - 1)` -/
def AST.lastRow {m : ℕ} (x : AST n (Fin m × κ)) : AST n κ :=
  ⟨fun q k => if h : 0 < m then x.share q (⟨m - 1, by omega⟩, k) else 0, x.scale⟩

/-- `roll(1)` followed by `index_fill_(0, 0, 0)` on every party's share (sampling.py:84-85). -/
def AST.shiftDown {m : ℕ} (x : AST n (Fin m × κ)) : AST n (Fin m × κ) :=
  ⟨fun q jk => if h : jk.1.val = 0 then 0 else x.share q (⟨jk.1.val - 1, by omega⟩, jk.2), x.scale⟩

/-- `weighted_index(0)` (sampling.py:60-87) once the random number `u` is drawn. -/
def AST.weightedIndexWith [NeZero n] (p : ℕ) {m : ℕ} (w : AST n (Fin m × κ)) (u : AST n κ) : Proto n (AST n (Fin m × κ)) := do
  let x := w.cumsum
  let maxWeight := x.lastRow
  let r ← AST.mul (elementwise κ) u maxWeight
  let g ← x.gt (2 ^ p) (.enc (r.reindex Prod.snd))
  g.sub g.shiftDown

/-- `weighted_index(0)` (sampling.py:60-87). -/
def AST.weightedIndex [NeZero n] (p : ℕ) {m : ℕ} (w : AST n (Fin m × κ)) : Proto n (AST n (Fin m × κ)) := do
  let u ← mpcRand p κ
  w.weightedIndexWith p u

/-- `weighted_sample(0)` (sampling.py:90-108). -/
def AST.weightedSample [NeZero n] (p : ℕ) {m : ℕ} (w : AST n (Fin m × κ)) : Proto n (AST n κ × AST n (Fin m × κ)) := do
  let indices ← w.weightedIndex p
  let z ← AST.mul (elementwise (Fin m × κ)) w indices
  pure (z.sumFirst, indices)

/-- The loop of `prod(0)` (regular.py:215-220) on the list of rows; `s` is the scale. The first argument bounds the number of iterations. -/
def prodLoop [NeZero n] : ℕ → List (Shares n κ) → ℕ → Proto n (List (Shares n κ) × ℕ)
  | 0, l, s => pure (l, s)
  | fuel + 1, l, s =>
    if l.length > 1 then do
      let h := l.length / 2
      let z ← AST.mul (elementwise (Fin h × κ)) ⟨takeRows h 0 l, s⟩ ⟨takeRows h h l, s⟩
      prodLoop fuel (unstackRows z.share ++ l.drop (2 * h)) z.scale
    else pure (l, s)

/-- `prod(0)` -/
def AST.prodFirst [NeZero n] {m : ℕ} (x : AST n (Fin m × κ)) : Proto n (AST n κ) := do
  let r ← prodLoop m (unstackRows x.share) x.scale
  pure ⟨r.1.headD fun _ _ => 0, r.2⟩

/-- Row `j - (i + 1)` modulo `m`: where `roll(i + 1)` takes row `j` from. -/
def rollIndex {m : ℕ} (i : ℕ) (j : Fin m) : Fin m := ⟨(j + (m - (i + 1) % m)) % m, Nat.mod_lt _ (by have := j.isLt; omega)⟩

/-- `_argmax_helper_pairwise` (maximum.py:95-118): compare every row with all its cyclic shifts. -/
def AST.argmaxPairwise [NeZero n] (p : ℕ) {m : ℕ} (x : AST n (Fin m × κ)) : Proto n (AST n (Fin m × κ)) := do
  let rowLength := if m > 1 then m else 2
  let a : AST n (Fin (rowLength - 1) × (Fin m × κ)) := x.reindex fun ijk => ijk.2
  let b : AST n (Fin (rowLength - 1) × (Fin m × κ)) := x.reindex fun ijk => (rollIndex ijk.1 ijk.2.1, ijk.2.2)
  let c ← a.ge (2 ^ p) (.enc b)
  if rowLength - 1 < 64 * 2 then c.prodFirst
  else c.sumFirst.ge (2 ^ p) (.pub fun _ => ((rowLength - 1 : ℕ) : ℚ))

/-- `_argmax_helper(method="pairwise")` (maximum.py:277-313): ties are broken by `weighted_index`. -/
def AST.argmaxOneHotPairwise [NeZero n] (p : ℕ) {m : ℕ} (x : AST n (Fin m × κ)) : Proto n (AST n (Fin m × κ)) := do
  let a ← x.argmaxPairwise p
  a.weightedIndex p

/-- `max(dim)` with `max_method = "pairwise"` (maximum.py:65-69): `(self * argmax_result).sum(dim)`. -/
def AST.maxPairwise [NeZero n] (p : ℕ) {m : ℕ} (x : AST n (Fin m × κ)) : Proto n (AST n κ) := do
  let oneHot ← x.argmaxOneHotPairwise p
  let y ← AST.mul (elementwise (Fin m × κ)) x oneHot
  pure y.sumFirst

/-- Stack a list of rows. -/
def stackAST (l : List (Shares n κ)) (s : ℕ) : AST n (Fin l.length × κ) := ⟨takeRows l.length 0 l, s⟩

/-- `crypten.where` with an encrypted condition (/repo/crypten/__init__.py:437-443): `condition * input + (1 - condition) * other`. -/
def cryptenWhere [NeZero n] (c x y : AST n ι) : Proto n (AST n ι) := do
  let xm ← AST.mul (elementwise ι) c x
  let ym ← AST.mul (elementwise ι) c.oneMinus y
  xm.add ym

/-- `_compute_pairwise_comparisons_for_steps` (maximum.py:121-132). -/
def halvingSteps [NeZero n] (p : ℕ) (s : ℕ) : ℕ → List (Shares n κ) → Proto n (List (Shares n κ))
  | 0, l => pure l
  | steps + 1, l => do
    let h := l.length / 2
    let x : AST n (Fin h × κ) := ⟨takeRows h 0 l, s⟩
    let y : AST n (Fin h × κ) := ⟨takeRows h h l, s⟩
    let c ← x.ge (2 ^ p) (.enc y)
    let z ← cryptenWhere c x y
    halvingSteps p s steps (unstackRows z.share ++ l.drop (2 * h))

/-- `_max_helper_log_reduction` (maximum.py:135-152). -/
def maxLogReduction [NeZero n] (p steps : ℕ) (l : List (Shares n κ)) (s : ℕ) : Proto n (AST n κ) := do
  let l' ← halvingSteps p s steps l
  (stackAST l' s).maxPairwise p

/-- `_max_helper_double_log_recursive` (maximum.py:155-212) on rows of any width. The first argument bounds the depth of the recursion. -/
def maxDoubleLog [NeZero n] (p : ℕ) : ℕ → (κ : Type) → List (Shares n κ) → ℕ → Proto n (AST n κ)
  | 0, _, l, s => pure ⟨l.headD fun _ _ => 0, s⟩
  | fuel + 1, κ, l, s =>
    let m := l.length
    let sqrtM := Nat.sqrt m
    let count := m / sqrtM
    if m = 1 then pure ⟨l.headD fun _ _ => 0, s⟩
    else do
      let split : List (Shares n (Fin count × κ)) :=
        List.ofFn fun a : Fin sqrtM => fun q bk => (l.getD (a * count + bk.1) fun _ _ => 0#64) q bk.2
      let r ← maxDoubleLog p fuel (Fin count × κ) split s
      let full := unstackRows r.share ++ l.drop (sqrtM * count)
      (stackAST full s).maxPairwise p

/-- `_max_helper_accelerated_cascade` (maximum.py:215-233). -/
def maxCascade [NeZero n] (p steps : ℕ) (l : List (Shares n κ)) (s : ℕ) : Proto n (AST n κ) :=
  if l.length < 3 then (stackAST l s).maxPairwise p
  else do
    let l' ← halvingSteps p s steps l
    maxDoubleLog p l'.length κ l' s

/-- The four values of `cfg.functions.max_method`; the number is the value of the logarithm. -/
inductive MaxMethod where
  | pairwise
  | logReduction (steps : ℕ)
  | doubleLog
  | cascade (steps : ℕ)

/-- The maximum along the first dimension (maximum.py:51-82, 236-253). With "pairwise", and with "accelerated_cascade" for `dim=None`, the maximum is
computed from the one-hot vector; the other cases return the reduction directly. -/
def AST.maxFirst [NeZero n] (p : ℕ) {m : ℕ} (method : MaxMethod) (x : AST n (Fin m × κ)) : Proto n (AST n κ) :=
  match method with
  | .pairwise => x.maxPairwise p
  | .logReduction steps => maxLogReduction p steps (unstackRows x.share) x.scale
  | .doubleLog => maxDoubleLog p m κ (unstackRows x.share) x.scale
  | .cascade steps => maxCascade p steps (unstackRows x.share) x.scale

/-- `min` (maximum.py:85-91). -/
def AST.minFirst [NeZero n] (p : ℕ) {m : ℕ} (method : MaxMethod) (x : AST n (Fin m × κ)) : Proto n (AST n κ) := do
  let r ← x.neg.maxFirst p method
  pure r.neg

/-- `argmax(one_hot=True)` (maximum.py:23-41, 256-313): with the tree methods the rows equal to the maximum are found by `eq`. -/
def AST.argmaxFirst [NeZero n] (p : ℕ) {m : ℕ} (method : MaxMethod) (x : AST n (Fin m × κ)) : Proto n (AST n (Fin m × κ)) :=
  match method with
  | .pairwise => x.argmaxOneHotPairwise p
  | method => do
    let mx ← x.maxFirst p method
    let e ← x.eq (2 ^ p) (.enc (mx.reindex Prod.snd))
    e.weightedIndex p

/-- `max(dim=None)` with "accelerated_cascade" (maximum.py:58-62): `self.mul(argmax_result).sum()`. -/
def AST.maxFromArgmax [NeZero n] (p : ℕ) {m : ℕ} (method : MaxMethod) (x : AST n (Fin m × κ)) : Proto n (AST n κ) := do
  let oneHot ← x.argmaxFirst p method
  let y ← AST.mul (elementwise (Fin m × κ)) x oneHot
  pure y.sumFirst

/-- `_one_hot_to_index` (maximum.py:316-332): product with the integer tensor `0, …, m-1`, summed. -/
def AST.oneHotToIndex [NeZero n] {m : ℕ} (x : AST n (Fin m × κ)) : Proto n (AST n κ) := do
  let y ← AST.mulPub (elementwise (Fin m × κ)) x fun jk => ((jk.1 : ℕ) : ℚ)
  pure y.sumFirst

end CrypTen
