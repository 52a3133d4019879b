import Mathlib.Data.Rat.Defs
import Mathlib.Data.List.Count
import Mathlib.Data.List.MinMax

/-!
# Accuracy of predictions and averages in the examples

Models /repo/examples/meters.py (`AverageMeter`, `AccuracyMeter`), `accuracy` in /repo/examples/mpc_cifar/mpc_cifar.py:340-354 (the same text as /repo/examples/tfe_benchmarks/tfe_benchmarks.py:352-366), and the loops that fill the meters:
`validate` (mpc_cifar.py:264-320) and the loop of `run_experiment` (/repo/examples/mpc_imagenet/mpc_imagenet.py:79-105). Floats are rational numbers; exceptions are `none`. `torch.topk`, which may break ties in any way, is an argument `topk`
of the definitions. Logging, times and losses are left out.
-/

namespace CrypTen.Meters

/-- `target.view(1, -1).expand_as(prediction)` for predictions of `n` samples (meters.py:46, mpc_cifar.py:348): as many targets as samples, or one target for all; else an exception. -/
def expandTarget (n : ℕ) (target : List ℕ) : Option (List ℕ) :=
  if target.length = n then some target
  else if target.length = 1 then some (List.replicate n (target.headD 0))
  else none

/-- `output.topk(maxk, 1, True, True)`, the transposition and the comparison (meters.py:42-46, mpc_cifar.py:346-348): for each rank, for each sample, whether the class at this rank is the target. `topk` raises when there are fewer classes
than `maxk`. -/
def correctness (topk : ℕ → List ℚ → List ℕ) (maxk : ℕ) (output : List (List ℚ)) (target : List ℕ) : Option (List (List Bool)) :=
  if output.any (fun row => row.length < maxk) then none
  else
    (expandTarget output.length target).map fun target =>
      let prediction := output.map (topk maxk)
      let prediction := (List.range maxk).map fun r => prediction.map fun p => p.getD r 0
      prediction.map fun row => List.zipWith (fun a b => a == b) row target

/-- `correct[:k].flatten().float().sum(0)` (mpc_cifar.py:352) -/
def countCorrect (k : ℕ) (correct : List (List Bool)) : ℕ := (correct.take k).flatten.count true

/-- `accuracy(output, target, topk)` (mpc_cifar.py:340-354). `max(())` and the division by an empty batch raise. -/
def accuracy (topk : ℕ → List ℚ → List ℕ) (output : List (List ℚ)) (target : List ℕ) (ks : List ℕ) : Option (List ℚ) :=
  match ks.max? with
  | none => none
  | some maxk =>
    match correctness topk maxk output target with
    | none => none
    | some correct =>
      if ks ≠ [] ∧ target.length = 0 then none
      else some (ks.map fun k => (countCorrect k correct : ℚ) * (100 / (target.length : ℚ)))

/-- `AverageMeter` (meters.py:11-27) -/
structure AverageMeter where
  sum : ℚ
  count : ℕ

namespace AverageMeter
/-- `reset()` (meters.py:17-19), called by `__init__` (14-15) -/
def reset : AverageMeter := ⟨0, 0⟩
/-- `add(value, n=1)` (meters.py:21-23) -/
def add (m : AverageMeter) (value : ℚ) (n : ℕ := 1) : AverageMeter := ⟨m.sum + value * n, m.count + n⟩
/-- `value()` (meters.py:25-26); dividing by zero raises. -/
def value (m : AverageMeter) : Option ℚ := if m.count = 0 then none else some (m.sum / m.count)
end AverageMeter

/-- Calls on an `AverageMeter`. -/
inductive Call where
  | reset
  | add (value : ℚ) (n : ℕ)

/-- One call (meters.py:17-23). -/
def AverageMeter.call (m : AverageMeter) : Call → AverageMeter
  | .reset => .reset
  | .add v n => m.add v n

/-- `AccuracyMeter` (meters.py:29-55): `topk` and `values`; `maxk` is computed where it is used. -/
structure AccuracyMeter where
  topk : List ℕ
  values : List (List (List Bool))

namespace AccuracyMeter
/-- `__init__(topk)` (meters.py:32-35); `max(())` raises. -/
def init (ks : List ℕ) : Option AccuracyMeter := if ks = [] then none else some ⟨ks, []⟩
/-- `reset()` (meters.py:37-38) -/
def reset (m : AccuracyMeter) : AccuracyMeter := { m with values := [] }
/-- `self.maxk` (meters.py:35) -/
def maxk (m : AccuracyMeter) : ℕ := m.topk.max?.getD 0
/-- `add(output, ground_truth)` (meters.py:40-47) -/
def add (topk : ℕ → List ℚ → List ℕ) (m : AccuracyMeter) (output : List (List ℚ)) (target : List ℕ) : Option AccuracyMeter :=
  (correctness topk m.maxk output target).map fun correct => { m with values := m.values ++ [correct.take m.maxk] }
/-- `value()[k]` (meters.py:49-55). `torch.stack` raises without tensors and with tensors of different sizes (all have `maxk` rows; `shape` is the number of samples). The stacked tensor is indexed by batch first, so `correct[:k]` are the first
`k` batches and `correct.size(0)` is the number of batches. -/
def value (m : AccuracyMeter) (k : ℕ) : Option ℚ :=
  match m.values with
  | [] => none
  | c :: cs =>
    if k ∉ m.topk then none
    else if cs.any (fun d => d.map List.length ≠ c.map List.length) then none
    else some ((((m.values.take k).flatten.flatten.count true : ℕ) : ℚ) * (100 / (m.values.length : ℚ)))
end AccuracyMeter

/-- The accuracies of `validate` (mpc_cifar.py:264-320): `top1` and `top5` after all batches. A batch is the output of the model and the targets. -/
def validateLoop (topk : ℕ → List ℚ → List ℕ) : AverageMeter × AverageMeter → List (List (List ℚ) × List ℕ) → Option (AverageMeter × AverageMeter)
  | ms, [] => some ms
  | ms, (output, target) :: bs =>
    match accuracy topk output target [1, 5] with
    | some [prec1, prec5] => validateLoop topk (ms.1.add prec1 output.length, ms.2.add prec5 output.length) bs
    | _ => none

/-- `validate` (mpc_cifar.py:264-320): the printed accuracies (line 317), of which the first is returned (320). -/
def validate (topk : ℕ → List ℚ → List ℕ) (bs : List (List (List ℚ) × List ℕ)) : Option (ℚ × ℚ) :=
  match validateLoop topk (.reset, .reset) bs with
  | none => none
  | some (top1, top5) =>
    match top1.value, top5.value with
    | some a, some b => some (a, b)
    | _, _ => none

/-- The loop of `run_experiment` (mpc_imagenet.py:81-99): one sample at a time. -/
def imagenetLoop (topk : ℕ → List ℚ → List ℕ) : AccuracyMeter → List (List ℚ × ℕ) → Option AccuracyMeter
  | m, [] => some m
  | m, (output, target) :: ss =>
    match m.add topk [output] [target] with
    | none => none
    | some m => imagenetLoop topk m ss

/-- The accuracy that `run_experiment` reports at the end (mpc_imagenet.py:80-105). -/
def imagenet (topk : ℕ → List ℚ → List ℕ) (ss : List (List ℚ × ℕ)) : Option ℚ :=
  match AccuracyMeter.init [1] with
  | none => none
  | some m =>
    match imagenetLoop topk m ss with
    | none => none
    | some m => m.value 1

/-- An `AccuracyMeter(ks)` (meters.py:32) to which samples are added one at a time, as in mpc_imagenet.py:80-94, then `value()[k]`. -/
def meterOf (topk : ℕ → List ℚ → List ℕ) (ks : List ℕ) (ss : List (List ℚ × ℕ)) (k : ℕ) : Option ℚ :=
  match AccuracyMeter.init ks with
  | none => none
  | some m =>
    match imagenetLoop topk m ss with
    | none => none
    | some m => m.value k

end CrypTen.Meters
