import Mathlib.Logic.Function.Basic
import Mathlib.Data.List.Basic
import Mathlib.Data.Int.Notation

/-!
# Context managers with global effects

Models `CrypTensor.no_grad / enable_grad / set_grad_enabled` (/repo/crypten/cryptensor.py:147-180), `CrypTenConfig.temp_override` and the assignments to a configuration
(/repo/crypten/config/config.py:43-96), and `IgnoreEncodings` (/repo/crypten/mpc/primitives/beaver.py:15-28).

A generator-based context manager `prior = …; try: yield finally: …` runs its `finally` part however the block exits.
-/

namespace CrypTen

/-- How a block of Python code ends. -/
inductive Exit
  | normal
  | raised
  deriving DecidableEq, Repr

/-! ## Gradient mode -/

/-- Python programs around the global flag `CrypTensor.AUTOGRAD_ENABLED`. `look` reads it. -/
inductive GradProg
  | skip
  | look
  | raise
  | setEnabled (mode : Bool)
  | seq (p q : GradProg)
  | tryExcept (p q : GradProg)
  | noGrad (body : GradProg)
  | enableGrad (body : GradProg)

namespace GradProg

/-- Execution with the global flag: the flag afterwards, how the program ends, and what `look` saw (cryptensor.py:147-180). `noGrad` and `enableGrad` save the flag, set it, and restore
the saved value in their `finally` part. -/
def run : GradProg → Bool → Bool × Exit × List Bool
  | skip, flag => (flag, .normal, [])
  | look, flag => (flag, .normal, [flag])
  | raise, flag => (flag, .raised, [])
  | setEnabled mode, _ => (mode, .normal, [])
  | seq p q, flag =>
    let (flag1, e1, l1) := run p flag
    match e1 with
    | .raised => (flag1, .raised, l1)
    | .normal =>
      let (flag2, e2, l2) := run q flag1
      (flag2, e2, l1 ++ l2)
  | tryExcept p q, flag =>
    let (flag1, e1, l1) := run p flag
    match e1 with
    | .normal => (flag1, .normal, l1)
    | .raised =>
      let (flag2, e2, l2) := run q flag1
      (flag2, e2, l1 ++ l2)
  | noGrad body, flag =>
    let prior := flag
    let (_, e, l) := run body false
    (prior, e, l)
  | enableGrad body, flag =>
    let prior := flag
    let (_, e, l) := run body true
    (prior, e, l)

end GradProg

/-- The atomic steps of one thread executing `with CrypTensor.no_grad(): look` (cryptensor.py:149-160): save the flag, clear it, the body, restore. -/
inductive GradStep
  | save
  | clear
  | look
  | restore
  deriving DecidableEq, Repr

/-- Global flag, what each thread saved, and what the bodies saw. -/
structure GradThreads where
  flag : Bool
  prior : ℕ → Bool
  seen : List (ℕ × Bool) := []

/-- One step of thread `t`. -/
def GradThreads.step (s : GradThreads) (t : ℕ) : GradStep → GradThreads
  | .save => { s with prior := Function.update s.prior t s.flag }
  | .clear => { s with flag := false }
  | .look => { s with seen := s.seen ++ [(t, s.flag)] }
  | .restore => { s with flag := s.prior t }

/-- A schedule: which thread makes which step. -/
def GradThreads.run (s : GradThreads) (l : List (ℕ × GradStep)) : GradThreads := l.foldl (fun s x => s.step x.1 x.2) s

/-! ## Configuration -/

/-- Values of a configuration. -/
inductive CfgVal
  | null
  | bool (b : Bool)
  | int (n : ℤ)
  | str (s : String)
  deriving DecidableEq, Repr

/-- A configuration object as a map from dotted keys to values. Simplification: no key is a prefix of another one. -/
abbrev CfgMap := String → Option CfgVal

/-- `f"{name}={value}"` parsed by `OmegaConf.from_dotlist`: the value is printed by Python and read as YAML (config.py:81, 92). `None` is printed as `None`, which YAML reads as a string.
Simplification: a string stands for itself, as for strings that YAML does not read as a number, truth value or null. -/
def CfgVal.dotlist : CfgVal → CfgVal
  | .null => .str "None"
  | .bool b => .bool b
  | .int n => .int n
  | .str s => .str s

/-- `OmegaConf.merge(config, update)`: a new object (config.py:82, 93). -/
def CfgMap.merge (c : CfgMap) (l : List (String × CfgVal)) : CfgMap := l.foldl (fun c x => Function.update c x.1 (some x.2.dotlist)) c

/-- Configuration objects are mutable, so the state is a heap; `cur` is `cfg.config`, `var` are references held by the program. -/
structure CfgState where
  heap : ℕ → CfgMap
  free : ℕ
  cur : ℕ
  var : String → ℕ

/-- Programs over the global configuration `cfg`. -/
inductive CfgProg
  | skip
  | raise
  /-- `cfg.a.b = v`: an assignment to the current configuration object -/
  | assign (key : String) (v : CfgVal)
  /-- `cfg["a.b"] = v` -/
  | setItem (key : String) (v : CfgVal)
  /-- `cfg.load_config(file)` -/
  | load (c : CfgMap)
  /-- `x = cfg.config` (or a part of it) -/
  | hold (x : String)
  /-- `x.a.b = v` for a held reference -/
  | assignHeld (x : String) (key : String) (v : CfgVal)
  /-- `cfg.set_config(x)` for a held reference -/
  | setConfig (x : String)
  | seq (p q : CfgProg)
  | tryExcept (p q : CfgProg)
  /-- `with cfg.temp_override(d): body` -/
  | override (d : List (String × CfgVal)) (body : CfgProg)

namespace CfgProg

/-- A new configuration object becomes the current one. -/
def install (s : CfgState) (c : CfgMap) : CfgState := { s with heap := Function.update s.heap s.free c, free := s.free + 1, cur := s.free }

/-- Execution (config.py:43-96). -/
def run : CfgProg → CfgState → CfgState × Exit
  | skip, s => (s, .normal)
  | raise, s => (s, .raised)
  | assign key v, s => ({ s with heap := Function.update s.heap s.cur (Function.update (s.heap s.cur) key (some v)) }, .normal)
  | setItem key v, s => (install s ((s.heap s.cur).merge [(key, v)]), .normal)
  | load c, s => (install s c, .normal)
  | hold x, s => ({ s with var := Function.update s.var x s.cur }, .normal)
  | assignHeld x key v, s => ({ s with heap := Function.update s.heap (s.var x) (Function.update (s.heap (s.var x)) key (some v)) }, .normal)
  | setConfig x, s => ({ s with cur := s.var x }, .normal)
  | seq p q, s =>
    match run p s with
    | (s1, .raised) => (s1, .raised)
    | (s1, .normal) => run q s1
  | tryExcept p q, s =>
    match run p s with
    | (s1, .raised) => run q s1
    | (s1, .normal) => (s1, .normal)
  | override d body, s =>
    let old := s.cur
    let (s1, e) := run body (install s ((s.heap s.cur).merge d))
    ({ s1 with cur := old }, e)

end CfgProg

/-- What the program reads as `cfg.<key>`. -/
def CfgState.lookup (s : CfgState) (key : String) : Option CfgVal := s.heap s.cur key

/-! ## Ignoring encodings -/

/-- Encoders are objects that tensors refer to; several tensors may share one. -/
structure EncHeap where
  encoder : ℕ → ℕ
  scale : ℕ → ℤ

/-- `tensor.encoder.scale`. -/
def EncHeap.scaleOf (h : EncHeap) (t : ℕ) : ℤ := h.scale (h.encoder t)

/-- `tensor.encoder._scale = v`. -/
def EncHeap.setScale (h : EncHeap) (t : ℕ) (v : ℤ) : EncHeap := { h with scale := Function.update h.scale (h.encoder t) v }

/-- `with IgnoreEncodings(ts): body` (beaver.py:15-28). The scales are cached when the manager is created; `__enter__` sets them to 1; `__exit__` writes the cached values back in
order, however the body ends. -/
def ignoreEncodings (ts : List ℕ) (body : EncHeap → EncHeap × Exit) (h : EncHeap) : EncHeap × Exit :=
  let cache := ts.map h.scaleOf
  let h1 := ts.foldl (fun h t => h.setScale t 1) h
  let (h2, e) := body h1
  ((ts.zip cache).foldl (fun h x => h.setScale x.1 x.2) h2, e)

end CrypTen
