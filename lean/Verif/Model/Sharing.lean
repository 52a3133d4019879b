import Verif.Model.Ring

/-!
# Seeds, generators, zero-shares, encryption and decryption

Models /repo/crypten/__init__.py (`_setup_prng`, `_sync_seeds`), /repo/crypten/common/rng.py,
and the constructors / `PRZS` / `reveal` of `ArithmeticSharedTensor` and `BinarySharedTensor`.
-/

namespace CrypTen

/-- A deterministic pseudo-random generator implementation (`torch.Generator`): a state type, `manual_seed`, and
`torch.randint(low, high, size)` with `k` elements.  Completely arbitrary: nothing is assumed about the outputs. -/
structure Prng where
  /-- internal state of a `torch.Generator` -/
  σ : Type
  /-- `Generator.manual_seed` -/
  manualSeed : ℤ → σ
  /-- `torch.randint(low, high, (k,), generator=g)`: values and the advanced generator -/
  randint : (low high : ℤ) → (k : ℕ) → σ → (Fin k → I64) × σ

/-- /repo/crypten/common/rng.py:12-30 `generate_random_ring_element` with the default `ring_size = 2**64`
(the CUDA wrapping of lines 28-29 is not modelled). -/
def generateRandomRingElement (P : Prng) (k : ℕ) (g : P.σ) : (Fin k → I64) × P.σ :=
  P.randint (-(2 ^ 64 / 2)) ((2 ^ 64 - 1) / 2) k g

/-- /repo/crypten/common/rng.py:33-49 `generate_kbit_random_tensor`. -/
def generateKbitRandomTensor (P : Prng) (bitlength : ℕ) (k : ℕ) (g : P.σ) : (Fin k → I64) × P.σ :=
  if bitlength = 64 then generateRandomRingElement P k g
  else P.randint 0 (2 ^ bitlength) k g

/-- The four generators a party keeps per device (/repo/crypten/__init__.py:36-41). -/
structure PartyGens (P : Prng) where
  /-- shared with the previous party -/
  prev : P.σ
  /-- shared with the next party -/
  next : P.σ
  /-- known to this party only -/
  loc : P.σ
  /-- shared by all parties -/
  glob : P.σ

/-- A `torch.device`, by number. -/
abbrev Device := ℕ

/-- The global variable `crypten.generators` of every party process. -/
abbrev World (P : Prng) (n : ℕ) := Fin n → Device → PartyGens P

/-- /repo/crypten/__init__.py:239 `next_rank = (rank + 1) % world_size`. -/
def nextRank {n : ℕ} [NeZero n] (r : Fin n) : Fin n := ⟨(r.val + 1) % n, Nat.mod_lt _ (NeZero.pos n)⟩

/-- /repo/crypten/__init__.py:240 `prev_rank = (next_rank - 2) % world_size` (Python's `%`: result in `[0, n)`). -/
def prevRank {n : ℕ} [NeZero n] (r : Fin n) : Fin n :=
  ⟨(((nextRank r).val : ℤ) - 2).emod n |>.toNat, by
    have hn : (0 : ℤ) < n := by exact_mod_cast NeZero.pos n
    have h1 := Int.emod_lt_of_pos (((nextRank r).val : ℤ) - 2) hn
    have h0 := Int.emod_nonneg (((nextRank r).val : ℤ) - 2) hn.ne'
    have : ((((nextRank r).val : ℤ) - 2).emod n) = (((nextRank r).val : ℤ) - 2) % n := rfl
    omega⟩

/-- The point-to-point exchange of /repo/crypten/__init__.py:242-246: rank `r` receives from `prevRank r` the
message that `prevRank r` addressed to its own `next_rank`; if that is not `r` the receive never completes (`none`). -/
def recvSeed {n : ℕ} [NeZero n] (nextSeed : Fin n → ℤ) (r : Fin n) : Option ℤ :=
  if nextRank (prevRank r) = r then some (nextSeed (prevRank r)) else none

/-- /repo/crypten/__init__.py:223-265 `_sync_seeds` executed by all `n` parties: `nextSeed r`, `localSeed r` are the
seeds party `r` drew from `os.urandom`, `globalSeed r` likewise of which only rank 0's is broadcast (line 254).
Every device gets the same seeds (lines 261-265). `none` = a receive that never completes. -/
def syncSeeds (P : Prng) {n : ℕ} [NeZero n] (nextSeed localSeed globalSeed : Fin n → ℤ) : Option (World P n) :=
  let prevSeed : Fin n → Option ℤ := fun r => if 2 ≤ n then recvSeed nextSeed r else some (nextSeed r)
  if h : ∀ r, (prevSeed r).isSome then
    some fun r _ =>
      { prev := P.manualSeed ((prevSeed r).get (h r))
        next := P.manualSeed (nextSeed r)
        loc := P.manualSeed (localSeed r)
        glob := P.manualSeed (globalSeed 0) }
  else none

/-- One party's `ArithmeticSharedTensor.PRZS` (/repo/crypten/mpc/primitives/arithmetic.py:157-178): first draw from the
generator shared with the previous party, then from the one shared with the next, and subtract. -/
def przsArith (P : Prng) (k : ℕ) (g : PartyGens P) : (Fin k → I64) × PartyGens P :=
  let (cur, prev') := generateRandomRingElement P k g.prev
  let (nxt, next') := generateRandomRingElement P k g.next
  (cur - nxt, { g with prev := prev', next := next' })

/-- One party's `BinarySharedTensor.PRZS` (/repo/crypten/mpc/primitives/binary.py:111-133), 64 bits. -/
def przsBinary (P : Prng) (k : ℕ) (g : PartyGens P) : (Fin k → I64) × PartyGens P :=
  let (cur, prev') := generateKbitRandomTensor P 64 k g.prev
  let (nxt, next') := generateKbitRandomTensor P 64 k g.next
  (fun i => cur i ^^^ nxt i, { g with prev := prev', next := next' })

/-- Run one party-local generator action at every party on device `d`, leaving the other devices' generators alone. -/
def World.onAll {P : Prng} {n : ℕ} {α : Type} (w : World P n) (d : Device)
    (f : PartyGens P → α × PartyGens P) : (Fin n → α) × World P n :=
  (fun r => (f (w r d)).1, fun r d' => if d' = d then (f (w r d)).2 else w r d')

/-- `ArithmeticSharedTensor.__init__` at every party, after encoding
(/repo/crypten/mpc/primitives/arithmetic.py:101-104): a zero-share, to which the source adds the tensor. -/
def encryptArith {P : Prng} {n k : ℕ} (w : World P n) (d : Device) (src : Fin n) (x : Tensor (Fin k)) :
    Shares n (Fin k) × World P n :=
  let (z, w') := w.onAll d (przsArith P k)
  (fun r => if r = src then z r + x else z r, w')

/-- `BinarySharedTensor.__init__` at every party, after encoding (/repo/crypten/mpc/primitives/binary.py:90-93). -/
def encryptBinary {P : Prng} {n k : ℕ} (w : World P n) (d : Device) (src : Fin n) (x : Tensor (Fin k)) :
    Shares n (Fin k) × World P n :=
  let (z, w') := w.onAll d (przsBinary P k)
  (fun r => if r = src then fun i => z r i ^^^ x i else z r, w')

/-- `reveal(dst)` / `comm.reduce` (/repo/crypten/mpc/primitives/arithmetic.py:296-302,
/repo/crypten/communicator/distributed_communicator.py:162-185): with `dst = none` everyone gets the sum, otherwise
only `dst` does. -/
def revealTo {n : ℕ} {ι : Type} (s : Shares n ι) (dst : Option (Fin n)) (rank : Fin n) : Option (Tensor ι) :=
  match dst with
  | none => some (reveal s)
  | some d => if d = rank then some (reveal s) else none

/-- A generator-consuming action of the library, issued by all parties in the same order, except `localDraw`, which is
a draw of one party from its own private generator (e.g. `PRSS`, arithmetic.py:181-187). -/
inductive GenOp (n : ℕ) where
  | przsA (d : Device) (k : ℕ)
  | przsX (d : Device) (k : ℕ)
  | encA (d : Device) (src : Fin n) (k : ℕ) (x : Fin k → I64)
  | encX (d : Device) (src : Fin n) (k : ℕ) (x : Fin k → I64)
  | localDraw (r : Fin n) (d : Device) (low high : ℤ) (k : ℕ)
  | globalDraw (d : Device) (low high : ℤ) (k : ℕ)

/-- State change of one action. -/
def GenOp.step {P : Prng} {n : ℕ} (w : World P n) : GenOp n → World P n
  | .przsA d k => (w.onAll d (przsArith P k)).2
  | .przsX d k => (w.onAll d (przsBinary P k)).2
  | .encA d src k x => (encryptArith (k := k) w d src x).2
  | .encX d src k x => (encryptBinary (k := k) w d src x).2
  | .localDraw r d low high k => fun r' d' =>
      if r' = r ∧ d' = d then { w r' d' with loc := (P.randint low high k (w r' d').loc).2 } else w r' d'
  | .globalDraw d low high k => fun r' d' =>
      if d' = d then { w r' d' with glob := (P.randint low high k (w r' d').glob).2 } else w r' d'

/-- State after a history of actions. -/
def runGen {P : Prng} {n : ℕ} (w : World P n) (h : List (GenOp n)) : World P n := h.foldl GenOp.step w

/-! ## Thread mode

`init_thread` (/repo/crypten/__init__.py:82-84) runs every rank as a thread of one process, where the module-global
dictionary `crypten.generators` (line 36) is one object shared by all the threads. -/

/-- Zero-shares drawn by threads `0, 1, …, n-1` one after the other from the single shared generator pair. -/
def przsArithThreads (P : Prng) (k : ℕ) : (n : ℕ) → PartyGens P → List (Fin k → I64) × PartyGens P
  | 0, g => ([], g)
  | n + 1, g =>
    let (s, g') := przsArith P k g
    let (rest, g'') := przsArithThreads P k n g'
    (s :: rest, g'')

end CrypTen
