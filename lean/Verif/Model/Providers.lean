import Verif.Model.Sharing
import Verif.Model.Beaver
import Verif.Model.Truncate

/-!
# The tuple providers

/repo/crypten/mpc/provider/tfp_provider.py and ttp_provider.py. Tensors are flattened: a tensor of `k` entries is indexed by `Fin k`. The operation of an
additive triple (`getattr(torch, op)(a, b, *args, **kwargs)`) is a bilinear function, and broadcasting in a binary triple is given by two index maps.
-/

namespace CrypTen
variable {n : ℕ}

/-- A request that all parties make of the provider; `d` is the device. -/
inductive TupleReq (D : Type) where
  | additive (d : D) {k0 k1 k2 : ℕ} (B : BilinearOp (Fin k0) (Fin k1) (Fin k2))
  | square (d : D) (k : ℕ)
  | binary (d : D) {k0 k1 k2 : ℕ} (f : Fin k2 → Fin k0) (g : Fin k2 → Fin k1)
  | wraps (d : D) (k : ℕ)
  | b2a (d : D) (k : ℕ)

/-- What the parties together get back. -/
inductive TupleRes (n : ℕ) where
  | additive {k0 k1 k2 : ℕ} (t : MulTriple n (Fin k0) (Fin k1) (Fin k2))
  | square {k : ℕ} (t : SquarePair n (Fin k))
  | binary {k0 k1 k2 : ℕ} (a : Shares n (Fin k0)) (b : Shares n (Fin k1)) (c : Shares n (Fin k2))
  | wraps {k : ℕ} (t : WrapPair n (Fin k))
  | b2a {k : ℕ} (t : B2APair n (Fin k))

/-! ## Trusted first party -/

variable {P : Prng}

/-- `generate_random_ring_element(size, device=d)`, `generate_kbit_random_tensor(size, device=d)`: a draw from the party's local generator
(/repo/crypten/common/rng.py:12-49). `bits = 64` is the full ring. -/
def drawLocal (bits k : ℕ) (g : PartyGens P) : (Fin k → I64) × PartyGens P :=
  let r := generateKbitRandomTensor P bits k g.loc
  (r.1, { g with loc := r.2 })

/-- The list of `m` draws of `wrap_rng` (tfp_provider.py:58-61). -/
def drawLocalList (k : ℕ) : ℕ → PartyGens P → List (Fin k → I64) × PartyGens P
  | 0, g => ([], g)
  | m + 1, g =>
    let r := drawLocal 64 k g
    let rest := drawLocalList k m r.2
    (r.1 :: rest.1, rest.2)

/-- `TrustedFirstParty` (tfp_provider.py:17-78), run by all parties. Every party draws values of its own; those of rank 0 are the ones shared. -/
def tfpStep [NeZero n] (w : World P n) : TupleReq Device → TupleRes n × World P n
  | .additive (k0 := k0) (k1 := k1) d B =>
    let (a, w) := w.onAll d (drawLocal 64 k0)
    let (b, w) := w.onAll d (drawLocal 64 k1)
    let c := fun p => B.apply (a p) (b p)
    let (a, w) := encryptArith w d 0 (a 0)
    let (b, w) := encryptArith w d 0 (b 0)
    let (c, w) := encryptArith w d 0 (c 0)
    (.additive ⟨a, b, c⟩, w)
  | .square d k =>
    let (r, w) := w.onAll d (drawLocal 64 k)
    let r2 := fun p => r p * r p
    let (s, w) := encryptArith w d 0 (Fin.append (r 0) (r2 0))
    (.square ⟨fun p i => s p (Fin.castAdd k i), fun p i => s p (Fin.natAdd k i)⟩, w)
  | .binary (k0 := k0) (k1 := k1) (k2 := k2) d f g =>
    let (a, w) := w.onAll d (drawLocal 64 k0)
    let (b, w) := w.onAll d (drawLocal 64 k1)
    let c : Fin n → Fin k2 → I64 := fun p i => a p (f i) &&& b p (g i)
    let (a, w) := encryptBinary w d 0 (a 0)
    let (b, w) := encryptBinary w d 0 (b 0)
    let (c, w) := encryptBinary w d 0 (c 0)
    (.binary a b c, w)
  | .wraps d k =>
    let (r, w) := w.onAll d (drawLocalList k n)
    let theta : Fin n → Fin k → I64 := fun p i => countWraps ((r p).map fun t => t i)
    let shares : Shares n (Fin k) := fun p => (r 0).getD p fun _ => 0#64
    let (theta, w) := encryptArith w d 0 (theta 0)
    (.wraps ⟨shares, theta⟩, w)
  | .b2a d k =>
    let (r, w) := w.onAll d (drawLocal 1 k)
    let (rA, w) := encryptArith w d 0 (r 0)
    let (rB, w) := encryptBinary w d 0 (r 0)
    (.b2a ⟨rA, rB⟩, w)

/-- A history of requests. -/
def tfpRun [NeZero n] : World P n → List (TupleReq Device) → List (TupleRes n) × World P n
  | w, [] => ([], w)
  | w, q :: qs =>
    let (r, w) := tfpStep w q
    let (rs, w) := tfpRun w qs
    (r :: rs, w)

/-! ## Trusted third party -/

/-- The generators of the clients and the server: `client r cuda` is party `r`'s `generator` / `generator_cuda` (ttp_provider.py:150-157), `server r cuda`
the server's `generators[r]` / `generators_cuda[r]` (ttp_provider.py:258-267). -/
structure TTPWorld (P : Prng) (n : ℕ) where
  client : Fin n → Bool → P.σ
  server : Fin n → Bool → P.σ

/-- `_setup_generators` at the server and the clients (ttp_provider.py:142-157, 250-270): the server draws a seed per party and sends it. -/
def ttpInit (P : Prng) (seeds : Fin n → ℤ) : TTPWorld P n :=
  ⟨fun r _ => P.manualSeed (seeds r), fun r _ => P.manualSeed (seeds r)⟩

/-- `_get_additive_PRSS`, `_get_binary_PRSS` (ttp_provider.py:281-309): a draw from the generator of each rank in the list, combined from the left. The result of an
empty list is Python's `None`. -/
def prss {α : Type} (draw : P.σ → α × P.σ) (comb : α → α → α) : List (Fin n) → (Fin n → P.σ) → Option α → Option α × (Fin n → P.σ)
  | [], g, acc => (acc, g)
  | r :: rs, g, acc =>
    let e := draw (g r)
    prss draw comb rs (Function.update g r e.2) (some (match acc with
      | none => e.1
      | some a => comb a e.1))

/-- Bitwise XOR of tensors. -/
def xorT {k : ℕ} (a b : Fin k → I64) : Fin k → I64 := fun i => a i ^^^ b i

/-- `_get_additive_PRSS(size)` on the generators of one device. -/
def prssA (k : ℕ) (removeRank : Bool) (g : Fin n → P.σ) : Option (Fin k → I64) × (Fin n → P.σ) :=
  prss (generateRandomRingElement P k) (· + ·) (if removeRank then (List.finRange n).tail else List.finRange n) g none

/-- `_get_binary_PRSS(size, bitlength)` on the generators of one device. -/
def prssX (bits k : ℕ) (removeRank : Bool) (g : Fin n → P.σ) : Option (Fin k → I64) × (Fin n → P.σ) :=
  prss (generateKbitRandomTensor P bits k) xorT (if removeRank then (List.finRange n).tail else List.finRange n) g none

/-- The server's generators of one device (`_get_generators`, ttp_provider.py:272-279). -/
def onDevice (g : Fin n → Bool → P.σ) (cuda : Bool) : Fin n → P.σ := fun r => g r cuda

/-- The server's generators with those of one device replaced. -/
def setDevice (g : Fin n → Bool → P.σ) (cuda : Bool) (h : Fin n → P.σ) : Fin n → Bool → P.σ := fun r c => if c = cuda then h r else g r c

/-- `TTPServer.additive` (ttp_provider.py:311-320). `none`: the server died of a `TypeError` (`c - None`). -/
def serverAdditive (g : Fin n → P.σ) {k0 k1 k2 : ℕ} (B : BilinearOp (Fin k0) (Fin k1) (Fin k2)) : Option ((Fin k2 → I64) × (Fin n → P.σ)) := do
  let (a, g) := prssA k0 false g
  let (b, g) := prssA k1 false g
  let c := B.apply (← a) (← b)
  let (m, g) := prssA k2 true g
  pure (c - (← m), g)

/-- `TTPServer.square` (ttp_provider.py:322-326). -/
def serverSquare (g : Fin n → P.σ) (k : ℕ) : Option ((Fin k → I64) × (Fin n → P.σ)) := do
  let (r, g) := prssA k false g
  let r2 := (← r) * (← r)
  let (m, g) := prssA k true g
  pure (r2 - (← m), g)

/-- `TTPServer.binary` (ttp_provider.py:328-337). -/
def serverBinary (g : Fin n → P.σ) {k0 k1 k2 : ℕ} (f : Fin k2 → Fin k0) (h : Fin k2 → Fin k1) : Option ((Fin k2 → I64) × (Fin n → P.σ)) := do
  let (a, g) := prssX 64 k0 false g
  let (b, g) := prssX 64 k1 false g
  let a ← a
  let b ← b
  let c : Fin k2 → I64 := fun i => a (f i) &&& b (h i)
  let (m, g) := prssX 64 k2 true g
  pure (xorT c (← m), g)

/-- `TTPServer.wraps` (ttp_provider.py:339-343). The values `r` come from `self.generators`, the CPU generators, whatever the device of the request. -/
def serverWraps (g : Fin n → Bool → P.σ) (cuda : Bool) (k : ℕ) : Option ((Fin k → I64) × (Fin n → Bool → P.σ)) := do
  let r : Fin n → (Fin k → I64) × P.σ := fun p => generateRandomRingElement P k (g p false)
  let g := setDevice g false fun p => (r p).2
  let theta : Fin k → I64 := fun i => countWraps (List.ofFn fun p => (r p).1 i)
  let (m, h) := prssA k true (onDevice g cuda)
  pure (theta - (← m), setDevice g cuda h)

/-- `TTPServer.B2A` (ttp_provider.py:345-351). -/
def serverB2A (g : Fin n → P.σ) (k : ℕ) : Option ((Fin k → I64) × (Fin n → P.σ)) := do
  let (rB, g) := prssX 1 k false g
  let rB ← rB
  let (m, g) := prssA k true g
  pure (rB - (← m), g)

/-- The last component of a tuple at a client: rank 0 takes the server's answer, the others draw it (ttp_provider.py:33-41 and the same pattern below). -/
def clientLast {α : Type} [NeZero n] (answer : α) (draw : P.σ → α × P.σ) (g : Fin n → P.σ) : (Fin n → α) × (Fin n → P.σ) :=
  (fun p => if p = 0 then answer else (draw (g p)).1, fun p => if p = 0 then g p else (draw (g p)).2)

/-- Every client draws. -/
def clientDraw {α : Type} (draw : P.σ → α × P.σ) (g : Fin n → P.σ) : (Fin n → α) × (Fin n → P.σ) :=
  (fun p => (draw (g p)).1, fun p => (draw (g p)).2)

/-- `TrustedThirdParty` (ttp_provider.py:24-118) at all clients, and the server's loop (ttp_provider.py:226-245) for the one message of rank 0. The flag is true
for requests on a CUDA device. `none`: the server died and rank 0 waits forever. -/
def ttpStep [NeZero n] (w : TTPWorld P n) : TupleReq Bool → Option (TupleRes n × TTPWorld P n)
  | .additive (k0 := k0) (k1 := k1) (k2 := k2) d B => do
    let (a, g) := clientDraw (generateRandomRingElement P k0) (onDevice w.client d)
    let (b, g) := clientDraw (generateRandomRingElement P k1) g
    let (c0, s) ← serverAdditive (onDevice w.server d) B
    let (c, g) := clientLast c0 (generateRandomRingElement P k2) g
    pure (.additive ⟨a, b, c⟩, ⟨setDevice w.client d g, setDevice w.server d s⟩)
  | .square d k => do
    let (r, g) := clientDraw (generateRandomRingElement P k) (onDevice w.client d)
    let (c0, s) ← serverSquare (onDevice w.server d) k
    let (r2, g) := clientLast c0 (generateRandomRingElement P k) g
    pure (.square ⟨r, r2⟩, ⟨setDevice w.client d g, setDevice w.server d s⟩)
  | .binary (k0 := k0) (k1 := k1) (k2 := k2) d f h => do
    let (a, g) := clientDraw (generateKbitRandomTensor P 64 k0) (onDevice w.client d)
    let (b, g) := clientDraw (generateKbitRandomTensor P 64 k1) g
    let (c0, s) ← serverBinary (onDevice w.server d) f h
    let (c, g) := clientLast c0 (generateKbitRandomTensor P 64 k2) g
    pure (.binary a b c, ⟨setDevice w.client d g, setDevice w.server d s⟩)
  | .wraps d k => do
    let (r, g) := clientDraw (generateRandomRingElement P k) (onDevice w.client d)
    let (c0, s) ← serverWraps w.server d k
    let (theta, g) := clientLast c0 (generateRandomRingElement P k) g
    pure (.wraps ⟨r, theta⟩, ⟨setDevice w.client d g, s⟩)
  | .b2a d k => do
    let (rB, g) := clientDraw (generateKbitRandomTensor P 1 k) (onDevice w.client d)
    let (c0, s) ← serverB2A (onDevice w.server d) k
    let (rA, g) := clientLast c0 (generateRandomRingElement P k) g
    pure (.b2a ⟨rA, rB⟩, ⟨setDevice w.client d g, setDevice w.server d s⟩)

/-- A history of requests. -/
def ttpRun [NeZero n] : TTPWorld P n → List (TupleReq Bool) → Option (List (TupleRes n) × TTPWorld P n)
  | w, [] => some ([], w)
  | w, q :: qs => do
    let (r, w) ← ttpStep w q
    let (rs, w) ← ttpRun w qs
    pure (r :: rs, w)

end CrypTen
