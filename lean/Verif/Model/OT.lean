import Mathlib.Data.Nat.Notation
import Mathlib.Data.List.Basic

/-!
# Base oblivious transfer

Models `BaseOT.send` and `BaseOT.receive` (/repo/crypten/mpc/primitives/ot/baseOT.py). Strings are lists of code points. The hash (`sha256(str(x)).hexdigest()`) is an arbitrary function of the number; that it has
64 characters is a hypothesis of the theorems. The exponents are inputs. The two programs are run message by message; since each side sends and receives in a fixed order over first-in-first-out channels, the
values do not depend on the schedule.
-/

namespace CrypTen.OT

/-- `__prime` (baseOT.py:29). -/
def prime : ℕ := 631276824160446938136046282957027762913

/-- `__generator` (baseOT.py:30). -/
def generator : ℕ := 3

/-- `pow(b, e, __prime)` -/
def powp (b e : ℕ) : ℕ := b ^ e % prime

/-- `__inverse__generator` (baseOT.py:31). -/
def inverseGenerator : ℕ := powp generator (prime - 2)

/-- `string_xor` (baseOT.py:33-38): `zip` stops at the shorter string. -/
def stringXor (s t : List ℕ) : List ℕ := List.zipWith (· ^^^ ·) s t

/-- The sender's first message, `g^alpha` (baseOT.py:53-60). -/
def senderMask (alpha : ℕ) : ℕ := powp generator alpha

/-- The receiver's message (baseOT.py:112-129): `g^beta`, times the sender's message if the choice is 1. -/
def receiverMask (beta : ℕ) (choice : Bool) (maskForMessage1 : ℕ) : ℕ :=
  let mask := powp generator beta
  if choice then mask * maskForMessage1 % prime else mask

/-- The group elements from which the pads of the two messages are hashed (baseOT.py:66-91). -/
def padElements (alpha maskForChoice : ℕ) : ℕ × ℕ :=
  let divider := powp inverseGenerator (alpha * alpha % (prime - 1))
  let m := powp maskForChoice alpha
  (m, m * divider % prime)

/-- The two encrypted messages (baseOT.py:84-99); raises (a `TypeError`, since it raises a string) if a message is longer than its pad. -/
def encryptPair (hash : ℕ → List ℕ) (alpha maskForChoice : ℕ) (m0 m1 : List ℕ) : Option (List ℕ × List ℕ) :=
  let pads := padElements alpha maskForChoice
  if (hash pads.1).length < m0.length then none
  else if (hash pads.2).length < m1.length then none
  else some (stringXor (hash pads.1) m0, stringXor (hash pads.2) m1)

/-- The element from which the receiver's key is hashed (baseOT.py:135-141). -/
def keyElement (beta maskForMessage1 : ℕ) : ℕ := powp maskForMessage1 beta

/-- What the receiver outputs for one pair (baseOT.py:145-153). -/
def decryptPair (hash : ℕ → List ℕ) (beta maskForMessage1 : ℕ) (choice : Bool) (enc : List ℕ × List ℕ) : List ℕ :=
  let key := hash (keyElement beta maskForMessage1)
  if choice then stringXor key enc.2 else stringXor key enc.1

/-- One transfer: an entry of the two lists of messages, the choice and the two exponents. -/
structure Transfer where
  m0 : List ℕ
  m1 : List ℕ
  choice : Bool
  alpha : ℕ
  beta : ℕ

/-- Entry `i` of the loops of `send` and `receive`. -/
def transferOne (hash : ℕ → List ℕ) (t : Transfer) : Option (List ℕ) := do
  let maskForMessage1 := senderMask t.alpha
  let maskForChoice := receiverMask t.beta t.choice maskForMessage1
  let enc ← encryptPair hash t.alpha maskForChoice t.m0 t.m1
  pure (decryptPair hash t.beta maskForMessage1 t.choice enc)

/-- `send` at one party and `receive` at the other (baseOT.py:44-154): the list the receiver returns; `none` if the sender raises at some message. -/
def transfer (hash : ℕ → List ℕ) (ts : List Transfer) : Option (List (List ℕ)) := ts.mapM (transferOne hash)

end CrypTen.OT
