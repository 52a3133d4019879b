import Verif.Model.Moving
import Mathlib.Algebra.BigOperators.Fin

/-!
# What belongs to a model, and what its tensors hold
-/

namespace CrypTen.Moving
variable {n : ℕ}

/-- `Part h m c`: the module `c` is `m`, or a submodule at any depth. -/
inductive Part (h : Heap n) : ℕ → ℕ → Prop where
  | self (m : ℕ) : Part h m m
  | sub {m c d : ℕ} (name : String) (hc : (name, c) ∈ (h.mods m).children) (hd : Part h c d) : Part h m d

/-- Submodules do not contain each other in a circle: `rank` gives the depth. -/
def Acyclic (h : Heap n) (rank : ℕ → ℕ) : Prop := ∀ m name c, (name, c) ∈ (h.mods m).children → rank c < rank m

/-- The parameter (or buffer) called `name` in the module `c`. -/
def named (h : Heap n) (c : ℕ) (buffer : Bool) (name : String) : Option ℕ := (((h.mods c).slots buffer).find? fun q => q.1 = name).map Prod.snd

/-- The same numbers of the same type; encrypted tensors: every party holds the same word, and the scale is the same. -/
def Kind.Same : Kind n → Kind n → Prop
  | .torch d, .torch d' => d'.value = d.value ∧ d'.dtype = d.dtype
  | .shared s c, .shared s' c' => (∀ p, (s' p).data.value = (s p).data.value ∧ (s' p).data.dtype = (s p).data.dtype) ∧ c' = c
  | _, _ => False

/-- All parts of the tensor are on the device; shares are in a `CUDALongTensor` exactly on a GPU. -/
def Kind.On (device : ℕ) : Kind n → Prop
  | .torch d => d.device = device
  | .shared s _ => ∀ p, (s p).data.device = device ∧ ((s p).wrapped = true ↔ device ≠ 0)

/-- Encrypted. -/
def Kind.Secret : Kind n → Prop
  | .torch _ => False
  | .shared _ _ => True

/-- Shares are integers, of the integer type. -/
def Kind.Words : Kind n → Prop
  | .torch _ => True
  | .shared s _ => ∀ p, (s p).data.dtype = .int64 ∧ ∃ z : ℤ, (s p).data.value = z

/-- All numbers in use are below `next`, a module has one parameter and one buffer of each name, shares are integers, and torch tensors of integers have no gradient. -/
structure Valid (h : Heap n) : Prop where
  allocated : ∀ m b, ∀ q ∈ (h.mods m).slots b, q.2 < h.next
  names : ∀ m b, (((h.mods m).slots b).map Prod.fst).Nodup
  words : ∀ r, (h.tens r).kind.Words
  floats : ∀ r d, (h.tens r).kind = .torch d → (h.tens r).requiresGrad = true → d.dtype.isFloat = true

end CrypTen.Moving
