import Verif.Model.Registry

/-!
# What a history of registrations means

Stated on the history itself.
-/

namespace CrypTen.Registry

/-- Call number `i` is a registration of `c` under `name` that counts: the class extends `CrypTensor`, and neither `import crypten` nor an earlier call of the history has taken the name. -/
def Registers (h : List Call) (i : ℕ) (name : String) (c : Cls) : Prop :=
  h[i]? = some (.register name c) ∧ "CrypTensor" ∈ c.mro ∧ name ≠ "mpc" ∧ ∀ j < i, ∀ d, h[j]? = some (.register name d) → "CrypTensor" ∉ d.mro

/-- After the history the name stands for the class. -/
def Means (h : List Call) (name : String) (c : Cls) : Prop := (name = "mpc" ∧ c = mpcCls) ∨ ∃ i, Registers h i name c

/-- The name was known before call `i`. -/
def KnownAt (h : List Call) (i : ℕ) (name : String) : Prop := ∃ c, Means (h.take i) name c

/-- `name` is the default after the history: the last successful change, or "mpc". -/
def IsDefault (h : List Call) (name : String) : Prop :=
  (∃ i, h[i]? = some (.setDefault name) ∧ KnownAt h i name ∧ ∀ j, i < j → ∀ m, h[j]? = some (.setDefault m) → ¬KnownAt h j m)
    ∨ (name = "mpc" ∧ ∀ j m, h[j]? = some (.setDefault m) → ¬KnownAt h j m)

/-- The type `m` was registered before the type `n` ("mpc" comes first). -/
def Before (h : List Call) (m n : String) : Prop :=
  (m = "mpc" ∧ n ≠ "mpc") ∨ ∃ i j, i < j ∧ (∃ c, Registers h i m c) ∧ ∃ d, Registers h j n d

end CrypTen.Registry
