import Verif.Model.Serial

/-!
# What may be resolved, and what may be revealed
-/

namespace CrypTen.Serial

/-- The object is on the fixed list under this name, is the restricted storage loader, or is a class registered before under this qualified name. -/
def Permitted (history : List (ℕ × String)) (name : String) (o : Obj) : Prop :=
  (name ∈ allowlist ∧ o = .allowed name) ∨ (name = loadFromBytesName ∧ o = .safeLoadFromBytes) ∨ ∃ id, (id, name) ∈ history ∧ o = .user id name

/-- The two tensors have the same shape and the same number of entries. -/
def SameShape (a b : Tensor) : Prop := a.shape = b.shape ∧ a.entries.length = b.entries.length

mutual
/-- The two modules have the same structure: classes, names, and shapes of parameters and buffers. `buf` says what is required of the buffers' contents. -/
def SameStructure (buf : Tensor → Tensor → Prop) : Module → Module → Prop
  | .mk cls ps bs cs, .mk cls' ps' bs' cs' =>
    cls = cls' ∧ List.Forall₂ (fun p q => p.1 = q.1 ∧ SameShape p.2 q.2) ps ps' ∧ List.Forall₂ (fun p q => p.1 = q.1 ∧ buf p.2 q.2) bs bs' ∧ SameChildren buf cs cs'
/-- The same for children. -/
def SameChildren (buf : Tensor → Tensor → Prop) : List (String × Module) → List (String × Module) → Prop
  | [], [] => True
  | (n, m) :: cs, (n', m') :: cs' => n = n' ∧ SameStructure buf m m' ∧ SameChildren buf cs cs'
  | _, _ => False
end

end CrypTen.Serial
