import Verif.Model.NnModule
import Mathlib.Data.List.Perm.Basic

/-!
# Specification: the state of a model
-/

namespace CrypTen.Nn

/-- A torch tensor becomes a CrypTensor of the same value; anything else stays. -/
def Val.toEnc : Val → Val
  | .plain t => .enc t
  | v => v

/-- A CrypTensor becomes a torch tensor of the same value; anything else stays. -/
def Val.toPlain : Val → Val
  | .enc t => .plain t
  | v => v

mutual
/-- The same tree with all flags set to `flag` and `f` applied to every parameter and buffer. -/
def Mod.mapTree (flag : Bool) (f : Val → Val) : Mod → Mod
  | .mk _ ps bs cs => .mk flag (ps.map fun p => (p.1, f p.2)) (bs.map fun p => (p.1, f p.2)) (mapChildren flag f cs)
/-- The same for a list of children. -/
def mapChildren (flag : Bool) (f : Val → Val) : List (String × Mod) → List (String × Mod)
  | [] => []
  | (k, m) :: cs => (k, m.mapTree flag f) :: mapChildren flag f cs
end

mutual
/-- `P flag parameters buffers` holds for every module of the tree. -/
def Mod.Every (P : Bool → List (String × Val) → List (String × Val) → Prop) : Mod → Prop
  | .mk e ps bs cs => P e ps bs ∧ EveryChild P cs
/-- The same for a list of children. -/
def EveryChild (P : Bool → List (String × Val) → List (String × Val) → Prop) : List (String × Mod) → Prop
  | [] => True
  | (_, m) :: cs => m.Every P ∧ EveryChild P cs
end

/-- The flag of every module says what its state is: all parameters and tensor buffers are encrypted, or none is. Modules within one tree may have different flags. -/
def Mod.Consistent (m : Mod) : Prop := m.Every fun e ps bs =>
  if e then (∀ p ∈ ps, ∃ t, p.2 = .enc t) ∧ (∀ b ∈ bs, ∀ t, b.2 ≠ .plain t) else (∀ p ∈ ps, ∃ t, p.2 = .plain t) ∧ (∀ b ∈ bs, ∀ t, b.2 ≠ .enc t)

/-- Nothing in the tree is a torch tensor: what a user expects after `encrypt()`. -/
def Mod.AllEncrypted (m : Mod) : Prop := m.Every fun _ ps bs => (∀ p ∈ ps, ∀ t, p.2 ≠ .plain t) ∧ (∀ b ∈ bs, ∀ t, b.2 ≠ .plain t)

/-- The encrypted values among some parameters or buffers. -/
def encs (l : List (String × Val)) : List Tensor := l.filterMap fun p => match p.2 with | .enc t => some t | _ => none

mutual
/-- All encrypted tensors of a tree. -/
def Mod.secrets : Mod → List Tensor
  | .mk _ ps bs cs => encs ps ++ encs bs ++ secretsChildren cs
/-- The same for a list of children. -/
def secretsChildren : List (String × Mod) → List Tensor
  | [] => []
  | (_, m) :: cs => m.secrets ++ secretsChildren cs
end

mutual
/-- Height of the tree (for the bound on the recursion depth). -/
def Mod.height : Mod → ℕ
  | .mk _ _ _ cs => heightChildren cs + 1
/-- The same for a list of children. -/
def heightChildren : List (String × Mod) → ℕ
  | [] => 0
  | (_, m) :: cs => max m.height (heightChildren cs)
end

/-- The parameter at a path of names. -/
inductive Mod.HasParam : Mod → List String → Val → Prop where
  | own {e ps bs cs k v} : (k, v) ∈ ps → HasParam (.mk e ps bs cs) [k] v
  | child {e ps bs cs k m path v} : (k, m) ∈ cs → HasParam m path v → HasParam (.mk e ps bs cs) (k :: path) v

/-- The buffer at a path of names. -/
inductive Mod.HasBuffer : Mod → List String → Val → Prop where
  | own {e ps bs cs k v} : (k, v) ∈ bs → HasBuffer (.mk e ps bs cs) [k] v
  | child {e ps bs cs k m path v} : (k, m) ∈ cs → HasBuffer m path v → HasBuffer (.mk e ps bs cs) (k :: path) v

/-- Names joined with dots. -/
def joinPath : List String → String
  | [] => ""
  | [k] => k
  | k :: l => k ++ "." ++ joinPath l

/-- Two values can be copied into each other: both torch tensors or both CrypTensors, of one shape. -/
def SameKind : Val → Val → Prop
  | .plain a, .plain b => a.shape = b.shape
  | .enc a, .enc b => a.shape = b.shape
  | _, _ => False

mutual
/-- Two models of the same architecture: same names, shapes and kinds of the parameters. Flags and buffers may differ. -/
def Mod.Matches : Mod → Mod → Prop
  | .mk _ ps _ cs, .mk _ ps' _ cs' => List.Forall₂ (fun p q => p.1 = q.1 ∧ SameKind p.2 q.2) ps ps' ∧ MatchesChildren cs cs'
/-- The same for lists of children. -/
def MatchesChildren : List (String × Mod) → List (String × Mod) → Prop
  | [], [] => True
  | (k, m) :: cs, (k', m') :: cs' => k = k' ∧ m.Matches m' ∧ MatchesChildren cs cs'
  | _, _ => False
end

mutual
/-- The first model with the parameters of the second. -/
def Mod.withParams : Mod → Mod → Mod
  | .mk e _ bs cs, .mk _ ps' _ cs' => .mk e ps' bs (withParamsChildren cs cs')
/-- The same for lists of children. -/
def withParamsChildren : List (String × Mod) → List (String × Mod) → List (String × Mod)
  | (k, m) :: cs, (_, m') :: cs' => (k, m.withParams m') :: withParamsChildren cs cs'
  | cs, _ => cs
end

end CrypTen.Nn
