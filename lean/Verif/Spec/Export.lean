import Verif.Model.Export

/-!
# Specification: what a converted model should be
-/

namespace CrypTen.Export

/-- The value a parameter should have after a history, starting from `v`: updates apply, encryption rounds it; what is done
to PyTorch models does not matter.  The flag says whether the model is encrypted. -/
def expected {α : Type} (round : α → α) (name : String) : Bool × α → List (Event α) → Bool × α
  | s, [] => s
  | (e, v), .encrypt :: es => expected round name (true, if e then v else round v) es
  | (_, v), .decrypt :: es => expected round name (false, v) es
  | (e, v), .update n f :: es => expected round name (e, if n = name then f v else v) es
  | s, .train _ :: es => expected round name s es
  | s, .changeOriginal _ _ :: es => expected round name s es
  | s, .changeExported _ _ :: es => expected round name s es
  | s, .export :: es => expected round name s es

/-- Whether the model is encrypted after a history. -/
def isEncrypted {α : Type} : Bool → List (Event α) → Bool
  | e, [] => e
  | _, .encrypt :: es => isEncrypted true es
  | _, .decrypt :: es => isEncrypted false es
  | e, .train _ :: es => isEncrypted e es
  | e, .update _ _ :: es => isEncrypted e es
  | e, .changeOriginal _ _ :: es => isEncrypted e es
  | e, .changeExported _ _ :: es => isEncrypted e es
  | e, .export :: es => isEncrypted e es

/-- Training or evaluation mode after a history: the last call of `train` or `eval` counts, the mode at the start if there is none. -/
def modeAfter {α : Type} (start : Bool) (es : List (Event α)) : Bool :=
  ((es.filterMap fun e => match e with
    | .train mode => some mode
    | _ => none).getLast?).getD start

/-- The caller does not change the exported model in place. -/
def LeftAlone {α : Type} (es : List (Event α)) : Prop := ∀ n f, Event.changeExported n f ∉ es

/-- The caller does not change the model that was converted. -/
def OriginalLeftAlone {α : Type} (es : List (Event α)) : Prop := ∀ n f, Event.changeOriginal n f ∉ es

/-- The exporter wrote an initializer with the right value for every parameter of the model, and the names are distinct. -/
structure Exported {α : Type} (store : ℕ → α) (m : Torch) (initializers : List (String × α)) : Prop where
  /-- names of initializers are distinct (`Graph.add_module` refuses others) -/
  nodup : (initializers.map Prod.fst).Nodup
  /-- every parameter is there, with its value -/
  all : ∀ p ∈ m.params, initializers.lookup p.1 = some (store p.2)

/-- All tensors of the model are in allocated memory. -/
def Allocated (next : ℕ) (m : Torch) : Prop := (∀ p ∈ m.params, p.2 < next) ∧ ∀ p ∈ m.buffers, p.2 < next

end CrypTen.Export
