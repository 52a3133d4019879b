import Verif.Model.Attr

/-!
# One meaning per name, Python lists

What users expect of attributes of modules: every name has at most one meaning. What they expect of `ModuleList`: it behaves as a Python list.
-/

namespace CrypTen.Attr.Spec

/-- What a name stands for. -/
inductive Slot where
  | attr (v : Val)
  | parameter (v : Val)
  | buffer (v : Val)
  | module (v : Val)
deriving DecidableEq

/-- The value. -/
def Slot.value : Slot → Val
  | .attr v | .parameter v | .buffer v | .module v => v

/-- The names of a module. -/
abbrev Names := String → Option Slot

/-- The names of a new module. -/
def start : Names := fun name => if name = "encrypted" then some (.attr (.plain 0)) else if name = "training" then some (.attr (.plain 1)) else none

/-- Modules become submodules under any name; other values are stored as `kind`. -/
def store (kind : Val → Slot) : Val → Slot
  | .module i => .module (.module i)
  | v => kind v

/-- What a call means. -/
def call (cls : String → Bool) (s : Names) : Call → Names × Option Err
  | .set name v =>
    match s name, v with
    | _, .module i => (Function.update s name (some (.module (.module i))), none)
    | some (.module _), .none => (Function.update s name (some (.module .none)), none)
    | some (.module _), .plain _ => (s, some .typeError)
    | some (.parameter _), v => (Function.update s name (some (.parameter v)), none)
    | some (.buffer _), v => (Function.update s name (some (.buffer v)), none)
    | _, v => (Function.update s name (some (.attr v)), none)
  | .del name =>
    match s name with
    | some (.attr _) => (Function.update s name none, none)
    | _ => (s, some .attributeError)
  | .registerParameter name v =>
    if s name ≠ none ∨ cls name then (s, some .valueError)
    else if v = .none then (s, some .attributeError)
    else (Function.update s name (some (store .parameter v)), none)
  | .setParameter name v =>
    match s name with
    | some (.parameter _) => (Function.update s name (some (store .parameter v)), none)
    | _ => (s, some .valueError)
  | .registerBuffer name v =>
    if s name ≠ none ∨ cls name then (s, some .valueError)
    else if v = .none then (s, some .attributeError)
    else (Function.update s name (some (store .buffer v)), none)
  | .setBuffer name v =>
    match s name with
    | some (.buffer _) => (Function.update s name (some (store .buffer v)), none)
    | _ => (s, some .valueError)
  | .registerModule name v => (Function.update s name (some (.module v)), none)
  | .addModule name v =>
    match s name with
    | some (.module _) => (s, some .assertionError)
    | _ => (Function.update s name (some (.module v)), none)

/-- What a history of calls means. -/
def calls (cls : String → Bool) : Names → List Call → Names × List (Option Err)
  | s, [] => (s, [])
  | s, c :: cs => ((calls cls (call cls s c).1 cs).1, (call cls s c).2 :: (calls cls (call cls s c).1 cs).2)

/-- `register_module` and `add_module` are not used with the name of a parameter, a buffer or another attribute. -/
def Free (s : Names) : Call → Prop
  | .registerModule name _ | .addModule name _ => ∀ x, s name = some x → ∃ v, x = .module v
  | _ => True

/-- This is so in a whole history. -/
def Proper (cls : String → Bool) : Names → List Call → Prop
  | _, [] => True
  | s, c :: cs => Free s c ∧ Proper cls (call cls s c).1 cs

/-! ### Python lists -/

/-- Positions of a Python list: negative ones count from the end. -/
def position (len : ℕ) (idx : ℤ) : Option ℕ :=
  if 0 ≤ idx ∧ idx < len then some idx.toNat
  else if idx < 0 ∧ -(len : ℤ) ≤ idx then some (len + idx).toNat
  else none

/-- The calls on a Python list whose entries are modules or `None`. -/
def listCall (l : List Val) : ListCall → List Val × Option Err
  | .append m => (l ++ [m], none)
  | .extend ms => (l ++ ms, none)
  | .set idx m =>
    match position l.length idx, m with
    | none, _ => (l, some .indexError)
    | some _, .plain _ => (l, some .typeError)
    | some i, m => (l.set i m, none)
  | .insert index m => if index ≤ l.length then (l.insertIdx index m, none) else (l, some .indexError)
  | .del idx =>
    match position l.length idx with
    | none => (l, some .indexError)
    | some i => (l.eraseIdx i, none)
  | .delSlice start stop step => ((l.zipIdx.filter fun x => ¬(start ≤ x.2 ∧ x.2 < stop ∧ (x.2 - start) % step = 0)).map Prod.fst, none)

/-- A history of calls on a Python list. -/
def listCalls : List Val → List ListCall → List Val × List (Option Err)
  | l, [] => (l, [])
  | l, c :: cs => ((listCalls (listCall l c).1 cs).1, (listCall l c).2 :: (listCalls (listCall l c).1 cs).2)

end CrypTen.Attr.Spec
