import Verif.Model.Copies

/-!
What copies and in-place writes mean for tensors in the clear, as torch has it: tensors refer to places that hold numbers, and nothing else. There are no kinds of shares, scales or encoders here.
-/

namespace CrypTen.Copies
variable {n : ℕ}

/-- Places with numbers, and tensors: the places of their entries, in order. -/
structure Plain where
  value : ℕ → ℚ
  next : ℕ
  tensor : ℕ → List ℕ
  count : ℕ

/-- The numbers in a tensor. -/
def Plain.get (r : Plain) (o : ℕ) : List ℚ := (r.tensor o).map r.value

/-- A tensor on the given places. -/
def Plain.alias (r : Plain) (places : List ℕ) : Plain := { r with tensor := fun o => if o = r.count then places else r.tensor o, count := r.count + 1 }

/-- A tensor with places of its own. -/
def Plain.fresh (r : Plain) (values : List ℚ) : Plain :=
  { r with value := fun c => if c < r.next then r.value c else values.getD (c - r.next) 0, next := r.next + values.length }.alias ((List.range values.length).map (r.next + ·))

/-- Assignment to places. -/
def Plain.assign (r : Plain) (places : List ℕ) (values : List ℚ) : Plain :=
  { r with value := fun c => match position places c with
      | some i => values.getD i 0
      | none => r.value c }

/-- What the operations mean. A conversion gives a tensor with the same numbers and places of its own. `default` is the precision used where none is given. -/
def Plain.step (default : ℕ) (r : Plain) : Op n → Plain
  | .new kind words scale => r.fresh (words.map (decode kind scale))
  | .fromShares kind words precision => r.fresh (words.map (decode kind (2 ^ precision.getD default)))
  | .view x positions => r.alias (pickAt (r.tensor x) positions)
  | .clone x => r.fresh (r.get x)
  | .shallow x => r.alias (r.tensor x)
  | .toPtype x _ _ _ _ _ => r.fresh (r.get x)
  | .copy x y positions => r.assign (r.tensor x) (pickAt (r.get y) positions)
  | .setItem x into y positions => r.assign (pickAt (r.tensor x) into) (pickAt (r.get y) positions)

/-- A program. -/
def Plain.run (default : ℕ) (r : Plain) : List (Op n) → Plain
  | [] => r
  | op :: ops => (r.step default op).run default ops

/-- No tensors. -/
def Plain.empty : Plain := { value := fun _ => 0, next := 0, tensor := fun _ => [], count := 0 }

/-- The two programs agree: as many tensors, and every encrypted tensor decrypts to the numbers of its counterpart. -/
def Agree (h : Heap n) (r : Plain) : Prop := h.count = r.count ∧ ∀ o, o < h.count → h.plain o = r.get o

/-- The tensor `o` looks at one of the given places. -/
def Heap.LooksAt (h : Heap n) (o : ℕ) (places : List ℕ) : Prop := ∃ c ∈ (h.tensor o).view, c ∈ places

/-- The operations a user may rely on:
* operands exist and positions are in range;
* `copy_` between tensors of the same private type, and every tensor that looks at the same places through another view has the precision of the source;
* `__setitem__` with a value of the same private type and precision, which is that of every tensor that looks at the places written;
* a conversion to arithmetic shares uses all 64 bits, its precision is not lower than that of the tensor, and the numbers fit 64 bits at that precision. -/
def Op.Fine (default : ℕ) (h : Heap n) : Op n → Prop
  | .new _ _ _ | .fromShares _ _ _ => True
  | .clone x | .shallow x => x < h.count
  | .view x positions => x < h.count ∧ ∀ i ∈ positions, i < (h.tensor x).view.length
  | .toPtype x kind precision bits T _ => x < h.count ∧ T.Valid ∧
      (kind = .arithmetic → (h.obj x).ptype = .binary → bits.getD 64 = 64 ∧ 0 < (h.tensor x).scale ∧ (h.tensor x).scale ∣ 2 ^ precision.getD default ∧
        ∀ v ∈ h.plain x, -2 ^ 63 ≤ v * 2 ^ precision.getD default ∧ v * 2 ^ precision.getD default < 2 ^ 63)
  | .copy x y positions => x < h.count ∧ y < h.count ∧ positions.length = (h.tensor x).view.length ∧ (∀ i ∈ positions, i < (h.tensor y).view.length) ∧
      (h.obj x).ptype = (h.obj y).ptype ∧
      ∀ o, o < h.count → h.LooksAt o (h.tensor x).view → (h.obj o).prim ≠ (h.obj x).prim → (h.tensor o).scale = (h.tensor y).scale
  | .setItem x into y positions => x < h.count ∧ y < h.count ∧ positions.length = into.length ∧ (∀ i ∈ positions, i < (h.tensor y).view.length) ∧ (∀ i ∈ into, i < (h.tensor x).view.length) ∧
      (h.obj x).ptype = (h.obj y).ptype ∧
      ∀ o, o < h.count → h.LooksAt o (pickAt (h.tensor x).view into) → (h.tensor o).scale = (h.tensor y).scale

/-- Every operation of the program is fine when its turn comes. -/
def AllFine [NeZero n] (default : ℕ) (h : Heap n) : List (Op n) → Prop
  | [] => True
  | op :: ops => op.Fine default h ∧ ∀ h' o, step default h op = some (h', o) → AllFine default h' ops

end CrypTen.Copies
