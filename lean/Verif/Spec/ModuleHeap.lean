import Verif.Model.ModuleHeap

/-!
# What belongs to a model
-/

namespace CrypTen.ModuleHeap

/-- `Part h m c`: the module `c` is `m`, or a submodule at any depth. -/
inductive Part (h : Heap) : ℕ → ℕ → Prop where
  | self (m : ℕ) : Part h m m
  | sub {m c d : ℕ} (name : String) (hc : (name, c) ∈ (h.mods m).children) (hd : Part h c d) : Part h m d

/-- Submodules do not contain each other in a circle: `rank` gives the depth. -/
def Acyclic (h : Heap) (rank : ℕ → ℕ) : Prop := ∀ m name c, (name, c) ∈ (h.mods m).children → rank c < rank m

/-- The tensor called `name` in the module `c`. -/
def named (h : Heap) (c : ℕ) (name : String) : Option ℕ := ((h.mods c).params.find? fun q => q.1 = name).map Prod.snd

/-- All numbers in use are below `next`, and a module has one parameter of each name. -/
structure Valid (h : Heap) : Prop where
  allocated : ∀ m, ∀ q ∈ (h.mods m).params, q.2 < h.next
  names : ∀ m, ((h.mods m).params.map Prod.fst).Nodup

end CrypTen.ModuleHeap
