import Verif.Model.SplitSession

/-!
# Specification: split training with agreeing sizes
-/

namespace CrypTen.SplitSession

/-- Every forward pass has predictions of the size `size` and inputs of the last layer of the size `lastIn`. -/
def SameSizes (size lastIn : Size) (cs : List Call) : Prop :=
  ∀ c ∈ cs, ∀ b s l, c = .forward b s l → s = size ∧ l = lastIn

/-- No backward pass before the first forward pass in training mode.  `training`: the mode; `seen`: there was one. -/
def Ready : (training seen : Bool) → List Call → Prop
  | _, _, [] => True
  | t, h, .forward _ _ _ :: cs => Ready t (h || t) cs
  | t, h, .backward :: cs => h = true ∧ Ready t h cs
  | _, h, .train mode :: cs => Ready mode h cs

/-- The mode after the calls. -/
def modeAfter : Bool → List Call → Bool
  | t, [] => t
  | t, .forward _ _ _ :: cs => modeAfter t cs
  | t, .backward :: cs => modeAfter t cs
  | _, .train mode :: cs => modeAfter mode cs

/-- Every call is a forward pass without caching, of any size, or a change of the mode. -/
def OnlyForward (cs : List Call) : Prop := ∀ c ∈ cs, (∃ s l, c = .forward false s l) ∨ ∃ m, c = .train m

/-- All parties assume the same sizes and have the same mode. -/
def Agree {k : ℕ} (s : Session k) : Prop :=
  ∀ i, (s.others i).preds = s.feature.preds ∧ (s.others i).training = s.feature.training ∧
    (s.others i).cache = s.feature.cache

end CrypTen.SplitSession
