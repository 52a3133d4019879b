import Verif.Model.Pool

/-! What max-pooling should return: the maximum over the real entries of each window, with torch's conventions. -/

namespace CrypTen
variable {n : ℕ}

/-- Entry `(r, c)` of the input is under kernel element `(a, b)` of window `(i, j)`; `padding` is (height, width). -/
def PoolGeo.Covers (g : PoolGeo) (i j a b r c : ℕ) : Prop := r + g.p0 = i * g.s0 + a * g.d0 ∧ c + g.p1 = j * g.s1 + b * g.d1

/-- The real entries of a window. -/
def realWindow (g : PoolGeo) {P H W : ℕ} (v : Fin P × Fin H × Fin W → ℚ) (plane : Fin P) (i j : ℕ) : Set ℚ :=
  {q | ∃ a < g.k0, ∃ b < g.k1, ∃ (r : Fin H) (c : Fin W), g.Covers i j a b r c ∧ q = v (plane, r, c)}

/-- Some element of the window is padding. -/
def touchesPadding (g : PoolGeo) (H W : ℕ) (i j : ℕ) : Prop := ∃ a < g.k0, ∃ b < g.k1, ¬∃ (r : Fin H) (c : Fin W), g.Covers i j a b r c

/-- Positive sizes. -/
structure PoolGeo.Ok (g : PoolGeo) : Prop where
  k0 : 0 < g.k0
  k1 : 0 < g.k1
  s0 : 0 < g.s0
  s1 : 0 < g.s1

end CrypTen
