import Verif.Spec.Pool
import Verif.Props.Maximum

/-! # C48: max-pooling -/

namespace CrypTen
variable {n : ℕ}
set_option linter.unusedSectionVars false

/-- **C48 (output size).** Without `ceil_mode` the output counts exactly the windows that fit into the padded input. -/
theorem C48_shape_floor (size k padl padr s d : ℕ) (hs : 0 < s) (hk : 0 < k) (i : ℕ) :
    i < (poolOutShape size k padl padr s d false).toNat ↔ i * s + d * (k - 1) + 1 ≤ size + padl + padr := by
  unfold poolOutShape
  simp only [Bool.false_and, Bool.false_eq_true, if_false]
  rw [Int.lt_toNat, Int.lt_add_one_iff, Int.le_ediv_iff_mul_le (by exact_mod_cast hs)]
  obtain ⟨k, rfl⟩ := Nat.exists_eq_succ_of_ne_zero hk.ne'
  rw [Nat.succ_eq_add_one, Nat.add_sub_cancel]
  push_cast
  rw [show (k : ℤ) + 1 - 1 = k by ring]
  have e1 : ((i * s : ℕ) : ℤ) = i * s := by push_cast; ring
  have e2 : ((d * k : ℕ) : ℤ) = d * k := by push_cast; ring
  rw [← e1, ← e2]
  omega

/-- **C48 (output size).** With `ceil_mode`, a window counts if it starts inside the image or its left padding and the one before it does not reach the end of the padded input. -/
theorem C48_shape_ceil (size k padl padr s d : ℕ) (hs : 0 < s) (hk : 0 < k) (hfit : d * (k - 1) + 1 ≤ size + padl + padr) (hp : padr ≤ d * (k - 1) + 1) (hin : 0 < size + padl) (i : ℕ) :
    i < (poolOutShape size k padl padr s d true).toNat ↔ i * s < size + padl ∧ (i = 0 ∨ (i - 1) * s + d * (k - 1) + 1 < size + padl + padr) := by
  obtain ⟨k, rfl⟩ := Nat.exists_eq_succ_of_ne_zero hk.ne'
  rw [Nat.succ_eq_add_one, Nat.add_sub_cancel] at *
  unfold poolOutShape
  simp only [Bool.true_and, if_true]
  push_cast
  rw [show (k : ℤ) + 1 - 1 = k by ring]
  have e2 : ((d * k : ℕ) : ℤ) = d * k := by push_cast; ring
  rw [← e2]
  generalize d * k = m at *
  obtain ⟨N, hN⟩ : ∃ N : ℕ, size + padl + padr = m + 1 + N := ⟨size + padl + padr - (m + 1), by omega⟩
  have hn : (size : ℤ) + padl + padr - m - 1 + (s - 1) = ((N + (s - 1) : ℕ) : ℤ) := by omega
  rw [hn, ← Int.natCast_ediv]
  have hq : ∀ q : ℕ, q ≤ (N + (s - 1)) / s ↔ (q = 0 ∨ (q - 1) * s < N) := by
    intro q
    rw [Nat.le_div_iff_mul_le hs]
    rcases q with _ | q
    · simp
    · rw [Nat.add_sub_cancel, Nat.succ_mul]; omega
  generalize (N + (s - 1)) / s = Q at *
  have hQ := (hq Q).1 le_rfl
  have hQ1 := mt (hq (Q + 1)).2 (by omega)
  push Not at hQ1
  simp only [Nat.add_sub_cancel] at hQ1
  have hmul : ((Q : ℤ) + 1 - 1) * s = ((Q * s : ℕ) : ℤ) := by push_cast; ring
  rw [hmul]
  have hi : (i - 1) * s + m + 1 < size + padl + padr ↔ (i - 1) * s < N := by omega
  rw [hi, ← hq i, show (size : ℤ) + padl = ((size + padl : ℕ) : ℤ) by push_cast; ring]
  have hmono : ∀ a b : ℕ, a ≤ b → a * s ≤ b * s := fun a b h => Nat.mul_le_mul_right s h
  by_cases hc : size + padl ≤ Q * s
  · rw [if_pos (by simpa using Int.ofNat_le.2 hc)]
    rw [show ((Q : ℤ) + 1 - 1).toNat = Q by omega]
    constructor
    · intro hlt
      refine ⟨?_, hlt.le⟩
      rcases hQ with h0 | h0
      · omega
      · have := hmono i (Q - 1) (by omega)
        omega
    · rintro ⟨h1, h2⟩
      by_contra hge
      have := hmono Q i (by omega)
      omega
  · rw [if_neg (by simp only [decide_eq_true_eq, ge_iff_le, not_le]; exact_mod_cast not_le.1 hc)]
    rw [show ((Q : ℤ) + 1).toNat = Q + 1 by omega]
    constructor
    · intro hlt
      have := hmono i Q (by omega)
      exact ⟨by omega, by omega⟩
    · rintro ⟨_, h2⟩; omega

/-- Same padding on both axes, as torch reads it: the windows lie in the padded input. -/
theorem pool_rows (g : PoolGeo) (hok : g.Ok) {H i a : ℕ} (hp : g.p0 = g.p1) (hi : i < g.h H) (ha : a < g.k0) : i * g.s0 + a * g.d0 < g.padH H := by
  have h1 : a * g.d0 ≤ (g.k0 - 1) * g.d0 := Nat.mul_le_mul_right _ (by omega)
  unfold PoolGeo.padH
  by_cases hc : g.ceil
  · rw [if_pos hc]
    have : (i + 1) * g.s0 ≤ g.h H * g.s0 := Nat.mul_le_mul_right _ hi
    have := hok.s0
    rw [Nat.succ_mul] at *; omega
  · rw [if_neg hc]
    unfold PoolGeo.h at hi
    simp only [Bool.not_eq_true] at hc
    rw [hc, C48_shape_floor _ _ _ _ _ _ hok.s0 hok.k0, Nat.mul_comm g.d0] at hi
    omega

theorem pool_cols (g : PoolGeo) (hok : g.Ok) {W j b : ℕ} (hp : g.p0 = g.p1) (hj : j < g.w W) (hb : b < g.k1) : j * g.s1 + b * g.d1 < g.padW W := by
  have h1 : b * g.d1 ≤ (g.k1 - 1) * g.d1 := Nat.mul_le_mul_right _ (by omega)
  unfold PoolGeo.padW
  by_cases hc : g.ceil
  · rw [if_pos hc]
    have : (j + 1) * g.s1 ≤ g.w W * g.s1 := Nat.mul_le_mul_right _ hj
    have := hok.s1
    rw [Nat.succ_mul] at *; omega
  · rw [if_neg hc]
    unfold PoolGeo.w at hj
    simp only [Bool.not_eq_true] at hc
    rw [hc, C48_shape_floor _ _ _ _ _ _ hok.s1 hok.k1, Nat.mul_comm g.d1] at hj
    omega

theorem index_split (g : PoolGeo) (H W plane i j a b : ℕ) (hr : i * g.s0 + a * g.d0 < g.padH H) (hc : j * g.s1 + b * g.d1 < g.padW W) :
    g.index H W plane i j a b / (g.padH H * g.padW W) = plane ∧ g.index H W plane i j a b / g.padW W % g.padH H = i * g.s0 + a * g.d0 ∧
      g.index H W plane i j a b % g.padW W = j * g.s1 + b * g.d1 := by
  have e : g.index H W plane i j a b = g.padW W * (g.padH H * plane + (i * g.s0 + a * g.d0)) + (j * g.s1 + b * g.d1) := by unfold PoolGeo.index; ring
  generalize i * g.s0 + a * g.d0 = row at *
  generalize j * g.s1 + b * g.d1 = col at *
  have hW : 0 < g.padW W := by omega
  have hH : 0 < g.padH H := by omega
  have h1 : g.index H W plane i j a b / g.padW W = g.padH H * plane + row := by rw [e, Nat.mul_add_div hW, Nat.div_eq_of_lt hc, add_zero]
  refine ⟨?_, ?_, ?_⟩
  · rw [Nat.mul_comm, ← Nat.div_div_eq_div_mul, h1, Nat.mul_add_div hH, Nat.div_eq_of_lt hr, add_zero]
  · rw [h1, Nat.mul_add_mod, Nat.mod_eq_of_lt hr]
  · rw [e, Nat.mul_add_mod, Nat.mod_eq_of_lt hc]

theorem pool_inRange (g : PoolGeo) (hok : g.Ok) (P H W : ℕ) (hp : g.p0 = g.p1) : g.inRange P H W := by
  intro plane hP i hi j hj a ha b hb
  obtain ⟨h1, -, -⟩ := index_split g H W plane i j a b (pool_rows g hok hp hi ha) (pool_cols g hok hp hj hb)
  have hr := pool_rows g hok hp hi ha
  have hc := pool_cols g hok hp hj hb
  have : 0 < g.padH H * g.padW W := Nat.mul_pos (by omega) (by omega)
  rw [Nat.mul_comm P]
  exact (Nat.div_lt_iff_lt_mul this).1 (by rw [h1]; exact hP) |>.trans_eq (Nat.mul_comm _ _)

/-- The value of a tensor padded with the word `-(2^24)` at every party. -/
def padWordValue (n s : ℕ) : ℚ := ((BitVec.ofInt 64 (-(n * 2 ^ 24 : ℤ)) : I64).toInt : ℚ) / s

/-- The tensor of windows. -/
def poolRows (g : PoolGeo) {P H W : ℕ} (x : AST n (Fin P × Fin H × Fin W)) : AST n (Fin (g.k0 * g.k1) × Fin P × Fin (g.h H) × Fin (g.w W)) :=
  ⟨fun q => (poolReshape g (BitVec.ofInt 64 (-(2 ^ 24))) (x.share q)).getD fun _ => 0, x.scale⟩

theorem poolRows_share (g : PoolGeo) (hok : g.Ok) {P H W : ℕ} (hp : g.p0 = g.p1) (x : AST n (Fin P × Fin H × Fin W)) (q : Fin n) (t : Fin (g.k0 * g.k1)) (plane : Fin P) (i : Fin (g.h H)) (j : Fin (g.w W)) :
    (poolRows g x).share q (t, plane, i, j) = padEntry g (BitVec.ofInt 64 (-(2 ^ 24))) (x.share q) plane (i * g.s0 + t / g.k1 * g.d0) (j * g.s1 + t % g.k1 * g.d1) := by
  have ha : t.val / g.k1 < g.k0 := (Nat.div_lt_iff_lt_mul hok.k1).2 t.2
  have hb : t.val % g.k1 < g.k1 := Nat.mod_lt _ hok.k1
  obtain ⟨h1, h2, h3⟩ := index_split g H W plane i j _ _ (pool_rows g hok hp i.2 ha) (pool_cols g hok hp j.2 hb)
  unfold poolRows poolReshape
  dsimp only
  rw [if_pos ⟨pool_inRange g hok P H W hp, by have := i.2; omega, by have := j.2; omega⟩]
  simp only [Option.getD_some]
  rw [h1, h2, h3]

theorem sum_const_pad : ∀ n : ℕ, (∑ _q : Fin n, BitVec.ofInt 64 (-(2 ^ 24))) = (BitVec.ofInt 64 (-(n * 2 ^ 24 : ℤ)) : I64) := by
  intro n
  induction n with
  | zero => rfl
  | succ n ih => rw [Fin.sum_univ_castSucc, ih, ← ofInt_add64]; congr 1; push_cast; ring

theorem poolRows_value (g : PoolGeo) (hok : g.Ok) {P H W : ℕ} (hp : g.p0 = g.p1) (x : AST n (Fin P × Fin H × Fin W)) (t : Fin (g.k0 * g.k1)) (plane : Fin P) (i : Fin (g.h H)) (j : Fin (g.w W)) :
    (∃ (r : Fin H) (c : Fin W), g.Covers i j (t / g.k1) (t % g.k1) r c ∧ (poolRows g x).value (t, plane, i, j) = x.value (plane, r, c)) ∨
    ((¬∃ (r : Fin H) (c : Fin W), g.Covers i j (t / g.k1) (t % g.k1) r c) ∧ (poolRows g x).value (t, plane, i, j) = padWordValue n x.scale) := by
  by_cases h : plane.val < P ∧ g.p1 ≤ i * g.s0 + t / g.k1 * g.d0 ∧ i * g.s0 + t / g.k1 * g.d0 - g.p1 < H ∧ g.p0 ≤ j * g.s1 + t % g.k1 * g.d1 ∧ j * g.s1 + t % g.k1 * g.d1 - g.p0 < W
  · left
    refine ⟨⟨_, h.2.2.1⟩, ⟨_, h.2.2.2.2⟩, ⟨by simp only; omega, by simp only; omega⟩, ?_⟩
    have e : reveal (poolRows g x).share (t, plane, i, j) = reveal x.share (plane, ⟨_, h.2.2.1⟩, ⟨_, h.2.2.2.2⟩) := by
      rw [reveal_apply, reveal_apply]
      refine Finset.sum_congr rfl fun q _ => ?_
      rw [poolRows_share g hok hp, padEntry, dif_pos h]
    rw [AST.value, AST.value, e]; rfl
  · right
    refine ⟨?_, ?_⟩
    · rintro ⟨r, c, h1, h2⟩
      exact h ⟨plane.2, by omega, by have := r.2; omega, by omega, by have := c.2; omega⟩
    · have e : reveal (poolRows g x).share (t, plane, i, j) = BitVec.ofInt 64 (-(n * 2 ^ 24 : ℤ)) := by
        rw [reveal_apply, ← sum_const_pad]
        refine Finset.sum_congr rfl fun q _ => ?_
        rw [poolRows_share g hok hp, padEntry, dif_neg h]
      rw [AST.value, e]; rfl

theorem padWordValue_eq (n s : ℕ) (hn : n * 2 ^ 24 ≤ 2 ^ 62) : padWordValue n s = -(2 ^ 24 * n : ℚ) / s := by
  unfold padWordValue
  rw [toInt_ofInt64 (by norm_num at hn ⊢; omega) (by norm_num at hn ⊢; omega)]; push_cast; ring

theorem poolRows_fits (g : PoolGeo) (hok : g.Ok) {P H W : ℕ} (hp : g.p0 = g.p1) (x : AST n (Fin P × Fin H × Fin W)) (hs : 0 < x.scale) (hn : n * 2 ^ 24 ≤ 2 ^ 62)
    (hb : ∀ t, -2 ^ 62 ≤ x.scale * x.value t ∧ x.scale * x.value t < 2 ^ 62) : DiffFits (poolRows g x) := by
  have hs' : (x.scale : ℚ) ≠ 0 := by exact_mod_cast hs.ne'
  have key (t plane i j) : -2 ^ 62 ≤ (x.scale : ℚ) * (poolRows g x).value (t, plane, i, j) ∧ (x.scale : ℚ) * (poolRows g x).value (t, plane, i, j) < 2 ^ 62 := by
    rcases poolRows_value g hok hp x t plane i j with ⟨r, c, -, hv⟩ | ⟨-, hv⟩
    · rw [hv]; exact hb _
    · rw [hv, padWordValue_eq n x.scale hn, mul_div_cancel₀ _ hs']
      have : ((n * 2 ^ 24 : ℕ) : ℚ) ≤ ((2 ^ 62 : ℕ) : ℚ) := by exact_mod_cast hn
      push_cast at this
      have h0 : (0 : ℚ) ≤ n := Nat.cast_nonneg n
      constructor <;> nlinarith
  rintro ⟨plane, i, j⟩ t u
  have h1 := key t plane i j
  have h2 := key u plane i j
  show Fits ((x.scale : ℚ) * _)
  rw [mul_sub]
  constructor <;> linarith [h1.1, h1.2, h2.1, h2.2]

/-- **C48, exactly**: with the same padding on both axes, `max_pool2d` returns the maximum over the real entries of each window and, if the window reaches into the padding, the value the padding stands for,
`-2^24 * n` divided by the scale. Every party count, geometry, algorithm and randomness. -/
theorem C48_max_pool_exact [NeZero n] (p : ℕ) (hp62 : p ≤ 62) (method : MaxMethod) (g : PoolGeo) (hok : g.Ok) (hm : 2 ^ p * (g.k0 * g.k1) < 2 ^ 63) (hp : g.p0 = g.p1) {P H W : ℕ} (hh : 0 < g.h H) (hw : 0 < g.w W)
    (x : AST n (Fin P × Fin H × Fin W)) (hx : StdScale (2 ^ p) x.scale) (hn : n * 2 ^ 24 ≤ 2 ^ 62) (hb : ∀ t, -2 ^ 62 ≤ x.scale * x.value t ∧ x.scale * x.value t < 2 ^ 62) :
    ∃ prog, maxPool2d p method g x = some prog ∧ SatX prog fun z => z.scale = x.scale ∧ ∀ (plane : Fin P) (i : Fin (g.h H)) (j : Fin (g.w W)),
      IsGreatest (realWindow g x.value plane i j ∪ {v | touchesPadding g H W i j ∧ v = -(2 ^ 24 * n : ℚ) / x.scale}) (z.value (plane, i, j)) := by
  refine ⟨AST.maxFirst p method (poolRows g x), if_pos ⟨pool_inRange g hok P H W hp, hh, hw⟩, ?_⟩
  refine (C24_max p hp62 (Nat.mul_pos hok.k0 hok.k1) hm method (poolRows g x) hx (poolRows_fits g hok hp x (hx.pos (Nat.two_pow_pos p)) hn hb)).mono fun z hz => ⟨hz.1, fun plane i j => ?_⟩
  rw [← padWordValue_eq n x.scale hn]
  have := hz.2 (plane, i, j)
  convert this using 1
  ext v
  constructor
  · rintro (⟨a, ha, b, hb, r, c, hcov, rfl⟩ | ⟨⟨a, ha, b, hb, hno⟩, rfl⟩)
    · have hlt : a * g.k1 + b < g.k0 * g.k1 := by
        have : (a + 1) * g.k1 ≤ g.k0 * g.k1 := Nat.mul_le_mul_right _ ha
        rw [Nat.succ_mul] at this; omega
      have e1 : (a * g.k1 + b) / g.k1 = a := by rw [Nat.mul_comm, Nat.mul_add_div hok.k1, Nat.div_eq_of_lt hb, add_zero]
      have e2 : (a * g.k1 + b) % g.k1 = b := by rw [Nat.mul_comm, Nat.mul_add_mod, Nat.mod_eq_of_lt hb]
      refine ⟨⟨a * g.k1 + b, hlt⟩, ?_⟩
      rcases poolRows_value g hok hp x ⟨a * g.k1 + b, hlt⟩ plane i j with ⟨r', c', hcov', hv⟩ | ⟨hno, -⟩
      · simp only [e1, e2] at hcov'
        have hr : r' = r := Fin.ext (by have := hcov.1; have := hcov'.1; omega)
        have hc : c' = c := Fin.ext (by have := hcov.2; have := hcov'.2; omega)
        rw [← hr, ← hc]; exact hv
      · simp only [e1, e2] at hno
        exact absurd ⟨r, c, hcov⟩ hno
    · have hlt : a * g.k1 + b < g.k0 * g.k1 := by
        have : (a + 1) * g.k1 ≤ g.k0 * g.k1 := Nat.mul_le_mul_right _ ha
        rw [Nat.succ_mul] at this; omega
      have e1 : (a * g.k1 + b) / g.k1 = a := by rw [Nat.mul_comm, Nat.mul_add_div hok.k1, Nat.div_eq_of_lt hb, add_zero]
      have e2 : (a * g.k1 + b) % g.k1 = b := by rw [Nat.mul_comm, Nat.mul_add_mod, Nat.mod_eq_of_lt hb]
      refine ⟨⟨a * g.k1 + b, hlt⟩, ?_⟩
      rcases poolRows_value g hok hp x ⟨a * g.k1 + b, hlt⟩ plane i j with ⟨r', c', hcov', -⟩ | ⟨-, hv⟩
      · simp only [e1, e2] at hcov'
        exact absurd ⟨r', c', hcov'⟩ hno
      · exact hv
  · rintro ⟨t, rfl⟩
    have ha : t.val / g.k1 < g.k0 := (Nat.div_lt_iff_lt_mul hok.k1).2 t.2
    have hb : t.val % g.k1 < g.k1 := Nat.mod_lt _ hok.k1
    rcases poolRows_value g hok hp x t plane i j with ⟨r, c, hcov, hv⟩ | ⟨hno, hv⟩
    · left; exact ⟨_, ha, _, hb, r, c, hcov, hv⟩
    · right; exact ⟨⟨_, ha, _, hb, hno⟩, hv⟩

/-- **C48**: with the same padding on both axes, `max_pool2d` ignores the padding in every window that has a real entry not below `-2^24 * n` divided by the scale (`-256 * n` with the default encoding). -/
theorem C48_max_pool_partial [NeZero n] (p : ℕ) (hp62 : p ≤ 62) (method : MaxMethod) (g : PoolGeo) (hok : g.Ok) (hm : 2 ^ p * (g.k0 * g.k1) < 2 ^ 63) (hp : g.p0 = g.p1) {P H W : ℕ} (hh : 0 < g.h H) (hw : 0 < g.w W)
    (x : AST n (Fin P × Fin H × Fin W)) (hx : StdScale (2 ^ p) x.scale) (hn : n * 2 ^ 24 ≤ 2 ^ 62) (hb : ∀ t, -2 ^ 62 ≤ x.scale * x.value t ∧ x.scale * x.value t < 2 ^ 62) :
    ∃ prog, maxPool2d p method g x = some prog ∧ SatX prog fun z => z.scale = x.scale ∧ ∀ (plane : Fin P) (i : Fin (g.h H)) (j : Fin (g.w W)),
      (∃ v ∈ realWindow g x.value plane i j, -(2 ^ 24 * n : ℚ) / x.scale ≤ v) → IsGreatest (realWindow g x.value plane i j) (z.value (plane, i, j)) := by
  obtain ⟨prog, h1, h2⟩ := C48_max_pool_exact p hp62 method g hok hm hp hh hw x hx hn hb
  refine ⟨prog, h1, h2.mono fun z hz => ⟨hz.1, fun plane i j ⟨v, hv, hle⟩ => ?_⟩⟩
  obtain ⟨hmem, hub⟩ := hz.2 plane i j
  refine ⟨?_, fun u hu => hub (Or.inl hu)⟩
  rcases hmem with h | ⟨-, h⟩
  · exact h
  · have := hub (Or.inl hv)
    have e : z.value (plane, i, j) = v := le_antisymm (by rw [h]; exact hle) this
    rw [e]; exact hv

/-- A 2×2 kernel with padding 1 on a 1×1 image. -/
def geoSmall : PoolGeo := ⟨2, 2, 2, 2, 1, 1, 1, 1, false⟩

/-- A one-entry image holding -600 (two parties, default encoding). -/
def imgLow : AST 2 (Fin 1 × Fin 1 × Fin 1) := ⟨fun q _ => if q = 0 then BitVec.ofInt 64 (-600 * 65536) else 0, 65536⟩

theorem imgLow_value (t) : imgLow.value t = -600 := by
  have : reveal imgLow.share t = BitVec.ofInt 64 (-600 * 65536) := by
    obtain ⟨a, b, c⟩ := t
    obtain rfl : a = 0 := Subsingleton.elim _ _
    obtain rfl : b = 0 := Subsingleton.elim _ _
    obtain rfl : c = 0 := Subsingleton.elim _ _
    decide +kernel
  rw [AST.value, this, toInt_ofInt64 (by norm_num) (by norm_num)]
  show _ / ((65536 : ℕ) : ℚ) = _
  norm_num

/-- **C48 fails** for low values: every party pads its share with `-2^24`, so the padding stands for `-256` per party; the window of the single entry -600 returns -512 with two parties. -/
theorem C48_low_values_wrong (method : MaxMethod) :
    IsGreatest (realWindow geoSmall imgLow.value 0 0 0) (-600) ∧
    ∃ prog, maxPool2d 16 method geoSmall imgLow = some prog ∧ SatX prog fun z => z.value (0, ⟨0, by decide⟩, ⟨0, by decide⟩) = -512 := by
  have hreal : realWindow geoSmall imgLow.value 0 0 0 = {-600} := by
    ext v
    constructor
    · rintro ⟨a, _, b, _, r, c, _, rfl⟩; exact imgLow_value _
    · rintro rfl
      exact ⟨1, by decide, 1, by decide, 0, 0, by constructor <;> rfl, (imgLow_value _).symm⟩
  refine ⟨by rw [hreal]; exact isGreatest_singleton, ?_⟩
  obtain ⟨prog, h1, h2⟩ := C48_max_pool_exact 16 (by norm_num) method geoSmall ⟨by decide, by decide, by decide, by decide⟩ (by decide) rfl (by decide) (by decide) imgLow (Or.inr rfl) (by norm_num)
    (fun t => by rw [imgLow_value]; constructor <;> norm_num [imgLow])
  refine ⟨prog, h1, h2.mono fun z hz => ?_⟩
  obtain ⟨hmem, hub⟩ := hz.2 0 ⟨0, by decide⟩ ⟨0, by decide⟩
  have hpad : (-(2 ^ 24 * (2 : ℕ) : ℚ) / imgLow.scale) = -512 := by norm_num [imgLow]
  rw [hpad] at hmem hub
  have ht : touchesPadding geoSmall 1 1 0 0 := ⟨0, by decide, 0, by decide, by rintro ⟨r, c, h, -⟩; simp [geoSmall] at h⟩
  have hge : -512 ≤ z.value (0, ⟨0, by decide⟩, ⟨0, by decide⟩) := hub (Or.inr ⟨ht, rfl⟩)
  rcases hmem with h | ⟨-, h⟩
  · rw [hreal] at h
    have h : z.value (0, ⟨0, by decide⟩, ⟨0, by decide⟩) = -600 := h
    rw [h] at hge; norm_num at hge
  · exact h

/-- **C48 fails** for different paddings: the height is padded with the second number. A 2×1 kernel with padding (1, 0) on a 2×2 image, which torch accepts, reads outside the tensor and raises … -/
theorem C48_padding_axes_raises_wrong [NeZero n] (p : ℕ) (method : MaxMethod) (x : AST n (Fin 1 × Fin 2 × Fin 2)) : maxPool2d p method ⟨2, 1, 1, 1, 1, 1, 1, 0, false⟩ x = none := by
  unfold maxPool2d
  rw [if_neg]
  rintro ⟨h, -⟩
  exact absurd (h 0 (by decide) 2 (by decide) 0 (by decide) 1 (by decide) 0 (by decide)) (by decide)

/-- A 1×2 kernel with padding (0, 1). -/
def geoWide : PoolGeo := ⟨1, 2, 1, 1, 1, 1, 0, 1, false⟩

/-- A 2×2 image of ones (two parties, default encoding). -/
def imgOnes : AST 2 (Fin 1 × Fin 2 × Fin 2) := ⟨fun q _ => if q = 0 then 65536 else 0, 65536⟩

/-- … and a 1×2 kernel with padding (0, 1) on an image of ones returns -512 for the first window, whose real entries are 1. -/
theorem C48_padding_axes_wrong (method : MaxMethod) :
    (∀ t, imgOnes.value t = 1) ∧ (realWindow geoWide imgOnes.value 0 0 0).Nonempty ∧
    ∃ prog, maxPool2d 16 method geoWide imgOnes = some prog ∧ SatX prog fun z => z.value (0, ⟨0, by decide⟩, ⟨0, by decide⟩) = -512 := by
  have hone : ∀ t, imgOnes.value t = 1 := by
    intro t
    have : reveal imgOnes.share t = 65536 := by revert t; decide +kernel
    rw [AST.value, this, show (65536 : I64).toInt = 65536 by decide]
    show _ / ((65536 : ℕ) : ℚ) = _
    norm_num
  refine ⟨hone, ⟨1, 0, by decide, 1, by decide, 0, 0, by constructor <;> rfl, (hone _).symm⟩, ?_⟩
  refine ⟨_, if_pos (by decide +kernel), ?_⟩
  have hw : ∀ t, reveal (poolRows geoWide imgOnes).share t = 65536 ∨ reveal (poolRows geoWide imgOnes).share t = BitVec.ofInt 64 (-33554432) := by decide +kernel
  have h0 : ∀ t : Fin (geoWide.k0 * geoWide.k1), reveal (poolRows geoWide imgOnes).share (t, 0, ⟨0, by decide⟩, ⟨0, by decide⟩) = BitVec.ofInt 64 (-33554432) := by decide +kernel
  have hv : ∀ t, (poolRows geoWide imgOnes).value t = 1 ∨ (poolRows geoWide imgOnes).value t = -512 := by
    intro t
    rcases hw t with h | h
    · left; rw [AST.value, h, show (65536 : I64).toInt = 65536 by decide]; show _ / ((65536 : ℕ) : ℚ) = _; norm_num
    · right; rw [AST.value, h, toInt_ofInt64 (by norm_num) (by norm_num)]; show _ / ((65536 : ℕ) : ℚ) = _; norm_num
  have hfit : DiffFits (poolRows geoWide imgOnes) := by
    intro k i j
    have : (((poolRows geoWide imgOnes).scale : ℕ) : ℚ) = 65536 := by show ((65536 : ℕ) : ℚ) = _; norm_num
    rw [this]
    rcases hv (i, k) with h | h <;> rcases hv (j, k) with h' | h' <;> rw [h, h'] <;> constructor <;> norm_num
  refine (C24_max 16 (by norm_num) (by decide) (by decide) method (poolRows geoWide imgOnes) (Or.inr rfl) hfit).mono fun z hz => ?_
  obtain ⟨⟨t, ht⟩, -⟩ := hz.2 (0, ⟨0, by decide⟩, ⟨0, by decide⟩)
  rw [← ht]
  show (poolRows geoWide imgOnes).value _ = _
  rw [AST.value, h0 t, toInt_ofInt64 (by norm_num) (by norm_num)]; show _ / ((65536 : ℕ) : ℚ) = _; norm_num

end CrypTen
