import Verif.Model.MaxPoolGrad
import Verif.Props.Pool
import Verif.Lemmas.Gradient
import Mathlib.Tactic.Linarith
import Mathlib.Order.ConditionallyCompleteLattice.Finset

/-! # C64: the gradient of max-pooling -/

namespace CrypTen
namespace MaxPool

theorem foldlM_add {P : ℕ} {α : Type} (R C : ℕ) (step : α → Planes P → Option (Planes P)) (δ : α → Fin P → ℕ → ℕ → ℝ) :
    ∀ (l : List α), (∀ a ∈ l, ∀ r : Planes P, r.rows = R → r.cols = C → step a r = some ⟨R, C, fun p i j => r.data p i j + δ a p i j⟩) → ∀ r : Planes P, r.rows = R → r.cols = C →
      l.foldlM (fun r a => step a r) r = some ⟨R, C, fun p i j => r.data p i j + (l.map fun a => δ a p i j).sum⟩
  | [], _, r, h1, h2 => by
    subst h1 h2
    simp
  | a :: l, h, r, h1, h2 => by
    rw [List.foldlM_cons, h a (by simp) r h1 h2]
    refine (foldlM_add R C step δ l (fun b hb => h b (by simp [hb])) _ rfl rfl).trans ?_
    simp [add_assoc]

theorem sliceLen_fits {size start k d : ℕ} (hd : 0 < d) (hk : 0 < k) (h : start + (k - 1) * d + 1 ≤ size) : sliceLen size start k d = k := by
  obtain ⟨k, rfl⟩ := Nat.exists_eq_succ_of_ne_zero hk.ne'
  rw [Nat.succ_eq_add_one, Nat.add_sub_cancel] at h
  unfold sliceLen
  have e : (k + 1) * d = k * d + d := Nat.succ_mul k d
  rw [Nat.succ_eq_add_one, e]
  refine Nat.div_eq_of_lt_le ?_ ?_
  · rw [e]; omega
  · rw [Nat.succ_mul, e]; omega

/-- What one block adds. -/
noncomputable def blockAt (g : PoolGeo) {P h w : ℕ} (kernels : Fin P × Fin h × Fin w → ℕ → ℕ → ℝ) (i : Fin h) (j : Fin w) (p : Fin P) (row col : ℕ) : ℝ :=
  if g.s0 * i ≤ row ∧ (row - g.s0 * i) % g.d0 = 0 ∧ (row - g.s0 * i) / g.d0 < g.k0 ∧ g.s1 * j ≤ col ∧ (col - g.s1 * j) % g.d1 = 0 ∧ (col - g.s1 * j) / g.d1 < g.k1 then
        kernels (p, i, j) ((row - g.s0 * i) / g.d0) ((col - g.s1 * j) / g.d1) else 0

/-- There is room for every block. -/
def Room (g : PoolGeo) (h w H W : ℕ) : Prop :=
  (∀ i < h, ((g.s0 * i + (g.k0 - 1) * g.d0 + 1 : ℕ) : ℤ) ≤ H + 2 * g.p0 + extraRows g w W) ∧ (∀ j < w, ((g.s1 * j + (g.k1 - 1) * g.d1 + 1 : ℕ) : ℤ) ≤ W + 2 * g.p1 + extraCols g h H)
    ∧ 0 ≤ extraRows g w W ∧ 0 ≤ extraCols g h H

/-- With room for every block the backward function succeeds and adds all blocks. -/
theorem backward_eq (g : PoolGeo) (hok : g.Ok) (hd : 0 < g.d0 ∧ 0 < g.d1) (hp : g.p0 = g.p1) {P h w : ℕ} (H W : ℕ) (hr : Room g h w H W) (ind : Fin P × Fin h × Fin w → ℕ → ℕ → ℝ) (grad : Fin P × Fin h × Fin w → ℝ) :
    backward g 2 H W ind grad = some ⟨H, W, fun p row col => ∑ i, ∑ j, blockAt g (fun o u v => grad o * ind o u v) i j p (row + g.p0) (col + g.p1)⟩ := by
  obtain ⟨r1, r2, e1, e2⟩ := hr
  unfold backward
  rw [if_pos ⟨hp, rfl⟩]
  dsimp only
  rw [if_pos ⟨by omega, by omega⟩]
  have hj : ∀ (i : Fin h) (r : Planes P), r.rows = ((H : ℤ) + 2 * g.p0 + extraRows g w W).toNat → r.cols = ((W : ℤ) + 2 * g.p1 + extraCols g h H).toNat →
      (List.finRange w).foldlM (fun r j => addBlock g (fun o u v => grad o * ind o u v) i j r) r
        = some ⟨((H : ℤ) + 2 * g.p0 + extraRows g w W).toNat, ((W : ℤ) + 2 * g.p1 + extraCols g h H).toNat, fun p a b => r.data p a b + ∑ j, blockAt g (fun o u v => grad o * ind o u v) i j p a b⟩ := by
    intro i r h1 h2
    rw [foldlM_add _ _ (fun j r => addBlock g (fun o u v => grad o * ind o u v) i j r) (fun j p a b => blockAt g (fun o u v => grad o * ind o u v) i j p a b) _ _ r h1 h2]
    · simp only [Fin.sum_univ_def]
    · intro j _ r h1 h2
      unfold addBlock
      dsimp only
      have a1 := r1 i i.2
      have a2 := r2 j j.2
      rw [if_pos ⟨Or.inl (sliceLen_fits hd.1 hok.k0 (by rw [h1]; omega)), Or.inl (sliceLen_fits hd.2 hok.k1 (by rw [h2]; omega))⟩]
      simp only [h1, h2, blockAt]
  rw [foldlM_add _ _ (fun i r => (List.finRange w).foldlM (fun r j => addBlock g (fun o u v => grad o * ind o u v) i j r) r) (fun i p a b => ∑ j, blockAt g (fun o u v => grad o * ind o u v) i j p a b) _ (fun i _ r h1 h2 => hj i r h1 h2) _ rfl rfl]
  simp only [Option.pure_def, Option.bind_eq_bind, Option.bind_some, Option.some.injEq, Planes.mk.injEq]
  refine ⟨by omega, by omega, ?_⟩
  funext p row col
  rw [Fin.sum_univ_def, zero_add]

/-- Which position of the padded input a block reaches. -/
theorem blockAt_eq (g : PoolGeo) (hd : 0 < g.d0 ∧ 0 < g.d1) {P h w : ℕ} (kernels : Fin P × Fin h × Fin w → ℕ → ℕ → ℝ) (i : Fin h) (j : Fin w) (p : Fin P) (row col : ℕ) :
    blockAt g kernels i j p row col = ∑ u ∈ Finset.range g.k0, ∑ v ∈ Finset.range g.k1, if row = i * g.s0 + u * g.d0 ∧ col = j * g.s1 + v * g.d1 then kernels (p, i, j) u v else 0 := by
  have key : ∀ s l d k : ℕ, 0 < d → (l ≤ s ∧ (s - l) % d = 0 ∧ (s - l) / d < k ↔ ∃ u < k, s = l + u * d) := by
    intro s l d k hd
    constructor
    · rintro ⟨h1, h2, h3⟩
      refine ⟨_, h3, ?_⟩
      have := Nat.div_add_mod (s - l) d
      rw [h2, Nat.mul_comm] at this
      omega
    · rintro ⟨u, hu, rfl⟩
      rw [Nat.add_sub_cancel_left, Nat.mul_mod_left, Nat.mul_div_cancel _ hd]
      exact ⟨by omega, rfl, hu⟩
  unfold blockAt
  by_cases hr : ∃ u < g.k0, row = g.s0 * i + u * g.d0
  · by_cases hc : ∃ v < g.k1, col = g.s1 * j + v * g.d1
    · obtain ⟨u, hu, rfl⟩ := hr
      obtain ⟨v, hv, rfl⟩ := hc
      have b1 := (key (g.s0 * i + u * g.d0) (g.s0 * i) g.d0 g.k0 hd.1).2 ⟨u, hu, rfl⟩
      have b2 := (key (g.s1 * j + v * g.d1) (g.s1 * j) g.d1 g.k1 hd.2).2 ⟨v, hv, rfl⟩
      rw [if_pos ⟨b1.1, b1.2.1, b1.2.2, b2⟩, Nat.add_sub_cancel_left, Nat.add_sub_cancel_left, Nat.mul_div_cancel _ hd.1, Nat.mul_div_cancel _ hd.2]
      rw [Finset.sum_eq_single u, Finset.sum_eq_single v]
      · rw [if_pos ⟨by ring, by ring⟩]
      · intro v' _ hv'
        rw [if_neg]
        rintro ⟨-, h⟩
        have : v * g.d1 = v' * g.d1 := by rw [Nat.mul_comm g.s1] at h; omega
        exact hv' (Nat.eq_of_mul_eq_mul_right hd.2 this).symm
      · intro h; exact absurd (Finset.mem_range.2 hv) h
      · intro u' _ hu'
        refine Finset.sum_eq_zero fun v' _ => if_neg ?_
        rintro ⟨h, -⟩
        have : u * g.d0 = u' * g.d0 := by rw [Nat.mul_comm g.s0] at h; omega
        exact hu' (Nat.eq_of_mul_eq_mul_right hd.1 this).symm
      · intro h; exact absurd (Finset.mem_range.2 hu) h
    · rw [if_neg fun h => hc ((key _ _ _ _ hd.2).1 h.2.2.2)]
      refine (Finset.sum_eq_zero fun u _ => Finset.sum_eq_zero fun v hv => if_neg ?_).symm
      rintro ⟨-, h⟩
      exact hc ⟨v, Finset.mem_range.1 hv, by rw [h]; ring⟩
  · rw [if_neg fun h => hr ((key _ _ _ _ hd.1).1 ⟨h.1, h.2.1, h.2.2.1⟩)]
    refine (Finset.sum_eq_zero fun u hu => Finset.sum_eq_zero fun v _ => if_neg ?_).symm
    rintro ⟨h, -⟩
    exact hr ⟨u, Finset.mem_range.1 hu, by rw [h]; ring⟩

/-- The rows of windows, for equal paddings. -/
theorem poolReshape_eq {α : Type} (g : PoolGeo) (hok : g.Ok) (hp : g.p0 = g.p1) {P H W : ℕ} (hh : 0 < g.h H) (hw : 0 < g.w W) (pv : α) (x : Fin P × Fin H × Fin W → α) :
    poolReshape g pv x = some fun q => padEntry g pv x q.2.1 (q.2.2.1 * g.s0 + q.1 / g.k1 * g.d0) (q.2.2.2 * g.s1 + q.1 % g.k1 * g.d1) := by
  unfold poolReshape
  rw [if_pos ⟨pool_inRange g hok P H W hp, hh, hw⟩]
  congr 1
  funext ⟨t, plane, i, j⟩
  have ha : t.val / g.k1 < g.k0 := (Nat.div_lt_iff_lt_mul hok.k1).2 t.2
  have hb : t.val % g.k1 < g.k1 := Nat.mod_lt _ hok.k1
  obtain ⟨h1, h2, h3⟩ := index_split g H W plane i j _ _ (pool_rows g hok hp i.2 ha) (pool_cols g hok hp j.2 hb)
  dsimp only
  rw [h1, h2, h3]

/-- The elements of a window: real entries and padding. -/
noncomputable def element (g : PoolGeo) {P H W : ℕ} (pad : ℝ) (x : Fin P × Fin H × Fin W → ℝ) (o : Fin P × Fin (g.h H) × Fin (g.w W)) (t : Fin (g.k0 * g.k1)) : ℝ :=
  padEntry g pad x o.1 (o.2.1 * g.s0 + t / g.k1 * g.d0) (o.2.2 * g.s1 + t % g.k1 * g.d1)

theorem vjp_of_room (g : PoolGeo) (hok : g.Ok) (hd : 0 < g.d0 ∧ 0 < g.d1) (hp : g.p0 = g.p1) {P H W : ℕ} (hh : 0 < g.h H) (hw : 0 < g.w W) (hr : Room g (g.h H) (g.w W) H W) (pad : ℝ) (x : Fin P × Fin H × Fin W → ℝ)
    (a : Fin P × Fin (g.h H) × Fin (g.w W) → Fin (g.k0 * g.k1)) (ha : ∀ o t, t ≠ a o → element g pad x o t < element g pad x o (a o)) :
    ∃ B : (Fin P × Fin (g.h H) × Fin (g.w W) → ℝ) → Fin P × Fin H × Fin W → ℝ,
      (∀ grad, ∃ out, backward g 2 H W (indices g a) grad = some out ∧ out.rows = H ∧ out.cols = W ∧ ∀ (p : Fin P) (r : Fin H) (c : Fin W), out.data p r c = B grad (p, r, c))
      ∧ IsVJP (fun z => (forward g pad z).getD fun _ => 0) x B := by
  classical
  refine ⟨fun grad q => ∑ i, ∑ j, blockAt g (fun o u v => grad o * indices g a o u v) i j q.1 (q.2.1 + g.p0) (q.2.2 + g.p1),
    fun grad => ⟨_, backward_eq g hok hd hp H W hr _ grad, rfl, rfl, fun p r c => rfl⟩, ?_⟩
  have : Nonempty (Fin (g.k0 * g.k1)) := ⟨⟨0, Nat.mul_pos hok.k0 hok.k1⟩⟩
  refine isVJP_of_jacobian (fun o q => if q.1 = o.1 ∧ (q.2.1 : ℕ) + g.p1 = o.2.1 * g.s0 + a o / g.k1 * g.d0 ∧ (q.2.2 : ℕ) + g.p0 = o.2.2 * g.s1 + a o % g.k1 * g.d1 then 1 else 0) (fun o => ?_) fun grad q => ?_
  · -- near `x` the maximum of the window is the element `a o`
    have hev : ∀ᶠ z : Fin P × Fin H × Fin W → ℝ in nhds x, ∀ t, t ≠ a o → element g pad z o t < element g pad z o (a o) := by
      rw [Filter.eventually_all]
      intro t
      by_cases ht : t = a o
      · simp [ht]
      · have hc : ∀ t, Continuous fun z : Fin P × Fin H × Fin W → ℝ => element g pad z o t := by
          intro t
          unfold element padEntry
          split
          · exact continuous_apply _
          · exact continuous_const
        have := (isOpen_lt (hc t) (hc (a o))).mem_nhds (show x ∈ _ from ha o t ht)
        filter_upwards [this] with z hz _
        exact hz
    have hfw : (fun z => ((forward g pad z).getD fun _ => 0) o) =ᶠ[nhds x] fun z => element g pad z o (a o) := by
      filter_upwards [hev] with z hz
      unfold forward
      rw [poolReshape_eq g hok hp hh hw]
      simp only [Option.map_some, Option.getD_some]
      refine le_antisymm (ciSup_le fun t => ?_) (le_ciSup (f := fun t : Fin (g.k0 * g.k1) => element g pad z o t) (Set.finite_range _).bddAbove (a o))
      by_cases ht : t = a o
      · rw [ht]; exact le_rfl
      · exact (hz t ht).le
    refine HasFDerivAt.congr_of_eventuallyEq ?_ hfw
    unfold element padEntry
    by_cases hin : (o.1 : ℕ) < P ∧ g.p1 ≤ o.2.1 * g.s0 + a o / g.k1 * g.d0 ∧ o.2.1 * g.s0 + a o / g.k1 * g.d0 - g.p1 < H ∧ g.p0 ≤ o.2.2 * g.s1 + a o % g.k1 * g.d1 ∧ o.2.2 * g.s1 + a o % g.k1 * g.d1 - g.p0 < W
    · simp only [dif_pos hin]
      have := hasFDerivAt_coord (⟨o.1, hin.1⟩, ⟨_, hin.2.2.1⟩, ⟨_, hin.2.2.2.2⟩) x
      refine HasFDerivAt.congr_fderiv this (congrArg _ ?_)
      funext q
      rw [Pi.single_apply]
      refine if_congr ?_ rfl rfl
      rw [Prod.ext_iff, Prod.ext_iff, Fin.ext_iff, Fin.ext_iff, Fin.ext_iff]
      dsimp only
      omega
    · simp only [dif_neg hin]
      refine HasFDerivAt.congr_fderiv (hasFDerivAt_const _ _) ?_
      symm
      ext z
      rw [linearFn_apply]
      refine (Finset.sum_eq_zero fun q _ => ?_).trans (by simp)
      rw [if_neg, zero_mul]
      rintro ⟨h1, h2, h3⟩
      have b1 := q.1.2
      have b2 := q.2.1.2
      have b3 := q.2.2.2
      rw [h1] at b1
      exact hin ⟨b1, by omega, by omega, by omega, by omega⟩
  · rw [Fintype.sum_prod_type]
    rw [Finset.sum_eq_single q.1]
    · rw [Fintype.sum_prod_type]
      refine Finset.sum_congr rfl fun i _ => Finset.sum_congr rfl fun j _ => ?_
      rw [blockAt_eq g hd]
      have hlt := (a (q.1, i, j)).2
      have hu : (a (q.1, i, j)).val / g.k1 < g.k0 := (Nat.div_lt_iff_lt_mul hok.k1).2 hlt
      have hv : (a (q.1, i, j)).val % g.k1 < g.k1 := Nat.mod_lt _ hok.k1
      have hidx : ∀ u v : ℕ, v < g.k1 → (u * g.k1 + v = a (q.1, i, j) ↔ u = (a (q.1, i, j)).val / g.k1 ∧ v = (a (q.1, i, j)).val % g.k1) := by
        intro u v hv
        constructor
        · intro h
          rw [← h]
          refine ⟨?_, ?_⟩
          · rw [Nat.mul_comm, Nat.mul_add_div hok.k1, Nat.div_eq_of_lt hv, add_zero]
          · rw [Nat.mul_comm, Nat.mul_add_mod, Nat.mod_eq_of_lt hv]
        · rintro ⟨rfl, rfl⟩
          rw [Nat.mul_comm]; exact Nat.div_add_mod _ _
      rw [Finset.sum_eq_single ((a (q.1, i, j)).val / g.k1), Finset.sum_eq_single ((a (q.1, i, j)).val % g.k1)]
      · dsimp only [indices]
        rw [if_pos ((hidx _ _ hv).2 ⟨rfl, rfl⟩), mul_one, hp]
        simp only [true_and, mul_ite, mul_one, mul_zero]
      · intro v hv' hne
        split
        · dsimp only [indices]
          rw [if_neg fun h => hne ((hidx _ _ (Finset.mem_range.1 hv')).1 h).2, mul_zero]
        · rfl
      · intro h; exact absurd (Finset.mem_range.2 hv) h
      · intro u hu' hne
        refine Finset.sum_eq_zero fun v hv' => ?_
        split
        · dsimp only [indices]
          rw [if_neg fun h => hne ((hidx _ _ (Finset.mem_range.1 hv')).1 h).1, mul_zero]
        · rfl
      · intro h; exact absurd (Finset.mem_range.2 hu) h
    · intro p _ hne
      refine Finset.sum_eq_zero fun ij _ => ?_
      rw [if_neg fun h => hne h.1.symm, mul_zero]
    · intro h; exact absurd (Finset.mem_univ _) h

/-- Bounds on the output size with `ceil_mode`. -/
theorem ceil_bounds (size k p s d : ℕ) (hs : 0 < s) (hpos : 0 < (poolOutShape size k p p s d true).toNat) :
    let m : ℤ := (poolOutShape size k p p s d true).toNat
    (m - 1) * s + ((k : ℤ) - 1) * d + 1 ≤ size + 2 * p + s - 1 ∧ ((m - 1) * s + ((k : ℤ) - 1) * d + 1 ≤ size + 2 * p ∨ (m - 1) * s < size + p)
      ∧ ((size : ℤ) + 2 * p + s ≤ m * s + ((k : ℤ) - 1) * d + 1 ∨ (size : ℤ) + p ≤ m * s) := by
  intro m
  have hm : m = poolOutShape size k p p s d true := Int.toNat_of_nonneg (by omega)
  clear_value m
  subst hm
  unfold poolOutShape
  simp only [Bool.true_and, if_true]
  have hs' : (0 : ℤ) < s := by exact_mod_cast hs
  have h1 := Int.ediv_mul_le ((size : ℤ) + p + p - d * ((k : ℤ) - 1) - 1 + ((s : ℤ) - 1)) hs'.ne'
  have h2 := Int.lt_ediv_add_one_mul_self ((size : ℤ) + p + p - d * ((k : ℤ) - 1) - 1 + ((s : ℤ) - 1)) hs'
  generalize ((size : ℤ) + p + p - d * ((k : ℤ) - 1) - 1 + ((s : ℤ) - 1)) / (s : ℤ) = q at *
  have e1 : (q + 1 - 1) * (s : ℤ) = q * s := by ring
  have e2 : (q + 1) * (s : ℤ) = q * s + s := by ring
  have e3 : (q + 1 - 1 - 1) * (s : ℤ) = q * s - s := by ring
  have e4 : ((k : ℤ) - 1) * d = d * ((k : ℤ) - 1) := by ring
  by_cases hc : (q + 1 - 1) * (s : ℤ) ≥ size + p
  · rw [if_pos (by simpa using hc)]
    rw [e1] at hc
    rw [e3, e4, e1]
    rw [e2] at h2
    generalize (d : ℤ) * ((k : ℤ) - 1) = D at *
    generalize q * (s : ℤ) = Q at *
    omega
  · rw [if_neg (by simpa using hc)]
    rw [e1] at hc
    rw [e4, e1, e2]
    rw [e2] at h2
    generalize (d : ℤ) * ((k : ℤ) - 1) = D at *
    generalize q * (s : ℤ) = Q at *
    omega

/-- Both axes alike. -/
def SameAxes (g : PoolGeo) : Prop := g.k0 = g.k1 ∧ g.s0 = g.s1 ∧ g.d0 = g.d1

theorem room (g : PoolGeo) (hok : g.Ok) (hp : g.p0 = g.p1) (hax : g.ceil = false ∨ SameAxes g) {H W : ℕ} (hh : 0 < g.h H) (hw : 0 < g.w W) : Room g (g.h H) (g.w W) H W := by
  cases hc : g.ceil with
  | false =>
    have x1 : extraRows g (g.w W) W = 0 := by simp [extraRows, hc]
    have x2 : extraCols g (g.h H) H = 0 := by simp [extraCols, hc]
    refine ⟨fun i hi => ?_, fun j hj => ?_, x1.ge, x2.ge⟩
    · rw [x1]
      unfold PoolGeo.h at hi
      rw [hc, C48_shape_floor _ _ _ _ _ _ hok.s0 hok.k0] at hi
      rw [Nat.mul_comm g.s0, Nat.mul_comm _ g.d0]
      omega
    · rw [x2]
      unfold PoolGeo.w at hj
      rw [hc, C48_shape_floor _ _ _ _ _ _ hok.s1 hok.k1] at hj
      rw [Nat.mul_comm g.s1, Nat.mul_comm _ g.d1]
      omega
  | true =>
    obtain ⟨hk, hs, hd⟩ := hax.resolve_left (by simp [hc])
    have bh := ceil_bounds H g.k0 g.p0 g.s0 g.d0 hok.s0 (by have := hh; unfold PoolGeo.h at this; rwa [hc] at this)
    have bw := ceil_bounds W g.k0 g.p0 g.s0 g.d0 hok.s0 (by have := hw; unfold PoolGeo.w at this; rwa [hc, ← hk, ← hs, ← hd, ← hp] at this)
    have eh : (poolOutShape H g.k0 g.p0 g.p0 g.s0 g.d0 true).toNat = g.h H := by unfold PoolGeo.h; rw [hc]
    have ew : (poolOutShape W g.k0 g.p0 g.p0 g.s0 g.d0 true).toNat = g.w W := by unfold PoolGeo.w; rw [hc, ← hk, ← hs, ← hd, ← hp]
    rw [eh] at bh
    rw [ew] at bw
    dsimp only at bh bw
    have x1 : extraRows g (g.w W) W = (g.w W : ℤ) * g.s0 + ((g.k0 : ℤ) - 1) * g.d0 - W := by simp [extraRows, hc, hk, hs, hd]
    have x2 : extraCols g (g.h H) H = (g.h H : ℤ) * g.s0 + ((g.k0 : ℤ) - 1) * g.d0 - H := by simp [extraCols, hc]
    have hk0 := hok.k0
    have hs0 := hok.s0
    have eK : (((g.k0 - 1) * g.d0 : ℕ) : ℤ) = ((g.k0 : ℤ) - 1) * g.d0 := by rw [Nat.cast_mul, Nat.cast_sub hk0]; simp
    have eKn : 0 ≤ ((g.k0 : ℤ) - 1) * g.d0 := by rw [← eK]; positivity
    have a1 : ((g.h H : ℤ) - 1) * g.s0 = g.h H * g.s0 - g.s0 := by ring
    have a2 : ((g.w W : ℤ) - 1) * g.s0 = g.w W * g.s0 - g.s0 := by ring
    have m1 : ∀ i < g.h H, ((g.s0 * i : ℕ) : ℤ) ≤ g.h H * g.s0 - g.s0 := by
      intro i hi
      have : (i : ℤ) ≤ g.h H - 1 := by omega
      have := mul_le_mul_of_nonneg_right this (Int.natCast_nonneg g.s0)
      push_cast
      rw [mul_comm]; linarith
    have m2 : ∀ i < g.w W, ((g.s0 * i : ℕ) : ℤ) ≤ g.w W * g.s0 - g.s0 := by
      intro i hi
      have : (i : ℤ) ≤ g.w W - 1 := by omega
      have := mul_le_mul_of_nonneg_right this (Int.natCast_nonneg g.s0)
      push_cast
      rw [mul_comm]; linarith
    refine ⟨fun i hi => ?_, fun j hj => ?_, ?_, ?_⟩
    · have := m1 i hi
      rw [x1, Nat.cast_add, Nat.cast_add, eK]
      rw [a1] at bh
      rw [a2] at bw
      generalize ((g.k0 : ℤ) - 1) * g.d0 = D at *
      generalize (g.h H : ℤ) * g.s0 = Q1 at *
      generalize (g.w W : ℤ) * g.s0 = Q2 at *
      generalize g.s0 * i = S at *
      omega
    · have := m2 j hj
      rw [x2, ← hs, ← hk, ← hd, ← hp, Nat.cast_add, Nat.cast_add, eK]
      rw [a1] at bh
      rw [a2] at bw
      generalize ((g.k0 : ℤ) - 1) * g.d0 = D at *
      generalize (g.h H : ℤ) * g.s0 = Q1 at *
      generalize (g.w W : ℤ) * g.s0 = Q2 at *
      generalize g.s0 * j = S at *
      omega
    · rw [x1]
      rw [a2] at bw
      generalize ((g.k0 : ℤ) - 1) * g.d0 = D at *
      generalize (g.w W : ℤ) * g.s0 = Q2 at *
      omega
    · rw [x2]
      rw [a1] at bh
      generalize ((g.k0 : ℤ) - 1) * g.d0 = D at *
      generalize (g.h H : ℤ) * g.s0 = Q1 at *
      omega

/-- `b` is the place of the largest entry of window `(i, j)`: larger than all other entries the window covers, and than the padding if it covers any. -/
structure IsBest (g : PoolGeo) {P H W : ℕ} (pad : ℝ) (x : Fin P × Fin H × Fin W → ℝ) (p : Fin P) (i j : ℕ) (b : Fin H × Fin W) : Prop where
  covered : ∃ u < g.k0, ∃ v < g.k1, g.Covers i j u v b.1 b.2
  largest : ∀ (r : Fin H) (c : Fin W), (∃ u < g.k0, ∃ v < g.k1, g.Covers i j u v r c) → (r, c) ≠ b → x (p, r, c) < x (p, b.1, b.2)
  padding : touchesPadding g H W i j → pad < x (p, b.1, b.2)

/-- **C64.** The gradient function of max-pooling, for equal paddings and, with `ceil_mode`, the same kernel size, stride and dilation on both axes: for every input with batch and channel dimension that the forward function accepts and in which the largest entry of each window is unique, the backward function succeeds with the shape of the input; the gradient of an entry is the sum of the gradients of the windows whose largest entry it is; and this is the derivative of the forward function. `rows` are the windows and `a` the positions of their maxima, which the forward function saves as one-hot rows. -/
theorem C64_max_pool_partial (g : PoolGeo) (hok : g.Ok) (hd : 0 < g.d0 ∧ 0 < g.d1) (hp : g.p0 = g.p1) (hax : g.ceil = false ∨ SameAxes g) {P H W : ℕ} (pad : ℝ) (x : Fin P × Fin H × Fin W → ℝ)
    (rows : Fin (g.k0 * g.k1) × Fin P × Fin (g.h H) × Fin (g.w W) → ℝ) (hrows : poolReshape g pad x = some rows)
    (a : Fin P × Fin (g.h H) × Fin (g.w W) → Fin (g.k0 * g.k1)) (ha : ∀ o t, rows (t, o) ≤ rows (a o, o))
    (best : Fin P × Fin (g.h H) × Fin (g.w W) → Fin H × Fin W) (hbest : ∀ p (i : Fin (g.h H)) (j : Fin (g.w W)), IsBest g pad x p i j (best (p, i, j))) :
    (∀ grad, ∃ out, backward g 2 H W (indices g a) grad = some out ∧ out.rows = H ∧ out.cols = W
      ∧ ∀ (p : Fin P) (r : Fin H) (c : Fin W), out.data p r c = ∑ i, ∑ j, if best (p, i, j) = (r, c) then grad (p, i, j) else 0)
    ∧ IsVJP (fun z => (forward g pad z).getD fun _ => 0) x (fun grad q => ∑ i, ∑ j, if best (q.1, i, j) = q.2 then grad (q.1, i, j) else 0) := by
  have hpos : 0 < g.h H ∧ 0 < g.w W := by
    unfold poolReshape at hrows
    split at hrows
    · rename_i h; exact h.2
    · simp at hrows
  obtain ⟨hh, hw⟩ := hpos
  rw [poolReshape_eq g hok hp hh hw, Option.some.injEq] at hrows
  have hel : ∀ o t, rows (t, o) = element g pad x o t := fun o t => by rw [← hrows]; rfl
  -- the elements of a window
  have hreal : ∀ (o : Fin P × Fin (g.h H) × Fin (g.w W)) (t : Fin (g.k0 * g.k1)) (r : Fin H) (c : Fin W), g.Covers o.2.1 o.2.2 (t / g.k1) (t % g.k1) r c → element g pad x o t = x (o.1, r, c) := by
    intro o t r c ⟨h1, h2⟩
    unfold element padEntry
    have b2 := r.2
    have b3 := c.2
    rw [dif_pos ⟨o.1.2, by omega, by omega, by omega, by omega⟩]
    refine congrArg x (Prod.ext rfl (Prod.ext (Fin.ext ?_) (Fin.ext ?_))) <;> dsimp only <;> omega
  have hpadd : ∀ (o : Fin P × Fin (g.h H) × Fin (g.w W)) (t : Fin (g.k0 * g.k1)), (¬∃ (r : Fin H) (c : Fin W), g.Covers o.2.1 o.2.2 (t / g.k1) (t % g.k1) r c) → element g pad x o t = pad := by
    intro o t hn
    unfold element padEntry
    rw [dif_neg]
    rintro ⟨-, h1, h2, h3, h4⟩
    exact hn ⟨⟨_, h2⟩, ⟨_, h4⟩, ⟨by dsimp only; omega, by dsimp only; omega⟩⟩
  have hlt : ∀ t : Fin (g.k0 * g.k1), t.val / g.k1 < g.k0 ∧ t.val % g.k1 < g.k1 := fun t => ⟨(Nat.div_lt_iff_lt_mul hok.k1).2 t.2, Nat.mod_lt _ hok.k1⟩
  -- the element of the best entry
  have htb : ∀ o : Fin P × Fin (g.h H) × Fin (g.w W), ∃ t : Fin (g.k0 * g.k1), g.Covers o.2.1 o.2.2 (t / g.k1) (t % g.k1) (best o).1 (best o).2 := by
    intro o
    obtain ⟨u, hu, v, hv, hc⟩ := (hbest o.1 o.2.1 o.2.2).covered
    have e1 : (u * g.k1 + v) / g.k1 = u := by rw [Nat.mul_comm, Nat.mul_add_div hok.k1, Nat.div_eq_of_lt hv, add_zero]
    have e2 : (u * g.k1 + v) % g.k1 = v := by rw [Nat.mul_comm, Nat.mul_add_mod, Nat.mod_eq_of_lt hv]
    refine ⟨⟨u * g.k1 + v, ?_⟩, ?_⟩
    · have : (u + 1) * g.k1 ≤ g.k0 * g.k1 := Nat.mul_le_mul_right _ hu
      rw [Nat.succ_mul] at this; omega
    · dsimp only; rw [e1, e2]; exact hc
  choose tb htb using htb
  -- all other elements are smaller
  have hsm : ∀ o t, t ≠ tb o → element g pad x o t < element g pad x o (tb o) := by
    intro o t hne
    rw [hreal o (tb o) _ _ (htb o)]
    by_cases hex : ∃ (r : Fin H) (c : Fin W), g.Covers o.2.1 o.2.2 (t / g.k1) (t % g.k1) r c
    · obtain ⟨r, c, hc⟩ := hex
      rw [hreal o t r c hc]
      refine (hbest o.1 o.2.1 o.2.2).largest r c ⟨_, (hlt t).1, _, (hlt t).2, hc⟩ fun he => hne ?_
      have hb := htb o
      rw [show best (o.1, o.2.1, o.2.2) = best o from rfl] at he
      rw [← he] at hb
      obtain ⟨c1, c2⟩ := hc
      obtain ⟨b1, b2⟩ := hb
      have e1 : t.val / g.k1 * g.d0 = (tb o).val / g.k1 * g.d0 := by dsimp only at b1; omega
      have e2 : t.val % g.k1 * g.d1 = (tb o).val % g.k1 * g.d1 := by dsimp only at b2; omega
      have e1 := Nat.eq_of_mul_eq_mul_right hd.1 e1
      have e2 := Nat.eq_of_mul_eq_mul_right hd.2 e2
      refine Fin.ext ?_
      rw [← Nat.div_add_mod t.val g.k1, ← Nat.div_add_mod (tb o).val g.k1, e1, e2]
    · rw [hpadd o t hex]
      exact (hbest o.1 o.2.1 o.2.2).padding ⟨_, (hlt t).1, _, (hlt t).2, hex⟩
  have hab : a = tb := by
    funext o
    by_contra hne
    have h1 := hsm o (a o) hne
    have h2 := ha o (tb o)
    rw [hel, hel] at h2
    exact absurd h1 (not_lt.2 h2)
  subst hab
  obtain ⟨B, hB, hv⟩ := vjp_of_room g hok hd hp hh hw (room g hok hp hax hh hw) pad x a hsm
  have hB' : B = fun grad q => ∑ i, ∑ j, if best (q.1, i, j) = q.2 then grad (q.1, i, j) else 0 := by
    funext grad ⟨p, r, c⟩
    obtain ⟨out, h1, -, -, h4⟩ := hB grad
    rw [← h4]
    rw [backward_eq g hok hd hp H W (room g hok hp hax hh hw), Option.some.injEq] at h1
    rw [← h1]
    dsimp only
    refine Finset.sum_congr rfl fun i _ => Finset.sum_congr rfl fun j _ => ?_
    rw [blockAt_eq g hd, Finset.sum_eq_single ((a (p, i, j)).val / g.k1), Finset.sum_eq_single ((a (p, i, j)).val % g.k1)]
    · dsimp only [indices]
      rw [if_pos (show (a (p, i, j)).val / g.k1 * g.k1 + (a (p, i, j)).val % g.k1 = a (p, i, j) by rw [Nat.mul_comm]; exact Nat.div_add_mod _ _), mul_one]
      obtain ⟨b1, b2⟩ := htb (p, i, j)
      dsimp only at b1 b2
      refine if_congr ?_ rfl rfl
      rw [Prod.ext_iff, Fin.ext_iff, Fin.ext_iff]
      dsimp only
      omega
    · intro v hv' hne
      split
      · dsimp only [indices]
        rw [if_neg, mul_zero]
        intro h
        refine hne ?_
        rw [← h, Nat.mul_comm, Nat.mul_add_mod, Nat.mod_eq_of_lt (Finset.mem_range.1 hv')]
      · rfl
    · intro h; exact absurd (Finset.mem_range.2 (hlt _).2) h
    · intro u _ hne
      refine Finset.sum_eq_zero fun v hv' => ?_
      split
      · dsimp only [indices]
        rw [if_neg, mul_zero]
        intro h
        refine hne ?_
        rw [← h, Nat.mul_comm, Nat.mul_add_div hok.k1, Nat.div_eq_of_lt (Finset.mem_range.1 hv'), add_zero]
      · rfl
    · intro h; exact absurd (Finset.mem_range.2 (hlt _).1) h
  rw [hB'] at hB hv
  exact ⟨hB, hv⟩

/-- **C64 fails with `ceil_mode` and different kernels or strides on the two axes.** The sizes of the temporary tensor are exchanged: for height 5 with kernel 4 and stride 4, width 3 with kernel 1 and stride 1, the forward function accepts every input and the backward function raises for every gradient. -/
theorem C64_ceil_axes_wrong (pad : ℝ) (x : Fin 1 × Fin 5 × Fin 3 → ℝ) : ∃ g : PoolGeo, g.Ok ∧ g.d0 = 1 ∧ g.d1 = 1 ∧ g.p0 = 0 ∧ g.p1 = 0 ∧ g.h 5 = 2 ∧ g.w 3 = 3 ∧ (poolReshape g pad x).isSome
    ∧ ∀ (ind : Fin 1 × Fin 2 × Fin 3 → ℕ → ℕ → ℝ) (grad : Fin 1 × Fin 2 × Fin 3 → ℝ), backward g 2 5 3 ind grad = none := by
  refine ⟨⟨4, 1, 4, 1, 1, 1, 0, 0, true⟩, ⟨by decide, by decide, by decide, by decide⟩, rfl, rfl, rfl, rfl, by decide, by decide, ?_, fun ind grad => ?_⟩
  · rw [poolReshape_eq _ ⟨by decide, by decide, by decide, by decide⟩ rfl (by decide) (by decide)]
    rfl
  · simp [backward, extraRows, extraCols, List.finRange_succ, addBlock, sliceLen]

/-- **C64 fails for inputs without (or with more than) a batch and a channel dimension**: the forward function does not depend on how many dimensions there are in front of height and width, the backward function raises. -/
theorem C64_unbatched_wrong (g : PoolGeo) {P h w : ℕ} (H W lead : ℕ) (hl : lead ≠ 2) (ind : Fin P × Fin h × Fin w → ℕ → ℕ → ℝ) (grad : Fin P × Fin h × Fin w → ℝ) : backward g lead H W ind grad = none := by
  unfold backward
  rw [if_neg fun h => hl h.2]

/-- A concrete case: two overlapping windows with the same largest entry. -/
example : ∃ (x : Fin 1 × Fin 2 × Fin 3 → ℝ) (g : PoolGeo) (best : Fin 1 × Fin (g.h 2) × Fin (g.w 3) → Fin 2 × Fin 3), g.Ok ∧ g.p0 = g.p1 ∧ g.h 2 = 1 ∧ g.w 3 = 2 ∧ ∀ p (i : Fin (g.h 2)) (j : Fin (g.w 3)), IsBest g (-256) x p i j (best (p, i, j)) := by
  refine ⟨fun q => ![![1, 5, 2], ![3, 4, 0]] q.2.1 q.2.2, ⟨2, 2, 1, 1, 1, 1, 0, 0, false⟩, fun _ => (0, 1), ⟨by decide, by decide, by decide, by decide⟩, rfl, by decide, by decide, fun p i j => ⟨?_, ?_, ?_⟩⟩
  · have hi : i.val = 0 := by have := i.2; have e : PoolGeo.h ⟨2, 2, 1, 1, 1, 1, 0, 0, false⟩ 2 = 1 := by decide
                              omega
    have hj : j.val < 2 := j.2.trans_eq (by decide)
    refine ⟨0, by decide, 1 - j.val, by show _ < 2; omega, ?_, ?_⟩
    · show 0 + 0 = i.val * 1 + 0 * 1
      omega
    · show 1 + 0 = j.val * 1 + (1 - j.val) * 1
      omega
  · intro r c _ hne
    fin_cases r <;> fin_cases c <;> first | exact absurd rfl hne | norm_num
  · intro _
    norm_num

end MaxPool
end CrypTen
