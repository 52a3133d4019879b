import Verif.Spec.CnnExample
import Verif.Props.Training
import Verif.Props.TrainPrivacy

/-!
# The example `mpc_autograd_cnn`

C102: the training in the example follows gradient descent on the loss of the network up to a computed error.
-/

namespace CrypTen.Backprop
open Program (Regs Nums set set_self set_ne)
variable {n : ℕ} {sh : ℕ → Type}

theorem eval_congr {F : Type} [Field F] [LinearOrder F] (W : Nums sh) (δ : ∀ r, sh r → F) {V U : ∀ r, sh r → F} {d : ℕ} (c : Call n sh d) (h : ∀ a ∈ c.operands, V a = U a) : c.eval W δ V = c.eval W δ U := by
  cases c <;> simp only [Call.operands, List.mem_cons, List.not_mem_nil, or_false, forall_eq_or_imp, forall_eq] at h <;> simp [Call.eval, h]

theorem eval_spec {F : Type} [Field F] [LinearOrder F] (W : Nums sh) (δ : ∀ r, sh r → F) {t : Tape n sh} (ho : Ordered t) : ∀ x ∈ t, eval W δ t x.1 = x.2.eval W δ (eval W δ t) := by
  induction t with
  | nil => simp
  | cons y t ih =>
    obtain ⟨d, c⟩ := y
    have hop : ∀ a ∈ regs t, eval W δ t a = eval W δ (⟨d, c⟩ :: t) a := fun a ha =>
      have hne : a ≠ d := fun e => ho.1 (e ▸ ha)
      (set_ne (α := fun ι => ι → F) _ _ hne).symm
    intro x hx
    rcases List.mem_cons.1 hx with rfl | h1
    · rw [eval, set_self (α := fun ι => ι → F)]
      exact eval_congr W δ c fun a ha => hop a (ho.2.1 a ha)
    · rw [← hop _ (mem_regs h1), ih ho.2.2 x h1]
      exact eval_congr W δ x.2 fun a ha => hop a (ho.2.2.operands h1 ha)

end CrypTen.Backprop

namespace CrypTen.Cnn
open Program (Regs Nums set set_self set_ne)
open Backprop (Tape Grads eval values Ordered Spread)
variable {n : ℕ} [NeZero n] {d : Dims}

theorem tape_ordered (method : MaxMethod) (b : Fin d.q) (y : Fin d.N × Fin d.C → ℚ) : Ordered (batchTape (n := n) d method b y) := by
  simp [Ordered, batchTape, Backprop.Call.operands, Backprop.regs]

instance : ∀ r, Fintype (shape d r)
  | 0 => inferInstanceAs (Fintype (Fin d.S × Fin d.h × Fin d.wa))
  | 1 => inferInstanceAs (Fintype (Fin d.S × Fin d.h × Fin d.wb))
  | 2 => inferInstanceAs (Fintype (Fin d.O × Fin 1 × Fin d.kh × Fin d.kw))
  | 3 => inferInstanceAs (Fintype (Fin d.O))
  | 4 => inferInstanceAs (Fintype (Fin d.D × Fin d.m))
  | 5 => inferInstanceAs (Fintype (Fin d.D))
  | 6 => inferInstanceAs (Fintype (Fin d.C × Fin d.D))
  | 7 => inferInstanceAs (Fintype (Fin d.C))
  | 8 => inferInstanceAs (Fintype (Fin d.S × Fin d.h × Fin d.w))
  | 9 => inferInstanceAs (Fintype (Fin d.S × Fin 1 × Fin d.h × Fin d.w))
  | 10 => inferInstanceAs (Fintype (Fin d.N × Fin 1 × Fin d.h × Fin d.w))
  | 11 => inferInstanceAs (Fintype (Fin d.N × Fin d.C))
  | 12 => inferInstanceAs (Fintype (Fin d.N × Fin d.O × Fin d.oh × Fin d.ow))
  | 13 => inferInstanceAs (Fintype (Fin 1 × Fin d.O × Fin 1 × Fin 1))
  | 14 => inferInstanceAs (Fintype (Fin d.N × Fin d.O × Fin d.oh × Fin d.ow))
  | 15 => inferInstanceAs (Fintype (Fin d.N × Fin d.O × Fin d.oh × Fin d.ow))
  | 16 => inferInstanceAs (Fintype (Fin (d.N * d.O) × Fin d.oh × Fin d.ow))
  | 17 => inferInstanceAs (Fintype (Fin (d.N * d.O) × Fin d.ph × Fin d.pw))
  | 18 => inferInstanceAs (Fintype (Fin d.N × Fin d.m))
  | 19 => inferInstanceAs (Fintype (Fin d.m × Fin d.D))
  | 20 => inferInstanceAs (Fintype (Fin d.N × Fin d.D))
  | 21 => inferInstanceAs (Fintype (Fin d.N × Fin d.D))
  | 22 => inferInstanceAs (Fintype (Fin d.D))
  | 23 => inferInstanceAs (Fintype (Fin d.N × Fin d.D))
  | 24 => inferInstanceAs (Fintype (Fin d.N × Fin d.D))
  | 25 => inferInstanceAs (Fintype (Fin d.D × Fin d.C))
  | 26 => inferInstanceAs (Fintype (Fin d.N × Fin d.C))
  | 27 => inferInstanceAs (Fintype (Fin d.N × Fin d.C))
  | 28 => inferInstanceAs (Fintype (Fin d.C))
  | 29 => inferInstanceAs (Fintype (Fin d.N × Fin d.C))
  | 30 => inferInstanceAs (Fintype (Fin d.N × Fin d.C))
  | 31 => inferInstanceAs (Fintype (Fin d.N × Fin d.C))
  | _ + 32 => inferInstanceAs (Fintype Unit)

instance : Unique (shape d out) := inferInstanceAs (Unique Unit)

theorem tape_right (method : MaxMethod) (b : Fin d.q) (y : Fin d.N × Fin d.C → ℚ) : Backprop.Right (batchTape (n := n) d method b y) :=
  ⟨(Backprop.C98_matmul d.N d.D d.C).1, (Backprop.C98_matmul d.N d.m d.D).1, (Backprop.C98_max_pool2d (d.N * d.O) d.oh d.ow 2 2 d.ph d.pw (2, 2) (1, 1) _ _ (by decide) (by decide)).1,
    (Backprop.C98_conv2d d.N 1 d.O d.h d.w d.kh d.kw d.oh d.ow (1, 1) (0, 0) (1, 1) (by decide) (by decide)).1, trivial⟩

/-- The register of a parameter. -/
def Entry.reg : Entry d → ℕ
  | .W1 _ => 2
  | .b1 _ => 3
  | .W2 _ => 4
  | .b2 _ => 5
  | .W3 _ => 6
  | .b3 _ => 7

/-- The place of a parameter in its tensor. -/
def Entry.idx : (e : Entry d) → shape d e.reg
  | .W1 i => i
  | .b1 i => i
  | .W2 i => i
  | .b2 i => i
  | .W3 i => i
  | .b3 i => i

section Value
variable {F : Type} [Field F] [LinearOrder F] (method : MaxMethod) (b : Fin d.q) (y : Fin d.N × Fin d.C → ℚ) (W : Nums (shape d)) (δ : ∀ r, shape d r → F)

/-- The parameters that are used. -/
def netOf : Entry d → F := fun e => (W e.reg e.idx : F) + δ e.reg e.idx

theorem finSum (f : Fin m → F) : ((List.finRange m).map f).sum = ∑ l, f l := by rw [← List.ofFn_eq_map, List.sum_ofFn]

theorem tap_valid {m l w : ℕ} (i : Fin m) (u : Fin l) (h : i.val + u.val < w) : Backprop.tap1 1 0 1 w i u = some ⟨i + u, h⟩ := by
  rw [Backprop.C98_tap]; simp

theorem row_eq (i : Fin d.N) : finProdFinEquiv (b, i) = row b i := Fin.ext (by simp [row, finProdFinEquiv_apply_val]; ring)

theorem value_images (s : Fin d.S) (u : Fin d.h) (v : Fin d.w) (h0 : δ 0 = fun _ => 0) (h1 : δ 1 = fun _ => 0) :
    eval W δ (batchTape (n := n) d method b y) 8 (s, u, v) = (pixel (W 0) (W 1) s u v : F) := by
  have e : eval W δ (batchTape (n := n) d method b y) 8 = fun i => (joinColumns d.S d.h d.wa d.wb i).elim (fun i => (W 0 i : F) + δ 0 i) (fun i => (W 1 i : F) + δ 1 i) := rfl
  rw [e, h0, h1]
  obtain ⟨v, rfl⟩ := finSumFinEquiv.surjective v
  rcases v with v | v
  · simp [joinColumns, pixel]; rfl
  · simp [joinColumns, pixel]; rfl

theorem sum_product {α β : Type} (l : List α) (l' : List β) (f : α × β → F) : ((l.product l').map f).sum = (l.map fun a => (l'.map fun b => f (a, b)).sum).sum := by
  induction l with
  | nil => rfl
  | cons a l ih => rw [show (a :: l).product l' = l'.map (fun b => (a, b)) ++ l.product l' from rfl, List.map_append, List.sum_append, ih, List.map_map]; rfl

/-- The image of an example in a batch. -/
abbrev image (F : Type) [Field F] (xa : Fin d.S × Fin d.h × Fin d.wa → ℚ) (xb : Fin d.S × Fin d.h × Fin d.wb → ℚ) (b : Fin d.q) (i : Fin d.N) : Fin d.h → Fin d.w → F := fun u v => (pixel xa xb (row b i) u v : F)

theorem value_batch (h0 : δ 0 = fun _ => 0) (h1 : δ 1 = fun _ => 0) (i : Fin d.N) (c : Fin 1) (u : Fin d.h) (v : Fin d.w) : eval W δ (batchTape (n := n) d method b y) 10 (i, c, u, v) = image F (W 0) (W 1) b i u v := by
  have e : eval W δ (batchTape (n := n) d method b y) 10 (i, c, u, v) = eval W δ (batchTape (n := n) d method b y) 8 (finProdFinEquiv (b, i), u, v) := rfl
  rw [e, value_images method b y W δ _ u v h0 h1, row_eq]

theorem value_conv (h0 : δ 0 = fun _ => 0) (h1 : δ 1 = fun _ => 0) (i : Fin d.N) (o : Fin d.O) (u : Fin d.oh) (v : Fin d.ow) :
    eval W δ (batchTape (n := n) d method b y) 15 (i, o, u, v) = max (convolved (netOf W δ) (image F (W 0) (W 1) b i) o u v) 0 := by
  have e15 : eval W δ (batchTape (n := n) d method b y) 15 (i, o, u, v) = max (eval W δ (batchTape (n := n) d method b y) 12 (i, o, u, v) + ((W 3 o : F) + δ 3 o)) 0 := rfl
  have e12 : eval W δ (batchTape (n := n) d method b y) 12 (i, o, u, v) =
      (((Backprop.conv2dBil d.N 1 d.O d.h d.w d.kh d.kw d.oh d.ow (1, 1) (0, 0) (1, 1)).op (i, o, u, v)).map fun p => eval W δ (batchTape (n := n) d method b y) 10 p.1 * ((W 2 p.2 : F) + δ 2 p.2)).sum := rfl
  rw [e15, e12]
  have hop : (Backprop.conv2dBil d.N 1 d.O d.h d.w d.kh d.kw d.oh d.ow (1, 1) (0, 0) (1, 1)).op (i, o, u, v) =
      ((List.finRange d.kh).product (List.finRange d.kw)).map fun t => ((i, 0, ⟨u + t.1, by have := u.isLt; have := t.1.isLt; simp only [Dims.oh] at *; omega⟩, ⟨v + t.2, by have := v.isLt; have := t.2.isLt; simp only [Dims.ow, Dims.w] at *; omega⟩), (o, 0, t)) := by
    unfold Backprop.conv2dBil Backprop.convBil
    simp only
    rw [show List.finRange 1 = [0] from rfl, List.flatMap_singleton, ← List.filterMap_eq_map]
    refine congrFun (congrArg List.filterMap (funext fun t => ?_)) _
    rw [tap_valid u t.1 (by have := u.isLt; have := t.1.isLt; simp only [Dims.oh] at *; omega), tap_valid v t.2 (by have := v.isLt; have := t.2.isLt; simp only [Dims.ow, Dims.w] at *; omega)]
    rfl
  rw [hop, List.map_map, sum_product, finSum]
  refine congrArg (max · 0) (congrArg₂ (· + ·) (Finset.sum_congr rfl fun p _ => ?_) rfl)
  rw [finSum]
  refine Finset.sum_congr rfl fun q _ => ?_
  show eval W δ (batchTape (n := n) d method b y) 10 _ * _ = _
  rw [value_batch method b y W δ h0 h1]
  rfl

omit [Field F] in
theorem sup_four (f : Fin (3 + 1) → F) : Finset.univ.sup' ⟨0, Finset.mem_univ _⟩ f = max (max (f 0) (f 1)) (max (f 2) (f 3)) := by
  apply le_antisymm
  · refine Finset.sup'_le _ _ fun l _ => ?_
    fin_cases l <;> simp
  · simp only [max_le_iff]
    exact ⟨⟨Finset.le_sup' f (Finset.mem_univ 0), Finset.le_sup' f (Finset.mem_univ 1)⟩, Finset.le_sup' f (Finset.mem_univ 2), Finset.le_sup' f (Finset.mem_univ 3)⟩

theorem value_pool (h0 : δ 0 = fun _ => 0) (h1 : δ 1 = fun _ => 0) (i : Fin d.N) (o : Fin d.O) (u : Fin d.ph) (v : Fin d.pw) :
    eval W δ (batchTape (n := n) d method b y) 17 (finProdFinEquiv (i, o), u, v) = pooled (netOf W δ) (image F (W 0) (W 1) b i) o u v := by
  have e17 : eval W δ (batchTape (n := n) d method b y) 17 (finProdFinEquiv (i, o), u, v) =
      Finset.univ.sup' ⟨0, Finset.mem_univ _⟩ fun l => eval W δ (batchTape (n := n) d method b y) 15 (planes d.N d.O (Fin d.oh × Fin d.ow) ((poolPlaces d).win (l, finProdFinEquiv (i, o), u, v))) := rfl
  have ew : ∀ (l : Fin (3 + 1)) (a c : Fin 2) (ha : l.val / 2 = a) (hc : l.val % 2 = c), planes d.N d.O (Fin d.oh × Fin d.ow) ((poolPlaces d).win (l, finProdFinEquiv (i, o), u, v)) =
      (i, o, ⟨2 * u + a, by have h : u.val < d.oh / 2 := u.isLt; have := a.isLt; omega⟩, ⟨2 * v + c, by have h : v.val < d.ow / 2 := v.isLt; have := c.isLt; omega⟩) := fun l a c ha hc => by
    have e : ∀ (x : Fin d.oh) (z : Fin d.ow), planes d.N d.O (Fin d.oh × Fin d.ow) (finProdFinEquiv (i, o), x, z) = (i, o, x, z) := fun x z => by
      show ((finProdFinEquiv.symm (finProdFinEquiv (i, o))).1, (finProdFinEquiv.symm (finProdFinEquiv (i, o))).2, x, z) = _
      rw [Equiv.symm_apply_apply]
    refine (e _ _).trans ?_
    refine Prod.ext rfl (Prod.ext rfl (Prod.ext (Fin.ext ?_) (Fin.ext ?_)))
    · show 2 * u.val + 1 * (l.val / 2) = _
      rw [ha, one_mul]
    · show 2 * v.val + 1 * (l.val % 2) = _
      rw [hc, one_mul]
  rw [e17, sup_four, ew 0 0 0 rfl rfl, ew 1 0 1 rfl rfl, ew 2 1 0 rfl rfl, ew 3 1 1 rfl rfl]
  simp only [value_conv method b y W δ h0 h1]
  rfl

theorem feature_eq (o : Fin d.O) (i : Fin d.ph) (j : Fin d.pw) : finProdFinEquiv (o, finProdFinEquiv (i, j)) = feature o i j := Fin.ext (by
  show (j.val + d.pw * i.val) + d.ph * d.pw * o.val = (o.val * d.ph + i.val) * d.pw + j.val
  ring)

theorem value_hidden (h0 : δ 0 = fun _ => 0) (h1 : δ 1 = fun _ => 0) (i : Fin d.N) (a : Fin d.D) :
    eval W δ (batchTape (n := n) d method b y) 24 (i, a) = hidden (netOf W δ) (image F (W 0) (W 1) b i) a := by
  have e : eval W δ (batchTape (n := n) d method b y) 24 (i, a) = max ((((List.finRange d.m).map fun l => ((i, l), (l, a))).map fun p =>
      eval W δ (batchTape (n := n) d method b y) 17 (flatten d.N d.O d.ph d.pw p.1) * ((W 4 (p.2.2, p.2.1) : F) + δ 4 (p.2.2, p.2.1))).sum * ((1 : ℚ) : F) + ((W 5 a : F) + δ 5 a) * ((1 : ℚ) : F)) 0 := rfl
  rw [e, Rat.cast_one, mul_one, mul_one, List.map_map, finSum]
  refine congrArg (max · 0) (congrArg₂ (· + ·) ?_ rfl)
  rw [← Equiv.sum_comp finProdFinEquiv, Fintype.sum_prod_type]
  refine Finset.sum_congr rfl fun o _ => ?_
  rw [← Equiv.sum_comp finProdFinEquiv, Fintype.sum_prod_type]
  refine Finset.sum_congr rfl fun u _ => Finset.sum_congr rfl fun v _ => ?_
  have ef : flatten d.N d.O d.ph d.pw (i, finProdFinEquiv (o, finProdFinEquiv (u, v))) = (finProdFinEquiv (i, o), u, v) := by
    show (finProdFinEquiv (i, (finProdFinEquiv.symm (finProdFinEquiv (o, finProdFinEquiv (u, v)))).1), finProdFinEquiv.symm (finProdFinEquiv.symm (finProdFinEquiv (o, finProdFinEquiv (u, v)))).2) = _
    rw [Equiv.symm_apply_apply, Equiv.symm_apply_apply]
  show eval W δ (batchTape (n := n) d method b y) 17 (flatten d.N d.O d.ph d.pw (i, finProdFinEquiv (o, finProdFinEquiv (u, v)))) * _ = _
  rw [ef, value_pool method b y W δ h0 h1]
  simp only [feature_eq]
  rfl

theorem value_output (h0 : δ 0 = fun _ => 0) (h1 : δ 1 = fun _ => 0) (i : Fin d.N) (c : Fin d.C) :
    eval W δ (batchTape (n := n) d method b y) 29 (i, c) = output (netOf W δ) (image F (W 0) (W 1) b i) c := by
  have e : eval W δ (batchTape (n := n) d method b y) 29 (i, c) = (((List.finRange d.D).map fun l => ((i, l), (l, c))).map fun p =>
      eval W δ (batchTape (n := n) d method b y) 24 p.1 * ((W 6 (p.2.2, p.2.1) : F) + δ 6 (p.2.2, p.2.1))).sum * ((1 : ℚ) : F) + ((W 7 c : F) + δ 7 c) * ((1 : ℚ) : F) := rfl
  rw [e, Rat.cast_one, mul_one, mul_one, List.map_map, finSum]
  refine congrArg₂ (· + ·) (Finset.sum_congr rfl fun a _ => ?_) rfl
  show eval W δ (batchTape (n := n) d method b y) 24 (i, a) * _ = _
  rw [value_hidden method b y W δ h0 h1]
  rfl

theorem value_loss (h0 : δ 0 = fun _ => 0) (h1 : δ 1 = fun _ => 0) (h11 : δ 11 = fun _ => 0) :
    eval W δ (batchTape (n := n) d method b y) out default = loss (W 0) (W 1) b y (netOf W δ) := by
  have e : eval W δ (batchTape (n := n) d method b y) out default = (∑ l : Fin (d.N * d.C), (eval W δ (batchTape (n := n) d method b y) 29 (finProdFinEquiv.symm l) - ((y (finProdFinEquiv.symm l) : F) + δ 11 (finProdFinEquiv.symm l))) ^ 2) / ((d.N * d.C : ℕ) : F) := rfl
  rw [e, h11]
  refine congrArg (· / ((d.N * d.C : ℕ) : F)) ?_
  rw [Equiv.sum_comp finProdFinEquiv.symm (fun p : Fin d.N × Fin d.C => (eval W δ (batchTape (n := n) d method b y) 29 p - ((y p : F) + 0)) ^ 2), Fintype.sum_prod_type]
  refine Finset.sum_congr rfl fun i _ => Finset.sum_congr rfl fun c _ => ?_
  rw [value_output method b y W δ h0 h1, add_zero]

end Value

/-! ## Derivatives -/

omit [NeZero n] in
theorem idx_inj (e e' : Entry d) (hr : e'.reg = e.reg) (h : hr ▸ e'.idx = e.idx) : e' = e := by
  cases e <;> cases e' <;> simp only [Entry.reg, Nat.reduceEqDiff, reduceCtorEq] at hr
  all_goals exact congrArg _ h

theorem set_at {sh : ℕ → Type} (f : ∀ r, sh r → ℝ) (r : ℕ) (v : sh r → ℝ) (r' : ℕ) (h : r' = r) (j : sh r') : set (α := fun ι => ι → ℝ) f r v r' j = v (h ▸ j) := by
  subst h
  exact congrFun (set_self (α := fun ι => ι → ℝ) _ _ _) _

theorem net_shift (W : Nums (shape d)) (e : Entry d) [DecidableEq (shape d e.reg)] (x : ℝ) :
    netOf W (set (α := fun ι => ι → ℝ) (fun _ _ => 0) e.reg (Pi.single e.idx x)) = Function.update (fun e => (W e.reg e.idx : ℝ)) e ((W e.reg e.idx : ℝ) + x) := by
  funext e'
  unfold netOf
  by_cases h : e' = e
  · subst h
    rw [Function.update_self, set_self (α := fun ι => ι → ℝ), Pi.single_eq_same]
  · rw [Function.update_of_ne h]
    suffices hz : set (α := fun ι => ι → ℝ) (fun _ _ => 0) e.reg (Pi.single e.idx x) e'.reg e'.idx = 0 by rw [hz, add_zero]
    by_cases hr : e'.reg = e.reg
    · rw [set_at _ _ _ _ hr]
      exact Pi.single_eq_of_ne (fun h' => h (idx_inj e e' hr h')) _
    · rw [set_ne (α := fun ι => ι → ℝ) _ _ hr]

theorem hasDeriv (method : MaxMethod) (b : Fin d.q) (y : Fin d.N × Fin d.C → ℚ) (W : Nums (shape d)) (hs : Backprop.Smooth W (batchTape (n := n) d method b y)) (e : Entry d) :
    HasDerivAt (fun x : ℝ => loss (W 0) (W 1) b y (Function.update (fun e => (W e.reg e.idx : ℝ)) e x)) ((Backprop.grads (values W (batchTape (n := n) d method b y)) (batchTape (n := n) d method b y) (Backprop.seed out) e.reg e.idx : ℚ) : ℝ) (W e.reg e.idx : ℝ) := by
  classical
  have h := Backprop.C98_entry W (batchTape (n := n) d method b y) out (tape_ordered method b y) (by simp [batchTape, Backprop.regs]) (tape_right method b y) hs e.reg (by cases e <;> simp [batchTape, Backprop.leaves, Entry.reg]) e.idx
  have h2 := HasDerivAt.comp_sub_const (W e.reg e.idx : ℝ) (W e.reg e.idx : ℝ) (by rw [sub_self]; exact h)
  refine h2.congr_of_eventuallyEq (Filter.Eventually.of_forall fun x => ?_)
  have hne : ∀ r, r ≠ e.reg → set (α := fun ι => ι → ℝ) (sh := shape d) (fun _ _ => 0) e.reg (Pi.single e.idx (x - (W e.reg e.idx : ℝ))) r = fun _ => 0 := fun r hr => set_ne (α := fun ι => ι → ℝ) _ _ hr
  show loss (W 0) (W 1) b y _ = eval W _ _ out default
  rw [value_loss method b y W _ (hne 0 (by cases e <;> simp [Entry.reg])) (hne 1 (by cases e <;> simp [Entry.reg])) (hne 11 (by cases e <;> simp [Entry.reg])), net_shift, add_sub_cancel]

/-! ## `update_parameters` is a step of SGD -/

section Update
variable {sh : ℕ → Type}

omit [NeZero n] in
theorem set_get (R : Regs n sh) (p : ℕ) : set (α := AST n) R p (R p) = R := by
  funext r
  by_cases h : r = p
  · subst h; exact set_self _ _ _
  · exact set_ne _ _ h

omit [NeZero n] in
theorem set_none (p : ℕ) : set (sh := sh) (α := fun ι => Option (AST n ι)) (fun _ => none) p none = fun _ => none := by
  funext r
  by_cases h : r = p
  · subst h; exact set_self (α := fun ι => Option (AST n ι)) _ _ _
  · exact set_ne (α := fun ι => Option (AST n ι)) _ _ h

theorem update_step {ι : Type} (D : ℕ) (thr2 : Option ℚ) (lr : ℚ) (p g : AST n ι) (T : Tuples n) (c : ℕ) :
    (Sgd.stepShares D thr2 (hyper lr) (p, none) (some g) T c).val = ((updateShares D thr2 lr p g T c).val, none) ∧
    (Sgd.stepShares D thr2 (hyper lr) (p, none) (some g) T c).ctr = (updateShares D thr2 lr p g T c).ctr ∧
    ((updateShares D thr2 lr p g T c).good → (Sgd.stepShares D thr2 (hyper lr) (p, none) (some g) T c).good) := by
  have e : Sgd.stepShares D thr2 (hyper lr) (p, none) (some g) = (do
      let d ← Sgd.usedShares D thr2 g
      let d ← pure d
      let q ← (do
        let u ← AST.mulPub (elementwise ι) d fun _ => lr
        p.sub u)
      pure (q, none)) := by
    simp only [Sgd.stepShares, Sgd.decayShares, Sgd.descendShares, Sgd.scale, hyper, Sgd.Scalar.val, Int.cast_zero, if_true]
  rw [e]
  exact ⟨rfl, rfl, fun h => ⟨h.1, trivial, h.2, trivial⟩⟩

theorem update_all (D : ℕ) (thr2 : Option ℚ) (lr : ℚ) (G : Grads n sh) (ps : List ℕ) (R : Regs n sh) (T : Tuples n) (c : ℕ) :
    (Training.stepAll D thr2 (hyper lr) G ps (R, fun _ => none) T c).val = ((updateParameters D thr2 lr G ps R T c).val, fun _ => none) ∧
    (Training.stepAll D thr2 (hyper lr) G ps (R, fun _ => none) T c).ctr = (updateParameters D thr2 lr G ps R T c).ctr ∧
    ((updateParameters D thr2 lr G ps R T c).good → (Training.stepAll D thr2 (hyper lr) G ps (R, fun _ => none) T c).good) := by
  induction ps generalizing R c with
  | nil => exact ⟨rfl, rfl, fun _ => trivial⟩
  | cons p ps ih =>
    cases hg : G p with
    | none =>
      have e1 : updateParameters D thr2 lr G (p :: ps) R = updateParameters D thr2 lr G ps R := by rw [updateParameters, hg]
      have e2 : Training.stepAll D thr2 (hyper lr) G (p :: ps) (R, fun _ => none) = (do
          let r ← pure (R p, none)
          Training.stepAll D thr2 (hyper lr) G ps (set (α := AST n) R p r.1, set (α := fun ι => Option (AST n ι)) (fun _ => none) p r.2)) := by rw [Training.stepAll, hg]; rfl
      rw [e1, e2]
      have h := ih R c
      have e3 : (do
          let r ← (pure (R p, none) : Proto n (AST n (sh p) × Option (AST n (sh p))))
          Training.stepAll D thr2 (hyper lr) G ps (set (α := AST n) R p r.1, set (α := fun ι => Option (AST n ι)) (fun _ => none) p r.2)) T c =
          ⟨(Training.stepAll D thr2 (hyper lr) G ps (set (α := AST n) R p (R p), set (α := fun ι => Option (AST n ι)) (fun _ => none) p none) T c).val,
            (Training.stepAll D thr2 (hyper lr) G ps (set (α := AST n) R p (R p), set (α := fun ι => Option (AST n ι)) (fun _ => none) p none) T c).ctr,
            True ∧ (Training.stepAll D thr2 (hyper lr) G ps (set (α := AST n) R p (R p), set (α := fun ι => Option (AST n ι)) (fun _ => none) p none) T c).good, _⟩ := rfl
      rw [e3, set_get, set_none]
      exact ⟨h.1, h.2.1, fun hh => ⟨trivial, h.2.2 hh⟩⟩
    | some g =>
      have e1 : updateParameters D thr2 lr G (p :: ps) R = (do
          let w ← updateShares D thr2 lr (R p) g
          updateParameters D thr2 lr G ps (set (α := AST n) R p w)) := by rw [updateParameters, hg]
      have e2 : Training.stepAll D thr2 (hyper lr) G (p :: ps) (R, fun _ => none) = (do
          let r ← Sgd.stepShares D thr2 (hyper lr) (R p, none) (some g)
          Training.stepAll D thr2 (hyper lr) G ps (set (α := AST n) R p r.1, set (α := fun ι => Option (AST n ι)) (fun _ => none) p r.2)) := by rw [Training.stepAll, hg]
      rw [e1, e2]
      obtain ⟨a1, a2, a3⟩ := update_step D thr2 lr (R p) g T c
      set S := Sgd.stepShares D thr2 (hyper lr) (R p, none) (some g) T c with hS
      have h := ih (set (α := AST n) R p (updateShares D thr2 lr (R p) g T c).val) (updateShares D thr2 lr (R p) g T c).ctr
      have e3 : ∀ f : AST n (sh p) × Option (AST n (sh p)) → Proto n (Training.State n sh), ((Sgd.stepShares D thr2 (hyper lr) (R p, none) (some g) >>= f) T c).val = (f S.val T S.ctr).val ∧
          ((Sgd.stepShares D thr2 (hyper lr) (R p, none) (some g) >>= f) T c).ctr = (f S.val T S.ctr).ctr ∧
          ((Sgd.stepShares D thr2 (hyper lr) (R p, none) (some g) >>= f) T c).good = (S.good ∧ (f S.val T S.ctr).good) := fun f => ⟨rfl, rfl, rfl⟩
      obtain ⟨b1, b2, b3⟩ := e3 fun r => Training.stepAll D thr2 (hyper lr) G ps (set (α := AST n) R p r.1, set (α := fun ι => Option (AST n ι)) (fun _ => none) p r.2)
      rw [b1, b2, b3, a1, a2, set_none]
      exact ⟨h.1, h.2.1, fun hh => ⟨a3 hh.1, h.2.2 hh.2⟩⟩

theorem sat_update (D : ℕ) (thr2 : Option ℚ) (lr : ℚ) (G : Grads n sh) (ps : List ℕ) (R : Regs n sh) {P : Training.State n sh → Prop} (h : Sat (Training.stepAll D thr2 (hyper lr) G ps (R, fun _ => none)) P) :
    Sat (updateParameters D thr2 lr G ps R) fun R' => P (R', fun _ => none) := fun T hT c hg => by
  obtain ⟨h1, _, h3⟩ := update_all D thr2 lr G ps R T c
  rw [← h1]
  exact h T hT c (h3 hg)

end Update

/-! ## Training -/

section Train
open Training (Exact Sizes Fits TrainFits exactStep exactTrain errNext errTrain Tracks Nonneg)
variable {sh : ℕ → Type} {k : ℕ}

/-- What the log of batch `j` shows. -/
def LogRight (k : ℕ) (z : Sizes) (thr : Option ℚ) (h : Sgd.HyperS) (ps : List ℕ) (out : ℕ) (ts : List (Tape n sh)) (s : Exact sh) (e : ℕ → ℚ × Option ℚ) (log : List (Regs n sh)) : Prop :=
  log.length = ts.length ∧ ∀ (j : ℕ) t L, ts[j]? = some t → log[j]? = some L → ∀ r ∈ Backprop.regs t,
    Sgd.Approx k (L r) (values (exactTrain thr h ps out (ts.take j) s).1 t r) (Backprop.errs n k (fun q => (errTrain k z thr h ps out (ts.take j) s e q).1) z.M t r)

theorem sat_batches (hn : n < 2 ^ 60) (hk0 : 0 < k) (hk : k ≤ 62) {z : Sizes} {E C : ℚ} {thr : Option ℚ} {lr : ℚ} (room : Sgd.Room n k thr (hyper lr) z.B E C) {held ps : List ℕ} {out : ℕ} (hM : ∀ r, 0 ≤ z.M r) (hK : ∀ r, 0 ≤ z.K r)
    (hK1 : 1 ≤ z.K out) (hnd : ps.Nodup) (hh : ∀ r ∈ ps, r ∈ held) (ts : List (Tape n sh)) {s : Exact sh} {e : ℕ → ℚ × Option ℚ} (he : Nonneg e) (hf : TrainFits k z E thr (hyper lr) held ps out ts s e) {R : Regs n sh}
    (hs : Tracks k held (R, fun _ => none) s e) :
    Sat (batches k (Sgd.squareThreshold thr) lr ps out ts R) fun r => Tracks k held (r.1, fun _ => none) (exactTrain thr (hyper lr) ps out ts s) (errTrain k z thr (hyper lr) ps out ts s e) ∧ LogRight k z thr (hyper lr) ps out ts s e r.2 := by
  induction ts generalizing s e R with
  | nil => exact Sat.pure ⟨hs, rfl, fun j t L h => by simp at h⟩
  | cons t ts ih =>
    have hf1 := hf.1
    refine Sat.bind (Backprop.C98_backward hn hk0 hk t R out (fun r => (e r).1) z.M z.K s.1 (fun r => (he r).1) hM hK hK1 hf1.ordered (fun r hr => (hs r (hf1.held r hr)).1) hf1.forward hf1.backward) fun y hy => ?_
    have hu := sat_update (2 ^ k) (Sgd.squareThreshold thr) lr y.2 ps R (Training.sat_stepAll (q := Backprop.reach t fun q => decide (q = out)) (g := Backprop.grads (values s.1 t) t (Backprop.seed out))
      (eg := Training.gradientErr n k z out t s.1 fun q => (e q).1) hn hk0 hk room (fun r => by
        have h1 := hy.2 r
        cases hg : y.2 r with
        | none => rw [hg] at h1; exact ⟨h1.1.symm, fun x hx => nomatch hx⟩
        | some g => rw [hg] at h1; exact ⟨h1.1.symm, fun x hx => Option.some.inj hx ▸ h1.2⟩) ps hnd (fun r _ => he r) hf1.error hf1.size hf1.step (R, fun _ => none) fun r hr => hs r (hh r hr))
    refine Sat.bind hu fun R' hR' => ?_
    have ht : Tracks k held (R', fun _ => none) (exactStep thr (hyper lr) ps out t s) (errNext k z (hyper lr) ps out t s.1 e) := fun r hr => by
      unfold exactStep errNext
      by_cases hp : r ∈ ps
      · simp only [if_pos hp]
        exact hR'.2 r hp
      · simp only [if_neg hp]
        have h1 : R' r = R r := (hR'.1 r hp).1
        rw [h1]
        exact hs r hr
    refine Sat.bind (ih (Training.errNext_nonneg room.magnitude he hf1) hf.2 ht) fun r hr => Sat.pure ⟨hr.1, ?_, fun j t' L h1 h2 => ?_⟩
    · show r.2.length + 1 = ts.length + 1
      rw [hr.2.1]
    · cases j with
      | zero =>
        obtain rfl : t = t' := by simpa using h1
        obtain rfl : y.1 = L := by simpa using h2
        exact hy.1
      | succ j => exact hr.2.2 j t' L (by simpa using h1) (by simpa using h2)

omit [NeZero n] in
theorem exactTrain_append (thr : Option ℚ) (h : Sgd.HyperS) (ps : List ℕ) (out : ℕ) (ts ts' : List (Tape n sh)) (s : Exact sh) : exactTrain thr h ps out (ts ++ ts') s = exactTrain thr h ps out ts' (exactTrain thr h ps out ts s) := by
  induction ts generalizing s with
  | nil => rfl
  | cons t ts ih => exact ih _

omit [NeZero n] in
theorem exactTrain_succ (thr : Option ℚ) (h : Sgd.HyperS) (ps : List ℕ) (out : ℕ) {ts : List (Tape n sh)} {j : ℕ} {t : Tape n sh} (ht : ts[j]? = some t) (s : Exact sh) :
    exactTrain thr h ps out (ts.take (j + 1)) s = exactStep thr h ps out t (exactTrain thr h ps out (ts.take j) s) := by
  rw [List.take_add_one, ht, exactTrain_append]
  rfl

omit [NeZero n] in
theorem exactTrain_kept (thr : Option ℚ) (h : Sgd.HyperS) {ps : List ℕ} (out : ℕ) (ts : List (Tape n sh)) (s : Exact sh) {r : ℕ} (hr : r ∉ ps) : (exactTrain thr h ps out ts s).1 r = s.1 r := by
  induction ts generalizing s with
  | nil => rfl
  | cons t ts ih => exact (ih _).trans (if_neg hr)

omit [NeZero n] in
theorem fits_at {z : Sizes} {E : ℚ} {thr : Option ℚ} {h : Sgd.HyperS} {held ps : List ℕ} {out : ℕ} (hB : 0 ≤ z.B) {ts : List (Tape n sh)} {s : Exact sh} {e : ℕ → ℚ × Option ℚ} (he : Nonneg e) (hf : TrainFits k z E thr h held ps out ts s e)
    {j : ℕ} {t : Tape n sh} (ht : ts[j]? = some t) : ∃ e', Nonneg e' ∧ Training.Fits k z E thr h held ps out t (exactTrain thr h ps out (ts.take j) s) e' := by
  induction ts generalizing s e j with
  | nil => simp at ht
  | cons t' ts ih =>
    cases j with
    | zero =>
      obtain rfl : t' = t := by simpa using ht
      exact ⟨e, he, hf.1⟩
    | succ j => exact ih (Training.errNext_nonneg hB he hf.1) hf.2 (by simpa using ht)

theorem get_replicate {α : Type} (l : List α) (m j : ℕ) (hj : j < m * l.length) : (List.replicate m l).flatten[j]? = l[j % l.length]? := by
  induction m generalizing j with
  | zero => simp at hj
  | succ m ih =>
    rw [List.replicate_succ, List.flatten_cons, List.getElem?_append]
    split
    · rename_i h
      rw [Nat.mod_eq_of_lt h]
    · rename_i h
      rw [Nat.not_lt] at h
      rw [ih (j - l.length) (by rw [Nat.add_one_mul] at hj; omega), Nat.mod_eq_sub_mod h]

/-- The exact parameters. -/
def netQ (W : Nums (shape d)) : Entry d → ℚ := fun e => W e.reg e.idx

omit [NeZero n] in
theorem reach_list (l : List ℕ) (r : ℕ) (c : Backprop.Call n sh r) (t : Tape n sh) : Backprop.reach (⟨r, c⟩ :: t) (fun q => decide (q ∈ l)) = if r ∈ l then Backprop.reach t (fun q => decide (q ∈ l ++ c.operands)) else Backprop.reach t fun q => decide (q ∈ l) := by
  rw [Backprop.reach]
  by_cases h : r ∈ l
  · simp only [h, decide_true, if_true]
    congr 1
    funext q
    simp
  · simp [h]

theorem reached (method : MaxMethod) (b : Fin d.q) (y : Fin d.N × Fin d.C → ℚ) (e : Entry d) : Backprop.reach (batchTape (n := n) d method b y) (fun q => decide (q = out)) e.reg = true := by
  rw [show (fun q => decide (q = out)) = fun q => decide (q ∈ [out]) from funext fun q => by simp]
  cases e <;> simp [batchTape, reach_list, Backprop.Call.operands, Entry.reg, Backprop.reach]

theorem descends (method : MaxMethod) (b : Fin d.q) (y : Fin d.N × Fin d.C → ℚ) (thr : Option ℚ) (lr : ℚ) (s : Exact (shape d)) (hs : Backprop.Smooth s.1 (batchTape (n := n) d method b y)) :
    Descends thr lr (loss (s.1 0) (s.1 1) b y) (netQ s.1) (netQ (exactStep thr (hyper lr) params out (batchTape (n := n) d method b y) s).1) := fun e => by
  refine ⟨_, hasDeriv method b y s.1 hs e, ?_⟩
  have hp : e.reg ∈ params := by cases e <;> simp [Entry.reg, params]
  unfold netQ exactStep
  simp only [if_pos hp]
  unfold Training.gradient
  rw [if_pos (reached method b y e)]
  simp only [Sgd.docStep, hyper, Sgd.HyperS.exact, Sgd.Scalar.val, Int.cast_zero, if_true, Sgd.usedGradient, zero_mul, add_zero]
  rfl

/-- All batches of all epochs. -/
def tapes (n : ℕ) [NeZero n] (d : Dims) (method : MaxMethod) (y : Fin d.q → Fin d.N × Fin d.C → ℚ) (epochs : ℕ) : List (Tape n (shape d)) := (List.replicate epochs ((List.finRange d.q).map fun b => batchTape d method b (y b))).flatten

theorem tapes_get (method : MaxMethod) (y : Fin d.q → Fin d.N × Fin d.C → ℚ) (epochs j : ℕ) (b : Fin d.q) (hj : j < epochs * d.q) (hb : b.val = j % d.q) : (tapes n d method y epochs)[j]? = some (batchTape d method b (y b)) := by
  have hl : ((List.finRange d.q).map fun b => batchTape (n := n) d method b (y b)).length = d.q := by simp
  unfold tapes
  rw [get_replicate _ _ _ (by rw [hl]; exact hj), hl, ← hb]
  simp

theorem tapes_length (method : MaxMethod) (y : Fin d.q → Fin d.N × Fin d.C → ℚ) (epochs : ℕ) : (tapes n d method y epochs).length = epochs * d.q := by
  simp [tapes]

/-- The exact state before training. -/
def origin (n : ℕ) [NeZero n] (d : Dims) (bob : Fin n) (xa : Fin d.S × Fin d.h × Fin d.wa → ℚ) (xb : Fin d.S × Fin d.h × Fin d.wb → ℚ) (net : Entry d → ℚ) : Exact (shape d) := (Training.start (tensors d bob xa xb net) fun _ _ => 0, fun _ => none)

/-- **C102 (training).** In the example, with `q` batches of `N` images whose columns are held by two parties, any sizes, any method for the maximum and any number of epochs: there are networks, each obtained from the last by a step of
gradient descent on the mean squared error of the network on the next batch, such that the encrypted parameters after training are within the computed errors of the last network, and the encrypted loss and outputs of every batch are within
the computed errors of the loss and outputs of the network at that time. -/
theorem C102_train (hn : n < 2 ^ 60) (hk0 : 0 < k) (hk : k ≤ 62) (method : MaxMethod) (bob : Fin n) {z : Sizes} {B E C : ℚ} {thr : Option ℚ} {lr : ℚ} (room : Sgd.Room n k thr (hyper lr) z.B E C) (hM : ∀ r, 0 ≤ z.M r) (hK : ∀ r, 0 ≤ z.K r)
    (hK1 : 1 ≤ z.K out) (epochs : ℕ) (xa : Fin d.S × Fin d.h × Fin d.wa → ℚ) (xb : Fin d.S × Fin d.h × Fin d.wb → ℚ) (y : Fin d.q → Fin d.N × Fin d.C → ℚ) (net : Entry d → ℚ) (hB : 2 ^ k * (B + 1 / 2 ^ k) < 2 ^ 63)
    (hxa : ∀ i, |xa i| ≤ B) (hxb : ∀ i, |xb i| ≤ B) (hnet : ∀ e, |net e| ≤ B)
    (hf : TrainFits k z E thr (hyper lr) [0, 1, 2, 3, 4, 5, 6, 7] params out (tapes n d method y epochs) (origin n d bob xa xb net) fun _ => (1 / 2 ^ k, none)) (init : Regs n (shape d)) :
    ∃ nets : ℕ → Entry d → ℚ, nets 0 = net ∧ (∀ j (b : Fin d.q), j < epochs * d.q → b.val = j % d.q → Descends thr lr (loss xa xb b (y b)) (nets j) (nets (j + 1))) ∧
      Sat (runExample k d method bob thr lr epochs xa xb y net init) fun r =>
        (∀ e, |param r.1 e - nets (epochs * d.q) e| ≤ e.bound fun q => (errTrain k z thr (hyper lr) params out (tapes n d method y epochs) (origin n d bob xa xb net) (fun _ => (1 / 2 ^ k, none)) q).1) ∧
        r.2.length = epochs * d.q ∧
        ∀ j (b : Fin d.q) L, b.val = j % d.q → r.2[j]? = some L →
          let err := Backprop.errs n k (fun q => (errTrain k z thr (hyper lr) params out ((tapes n d method y epochs).take j) (origin n d bob xa xb net) (fun _ => (1 / 2 ^ k, none)) q).1) z.M (batchTape (n := n) d method b (y b))
          |(L out).value () - loss xa xb b (y b) (nets j)| ≤ err out ∧
          ∀ i c, |(L 29).value (i, c) - output (nets j) (fun u v => pixel xa xb (row b i) u v) c| ≤ err 29 := by
  have hnn : Nonneg fun _ => ((1 : ℚ) / 2 ^ k, none) := fun r => ⟨by dsimp only; positivity, fun f hf => by simp at hf⟩
  have hW : ∀ j, (exactTrain thr (hyper lr) params out ((tapes n d method y epochs).take j) (origin n d bob xa xb net)).1 0 = xa ∧
      (exactTrain thr (hyper lr) params out ((tapes n d method y epochs).take j) (origin n d bob xa xb net)).1 1 = xb := fun j =>
    ⟨(exactTrain_kept thr (hyper lr) out _ _ (by simp [params])).trans rfl, (exactTrain_kept thr (hyper lr) out _ _ (by simp [params])).trans rfl⟩
  refine ⟨fun j => netQ (exactTrain thr (hyper lr) params out ((tapes n d method y epochs).take j) (origin n d bob xa xb net)).1, ?_, fun j b hj hb => ?_, ?_⟩
  · funext e
    cases e <;> rfl
  · have ht := tapes_get (n := n) method y epochs j b hj hb
    obtain ⟨e', he', hf'⟩ := fits_at room.magnitude hnn hf ht
    have h := descends method b (y b) thr lr _ (hf'.smooth he' hM)
    rw [(hW j).1, (hW j).2] at h
    beta_reduce
    rw [exactTrain_succ thr (hyper lr) params out ht]
    exact h
  · refine Sat.bind (Training.sat_encryptAll hB (tensors d bob xa xb net) ?_ [] init (fun _ _ => 0) (fun r hr => absurd hr (by simp))) fun R hR => ?_
    · intro x hx i
      simp only [tensors, List.mem_cons, List.not_mem_nil, or_false] at hx
      rcases hx with rfl | rfl | rfl | rfl | rfl | rfl | rfl | rfl
      exacts [hxa i, hxb i, hnet _, hnet _, hnet _, hnet _, hnet _, hnet _]
    refine (sat_batches hn hk0 hk room hM hK hK1 (by decide) (by decide) (tapes n d method y epochs) hnn hf (fun r hr => ⟨hR r (.inr hr), trivial⟩)).mono fun r hr => ⟨fun e => ?_, ?_, fun j b L hb hL => ?_⟩
    · beta_reduce
      rw [List.take_of_length_le (by rw [tapes_length])]
      cases e with
      | W1 i => exact (hr.1 2 (by decide)).1.2 i
      | b1 i => exact (hr.1 3 (by decide)).1.2 i
      | W2 i => exact (hr.1 4 (by decide)).1.2 i
      | b2 i => exact (hr.1 5 (by decide)).1.2 i
      | W3 i => exact (hr.1 6 (by decide)).1.2 i
      | b3 i => exact (hr.1 7 (by decide)).1.2 i
    · rw [hr.2.1, tapes_length]
    · have hj : j < epochs * d.q := by
        have := (List.getElem?_eq_some_iff.1 hL).1
        rwa [hr.2.1, tapes_length] at this
      have h := hr.2.2 j _ L (tapes_get (n := n) method y epochs j b hj hb) hL
      have hz : ∀ (W : Nums (shape d)), netOf W (fun _ _ => (0 : ℚ)) = netQ W := fun W => funext fun e => by simp [netOf, netQ]
      refine ⟨?_, fun i c => ?_⟩
      · have h1 := (h out (by simp [batchTape, Backprop.regs])).2 ()
        have e1 := value_loss (F := ℚ) (n := n) method b (y b) (exactTrain thr (hyper lr) params out ((tapes n d method y epochs).take j) (origin n d bob xa xb net)).1 (fun _ _ => 0) rfl rfl rfl
        rw [hz, (hW j).1, (hW j).2] at e1
        rw [← e1]
        exact h1
      · have h1 := (h 29 (by simp [batchTape, Backprop.regs])).2 (i, c)
        have e1 := value_output (F := ℚ) (n := n) method b (y b) (exactTrain thr (hyper lr) params out ((tapes n d method y epochs).take j) (origin n d bob xa xb net)).1 (fun _ _ => 0) rfl rfl i c
        rw [hz, (hW j).1, (hW j).2] at e1
        have e2 : (fun u v => pixel xa xb (row b i) u v) = image ℚ xa xb b i := by funext u v; simp [image]
        rw [e2, ← e1]
        exact h1

/-! ## Privacy -/

section Private
open Privacy
variable {h : Fin n}

/-- Parameters and logs. -/
def LSame (h : Fin n) (r r' : Regs n sh × List (Regs n sh)) : Prop := SameRegs h r.1 r'.1 ∧ List.Forall₂ (SameRegs h) r.2 r'.2

theorem hide_updateAll (D : ℕ) (thr2 : Option ℚ) (lr : ℚ) {G G' : Grads n sh} (eG : SameGrads h G G') (ps : List ℕ) {R R' : Regs n sh} (e : SameRegs h R R') :
    Hidden h (SameRegs h) (updateParameters D thr2 lr G ps R) (updateParameters D thr2 lr G' ps R') := by
  induction ps generalizing R R' with
  | nil => exact .pure e
  | cons p ps ih =>
    rw [updateParameters, updateParameters]
    rcases eG p with ⟨h1, h2⟩ | ⟨g, g', h1, h2, hg⟩
    · rw [h1, h2]
      exact ih e
    · rw [h1, h2]
      exact .bind .refl (.bind .refl (hide_used D thr2 hg) fun _ _ hd => .bind .refl (hide_mulPub _ hd _) fun _ _ hu => hide_sub (e p) hu) fun _ _ hw => ih (set_same e p hw)

theorem hide_batches (k : ℕ) (thr2 : Option ℚ) (lr : ℚ) (ps : List ℕ) (out : ℕ) {ts ts' : List (Tape n sh)} (ht : List.Forall₂ (SameTape h) ts ts') {R R' : Regs n sh} (e : SameRegs h R R') :
    Hidden h (LSame h) (batches k thr2 lr ps out ts R) (batches k thr2 lr ps out ts' R') := by
  induction ht generalizing R R' with
  | nil => exact .pure ⟨e, .nil⟩
  | cons hc _ ih =>
    exact .bind SameState.refl (hide_run k hc e out) fun _ _ hz => .bind SameRegs.refl (hide_updateAll _ thr2 lr hz.2 ps e) fun _ _ hR =>
      .bind (fun r => ⟨SameRegs.refl _, List.forall₂_same.2 fun _ _ => SameRegs.refl _⟩) (ih hR) fun _ _ hr => .pure ⟨hr.1, .cons hz.1 hr.2⟩

theorem tapes_same {d : Dims} (method : MaxMethod) {y y' : Fin d.q → Fin d.N × Fin d.C → ℚ} (epochs : ℕ) (hy : h = 0 ∨ y = y') : List.Forall₂ (SameTape h) (tapes n d method y epochs) (tapes n d method y' epochs) := by
  have hb : List.Forall₂ (SameTape h) ((List.finRange d.q).map fun b => batchTape (n := n) d method b (y b)) ((List.finRange d.q).map fun b => batchTape (n := n) d method b (y' b)) := by
    rw [List.forall₂_map_left_iff, List.forall₂_map_right_iff, List.forall₂_same]
    intro b _
    rcases hy with rfl | rfl
    · have hrefl : ∀ l : Tape n (shape d), SameTape 0 l l := fun l => List.forall₂_same.2 fun _ _ => .inl rfl
      have hl : ∀ l : Tape n (shape d), SameTape (0 : Fin n) (⟨11, .leaf 0 (y b)⟩ :: l) (⟨11, .leaf 0 (y' b)⟩ :: l) := fun l => .cons (.inr ⟨11, _, _, rfl, rfl⟩) (hrefl l)
      unfold batchTape
      iterate 21 refine List.Forall₂.cons (.inl rfl) ?_
      exact hl _
    · exact List.forall₂_same.2 fun _ _ => .inl rfl
  unfold tapes
  induction epochs with
  | zero => exact .nil
  | succ m ih =>
    rw [List.replicate_succ, List.replicate_succ, List.flatten_cons, List.flatten_cons]
    exact List.rel_append hb ih

theorem LSame.symm (r r' : Regs n sh × List (Regs n sh)) (e : LSame h r r') : LSame h r' r := ⟨e.1.symm, List.Forall₂.flip (e.2.imp fun _ _ e => e.symm)⟩

/-- **C102 (privacy of party 0).** Whatever the images, labels and parameters of party 0 are, all other parties together see the same of the training: their parts of the tuples, all messages, their shares of the parameters, of the losses and
of all other results. -/
theorem C102_private_alice (k : ℕ) (d : Dims) (method : MaxMethod) (bob : Fin n) (thr : Option ℚ) (lr : ℚ) (epochs : ℕ) (xa xa' : Fin d.S × Fin d.h × Fin d.wa → ℚ) (xb : Fin d.S × Fin d.h × Fin d.wb → ℚ)
    (y y' : Fin d.q → Fin d.N × Fin d.C → ℚ) (net net' : Entry d → ℚ) (init : Regs n (shape d)) :
    Private (0 : Fin n) (fun r r' => SameRegs 0 r.1 r'.1 ∧ List.Forall₂ (SameRegs 0) r.2 r'.2) (runExample k d method bob thr lr epochs xa xb y net init) (runExample k d method bob thr lr epochs xa' xb y' net' init) := by
  have hide : ∀ xa xa' y y' net net', Hidden (0 : Fin n) (LSame 0) (runExample k d method bob thr lr epochs xa xb y net init) (runExample k d method bob thr lr epochs xa' xb y' net' init) := fun xa xa' y y' net net' =>
    .bind SameRegs.refl (hide_encryptAll k (.cons (.inr ⟨0, _, _, rfl, rfl⟩) (.cons (.inl rfl) (.cons (.inr ⟨2, _, _, rfl, rfl⟩) (.cons (.inr ⟨3, _, _, rfl, rfl⟩) (.cons (.inr ⟨4, _, _, rfl, rfl⟩)
      (.cons (.inr ⟨5, _, _, rfl, rfl⟩) (.cons (.inr ⟨6, _, _, rfl, rfl⟩) (.cons (.inr ⟨7, _, _, rfl, rfl⟩) .nil)))))))) (SameRegs.refl init)) fun _ _ hR => hide_batches k _ lr params out (tapes_same method epochs (.inl rfl)) hR
  exact (hide xa xa' y y' net net').private LSame.symm (hide xa' xa y' y net' net)

/-- **C102 (privacy of party 1).** The same for the images of the other party. -/
theorem C102_private_bob (k : ℕ) (d : Dims) (method : MaxMethod) (bob : Fin n) (thr : Option ℚ) (lr : ℚ) (epochs : ℕ) (xa : Fin d.S × Fin d.h × Fin d.wa → ℚ) (xb xb' : Fin d.S × Fin d.h × Fin d.wb → ℚ)
    (y : Fin d.q → Fin d.N × Fin d.C → ℚ) (net : Entry d → ℚ) (init : Regs n (shape d)) :
    Private bob (fun r r' => SameRegs bob r.1 r'.1 ∧ List.Forall₂ (SameRegs bob) r.2 r'.2) (runExample k d method bob thr lr epochs xa xb y net init) (runExample k d method bob thr lr epochs xa xb' y net init) := by
  have hide : ∀ xb xb', Hidden bob (LSame bob) (runExample k d method bob thr lr epochs xa xb y net init) (runExample k d method bob thr lr epochs xa xb' y net init) := fun xb xb' =>
    .bind SameRegs.refl (hide_encryptAll k (.cons (.inl rfl) (.cons (.inr ⟨1, _, _, rfl, rfl⟩) (List.forall₂_same.2 fun _ _ => .inl rfl))) (SameRegs.refl init)) fun _ _ hR =>
      hide_batches k _ lr params out (tapes_same method epochs (.inr rfl)) hR
  exact (hide xb xb').private LSame.symm (hide xb' xb)

end Private

/-! ## Good runs -/

theorem calm_update {ι : Type} (D : ℕ) (thr2 : Option ℚ) (lr : ℚ) {p g : AST n ι} (hp : p.Alone) (hg : g.Alone) : Calm (updateShares D thr2 lr p g) AST.Alone := by
  have hu : Calm (Sgd.usedShares D thr2 g) AST.Alone := by
    cases thr2 with
    | none => exact Calm.pure hg
    | some t => exact Calm.bind (calm_square g) fun a ha => Calm.bind (calm_lt D ha _ fun z hz => nomatch hz) fun b hb => calm_mul _ _ _
  exact Calm.bind hu fun d hd => Calm.bind (calm_mulPub _ hd _) fun u hu => calm_sub hp hu

theorem calm_updateAll (D : ℕ) (thr2 : Option ℚ) (lr : ℚ) {G : Grads n sh} (hG : ∀ r g, G r = some g → g.Alone) (ps : List ℕ) (R : Regs n sh) (hR : ∀ r, (R r).Alone) : Calm (updateParameters D thr2 lr G ps R) fun R' => ∀ r, (R' r).Alone := by
  induction ps generalizing R with
  | nil => exact Calm.pure hR
  | cons p ps ih =>
    rw [updateParameters]
    cases hg : G p with
    | none => exact ih R hR
    | some g => exact Calm.bind (calm_update D thr2 lr (hR p) (hG p g hg)) fun w hw => ih _ (Program.set_alone hR p hw)

theorem possible_batches (k : ℕ) (thr2 : Option ℚ) (lr : ℚ) (ps : List ℕ) (out : ℕ) (ts : List (Tape n sh)) (R : Regs n sh) (hR : ∀ r, (R r).Alone) {β : Type} {f : Regs n sh × List (Regs n sh) → Proto n β} (hf : ∀ z c, Program.Possible (f z) c)
    (c : ℕ) : Program.Possible (batches k thr2 lr ps out ts R >>= f) c := by
  induction ts generalizing R c f with
  | nil =>
    obtain ⟨Z, h1, h2⟩ := hf (R, []) c
    exact ⟨Z, h1, fun Z' hZ' => ⟨trivial, h2 Z' hZ'⟩⟩
  | cons t ts ih =>
    refine Backprop.possible_assoc (Backprop.possible_run k t R hR out (fun z _ hz c => ?_) c)
    refine Backprop.possible_assoc (Program.Possible.of_calm (calm_updateAll _ thr2 lr hz ps R hR) (fun R' hR' c => ?_) c)
    refine Backprop.possible_assoc (ih R' hR' (fun r c => ?_) c)
    obtain ⟨Z, h1, h2⟩ := hf (r.1, z.1 :: r.2) c
    exact ⟨Z, h1, fun Z' hZ' => ⟨trivial, h2 Z' hZ'⟩⟩

/-- **C102 (good runs exist).** -/
theorem C102_good_run (k : ℕ) (d : Dims) (method : MaxMethod) (bob : Fin n) (thr : Option ℚ) (lr : ℚ) (epochs : ℕ) (xa : Fin d.S × Fin d.h × Fin d.wa → ℚ) (xb : Fin d.S × Fin d.h × Fin d.wb → ℚ) (y : Fin d.q → Fin d.N × Fin d.C → ℚ) (net : Entry d → ℚ) :
    ∃ T : Tuples n, T.Valid ∧ (runExample k d method bob thr lr epochs xa xb y net (fun _ => ⟨0, 2 ^ k⟩) T 0).good := by
  have hp : Program.Possible (runExample k d method bob thr lr epochs xa xb y net (fun _ => ⟨0, 2 ^ k⟩) >>= pure) 0 :=
    Backprop.possible_assoc (Training.possible_encryptAll k _ _ (fun r p _ i => rfl) (fun R hR c => possible_batches k _ lr params out _ R hR (fun z c => Backprop.possible_pure z c) c) 0)
  obtain ⟨T, hT, hg⟩ := Program.Possible.run hp
  exact ⟨T, hT, hg.1⟩

end Train

end CrypTen.Cnn
