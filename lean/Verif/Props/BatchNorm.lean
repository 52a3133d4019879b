import Verif.Spec.BatchNorm
import Mathlib.Tactic.FieldSimp
import Mathlib.Tactic.Ring
import Mathlib.Tactic.NormNum

/-!
# C67: batch normalisation uses the layer's current state, after every history
-/

namespace CrypTen.BatchNorm
open BatchNormSpec
variable {n : ℕ} [NeZero n] {C P K : Type}

theorem get_iff (a : Val n C K) (v : C → K) : a.get = some v ↔ Holds a v := by
  cases a with
  | enc w => simp [Val.get, Holds]
  | plain w =>
    simp only [Val.get, Holds, reduceCtorEq, false_or, Val.plain.injEq]
    constructor
    · intro h
      split at h
      · rename_i hc
        injection h with h
        funext p; rw [hc p, h]
      · cases h
    · rintro rfl
      simp

theorem map_holds (f : K → K) {a : Val n C K} {v : C → K} (h : Holds a v) : Holds (a.map f) (fun c => f (v c)) := by
  rcases h with rfl | rfl
  · exact Or.inl rfl
  · exact Or.inr rfl

/-- Operations after which the layer is as documented: the running variance is replaced in training mode only, and the layer is encrypted in training mode, or the parties have the same running variance. -/
def Allowed (s : State n C K) : Op n C P K → Prop
  | .setVar _ => s.training = true
  | .encrypt true _ => s.training = true ∨ s.encrypted = true ∨ ∃ v, Holds s.runningVar v
  | _ => True

/-- States that a sequence of allowed operations leads to. -/
inductive Reachable [Field K] [Fintype P] (f : K → K) (momentum : K) : State n C K → Prop
  | init (w b m v : Fin n → C → K) : Reachable f momentum (State.init w b m v)
  | step (s s' : State n C K) (op : Op n C P K) : Reachable f momentum s → Allowed s op → s.step f momentum op = some s' → Reachable f momentum s'

/-- In evaluation mode the cached value belongs to the running variance. -/
def Inv (f : K → K) (s : State n C K) : Prop :=
  s.training = false → ∃ iv, s.invVar = some iv ∧ (iv = s.runningVar.map f ∨ ∃ v, Holds s.runningVar v ∧ Holds iv fun c => f (v c))

theorem holds_encrypt (mode : Bool) (src : Fin n) {a : Val n C K} {v : C → K} (h : Holds a v) : Holds (encryptBuffer mode src a) v := by
  rcases h with rfl | rfl
  · exact Or.inr rfl
  · cases mode
    · exact Or.inr rfl
    · exact Or.inl rfl

theorem inv_reachable [Field K] [Fintype P] (f : K → K) (momentum : K) (s : State n C K) (h : Reachable (P := P) f momentum s) : Inv f s := by
  induction h with
  | init w b m v => intro h; cases h
  | step s s' op hs hal hst ih =>
    cases op with
    | train mode =>
      simp only [State.step, Option.some.injEq] at hst
      subst hst
      intro hm
      simp only [State.train] at hm ⊢
      exact ⟨_, by simp [hm], Or.inl rfl⟩
    | setWeight v => simp only [State.step, Option.some.injEq] at hst; subst hst; exact ih
    | setBias v => simp only [State.step, Option.some.injEq] at hst; subst hst; exact ih
    | setMean v => simp only [State.step, Option.some.injEq] at hst; subst hst; exact ih
    | setVar v =>
      simp only [State.step, Option.some.injEq] at hst
      subst hst
      intro hm
      simp only [Allowed] at hal
      simp only at hm
      rw [hal] at hm; cases hm
    | forward x =>
      simp only [State.step, State.forward, Option.map_map, Option.map_eq_some_iff] at hst
      obtain ⟨r, hr, rfl⟩ := hst
      intro hm
      simp only [Function.comp] at hm ⊢
      obtain ⟨iv, h1, h2⟩ := ih hm
      refine ⟨iv, h1, ?_⟩
      have : r.2.2 = s.runningVar := by
        simp only [batchnorm, hm, Bool.false_eq_true, if_false, Option.bind_eq_some_iff, Option.map_eq_some_iff] at hr
        obtain ⟨_, _, _, _, _, _, _, _, rfl⟩ := hr
        rfl
      rw [this]; exact h2
    | encrypt mode src =>
      simp only [State.step, State.encrypt] at hst
      split at hst
      · rename_i hne
        simp only [Option.bind_eq_some_iff, Option.map_eq_some_iff] at hst
        obtain ⟨w, _, b, _, rfl⟩ := hst
        intro hm
        simp only at hm ⊢
        obtain ⟨iv, h1, h2⟩ := ih hm
        refine ⟨iv, h1, ?_⟩
        by_cases hp : mode = false ∧ ∃ v, s.runningVar = .plain v
        · obtain ⟨rfl, v, hv⟩ := hp
          rw [hv] at h2 ⊢
          exact h2
        have hv : ∃ v, Holds s.runningVar v := by
          cases mode with
          | true =>
            rcases hal with h | h | h
            · rw [hm] at h; cases h
            · exact absurd h.symm hne
            · exact h
          | false =>
            cases hrv : s.runningVar with
            | plain v => exact absurd ⟨rfl, v, hrv⟩ hp
            | enc v => exact ⟨v, Or.inl rfl⟩
        refine Or.inr ?_
        obtain ⟨v, hv⟩ := hv
        refine ⟨v, holds_encrypt mode src hv, ?_⟩
        rcases h2 with rfl | ⟨v', hv', hi⟩
        · exact map_holds f hv
        · have : v = v' := by
            have e1 := (get_iff _ _).2 hv
            have e2 := (get_iff _ _).2 hv'
            rw [e1] at e2; injection e2
          subst this; exact hi
      · injection hst with hst; subst hst; exact ih

theorem forward_eval [Field K] [Fintype P] (f : K → K) (momentum : K) (s : State n C K) (hs : s.training = false) (x : C → P → K) (w b m i : C → K) (iv : Val n C K) (h1 : s.invVar = some iv)
    (hw : Holds s.weight w) (hb : Holds s.bias b) (hm : Holds s.runningMean m) (hi : Holds iv i) : s.forward f momentum x = some (apply x m i w b, s) := by
  obtain ⟨tr, en, W, B, M, V, I⟩ := s
  simp only at hs h1 hw hb hm
  subst hs h1
  simp only [State.forward, batchnorm, Bool.false_eq_true, if_false, (get_iff _ _).2 hi, (get_iff _ _).2 hw, (get_iff _ _).2 hb, (get_iff _ _).2 hm, Option.bind_some, Option.map_some]

/-- C67 (evaluation): after every history of operations that satisfy `Allowed`, a layer in evaluation mode returns the documented formula with its current parameters and running statistics, and does not change. Missing: see `C67_set_var_wrong` and `C67_encrypt_wrong`. -/
theorem C67_eval_partial [Field K] [Fintype P] (f : K → K) (momentum : K) (s : State n C K) (h : Reachable (P := P) f momentum s) (hs : s.training = false) (x : C → P → K) (w b m v : C → K)
    (hw : Holds s.weight w) (hb : Holds s.bias b) (hm : Holds s.runningMean m) (hv : Holds s.runningVar v) :
    ∃ y, s.forward f momentum x = some (y, s) ∧ IsNormalised f x y m v w b := by
  obtain ⟨iv, h1, h2⟩ := inv_reachable f momentum s h hs
  have hi : Holds iv fun c => f (v c) := by
    rcases h2 with rfl | ⟨v', hv', hi⟩
    · exact map_holds f hv
    · have : v = v' := by
        have e1 := (get_iff _ _).2 hv
        have e2 := (get_iff _ _).2 hv'
        rw [e1] at e2; injection e2
      subst this; exact hi
  exact ⟨apply x m (fun c => f (v c)) w b, forward_eval f momentum s hs x w b m _ iv h1 hw hb hm hi, fun c p => by simp only [apply]; ring⟩

/-- C67 (training): an encrypted layer in training mode, whatever its history, normalises with the statistics of the batch (the variance divides by the number of entries) and moves its running statistics towards them by the momentum. -/
theorem C67_train [Field K] [Fintype P] (f : K → K) (momentum : K) (s : State n C K) (hs : s.training = true) (x : C → P → K) (w b m v : C → K)
    (hw : Holds s.weight w) (hb : Holds s.bias b) (hm : s.runningMean = .enc m) (hv : s.runningVar = .enc v) :
    ∃ y bm bv, IsMean x bm ∧ IsVar x (Fintype.card P) bv ∧ IsNormalised f x y bm bv w b
      ∧ s.forward f momentum x = some (y, { s with runningMean := .enc fun c => (1 - momentum) * m c + momentum * bm c, runningVar := .enc fun c => (1 - momentum) * v c + momentum * bv c }) := by
  refine ⟨apply x (mean x) (fun c => f (var x true c)) w b, mean x, var x true, fun c => rfl, ⟨mean x, fun c => rfl, fun c => ?_⟩, fun c p => ?_, ?_⟩
  · simp only [var, Bool.not_true, Bool.false_eq_true, if_false]
    congr 1
    exact Finset.sum_congr rfl fun p _ => by ring
  · simp only [apply]; ring
  · simp only [State.forward, batchnorm, hs, if_true, hm, hv, track, (get_iff _ _).2 hw, (get_iff _ _).2 hb, Option.bind_some, Option.map_some, Option.some.injEq, Prod.mk.injEq, true_and]
    congr 2
    · funext c; ring
    · funext c; ring

/-- An unencrypted layer cannot be trained on encrypted inputs: torch tensors have no method `set`. -/
theorem C67_train_plain_raises [Field K] [Fintype P] (f : K → K) (momentum : K) (s : State n C K) (hs : s.training = true) (x : C → P → K) (v : Fin n → C → K) (hv : s.runningVar = .plain v) : s.forward f momentum x = none := by
  simp [State.forward, batchnorm, hs, hv, track]

/-- A history: encrypt in training mode, train on a batch, evaluate. -/
example : ∃ s : State 2 Unit ℚ, Reachable (P := Fin 2) (fun v => 1 / v) (1 / 2) s ∧ s.training = false ∧ Holds s.runningVar (fun _ => 1) ∧ Holds s.runningMean (fun _ => 1) ∧ Holds s.weight (fun _ => 3) ∧ Holds s.bias (fun _ => 0) := by
  have h1 : Reachable (P := Fin 2) (fun v => 1 / v) (1 / 2) (State.init (n := 2) (C := Unit) (K := ℚ) (fun _ _ => 3) (fun _ _ => 0) (fun _ _ => 0) (fun _ _ => 1)) := .init _ _ _ _
  have h2 := Reachable.step _ _ (.encrypt true 0) h1 (Or.inl rfl) rfl
  have h3 := Reachable.step _ _ (.setMean (.enc fun _ => 1)) h2 trivial rfl
  have h4 := Reachable.step _ _ (.train false) h3 trivial rfl
  exact ⟨_, h4, rfl, Or.inl rfl, Or.inl rfl, Or.inl rfl, Or.inl rfl⟩

/-- C67 (encryption): encrypting a new layer takes the parameters and running statistics of party `src`, whatever the other parties hold; evaluated afterwards, the layer computes the documented formula with them. -/
theorem C67_encrypt_source [Field K] [Fintype P] (f : K → K) (momentum : K) (w b m v : Fin n → C → K) (src : Fin n) (x : C → P → K) :
    ∃ s, (State.init w b m v).encrypt true src = some s ∧ ∃ y, (s.train f false).forward f momentum x = some (y, s.train f false) ∧ IsNormalised f x y (m src) (v src) (w src) (b src) := by
  refine ⟨_, rfl, ?_⟩
  have h := Reachable.step (P := P) (f := f) (momentum := momentum) _ _ (.encrypt true src) (.init w b m v) (Or.inl rfl) rfl
  exact C67_eval_partial f momentum _ (Reachable.step _ _ (.train false) h trivial rfl) rfl x (w src) (b src) (m src) (v src) (Or.inl rfl) (Or.inl rfl) (Or.inl rfl) (Or.inl rfl)

/-- The code violates the property: `eval()` computes the inverse of the standard deviation once; when the running variance is replaced afterwards, the output still belongs to the old one. -/
theorem C67_set_var_wrong [Field K] [Fintype P] [Nonempty C] [Nonempty P] (f : K → K) (momentum : K) (v₁ v₂ : K) (hf : f v₁ ≠ f v₂) : ∃ (s s' : State n C K) (x y : C → P → K),
    ((State.init (n := n) (fun _ _ => 1) (fun _ _ => 0) (fun _ _ => 0) (fun _ _ => v₁)).train f false).step (P := P) f momentum (.setVar (.plain fun _ _ => v₂)) = some s
      ∧ s.training = false ∧ Holds s.weight (fun _ => 1) ∧ Holds s.bias (fun _ => 0) ∧ Holds s.runningMean (fun _ => 0) ∧ Holds s.runningVar (fun _ => v₂)
      ∧ s.forward f momentum x = some (y, s') ∧ ¬IsNormalised f x y (fun _ => 0) (fun _ => v₂) (fun _ => 1) fun _ => 0 := by
  have hc : Holds (.plain fun _ _ => f v₁ : Val n C K) (fun _ => f v₁) := Or.inr rfl
  have key := fun (s : State n C K) h1 h2 h3 h4 h5 => forward_eval (P := P) f momentum s h1 (fun _ _ => 1) (fun _ => 1) (fun _ => 0) (fun _ => 0) (fun _ => f v₁) (.plain fun _ _ => f v₁) h2 h3 h4 h5 hc
  refine ⟨_, _, fun _ _ => 1, _, rfl, rfl, Or.inr rfl, Or.inr rfl, Or.inr rfl, Or.inr rfl, key _ rfl rfl (Or.inr rfl) (Or.inr rfl) (Or.inr rfl), ?_⟩
  · intro h
    obtain ⟨c⟩ := ‹Nonempty C›
    obtain ⟨p⟩ := ‹Nonempty P›
    have := h c p
    simp [apply] at this
    exact hf this

/-- The code violates the property: a layer whose running variance differs between the parties (only the source holds the trained model) and that is in evaluation mode when it is encrypted keeps each party's own inverse standard deviation in the clear; its outputs are meaningless although all parameters and buffers are encrypted. Encrypting first and calling `eval()` afterwards is right (`C67_eval_partial`). -/
theorem C67_encrypt_wrong [Field K] [Fintype P] (f : K → K) (momentum : K) (w b m v : Fin n → C → K) (p : Fin n) (c : C) (hp : f (v p c) ≠ f (v 0 c)) : ∃ s : State n C K,
    ((State.init w b m v).train f false).encrypt true 0 = some s ∧ s.training = false ∧ s.encrypted = true ∧ Holds s.weight (w 0) ∧ Holds s.bias (b 0) ∧ Holds s.runningMean (m 0) ∧ Holds s.runningVar (v 0)
      ∧ ∀ x : C → P → K, s.forward f momentum x = none := by
  refine ⟨_, rfl, rfl, rfl, Or.inl rfl, Or.inl rfl, Or.inl rfl, Or.inl rfl, fun x => ?_⟩
  have : (Val.plain fun p c => f (v p c) : Val n C K).get = none := by
    rw [Val.get, if_neg]
    intro h
    exact hp (congrFun (h p) c)
  simp only [State.forward, batchnorm, State.init, State.train, Bool.false_eq_true, if_false, Val.map, this]
  simp [Val.get, encryptBuffer]

/-- Torch's layer adds the variance with divisor `N - 1` to the running variance; this one adds the variance with divisor `N`, because `var` reads its flag the wrong way round. With two entries 0 and 2 per channel, the running variance moves towards 1 instead of 2. -/
theorem C67_running_var_wrong (f : ℚ → ℚ) : ∃ (x : Unit → Fin 2 → ℚ) (y : Unit → Fin 2 → ℚ) (s s' : State 1 Unit ℚ), s.training = true ∧ s.runningVar = .enc (fun _ => 0) ∧ s.forward f 1 x = some (y, s') ∧ s'.runningVar = .enc (fun _ => 1) ∧ IsVar x 1 (fun _ => 2) := by
  obtain ⟨y, bm, bv, hbm, ⟨m, hm, hbv⟩, _, h⟩ := C67_train (n := 1) f 1 ⟨true, true, .enc fun _ => 1, .enc fun _ => 0, .enc fun _ => 0, .enc fun _ => 0, none⟩ rfl (fun (_ : Unit) (p : Fin 2) => 2 * (p.val : ℚ)) (fun _ => 1) (fun _ => 0) (fun _ => 0) (fun _ => 0) (Or.inl rfl) (Or.inl rfl) rfl rfl
  have e : m = fun _ => 1 := by
    funext c; rw [hm]; simp [Fin.sum_univ_two]
  refine ⟨_, y, _, _, rfl, rfl, h, ?_, fun _ => 1, fun c => by simp [Fin.sum_univ_two], fun c => ?_⟩
  · simp only [Val.enc.injEq]
    funext c
    rw [hbv, e]
    simp [Fin.sum_univ_two]; norm_num
  · simp [Fin.sum_univ_two]; norm_num

/-- C67 (ONNX): the layer without state computes the formula with the tensors it is given; in training mode it also updates them, and its momentum is one minus that of ONNX. -/
theorem C67_onnx_eval [Field K] [Fintype P] (f : K → K) (momentum : K) (x : C → P → K) (w b m v : C → K) (W B M V : Val n C K) (hw : Holds W w) (hb : Holds B b) (hm : Holds M m) (hv : Holds V v) :
    ∃ y, onnxForward f momentum false x W B M V = some (y, false, M, V) ∧ IsNormalised f x y m v w b := by
  refine ⟨apply x m (fun c => f (v c)) w b, ?_, fun c p => by simp only [apply]; ring⟩
  simp only [onnxForward, batchnorm, Bool.false_eq_true, if_false, (get_iff _ _).2 (map_holds f hv), (get_iff _ _).2 hw, (get_iff _ _).2 hb, (get_iff _ _).2 hm, Option.bind_some, Option.map_some]

theorem C67_onnx_train [Field K] [Fintype P] (f : K → K) (momentum : Option K) (x : C → P → K) (w b m v : C → K) (W B : Val n C K) (hw : Holds W w) (hb : Holds B b) :
    ∃ y bm bv, IsMean x bm ∧ IsVar x (Fintype.card P) bv ∧ IsNormalised f x y bm bv w b
      ∧ onnxForward f (onnxMomentum momentum) true x W B (.enc m) (.enc v) = some (y, true, .enc (fun c => momentum.getD (9 / 10) * m c + (1 - momentum.getD (9 / 10)) * bm c), .enc fun c => momentum.getD (9 / 10) * v c + (1 - momentum.getD (9 / 10)) * bv c) := by
  refine ⟨apply x (mean x) (fun c => f (var x true c)) w b, mean x, var x true, fun c => rfl, ⟨mean x, fun c => rfl, fun c => ?_⟩, fun c p => ?_, ?_⟩
  · simp only [var, Bool.not_true, Bool.false_eq_true, if_false]
    congr 1
    exact Finset.sum_congr rfl fun p _ => by ring
  · simp only [apply]; ring
  · simp only [onnxForward, batchnorm, if_true, track, (get_iff _ _).2 hw, (get_iff _ _).2 hb, Option.bind_some, Option.map_some, onnxMomentum, Option.some.injEq, Prod.mk.injEq, true_and, Val.enc.injEq]
    constructor <;> funext c <;> ring

end CrypTen.BatchNorm
