import Verif.Spec.Providers
import Verif.Lemmas.Sharing
import Verif.Lemmas.Linear
import Verif.Lemmas.Int64

/-!
# C33, C34: the providers' tuples
-/

namespace CrypTen
variable {n : ℕ} {P : Prng}

/-! ## C34: trusted first party -/

theorem onAll_local_synced [NeZero n] {α : Type} {w : World P n} (hw : Synced w) (d : Device) (f : PartyGens P → α × PartyGens P)
    (hf : ∀ g, (f g).2.prev = g.prev ∧ (f g).2.next = g.next ∧ (f g).2.glob = g.glob) : Synced (w.onAll d f).2 := by
  have e1 : ∀ r d', ((w.onAll d f).2 r d').next = (w r d').next := fun r d' => by
    unfold World.onAll; dsimp only; split
    · rename_i h; rw [h]; exact (hf _).2.1
    · rfl
  have e2 : ∀ r d', ((w.onAll d f).2 r d').prev = (w r d').prev := fun r d' => by
    unfold World.onAll; dsimp only; split
    · rename_i h; rw [h]; exact (hf _).1
    · rfl
  have e3 : ∀ r d', ((w.onAll d f).2 r d').glob = (w r d').glob := fun r d' => by
    unfold World.onAll; dsimp only; split
    · rename_i h; rw [h]; exact (hf _).2.2
    · rfl
  exact ⟨fun r d' => by rw [e1, e2]; exact hw.1 r d', fun r r' d' => by rw [e3, e3]; exact hw.2 r r' d'⟩

theorem onAll_drawLocal_synced [NeZero n] {w : World P n} (hw : Synced w) (d : Device) (bits k : ℕ) : Synced (w.onAll d (drawLocal bits k)).2 :=
  onAll_local_synced hw d _ fun _ => ⟨rfl, rfl, rfl⟩

theorem drawLocalList_gens (k : ℕ) : ∀ (m : ℕ) (g : PartyGens P), (drawLocalList k m g).2.prev = g.prev ∧ (drawLocalList k m g).2.next = g.next ∧
    (drawLocalList k m g).2.glob = g.glob
  | 0, _ => ⟨rfl, rfl, rfl⟩
  | m + 1, g => drawLocalList_gens k m (drawLocal 64 k g).2

theorem drawLocalList_length (k : ℕ) : ∀ (m : ℕ) (g : PartyGens P), (drawLocalList k m g).1.length = m
  | 0, _ => rfl
  | m + 1, g => congrArg (· + 1) (drawLocalList_length k m (drawLocal 64 k g).2)

theorem encryptArith_reveal [NeZero n] {w : World P n} (hw : Synced w) (d : Device) (src : Fin n) {k : ℕ} (x : Tensor (Fin k)) :
    reveal (encryptArith w d src x).1 = x := by
  have hz := przsA_sum hw d k
  have : ∀ r, (encryptArith w d src x).1 r = (w.onAll d (przsArith P k)).1 r + if r = src then x else 0 := by
    intro r; simp only [encryptArith]; split <;> simp
  unfold reveal
  simp only [this, Finset.sum_add_distrib, hz, zero_add]
  simp

theorem encryptBinary_reveal [NeZero n] {w : World P n} (hw : Synced w) (d : Device) (src : Fin n) {k : ℕ} (x : Tensor (Fin k)) :
    revealX (encryptBinary w d src x).1 = x := by
  funext i
  rw [revealX_apply]
  have : ∀ r, (encryptBinary w d src x).1 r i = (w.onAll d (przsBinary P k)).1 r i ^^^ if r = src then x i else 0#64 := by
    intro r; simp only [encryptBinary]; split <;> simp
  simp only [this]
  rw [xsum_xor, przsX_sum hw, xsum_single]
  exact BitVec.zero_xor

theorem encryptArith_synced [NeZero n] {w : World P n} (hw : Synced w) (d : Device) (src : Fin n) {k : ℕ} (x : Tensor (Fin k)) :
    Synced (encryptArith w d src x).2 := onAll_przsA_synced hw d k

theorem encryptBinary_synced [NeZero n] {w : World P n} (hw : Synced w) (d : Device) (src : Fin n) {k : ℕ} (x : Tensor (Fin k)) :
    Synced (encryptBinary w d src x).2 := onAll_przsX_synced hw d k

theorem kbit_one (hP : P.InRange) (k : ℕ) (g : P.σ) (i : Fin k) : (generateKbitRandomTensor P 1 k g).1 i = 0 ∨ (generateKbitRandomTensor P 1 k g).1 i = 1 := by
  have h := hP 0 (2 ^ 1) k g i (by norm_num) (by norm_num) (by norm_num)
  have e : generateKbitRandomTensor P 1 k g = P.randint 0 (2 ^ 1) k g := rfl
  rw [e]
  obtain ⟨h1, h2⟩ := h
  generalize (P.randint 0 (2 ^ 1) k g).1 i = v at h1 h2
  have h3 : v.toInt = 0 ∨ v.toInt = 1 := by omega
  rcases h3 with h3 | h3
  · left; apply BitVec.eq_of_toInt_eq; rw [h3]; rfl
  · right; apply BitVec.eq_of_toInt_eq; rw [h3]; rfl

theorem tfpStep_ok [NeZero n] (hP : P.InRange) {w : World P n} (hw : Synced w) (q : TupleReq Device) :
    TupleOk q (tfpStep w q).1 ∧ Synced (tfpStep w q).2 := by
  cases q with
  | @additive d k0 k1 k2 B =>
    obtain ⟨A, hA⟩ : ∃ A, w.onAll d (drawLocal 64 k0) = A := ⟨_, rfl⟩
    obtain ⟨C, hC⟩ : ∃ C, A.2.onAll d (drawLocal 64 k1) = C := ⟨_, rfl⟩
    have s1 : Synced A.2 := hA ▸ onAll_drawLocal_synced hw d 64 k0
    have s2 : Synced C.2 := hC ▸ onAll_drawLocal_synced s1 d 64 k1
    obtain ⟨X, hX⟩ : ∃ X, encryptArith C.2 d 0 (A.1 0) = X := ⟨_, rfl⟩
    have s3 : Synced X.2 := hX ▸ encryptArith_synced s2 d 0 (A.1 0)
    obtain ⟨Y, hY⟩ : ∃ Y, encryptArith X.2 d 0 (C.1 0) = Y := ⟨_, rfl⟩
    have s4 : Synced Y.2 := hY ▸ encryptArith_synced s3 d 0 (C.1 0)
    have e : tfpStep w (.additive d B) = (.additive ⟨X.1, Y.1, (encryptArith Y.2 d 0 (B.apply (A.1 0) (C.1 0))).1⟩, (encryptArith Y.2 d 0 (B.apply (A.1 0) (C.1 0))).2) := by
      rw [← hY, ← hX, ← hC, ← hA]; rfl
    rw [e]
    refine ⟨.additive d B _ ?_, encryptArith_synced s4 d 0 (B.apply (A.1 0) (C.1 0))⟩
    dsimp only
    rw [encryptArith_reveal s4, ← hX, ← hY, encryptArith_reveal s2, encryptArith_reveal s3]
  | square d k =>
    obtain ⟨A, hA⟩ : ∃ A, w.onAll d (drawLocal 64 k) = A := ⟨_, rfl⟩
    have s1 : Synced A.2 := hA ▸ onAll_drawLocal_synced hw d 64 k
    have h := encryptArith_reveal s1 d 0 (Fin.append (A.1 0) (A.1 0 * A.1 0))
    have e : tfpStep w (.square d k) = (.square ⟨fun p i => (encryptArith A.2 d 0 (Fin.append (A.1 0) (A.1 0 * A.1 0))).1 p (Fin.castAdd k i),
        fun p i => (encryptArith A.2 d 0 (Fin.append (A.1 0) (A.1 0 * A.1 0))).1 p (Fin.natAdd k i)⟩, (encryptArith A.2 d 0 (Fin.append (A.1 0) (A.1 0 * A.1 0))).2) := by
      rw [← hA]; rfl
    rw [e]
    refine ⟨.square d _ fun i => ?_, encryptArith_synced s1 d 0 (Fin.append (A.1 0) (A.1 0 * A.1 0))⟩
    have h1 := congrFun h (Fin.castAdd k i)
    have h2 := congrFun h (Fin.natAdd k i)
    rw [Fin.append_left, reveal_apply] at h1
    rw [Fin.append_right, reveal_apply] at h2
    rw [reveal_apply, reveal_apply, h1, h2]
    rfl
  | @binary d k0 k1 k2 f g =>
    obtain ⟨A, hA⟩ : ∃ A, w.onAll d (drawLocal 64 k0) = A := ⟨_, rfl⟩
    obtain ⟨C, hC⟩ : ∃ C, A.2.onAll d (drawLocal 64 k1) = C := ⟨_, rfl⟩
    have s1 : Synced A.2 := hA ▸ onAll_drawLocal_synced hw d 64 k0
    have s2 : Synced C.2 := hC ▸ onAll_drawLocal_synced s1 d 64 k1
    obtain ⟨X, hX⟩ : ∃ X, encryptBinary C.2 d 0 (A.1 0) = X := ⟨_, rfl⟩
    have s3 : Synced X.2 := hX ▸ encryptBinary_synced s2 d 0 (A.1 0)
    obtain ⟨Y, hY⟩ : ∃ Y, encryptBinary X.2 d 0 (C.1 0) = Y := ⟨_, rfl⟩
    have s4 : Synced Y.2 := hY ▸ encryptBinary_synced s3 d 0 (C.1 0)
    have e : tfpStep w (.binary d f g) = (.binary X.1 Y.1 (encryptBinary Y.2 d 0 fun i => A.1 0 (f i) &&& C.1 0 (g i)).1, (encryptBinary Y.2 d 0 fun i => A.1 0 (f i) &&& C.1 0 (g i)).2) := by
      rw [← hY, ← hX, ← hC, ← hA]; rfl
    rw [e]
    refine ⟨.binary d f g _ _ _ fun i => ?_, encryptBinary_synced s4 d 0 fun i => A.1 0 (f i) &&& C.1 0 (g i)⟩
    rw [encryptBinary_reveal s4, ← hX, ← hY, encryptBinary_reveal s2, encryptBinary_reveal s3]
  | wraps d k =>
    obtain ⟨A, hA⟩ : ∃ A, w.onAll d (drawLocalList k n) = A := ⟨_, rfl⟩
    have s1 : Synced A.2 := hA ▸ onAll_local_synced hw d (drawLocalList k n) fun g => drawLocalList_gens k n g
    have e : tfpStep w (.wraps d k) = (.wraps ⟨fun p => (A.1 0).getD p fun _ => 0#64, (encryptArith A.2 d 0 fun i => countWraps ((A.1 0).map fun t => t i)).1⟩,
        (encryptArith A.2 d 0 fun i => countWraps ((A.1 0).map fun t => t i)).2) := by
      rw [← hA]; rfl
    rw [e]
    refine ⟨.wraps d _ fun i => ?_, encryptArith_synced s1 d 0 fun i => countWraps ((A.1 0).map fun t => t i)⟩
    dsimp only
    rw [encryptArith_reveal s1]
    congr 1
    have hl : (A.1 0).length = n := by rw [← hA]; exact drawLocalList_length k n _
    apply List.ext_getElem
    · rw [List.length_map, List.length_ofFn, hl]
    · intro j h1 h2
      rw [List.length_map] at h1
      rw [List.getElem_map, List.getElem_ofFn, List.getD_eq_getElem?_getD, List.getElem?_eq_getElem (h := h1), Option.getD_some]
  | b2a d k =>
    obtain ⟨A, hA⟩ : ∃ A, w.onAll d (drawLocal 1 k) = A := ⟨_, rfl⟩
    have s1 : Synced A.2 := hA ▸ onAll_drawLocal_synced hw d 1 k
    obtain ⟨X, hX⟩ : ∃ X, encryptArith A.2 d 0 (A.1 0) = X := ⟨_, rfl⟩
    have s2 : Synced X.2 := hX ▸ encryptArith_synced s1 d 0 (A.1 0)
    have e : tfpStep w (.b2a d k) = (.b2a ⟨X.1, (encryptBinary X.2 d 0 (A.1 0)).1⟩, (encryptBinary X.2 d 0 (A.1 0)).2) := by
      rw [← hX, ← hA]; rfl
    rw [e]
    refine ⟨.b2a d _ fun i => ?_, encryptBinary_synced s2 d 0 (A.1 0)⟩
    dsimp only
    rw [encryptBinary_reveal s2, ← hX, encryptArith_reveal s1, ← hA]
    exact ⟨kbit_one hP k _ i, rfl⟩

/-- **C34.** After any start-up and any earlier generator use, for any history of requests, with any number of parties, every tuple of the trusted first party
answers its request with a correct sharing of a correct correlation. -/
theorem C34_tfp (hP : P.InRange) [NeZero n] (nextSeed localSeed globalSeed : Fin n → ℤ) : ∃ w, syncSeeds P nextSeed localSeed globalSeed = some w ∧
    ∀ (earlier : List (GenOp n)) (qs : List (TupleReq Device)), List.Forall₂ TupleOk qs (tfpRun (runGen w earlier) qs).1 := by
  obtain ⟨w, hw, hs⟩ := syncSeeds_synced P nextSeed localSeed globalSeed
  refine ⟨w, hw, fun earlier qs => ?_⟩
  have := runGen_synced hs earlier
  generalize runGen w earlier = w' at this
  induction qs generalizing w' with
  | nil => exact .nil
  | cons q qs ih => exact .cons (tfpStep_ok hP this q).1 (ih _ (tfpStep_ok hP this q).2)

/-! ## C33: trusted third party -/

theorem prss_acc {M : Type} [AddCommMonoid M] (draw : P.σ → M × P.σ) : ∀ (l : List (Fin n)) (_ : l.Nodup) (g : Fin n → P.σ) (a : M),
    prss draw (· + ·) l g (some a) = (some (a + (l.map fun p => (draw (g p)).1).sum), fun p => if p ∈ l then (draw (g p)).2 else g p)
  | [], _, g, a => by simp [prss]
  | r :: rs, hl, g, a => by
    have hr := (List.nodup_cons.1 hl).1
    have e : prss draw (· + ·) (r :: rs) g (some a) = prss draw (· + ·) rs (Function.update g r (draw (g r)).2) (some (a + (draw (g r)).1)) := rfl
    rw [e, prss_acc draw rs (List.nodup_cons.1 hl).2]
    have h1 : (rs.map fun p => (draw (Function.update g r (draw (g r)).2 p)).1) = rs.map fun p => (draw (g p)).1 := by
      apply List.map_congr_left
      intro p hp
      rw [Function.update_of_ne (fun h : p = r => hr (h ▸ hp))]
    rw [h1, List.map_cons, List.sum_cons, add_assoc]
    congr 1
    funext p
    by_cases hp : p = r
    · subst hp
      rw [if_neg hr, if_pos (List.mem_cons_self ..), Function.update_self]
    · rw [Function.update_of_ne hp]
      have : p ∈ r :: rs ↔ p ∈ rs := by rw [List.mem_cons]; tauto
      simp only [this]

theorem prss_none {M : Type} [AddCommMonoid M] (draw : P.σ → M × P.σ) (r : Fin n) (rs : List (Fin n)) (hl : (r :: rs).Nodup) (g : Fin n → P.σ) :
    prss draw (· + ·) (r :: rs) g none = (some (((r :: rs).map fun p => (draw (g p)).1).sum), fun p => if p ∈ r :: rs then (draw (g p)).2 else g p) := by
  have h := prss_acc draw (r :: rs) hl g 0
  rw [zero_add] at h
  rw [← h]
  show prss draw (· + ·) rs _ (some (draw (g r)).1) = prss draw (· + ·) rs _ (some (0 + (draw (g r)).1))
  rw [zero_add]

theorem prss_all {M : Type} [AddCommMonoid M] [NeZero n] (draw : P.σ → M × P.σ) (g : Fin n → P.σ) :
    prss draw (· + ·) (List.finRange n) g none = (some (∑ p, (draw (g p)).1), fun p => (draw (g p)).2) := by
  obtain ⟨m, rfl⟩ : ∃ m, n = m + 1 := ⟨n - 1, by have := NeZero.pos n; omega⟩
  have hl := List.nodup_finRange (m + 1)
  rw [Fin.sum_univ_def]
  have hm : ∀ p : Fin (m + 1), p ∈ List.finRange (m + 1) := List.mem_finRange
  rw [List.finRange_succ] at hl hm ⊢
  rw [prss_none draw _ _ hl]
  congr 1
  funext p
  rw [if_pos (hm p)]

theorem prss_tail {M : Type} [AddCommMonoid M] [NeZero n] (h2 : 2 ≤ n) (draw : P.σ → M × P.σ) (g : Fin n → P.σ) :
    prss draw (· + ·) (List.finRange n).tail g none = (some (∑ p, if p = 0 then 0 else (draw (g p)).1), fun p => if p = 0 then g p else (draw (g p)).2) := by
  obtain ⟨m, rfl⟩ : ∃ m, n = m + 2 := ⟨n - 2, by omega⟩
  have hl := List.nodup_finRange (m + 2)
  have hm : ∀ p : Fin (m + 2), p ∈ List.finRange (m + 2) := List.mem_finRange
  have hs : (∑ p, if p = 0 then 0 else (draw (g p)).1 : M) = ((List.finRange (m + 2)).map fun p => if p = 0 then 0 else (draw (g p)).1).sum := Fin.sum_univ_def _
  rw [hs]
  rw [List.finRange_succ (n := m + 1)] at hl hm ⊢
  rw [List.tail_cons, List.map_cons, List.sum_cons, if_pos rfl, zero_add]
  have h0 := (List.nodup_cons.1 hl).1
  have hne : ((List.finRange (m + 1)).map Fin.succ) = Fin.succ 0 :: ((List.finRange m).map Fin.succ).map Fin.succ := by
    rw [List.finRange_succ, List.map_cons]
  have e1 : (((List.finRange (m + 1)).map Fin.succ).map fun p => if p = 0 then (0 : M) else (draw (g p)).1) = ((List.finRange (m + 1)).map Fin.succ).map fun p => (draw (g p)).1 := by
    apply List.map_congr_left
    intro p hp
    rw [if_neg (fun h : p = 0 => h0 (h ▸ hp))]
  rw [e1]
  have hnd := (List.nodup_cons.1 hl).2
  have hm2 : ∀ p : Fin (m + 2), p ∈ (List.finRange (m + 1)).map Fin.succ ↔ p ≠ 0 := fun p =>
    ⟨fun h e => h0 (e ▸ h), fun h => by
      have := hm p
      rw [List.mem_cons] at this
      exact this.resolve_left h⟩
  rw [hne] at hnd hm2 ⊢
  rw [prss_none draw _ _ hnd]
  congr 1
  funext p
  by_cases hp : p = 0
  · rw [if_neg (fun h => (hm2 p).1 h hp), if_pos hp]
  · rw [if_pos ((hm2 p).2 hp), if_neg hp]

variable [NeZero n]

theorem clientLast_sum {M : Type} [AddCommMonoid M] (answer : M) (draw : P.σ → M × P.σ) (g : Fin n → P.σ) :
    ∑ p, (clientLast answer draw g).1 p = answer + ∑ p, if p = 0 then 0 else (draw (g p)).1 := by
  have : ∀ p, (clientLast answer draw g).1 p = (if p = 0 then answer else 0) + if p = 0 then 0 else (draw (g p)).1 := by
    intro p; unfold clientLast; dsimp only; split <;> simp
  simp only [this, Finset.sum_add_distrib]
  simp

theorem clientLast_gens {M : Type} (answer : M) (draw : P.σ → M × P.σ) (g : Fin n → P.σ) :
    (clientLast answer draw g).2 = fun p => if p = 0 then g p else (draw (g p)).2 := rfl

theorem prssA_all (k : ℕ) (g : Fin n → P.σ) :
    prssA k false g = (some (reveal (clientDraw (generateRandomRingElement P k) g).1), (clientDraw (generateRandomRingElement P k) g).2) :=
  prss_all (generateRandomRingElement P k) g

theorem prssA_tail (h2 : 2 ≤ n) (k : ℕ) (g : Fin n → P.σ) (answer : Fin k → I64) :
    prssA k true g = (some (∑ p, if p = 0 then 0 else (generateRandomRingElement P k (g p)).1), (clientLast answer (generateRandomRingElement P k) g).2) :=
  prss_tail h2 (generateRandomRingElement P k) g

theorem revealX_sum {k : ℕ} (s : Shares n (Fin k)) : revealX s = (∑ p, (show Fin k → XW from s p) : Fin k → XW) := by
  funext i
  rw [revealX_apply, Finset.sum_apply]
  rfl

theorem prssX_all (bits k : ℕ) (g : Fin n → P.σ) :
    prssX bits k false g = (some (revealX (clientDraw (generateKbitRandomTensor P bits k) g).1), (clientDraw (generateKbitRandomTensor P bits k) g).2) := by
  rw [revealX_sum]
  exact prss_all (M := Fin k → XW) (generateKbitRandomTensor P bits k) g

/-- The words of all parties but rank 0, XORed. -/
def restX (bits k : ℕ) (g : Fin n → P.σ) : Fin k → I64 := (∑ p, if p = 0 then 0 else (show Fin k → XW from (generateKbitRandomTensor P bits k (g p)).1) : Fin k → XW)

theorem prssX_tail (h2 : 2 ≤ n) (bits k : ℕ) (g : Fin n → P.σ) (answer : Fin k → I64) :
    prssX bits k true g = (some (restX bits k g), (clientLast answer (generateKbitRandomTensor P bits k) g).2) :=
  prss_tail (M := Fin k → XW) h2 (generateKbitRandomTensor P bits k) g

theorem clientLast_reveal {k : ℕ} (c : Fin k → I64) (g : Fin n → P.σ) :
    reveal (clientLast (c - ∑ p, if p = 0 then 0 else (generateRandomRingElement P k (g p)).1) (generateRandomRingElement P k) g).1 = c := by
  unfold reveal
  rw [clientLast_sum]
  exact sub_add_cancel _ _

theorem clientLast_revealX {bits k : ℕ} (c : Fin k → I64) (g : Fin n → P.σ) :
    revealX (clientLast (xorT c (restX bits k g)) (generateKbitRandomTensor P bits k) g).1 = c := by
  rw [revealX_sum]
  refine (clientLast_sum (M := Fin k → XW) (xorT c (restX bits k g)) (generateKbitRandomTensor P bits k) g).trans ?_
  funext i
  show c i ^^^ restX bits k g i ^^^ restX bits k g i = c i
  rw [BitVec.xor_assoc, BitVec.xor_self, BitVec.xor_zero]

theorem setDevice_onDevice {g : Fin n → Bool → P.σ} {d : Bool} {h h' : Fin n → P.σ} (e : h = h') : setDevice g d h = setDevice g d h' := by rw [e]

theorem xsum_bits (f : Fin n → I64) (hf : ∀ p, f p = 0 ∨ f p = 1) : xsum f = 0 ∨ xsum f = 1 := by
  have key : ∀ s : Finset (Fin n), ofX (∑ p ∈ s, toX (f p)) = 0#64 ∨ ofX (∑ p ∈ s, toX (f p)) = 1#64 := by
    intro s
    classical
    induction s using Finset.induction_on with
    | empty => left; rw [Finset.sum_empty]; rfl
    | insert a s ha ih =>
      rw [Finset.sum_insert ha]
      have e : ofX (toX (f a) + ∑ p ∈ s, toX (f p)) = f a ^^^ ofX (∑ p ∈ s, toX (f p)) := rfl
      rw [e]
      rcases hf a with h | h <;> rcases ih with h' | h' <;> rw [h, h'] <;> decide
  exact key Finset.univ

/-- The requests on which the server uses the right generators. -/
def TupleReq.supported : TupleReq Bool → Prop
  | .wraps d _ => d = false
  | _ => True

theorem ttpStep_ok (hP : P.InRange) (h2 : 2 ≤ n) (w : TTPWorld P n) (hw : w.client = w.server) (q : TupleReq Bool) (hq : q.supported) :
    ∃ r w', ttpStep w q = some (r, w') ∧ TupleOk q r ∧ w'.client = w'.server := by
  obtain ⟨cl, sv⟩ := w
  dsimp only at hw
  subst hw
  cases q with
  | @additive d k0 k1 k2 B =>
    obtain ⟨a, ha⟩ : ∃ a, clientDraw (generateRandomRingElement P k0) (onDevice cl d) = a := ⟨_, rfl⟩
    obtain ⟨b, hb⟩ : ∃ b, clientDraw (generateRandomRingElement P k1) a.2 = b := ⟨_, rfl⟩
    obtain ⟨c0, hc0⟩ : ∃ c0, B.apply (reveal a.1) (reveal b.1) - (∑ p, if p = 0 then 0 else (generateRandomRingElement P k2 (b.2 p)).1) = c0 := ⟨_, rfl⟩
    refine ⟨_, ⟨setDevice cl d (clientLast c0 (generateRandomRingElement P k2) b.2).2, setDevice cl d (clientLast c0 (generateRandomRingElement P k2) b.2).2⟩, ?_,
      .additive d B ⟨a.1, b.1, (clientLast c0 (generateRandomRingElement P k2) b.2).1⟩ ?_, rfl⟩
    · unfold ttpStep serverAdditive
      simp only [prssA_all, ha, hb, prssA_tail h2 k2 b.2 c0]
      rw [← hc0]
      rfl
    · rw [← hc0]; exact clientLast_reveal _ _
  | square d k =>
    obtain ⟨a, ha⟩ : ∃ a, clientDraw (generateRandomRingElement P k) (onDevice cl d) = a := ⟨_, rfl⟩
    obtain ⟨c0, hc0⟩ : ∃ c0, reveal a.1 * reveal a.1 - (∑ p, if p = 0 then 0 else (generateRandomRingElement P k (a.2 p)).1) = c0 := ⟨_, rfl⟩
    refine ⟨_, ⟨setDevice cl d (clientLast c0 (generateRandomRingElement P k) a.2).2, setDevice cl d (clientLast c0 (generateRandomRingElement P k) a.2).2⟩, ?_,
      .square d ⟨a.1, (clientLast c0 (generateRandomRingElement P k) a.2).1⟩ (fun i => ?_), rfl⟩
    · unfold ttpStep serverSquare
      simp only [prssA_all, ha, prssA_tail h2 k a.2 c0]
      rw [← hc0]
      rfl
    · rw [← hc0]; exact congrFun (clientLast_reveal _ _) i
  | @binary d k0 k1 k2 f g =>
    obtain ⟨a, ha⟩ : ∃ a, clientDraw (generateKbitRandomTensor P 64 k0) (onDevice cl d) = a := ⟨_, rfl⟩
    obtain ⟨b, hb⟩ : ∃ b, clientDraw (generateKbitRandomTensor P 64 k1) a.2 = b := ⟨_, rfl⟩
    obtain ⟨c0, hc0⟩ : ∃ c0, xorT (fun i => revealX a.1 (f i) &&& revealX b.1 (g i)) (restX 64 k2 b.2) = c0 := ⟨_, rfl⟩
    refine ⟨_, ⟨setDevice cl d (clientLast c0 (generateKbitRandomTensor P 64 k2) b.2).2, setDevice cl d (clientLast c0 (generateKbitRandomTensor P 64 k2) b.2).2⟩, ?_,
      .binary d f g a.1 b.1 (clientLast c0 (generateKbitRandomTensor P 64 k2) b.2).1 (fun i => ?_), rfl⟩
    · unfold ttpStep serverBinary
      simp only [prssX_all, ha, hb, prssX_tail h2 64 k2 b.2 c0]
      rw [← hc0]
      rfl
    · rw [← hc0]; exact congrFun (clientLast_revealX _ _) i
  | wraps d k =>
    have hd : d = false := hq
    subst hd
    obtain ⟨a, ha⟩ : ∃ a, clientDraw (generateRandomRingElement P k) (onDevice cl false) = a := ⟨_, rfl⟩
    have hon : onDevice (setDevice cl false a.2) false = a.2 := by funext r; rfl
    obtain ⟨c0, hc0⟩ : ∃ c0, (fun i => countWraps (List.ofFn fun p => a.1 p i)) - (∑ p, if p = 0 then 0 else (generateRandomRingElement P k (a.2 p)).1) = c0 := ⟨_, rfl⟩
    refine ⟨_, ⟨setDevice cl false (clientLast c0 (generateRandomRingElement P k) a.2).2, setDevice (setDevice cl false a.2) false (clientLast c0 (generateRandomRingElement P k) a.2).2⟩, ?_,
      .wraps false ⟨a.1, (clientLast c0 (generateRandomRingElement P k) a.2).1⟩ (fun i => ?_), ?_⟩
    · have e : serverWraps cl false k = (do
          let (m, h) := prssA k true (onDevice (setDevice cl false a.2) false)
          pure ((fun i => countWraps (List.ofFn fun p => a.1 p i)) - (← m), setDevice (setDevice cl false a.2) false h)) := by
        rw [← ha]; rfl
      unfold ttpStep
      simp only [e, hon, ha, prssA_tail h2 k a.2 c0]
      rw [← hc0]
      rfl
    · rw [← hc0]; exact congrFun (clientLast_reveal _ _) i
    · dsimp only
      funext r c
      unfold setDevice
      cases c <;> rfl
  | b2a d k =>
    obtain ⟨a, ha⟩ : ∃ a, clientDraw (generateKbitRandomTensor P 1 k) (onDevice cl d) = a := ⟨_, rfl⟩
    obtain ⟨c0, hc0⟩ : ∃ c0, revealX a.1 - (∑ p, if p = 0 then 0 else (generateRandomRingElement P k (a.2 p)).1) = c0 := ⟨_, rfl⟩
    have hrev : reveal (clientLast c0 (generateRandomRingElement P k) a.2).1 = revealX a.1 := by rw [← hc0]; exact clientLast_reveal _ _
    refine ⟨_, ⟨setDevice cl d (clientLast c0 (generateRandomRingElement P k) a.2).2, setDevice cl d (clientLast c0 (generateRandomRingElement P k) a.2).2⟩, ?_,
      .b2a d ⟨(clientLast c0 (generateRandomRingElement P k) a.2).1, a.1⟩ (fun i => ?_), rfl⟩
    rotate_left
    · dsimp only
      rw [hrev]
      refine ⟨?_, rfl⟩
      rw [revealX_apply]
      apply xsum_bits
      intro p
      rw [← ha]
      exact kbit_one hP k _ i
    · unfold ttpStep serverB2A
      simp only [prssX_all, ha, prssA_tail h2 k a.2 c0]
      rw [← hc0]
      rfl

/-- **C33 (CPU).** With two or more parties, for every history of requests issued by all parties in the same order (wrap requests on the CPU), the generators of the third
party and the parties stay in equal states and every tuple is correct. -/
theorem C33_ttp_partial (hP : P.InRange) (h2 : 2 ≤ n) (seeds : Fin n → ℤ) (qs : List (TupleReq Bool)) (hq : ∀ q ∈ qs, q.supported) :
    ∃ rs w, ttpRun (ttpInit P seeds) qs = some (rs, w) ∧ List.Forall₂ TupleOk qs rs ∧ w.client = w.server := by
  have h0 : (ttpInit P seeds).client = (ttpInit P seeds).server := rfl
  generalize ttpInit P seeds = w at h0
  induction qs generalizing w with
  | nil => exact ⟨[], w, rfl, .nil, h0⟩
  | cons q qs ih =>
    obtain ⟨r, w', e, ok, hs⟩ := ttpStep_ok hP h2 w h0 q (hq q (List.mem_cons_self ..))
    obtain ⟨rs, w'', e', oks, hs'⟩ := ih (fun q h => hq q (List.mem_cons_of_mem _ h)) w' hs
    refine ⟨r :: rs, w'', ?_, .cons ok oks, hs'⟩
    unfold ttpRun
    rw [e]
    show (do let (rs, w) ← ttpRun w' qs; pure (r :: rs, w)) = _
    rw [e']
    rfl

/-- A toy generator: the state counts the draws, the values are the state modulo the width of the range. -/
def countPrng : Prng where
  σ := ℤ
  manualSeed s := s
  randint low high k g := (fun _ => BitVec.ofInt 64 (low + g % (high - low)), g + 1)

theorem countPrng_inRange : countPrng.InRange := by
  intro low high k g i h1 h2 h3
  have hpos : 0 < high - low := by omega
  have m1 : 0 ≤ id (α := ℤ) g % (high - low) := Int.emod_nonneg _ (by omega)
  have m2 : id (α := ℤ) g % (high - low) < high - low := Int.emod_lt_of_pos _ hpos
  have e : ((countPrng.randint low high k g).1 i).toInt = low + id (α := ℤ) g % (high - low) := by
    apply toInt_ofInt64
    · show -2 ^ 63 ≤ low + id (α := ℤ) g % (high - low)
      omega
    · show low + id (α := ℤ) g % (high - low) < 2 ^ 63
      omega
  rw [e]
  omega

/-- **C33 is false on CUDA.** After one wrap request on a CUDA device, the next square pair on the CPU does not share a square: two parties, seeds 1 and 2. -/
theorem C33_cuda_wraps_wrong : ∃ (r0 r1 : TupleRes 2) (w : TTPWorld countPrng 2),
    ttpRun (ttpInit countPrng ![1, 2]) [.wraps true 1, .square false 1] = some ([r0, r1], w) ∧ ¬ TupleOk (.square false 1) r1 ∧ w.client ≠ w.server := by
  refine ⟨_, _, _, rfl, ?_, ?_⟩
  · intro h
    cases h with
    | square d t h =>
      have := h 0
      revert this
      decide +kernel
  · intro h
    have h1 := congrFun (congrFun h 0) false
    have h2 : (2 : ℤ) = 3 := h1
    omega

/-- The hypotheses of `C33_ttp_partial` and `C34_tfp` are met. -/
example : ∃ rs w, ttpRun (n := 3) (ttpInit countPrng ![5, 6, 7]) [.wraps false 2, .additive true (k0 := 1) (k1 := 1) (k2 := 1) fun _ => [(0, 0)], .b2a true 3] = some (rs, w) ∧
    List.Forall₂ TupleOk [.wraps false 2, .additive true (k0 := 1) (k1 := 1) (k2 := 1) fun _ => [(0, 0)], .b2a true 3] rs ∧ w.client = w.server :=
  C33_ttp_partial countPrng_inRange (by norm_num) _ _ (by intro q hq; simp only [List.mem_cons, List.not_mem_nil, or_false] at hq; rcases hq with rfl | rfl | rfl <;> trivial)

/-- With one party the server fails on every request. -/
theorem C33_one_party_wrong (w : TTPWorld P 1) (q : TupleReq Bool) : ttpStep w q = none := by
  cases q <;> rfl

end CrypTen
