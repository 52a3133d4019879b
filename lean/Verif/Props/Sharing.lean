import Verif.Lemmas.Sharing
import Mathlib.Data.Set.Card
import Mathlib.Data.Fintype.Pi
import Mathlib.Tactic.Abel

/-!
# C01, C02, C03 (round trip), C04, C57: sharing, zero-shares, secrecy

No theorem here assumes anything about the pseudo-random generator `P`.
-/

namespace CrypTen

/-- A toy generator used only in the non-vacuity examples: a linear congruential stream. -/
def demoPrng : Prng where
  σ := ℤ
  manualSeed := fun s => s
  randint := fun _ _ k g => (fun i => BitVec.ofInt 64 ((g + i + 1) * 6364136223846793005), g + k)

/-! ## C02: zero-shares cancel for every request history -/

/-- **C02 (arithmetic).** Seed synchronisation always succeeds, and after every history of requests the zero-shares
of all parties sum to zero in every component, for every world size. -/
theorem C02_przs_arith_cancels (P : Prng) {n : ℕ} [NeZero n] (nextSeed localSeed globalSeed : Fin n → ℤ) :
    ∃ w, syncSeeds P nextSeed localSeed globalSeed = some w ∧
      ∀ (history : List (GenOp n)) (d : Device) (k : ℕ) (i : Fin k),
        ∑ r, ((runGen w history).onAll d (przsArith P k)).1 r i = 0 := by
  obtain ⟨w, hw, hs⟩ := syncSeeds_synced P nextSeed localSeed globalSeed
  refine ⟨w, hw, fun history d k i => ?_⟩
  have := przsA_sum (runGen_synced hs history) d k
  rw [← Finset.sum_apply, this]; rfl

/-- **C02 (binary).** The same for XOR zero-shares. -/
theorem C02_przs_binary_cancels (P : Prng) {n : ℕ} [NeZero n] (nextSeed localSeed globalSeed : Fin n → ℤ) :
    ∃ w, syncSeeds P nextSeed localSeed globalSeed = some w ∧
      ∀ (history : List (GenOp n)) (d : Device) (k : ℕ) (i : Fin k),
        xorList (List.ofFn fun r => ((runGen w history).onAll d (przsBinary P k)).1 r i) = 0#64 := by
  obtain ⟨w, hw, hs⟩ := syncSeeds_synced P nextSeed localSeed globalSeed
  refine ⟨w, hw, fun history d k i => ?_⟩
  rw [xorList_ofFn]
  exact przsX_sum (runGen_synced hs history) d k i

/-- **C02 (synchronisation).** At every point of every history, on every device, the generator a party shares with its
successor is in the same state as the one its successor shares with it, and all global generators agree. -/
theorem C02_generators_stay_synchronised (P : Prng) {n : ℕ} [NeZero n] (nextSeed localSeed globalSeed : Fin n → ℤ) :
    ∃ w, syncSeeds P nextSeed localSeed globalSeed = some w ∧
      ∀ (history : List (GenOp n)) (r : Fin n) (d : Device),
        (runGen w history r d).next = (runGen w history ⟨(r.val + 1) % n, Nat.mod_lt _ (NeZero.pos n)⟩ d).prev ∧
        ∀ r', (runGen w history r d).glob = (runGen w history r' d).glob := by
  obtain ⟨w, hw, hs⟩ := syncSeeds_synced P nextSeed localSeed globalSeed
  exact ⟨w, hw, fun history r d => ⟨(runGen_synced hs history).1 r d,
    fun r' => (runGen_synced hs history).2 r r' d⟩⟩

/-- Non-vacuity: with three parties and a toy generator, the zero-shares after a mixed history are not all zero. -/
example : ∃ w : World demoPrng 3,
    syncSeeds demoPrng ![5, 7, -3] ![1, 2, 3] ![0, 0, 0] = some w ∧
    ((runGen w [.przsA 0 2, .localDraw 1 0 0 2 4, .encX 0 2 3 ![1, 2, 3]]).onAll 0 (przsArith demoPrng 1)).1 0 0 ≠ 0 := by
  refine ⟨_, rfl, ?_⟩
  decide

/-! ## C01: encrypt, then reveal -/

/-- **C01.** For every world size, source, tensor, and history of earlier requests, the shares produced by encrypting
`x` sum to `x`, every party's `reveal()` returns `x`, and `reveal(dst)` returns `x` at `dst` and nothing elsewhere. -/
theorem C01_encrypt_reveal (P : Prng) {n : ℕ} [NeZero n] (nextSeed localSeed globalSeed : Fin n → ℤ) :
    ∃ w, syncSeeds P nextSeed localSeed globalSeed = some w ∧
      ∀ (history : List (GenOp n)) (d : Device) (src : Fin n) (k : ℕ) (x : Tensor (Fin k)),
        let s := (encryptArith (runGen w history) d src x).1
        (∀ i, ∑ r, s r i = x i) ∧
        (∀ rank, revealTo s none rank = some x) ∧
        (∀ dst rank, revealTo s (some dst) rank = if dst = rank then some x else none) := by
  obtain ⟨w, hw, hs⟩ := syncSeeds_synced P nextSeed localSeed globalSeed
  refine ⟨w, hw, fun history d src k x => ?_⟩
  have hz := przsA_sum (runGen_synced hs history) d k
  have key : ∑ r, (encryptArith (runGen w history) d src x).1 r = x := by
    have : ∀ r, (encryptArith (runGen w history) d src x).1 r =
        ((runGen w history).onAll d (przsArith P k)).1 r + if r = src then x else 0 := by
      intro r; simp only [encryptArith]; split <;> simp
    simp only [this, Finset.sum_add_distrib, hz, zero_add]
    simp
  refine ⟨fun i => ?_, fun rank => ?_, fun dst rank => ?_⟩
  · rw [← Finset.sum_apply, key]
  · simp only [revealTo, reveal, key]
  · simp only [revealTo, reveal, key]

/-- Non-vacuity: three parties, source 2, a history with other encryptions; the source's share is not the secret. -/
example : ∃ w : World demoPrng 3,
    syncSeeds demoPrng ![5, 7, -3] ![1, 2, 3] ![0, 0, 0] = some w ∧
    (encryptArith (runGen w [.encA 0 1 1 ![9], .przsX 0 2]) 0 2 ![(42 : I64)]).1 2 0 ≠ 42 := by
  refine ⟨_, rfl, ?_⟩
  decide

/-! ## C03 (round trip part): XOR sharing -/

/-- **C03 (round trip).** The XOR of the shares produced by a `BinarySharedTensor` encryption is the shared word. -/
theorem C03_binary_encrypt_reveal (P : Prng) {n : ℕ} [NeZero n] (nextSeed localSeed globalSeed : Fin n → ℤ) :
    ∃ w, syncSeeds P nextSeed localSeed globalSeed = some w ∧
      ∀ (history : List (GenOp n)) (d : Device) (src : Fin n) (k : ℕ) (x : Tensor (Fin k)),
        revealX (encryptBinary (runGen w history) d src x).1 = x := by
  obtain ⟨w, hw, hs⟩ := syncSeeds_synced P nextSeed localSeed globalSeed
  refine ⟨w, hw, fun history d src k x => ?_⟩
  funext i
  rw [revealX_apply]
  have : ∀ r, (encryptBinary (runGen w history) d src x).1 r i =
      ((runGen w history).onAll d (przsBinary P k)).1 r i ^^^ if r = src then x i else 0#64 := by
    intro r; simp only [encryptBinary]; split <;> simp
  simp only [this]
  rw [xsum_xor, przsX_sum (runGen_synced hs history), xsum_single]
  exact BitVec.zero_xor

/-! ## C57: thread mode -/

/-- **C57 is refuted for threads.** When the ranks are threads of one process (`init_thread`), they share one generator
dictionary, and the zero-shares need not cancel: there are generators and seeds for which two threads' zero-shares
do not sum to zero. -/
theorem C57_thread_mode_not_cancelling :
    ∃ (P : Prng) (g : PartyGens P), ((przsArithThreads P 1 2 g).1.map (fun s => s 0)).sum ≠ 0 := by
  refine ⟨demoPrng, { prev := (5 : ℤ), next := (7 : ℤ), loc := (0 : ℤ), glob := (0 : ℤ) }, ?_⟩
  decide

/-- **C57, the part that holds:** with a single thread whose two generators were seeded alike (world size 1), the
zero-share is zero. What is missing: any world size above one, where the claim is false. -/
theorem C57_thread_mode_partial (P : Prng) (g : PartyGens P) (h : g.prev = g.next) (k : ℕ) (i : Fin k) :
    ((przsArithThreads P k 1 g).1.map (fun s => s i)).sum = 0 := by
  simp [przsArithThreads, przsArith, h]

example : ({ prev := (5 : ℤ), next := (5 : ℤ), loc := (1 : ℤ), glob := (2 : ℤ) } : PartyGens demoPrng).prev = (5 : ℤ) := rfl

/-! ## C04: secrecy of the shares -/

/-- **C04 (non-interference).** What any party other than the source holds after an encryption – its shares and the
state of all generators – does not depend on the secret at all. -/
theorem C04_other_parties_view_independent {P : Prng} {n k : ℕ} (w : World P n) (d : Device) (src : Fin n)
    (x x' : Tensor (Fin k)) :
    (∀ r, r ≠ src → (encryptArith w d src x).1 r = (encryptArith w d src x').1 r) ∧
    (encryptArith w d src x).2 = (encryptArith w d src x').2 := by
  refine ⟨fun r hr => ?_, rfl⟩
  simp [encryptArith, hr]

/-- Share of party `r` when party `q`'s draw towards its successor is `m q` and the secret at `src` is `x`. -/
def shareFromMasks {n : ℕ} [NeZero n] (m : Fin n → I64) (src : Fin n) (x : I64) (r : Fin n) : I64 :=
  m (prevRank r) - m r + if r = src then x else 0

/-- The shares the library computes are `shareFromMasks` of the numbers drawn from the `next` generators. -/
theorem C04_shares_are_mask_differences (P : Prng) {n : ℕ} [NeZero n] (nextSeed localSeed globalSeed : Fin n → ℤ) :
    ∃ w, syncSeeds P nextSeed localSeed globalSeed = some w ∧
      ∀ (history : List (GenOp n)) (d : Device) (src : Fin n) (k : ℕ) (x : Tensor (Fin k)) (i : Fin k) (r : Fin n),
        (encryptArith (runGen w history) d src x).1 r i =
          shareFromMasks (fun q => (generateRandomRingElement P k (runGen w history q d).next).1 i) src (x i) r := by
  obtain ⟨w, hw, hs⟩ := syncSeeds_synced P nextSeed localSeed globalSeed
  refine ⟨w, hw, fun history d src k x i r => ?_⟩
  have h1 := (runGen_synced hs history).1 (prevRank r) d
  rw [nextRank_prevRank] at h1
  simp only [shareFromMasks, encryptArith, World.onAll, przsArith, h1]
  split <;> simp

/-- Party `r` (a natural number below `n`) lies on the arc from `src` forwards to just before `j`. -/
def OnArc (n j src r : ℕ) : Prop :=
  src ≠ j ∧ r ≠ j ∧
    (if j < src then src - j - 1 else src + n - j - 1) ≤ (if j < r then r - j - 1 else r + n - j - 1)

instance (n j src r : ℕ) : Decidable (OnArc n j src r) := by unfold OnArc; infer_instance

/-- Shift of the masks that turns secret `x` into `x'` without changing the shares of anyone but party `j`. -/
def maskShift {n : ℕ} (j src : Fin n) (D : I64) (r : Fin n) : I64 :=
  if OnArc n j.val src.val r.val then D else 0

theorem prevRank_val {n : ℕ} [NeZero n] (r : Fin n) : (prevRank r).val = if r.val = 0 then n - 1 else r.val - 1 := by
  have h := congrArg Fin.val (nextRank_prevRank r)
  have h1 : (nextRank (prevRank r)).val = ((prevRank r).val + 1) % n := rfl
  rw [h1] at h
  have hl := (prevRank r).isLt
  by_cases hc : (prevRank r).val + 1 < n
  · rw [Nat.mod_eq_of_lt hc] at h
    split <;> omega
  · have : (prevRank r).val + 1 = n := by omega
    rw [this, Nat.mod_self] at h
    split <;> omega

theorem onArc_prev {n j src r : ℕ} (hj : j < n) (hs : src < n) (hr : r < n) (hrj : r ≠ j) :
    (r = src → OnArc n j src r ∧ ¬ OnArc n j src (if r = 0 then n - 1 else r - 1)) ∧
    (r ≠ src → (OnArc n j src (if r = 0 then n - 1 else r - 1) ↔ OnArc n j src r)) := by
  unfold OnArc
  by_cases h0 : r = 0
  · simp only [h0, if_true]
    constructor
    · intro h; constructor <;> split_ifs <;> omega
    · intro h; split_ifs <;> omega
  · simp only [if_neg h0]
    constructor
    · intro h; constructor <;> split_ifs <;> omega
    · intro h; split_ifs <;> omega

theorem maskShift_spec {n : ℕ} [NeZero n] (j src : Fin n) (D : I64) (r : Fin n) (hr : r ≠ j) :
    maskShift j src D (prevRank r) - maskShift j src D r = if r = src then -D else 0 := by
  have hrj : r.val ≠ j.val := fun h => hr (Fin.ext h)
  obtain ⟨h1, h2⟩ := onArc_prev j.isLt src.isLt r.isLt hrj
  rw [← prevRank_val] at h1 h2
  unfold maskShift
  by_cases hrs : r = src
  · obtain ⟨a, b⟩ := h1 (congrArg _ hrs)
    rw [if_neg b, if_pos a, if_pos hrs, zero_sub]
  · have := h2 (fun h => hrs (Fin.ext h))
    rw [if_neg hrs]
    by_cases c : OnArc n j.val src.val r.val
    · rw [if_pos (this.2 c), if_pos c, sub_self]
    · rw [if_neg (fun h => c (this.1 h)), if_neg c, sub_self]

/-- **C04 (perfect secrecy for uniform masks).** For every coalition `S` that misses some party `j`, every two
secrets `x`, `x'`, and every assignment `v` of share values, exactly as many mask assignments give the coalition the
shares `v` when the secret is `x` as when it is `x'`.  So if the masks are uniform on the ring, the coalition's shares
are identically distributed for all secrets. -/
theorem C04_uniform_masks_perfect_secrecy {n : ℕ} [NeZero n] (S : Set (Fin n)) (j : Fin n) (hj : j ∉ S)
    (src : Fin n) (x x' : I64) (v : Fin n → I64) :
    Set.ncard {m : Fin n → I64 | ∀ r ∈ S, shareFromMasks m src x r = v r} =
    Set.ncard {m : Fin n → I64 | ∀ r ∈ S, shareFromMasks m src x' r = v r} := by
  have key : ∀ (m : Fin n → I64), ∀ r ∈ S,
      shareFromMasks (fun q => m q + maskShift j src (x' - x) q) src x' r = shareFromMasks m src x r := by
    intro m r hr
    have hrj : r ≠ j := fun h => hj (h ▸ hr)
    have := maskShift_spec j src (x' - x) r hrj
    unfold shareFromMasks
    have e : m (prevRank r) + maskShift j src (x' - x) (prevRank r) - (m r + maskShift j src (x' - x) r) =
        m (prevRank r) - m r + (maskShift j src (x' - x) (prevRank r) - maskShift j src (x' - x) r) := by abel
    rw [e, this]
    split
    · abel
    · abel
  refine Set.ncard_congr (fun m _ q => m q + maskShift j src (x' - x) q) ?_ ?_ ?_
  · intro m hm r hr
    rw [key m r hr]; exact hm r hr
  · intro a b _ _ h
    funext q
    exact add_right_cancel (congrFun h q)
  · intro m hm
    refine ⟨fun q => m q - maskShift j src (x' - x) q, fun r hr => ?_, ?_⟩
    · have := key (fun q => m q - maskShift j src (x' - x) q) r hr
      simp only [sub_add_cancel] at this
      rw [← this]; exact hm r hr
    · funext q; exact sub_add_cancel _ _

/-- Non-vacuity: in a 3-party world the coalition {0, 1} misses party 2. -/
example : (2 : Fin 3) ∉ ({0, 1} : Set (Fin 3)) := by decide

/-- **C04 is refuted for the sampler in use.** `generate_random_ring_element` calls `torch.randint(-2^63, 2^63-1)`, whose
upper end is exclusive, so masks never take the value `2^63 - 1`.  With masks uniform on that range and two parties,
the number of mask assignments giving party 0 the share `0` is different for the secrets `0` and `1`. -/
theorem C04_actual_sampler_not_perfectly_secret :
    Set.ncard {m : Fin 2 → I64 | (∀ q, -(2 ^ 64 / 2) ≤ (m q).toInt ∧ (m q).toInt < (2 ^ 64 - 1) / 2) ∧
        shareFromMasks m 0 0 0 = 0} ≠
    Set.ncard {m : Fin 2 → I64 | (∀ q, -(2 ^ 64 / 2) ≤ (m q).toInt ∧ (m q).toInt < (2 ^ 64 - 1) / 2) ∧
        shareFromMasks m 0 1 0 = 0} := by
  have hfin : Finite I64 := Finite.of_equiv _ (BitVec.equivFin (m := 64)).toEquiv.symm
  have hp : prevRank (0 : Fin 2) = 1 := by decide
  -- membership in the sampler's range
  have hr : ∀ a : I64, (-(2 ^ 64 / 2) ≤ a.toInt ∧ a.toInt < (2 ^ 64 - 1) / 2) ↔ a ≠ 0x7fffffffffffffff#64 := by
    intro a
    have h1 := BitVec.le_toInt a
    have h2 := BitVec.toInt_lt (x := a)
    constructor
    · rintro ⟨_, h⟩ rfl
      revert h; decide
    · intro h
      refine ⟨by norm_num at h1 ⊢; omega, ?_⟩
      by_contra hc
      apply h
      apply BitVec.eq_of_toInt_eq
      have : (0x7fffffffffffffff#64).toInt = 9223372036854775807 := by decide
      rw [this]
      norm_num at hc h2 ⊢
      omega
  simp only [hr, shareFromMasks, hp]
  -- both sets are graphs over the first mask
  let A : Set I64 := {a | a ≠ 0x7fffffffffffffff#64}
  let B : Set I64 := {a | a ≠ 0x7fffffffffffffff#64 ∧ a - 1 ≠ 0x7fffffffffffffff#64}
  have hA : Set.ncard {m : Fin 2 → I64 | (∀ q, m q ≠ 0x7fffffffffffffff#64) ∧
      m 1 - m 0 + (if True then 0 else 0) = 0} = A.ncard := by
    refine Set.ncard_congr (fun m _ => m 0) ?_ ?_ ?_
    · intro m hm; exact hm.1 0
    · intro m m' hm hm' h
      have e1 := hm.2; have e2 := hm'.2
      simp only [if_true, add_zero, sub_eq_zero] at e1 e2
      funext q
      match q with
      | 0 => exact h
      | 1 => rw [e1, e2]; exact h
    · intro a ha
      refine ⟨fun _ => a, ⟨fun _ => ha, by simp⟩, rfl⟩
  have hB : Set.ncard {m : Fin 2 → I64 | (∀ q, m q ≠ 0x7fffffffffffffff#64) ∧
      m 1 - m 0 + (if True then 1 else 0) = 0} = B.ncard := by
    refine Set.ncard_congr (fun m _ => m 0) ?_ ?_ ?_
    · intro m hm
      have e := hm.2
      simp only [if_true] at e
      have e' : m 1 = m 0 - 1 := by
        have := eq_neg_of_add_eq_zero_left e
        rw [sub_eq_iff_eq_add] at this
        rw [this]; abel
      exact ⟨hm.1 0, by rw [← e']; exact hm.1 1⟩
    · intro m m' hm hm' h
      have e1 := hm.2; have e2 := hm'.2
      simp only [if_true] at e1 e2
      have h' : m 0 = m' 0 := h
      funext q
      match q with
      | 0 => exact h'
      | 1 =>
        have := e1.trans e2.symm
        rw [h'] at this
        exact sub_left_injective (add_right_cancel this)
    · intro a ha
      refine ⟨![a, a - 1], ⟨fun q => ?_, ?_⟩, rfl⟩
      · match q with
        | 0 => exact ha.1
        | 1 => exact ha.2
      · show a - 1 - a + 1 = 0
        abel
  rw [hA, hB]
  have hlt : B.ncard < A.ncard := by
    apply Set.ncard_lt_ncard
    · refine ⟨fun a ha => ha.1, fun hsub => ?_⟩
      have : (0x8000000000000000#64 : I64) ∈ B := hsub (by decide)
      exact this.2 (by decide)
    · exact Set.toFinite A
  omega

end CrypTen
