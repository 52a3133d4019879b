import Verif.Model.Sharing
import Verif.Lemmas.Xor
import Mathlib.Algebra.BigOperators.Pi

/-! Auxiliary lemmas on the ring of generators. -/

namespace CrypTen

theorem nextRank_prevRank {n : ℕ} [NeZero n] (r : Fin n) : nextRank (prevRank r) = r := by
  have hn : 0 < n := NeZero.pos n
  have hr := r.isLt
  apply Fin.ext
  show ((prevRank r).val + 1) % n = r.val
  have h1 : (prevRank r).val = ((((nextRank r).val : ℤ) - 2).emod n).toNat := rfl
  have h2 : (nextRank r).val = (r.val + 1) % n := rfl
  by_cases hlt : r.val + 1 < n
  · rw [Nat.mod_eq_of_lt hlt] at h2
    rw [h1, h2]
    rcases Nat.eq_zero_or_pos r.val with h0 | h0
    · rw [h0]
      have : ((((0 + 1 : ℕ) : ℤ) - 2).emod n) = (n : ℤ) - 1 := by
        show (((0 + 1 : ℕ) : ℤ) - 2) % n = _
        rw [show (((0 + 1 : ℕ) : ℤ) - 2) = (n - 1 : ℤ) + n * (-1) by push_cast; omega]
        rw [Int.add_mul_emod_self_left, Int.emod_eq_of_lt] <;> omega
      rw [this]
      rw [show (((n : ℤ) - 1).toNat + 1) = n by omega, Nat.mod_self]
    · have : ((((r.val + 1 : ℕ) : ℤ) - 2).emod n) = (r.val : ℤ) - 1 := by
        show (((r.val + 1 : ℕ) : ℤ) - 2) % n = _
        rw [Int.emod_eq_of_lt] <;> push_cast <;> omega
      rw [this]
      rw [show (((r.val : ℤ) - 1).toNat + 1) = r.val by omega, Nat.mod_eq_of_lt hr]
  · have he : r.val + 1 = n := by omega
    rw [he, Nat.mod_self] at h2
    rw [h1, h2]
    by_cases h1' : n = 1
    · subst h1'; have := r.isLt; omega
    · have : ((((0 : ℕ) : ℤ) - 2).emod n) = (n : ℤ) - 2 := by
        show (((0 : ℕ) : ℤ) - 2) % n = _
        rw [show (((0 : ℕ) : ℤ) - 2) = (n - 2 : ℤ) + n * (-1) by push_cast; omega]
        rw [Int.add_mul_emod_self_left, Int.emod_eq_of_lt] <;> omega
      rw [this]
      rw [show (((n : ℤ) - 2).toNat + 1) = r.val by omega, Nat.mod_eq_of_lt hr]

theorem nextRank_surj {n : ℕ} [NeZero n] : Function.Surjective (nextRank (n := n)) :=
  fun r => ⟨prevRank r, nextRank_prevRank r⟩

/-- `nextRank` as a permutation of the parties. -/
noncomputable def nextEquiv (n : ℕ) [NeZero n] : Fin n ≃ Fin n :=
  Equiv.ofBijective nextRank (Finite.surjective_iff_bijective.mp nextRank_surj)

theorem nextEquiv_apply {n : ℕ} [NeZero n] (r : Fin n) : nextEquiv n r = nextRank r := rfl

/-- Neighbouring generators agree. -/
def Synced {P : Prng} {n : ℕ} [NeZero n] (w : World P n) : Prop :=
  (∀ r d, (w r d).next = (w (nextRank r) d).prev) ∧ ∀ r r' d, (w r d).glob = (w r' d).glob

theorem syncSeeds_synced (P : Prng) {n : ℕ} [NeZero n] (ns ls gs : Fin n → ℤ) :
    ∃ w, syncSeeds P ns ls gs = some w ∧ Synced w := by
  have hsome : ∀ r : Fin n, recvSeed ns r = some (ns (prevRank r)) := by
    intro r; unfold recvSeed; rw [if_pos (nextRank_prevRank r)]
  have h : ∀ r : Fin n, ((if 2 ≤ n then recvSeed ns r else some (ns r)) : Option ℤ).isSome := by
    intro r; split
    · rw [hsome]; rfl
    · rfl
  refine ⟨_, by unfold syncSeeds; rw [dif_pos h], ?_, fun _ _ _ => rfl⟩
  intro r d
  show P.manualSeed (ns r) = P.manualSeed (Option.get _ _)
  congr 1
  have key : (if 2 ≤ n then recvSeed ns (nextRank r) else some (ns (nextRank r))) = some (ns r) := by
    split
    · rw [hsome]
      have : nextRank (prevRank (nextRank r)) = nextRank r := nextRank_prevRank _
      rw [(nextEquiv n).injective this]
    · have : n = 1 := by have := NeZero.pos n; omega
      subst this
      rw [Subsingleton.elim (nextRank r) r]
  simp only [key, Option.get_some]

theorem onAll_przsA_synced {P : Prng} {n : ℕ} [NeZero n] {w : World P n} (hw : Synced w) (d : Device) (k : ℕ) :
    Synced (w.onAll d (przsArith P k)).2 := by
  constructor
  · intro r d'
    by_cases h : d' = d
    · subst h
      simp [World.onAll, przsArith, hw.1 r d']
    · simpa [World.onAll, h] using hw.1 r d'
  · intro r r' d'
    by_cases h : d' = d
    · subst h
      simpa [World.onAll, przsArith] using hw.2 r r' d'
    · simpa [World.onAll, h] using hw.2 r r' d'

theorem onAll_przsX_synced {P : Prng} {n : ℕ} [NeZero n] {w : World P n} (hw : Synced w) (d : Device) (k : ℕ) :
    Synced (w.onAll d (przsBinary P k)).2 := by
  constructor
  · intro r d'
    by_cases h : d' = d
    · subst h
      simp [World.onAll, przsBinary, hw.1 r d']
    · simpa [World.onAll, h] using hw.1 r d'
  · intro r r' d'
    by_cases h : d' = d
    · subst h
      simpa [World.onAll, przsBinary] using hw.2 r r' d'
    · simpa [World.onAll, h] using hw.2 r r' d'

theorem step_synced {P : Prng} {n : ℕ} [NeZero n] {w : World P n} (hw : Synced w) (op : GenOp n) :
    Synced (op.step w) := by
  cases op with
  | przsA d k => exact onAll_przsA_synced hw d k
  | przsX d k => exact onAll_przsX_synced hw d k
  | encA d src k x => exact onAll_przsA_synced hw d k
  | encX d src k x => exact onAll_przsX_synced hw d k
  | localDraw r d low high k =>
    have e1 : ∀ r' d', ((GenOp.localDraw r d low high k).step w r' d').next = (w r' d').next := by
      intro r' d'; simp only [GenOp.step]; split <;> rfl
    have e2 : ∀ r' d', ((GenOp.localDraw r d low high k).step w r' d').prev = (w r' d').prev := by
      intro r' d'; simp only [GenOp.step]; split <;> rfl
    have e3 : ∀ r' d', ((GenOp.localDraw r d low high k).step w r' d').glob = (w r' d').glob := by
      intro r' d'; simp only [GenOp.step]; split <;> rfl
    exact ⟨fun r' d' => by rw [e1, e2]; exact hw.1 r' d', fun r' r'' d' => by rw [e3, e3]; exact hw.2 r' r'' d'⟩
  | globalDraw d low high k =>
    refine ⟨fun r' d' => ?_, fun r' r'' d' => ?_⟩
    · simp only [GenOp.step]
      split <;> exact hw.1 r' d'
    · simp only [GenOp.step]
      split
      · simp only [hw.2 r' r'' d']
      · exact hw.2 r' r'' d'

theorem runGen_synced {P : Prng} {n : ℕ} [NeZero n] {w : World P n} (hw : Synced w) (h : List (GenOp n)) :
    Synced (runGen w h) := by
  unfold runGen
  induction h generalizing w with
  | nil => exact hw
  | cons op h ih => exact ih (step_synced hw op)

theorem przsA_sum {P : Prng} {n : ℕ} [NeZero n] {w : World P n} (hw : Synced w) (d : Device) (k : ℕ) :
    ∑ r, (w.onAll d (przsArith P k)).1 r = 0 := by
  simp only [World.onAll, przsArith, Finset.sum_sub_distrib]
  have : ∀ r, (w r d).next = (w (nextEquiv n r) d).prev := fun r => hw.1 r d
  simp only [this]
  rw [Equiv.sum_comp (nextEquiv n) (fun r => (generateRandomRingElement P k (w r d).prev).1)]
  exact sub_self _

theorem przsX_sum {P : Prng} {n : ℕ} [NeZero n] {w : World P n} (hw : Synced w) (d : Device) (k : ℕ) (i : Fin k) :
    xsum (fun r => (w.onAll d (przsBinary P k)).1 r i) = 0#64 := by
  simp only [World.onAll, przsBinary]
  rw [xsum_xor]
  have : ∀ r, (w r d).next = (w (nextEquiv n r) d).prev := fun r => hw.1 r d
  simp only [this]
  rw [xsum_perm (nextEquiv n) (fun r => (generateKbitRandomTensor P 64 k (w r d).prev).1 i)]
  exact BitVec.xor_self

end CrypTen
