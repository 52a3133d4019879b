import Verif.Props.CnnExample

/-!
# A concrete case of C102

An image of 2 × 2 pixels, one column of each party, a kernel of one pixel, one hidden unit and two classes: the conditions of `C102_train` hold, with the default threshold.
-/

namespace CrypTen.Cnn
open Training (Sizes TrainFits)

abbrev sampleDims : Dims := ⟨1, 1, 2, 1, 1, 1, 1, 1, 1, 2⟩

def sampleAlice : Fin sampleDims.S × Fin sampleDims.h × Fin sampleDims.wa → ℚ := fun p => if p.2.1.val = 0 then 1 else if p.2.2.val = 0 then 2 else -1

def sampleBob : Fin sampleDims.S × Fin sampleDims.h × Fin sampleDims.wb → ℚ := fun p => if p.2.1.val = 1 then 3 else 1 / 2

def sampleLabels : Fin sampleDims.q → Fin sampleDims.N × Fin sampleDims.C → ℚ := fun _ p => if p.2.val = 0 then 1 else 0

def sampleNet : Entry sampleDims → ℚ
  | .W1 i => if i.2.2.1.val = 0 then 1 / 2 else if i.2.2.2.val = 0 then 1 / 4 else 1 / 8
  | .b1 _ => 1 / 8
  | .W2 _ => 1 / 2
  | .b2 _ => 1 / 4
  | .W3 i => if i.1.val = 0 then 1 else -1 / 2
  | .b3 _ => 0

def sampleSizes : Sizes := ⟨fun _ => 4, fun _ => 4, 16⟩

theorem sample_room : Sgd.Room 2 24 (some 100) (hyper (1 / 8)) sampleSizes.B 1 1 := by
  refine ⟨by decide +kernel, by decide +kernel, by decide +kernel, by decide +kernel, by decide +kernel, by decide +kernel, by decide +kernel, by decide +kernel, fun t h => ?_⟩
  obtain rfl := Option.some.inj h
  decide +kernel

/-- The only batch. -/
abbrev sampleTape : Backprop.Tape 2 (shape sampleDims) := batchTape sampleDims .pairwise ⟨0, by decide⟩ (sampleLabels ⟨0, by decide⟩)

abbrev sampleStart : Training.Exact (shape sampleDims) := origin 2 sampleDims 1 sampleAlice sampleBob sampleNet

theorem sample_forward : Backprop.SafeForward 24 (fun _ => 1 / 2 ^ 24) sampleSizes.M sampleStart.1 sampleTape := by decide +kernel

theorem sample_backward : Backprop.SafeBackward 24 sampleSizes.M (Backprop.errs 2 24 (fun _ => 1 / 2 ^ 24) sampleSizes.M sampleTape) sampleSizes.K (Backprop.values sampleStart.1 sampleTape) sampleTape (Backprop.seed out) fun _ => 0 := by decide +kernel

/-- The gradient of a parameter fits. -/
abbrev SampleStep (r : ℕ) : Prop :=
  Sgd.StepFits 2 24 (some 100) (hyper (1 / 8)) sampleSizes.B 1 (sampleStart.1 r, sampleStart.2 r) (1 / 2 ^ 24, none) (Backprop.grads (Backprop.values sampleStart.1 sampleTape) sampleTape (Backprop.seed out) r)
    (Training.gradientErr 2 24 sampleSizes out sampleTape sampleStart.1 (fun _ => 1 / 2 ^ 24) r) ∧
  Sgd.Clear 2 24 (some 100) (Backprop.grads (Backprop.values sampleStart.1 sampleTape) sampleTape (Backprop.seed out) r) (Training.gradientErr 2 24 sampleSizes out sampleTape sampleStart.1 (fun _ => 1 / 2 ^ 24) r)

theorem sample_step7 : SampleStep 7 := by decide +kernel
theorem sample_step6 : SampleStep 6 := by decide +kernel
theorem sample_step5 : SampleStep 5 := by decide +kernel
theorem sample_step4 : SampleStep 4 := by decide +kernel
theorem sample_step3 : SampleStep 3 := by decide +kernel
theorem sample_step2 : SampleStep 2 := by decide +kernel

theorem sample_fits : TrainFits 24 sampleSizes 1 (some 100) (hyper (1 / 8)) [0, 1, 2, 3, 4, 5, 6, 7] params out [sampleTape] sampleStart fun _ => (1 / 2 ^ 24, none) := by
  refine ⟨⟨tape_ordered _ _ _, fun r hr => ?_, sample_forward, sample_backward, by decide +kernel, fun _ _ => ⟨by decide +kernel, fun f h => nomatch h⟩, fun r hr _ => ?_⟩, trivial⟩
  · simp only [sampleTape, batchTape, List.mem_cons, List.not_mem_nil, or_false, Sigma.mk.injEq] at hr
    rcases hr with h | h | h | h | h | h | h | h | h | h | h | h | h | h | h | h | h | h | h | h | h | h | h | h | h | h | h | h | h | h | h | h | h <;> obtain ⟨rfl, h⟩ := h <;> first | decide | exact nomatch h
  · simp only [params, List.mem_cons, List.not_mem_nil, or_false] at hr
    rcases hr with rfl | rfl | rfl | rfl | rfl | rfl
    exacts [sample_step2, sample_step3, sample_step4, sample_step5, sample_step6, sample_step7]

/-- So the conditions of `C102_train` hold together; the step changes the network. -/
example (init : Program.Regs 2 (shape sampleDims)) : ∃ net' : Entry sampleDims → ℚ, Descends (some 100) (1 / 8) (loss sampleAlice sampleBob ⟨0, by decide⟩ (sampleLabels ⟨0, by decide⟩)) sampleNet net' ∧
    Sat (runExample 24 sampleDims .pairwise 1 (some 100) (1 / 8) 1 sampleAlice sampleBob sampleLabels sampleNet init) fun r => r.2.length = 1 := by
  have hnet : ∀ e, |sampleNet e| ≤ 4 := by
    intro e
    rcases e with i | i | i | i | i | i <;> revert i <;> decide +kernel
  obtain ⟨nets, h0, hd, hs⟩ := C102_train (n := 2) (k := 24) (d := sampleDims) (by decide) (by decide) (by decide) .pairwise 1 (z := sampleSizes) (B := 4) sample_room (fun _ => by simp [sampleSizes]) (fun _ => by simp [sampleSizes])
    (by simp [sampleSizes]) 1 sampleAlice sampleBob sampleLabels sampleNet (by decide +kernel) (by decide +kernel) (by decide +kernel) hnet sample_fits init
  refine ⟨nets 1, ?_, hs.mono fun r hr => hr.2.1⟩
  have h := hd 0 ⟨0, by decide⟩ (by decide) rfl
  rwa [h0] at h

end CrypTen.Cnn
