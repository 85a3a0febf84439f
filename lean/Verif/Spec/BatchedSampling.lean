import Verif.Spec.BatchedKernels
import Verif.Spec.Gauss
import Verif.Model.BatchedSampling

/-!
# Specification of batched sampling (C65)
-/

namespace MF.Spec
open MF.Tensor MeasureTheory

/-- The indices of a tensor whose leading axes have shape `u`: batch axes and sample axes. -/
def Idx (u : List ℕ) : Type := {b : List ℕ // InRange b u}

/-- What `sample_state_trajectories` returns: for every batch element and sample the states at the new and at the conditioning times. -/
def HoldsTrajectories {p n d : ℕ} (u : List ℕ) (x : Tensor × Tensor) (y : List ℕ → (Fin p → Vec d) × (Fin n → Vec d)) : Prop :=
  HoldsVecs u x.1 (fun b => (y b).1) ∧ HoldsVecs u x.2 fun b => (y b).2

/-- The tensor of standard normal draws of shape `sample_shape + batch_shape + [N, d, 1]` holds at every leading index its own noise `e b`. -/
def HoldsNoise {N d : ℕ} (u : List ℕ) (E : List ℕ → ℝ) (e : Idx u → Fin N × Fin d → ℝ) : Prop :=
  ∀ (b : Idx u) (t : Fin N) (i : Fin d), E (0 :: (i : ℕ) :: (t : ℕ) :: b.1) = e b (t, i)

/-- Tensors of shape `sample_shape + batch_shape + [p, m]` that hold the vectors `f b` at every leading index `b`. -/
def HoldsSamples {p m : ℕ} (u : List ℕ) (x : Tensor) (f : Idx u → Fin p → Vec m) : Prop :=
  x.shape = m :: p :: u ∧ ∀ (b : Idx u) (t : Fin p) (i : Fin m), x.val ((i : ℕ) :: (t : ℕ) :: b.1) = f b t i

theorem idx_finite (u : List ℕ) : Finite (Idx u) := by
  induction u with
  | nil => exact Finite.of_injective (fun _ => ()) fun a b _ => Subtype.ext (by
      obtain ⟨a, ha⟩ := a
      obtain ⟨b, hb⟩ := b
      cases a with
      | nil => cases b with
        | nil => rfl
        | cons => exact hb.elim
      | cons => exact ha.elim)
  | cons k u ih =>
    refine Finite.of_surjective (α := Fin k × Idx u) (fun x => ⟨(x.1 : ℕ) :: x.2.1, x.1.2, x.2.2⟩) fun b => ?_
    obtain ⟨b, hb⟩ := b
    cases b with
    | nil => exact hb.elim
    | cons i b => exact ⟨(⟨i, hb.1⟩, ⟨b, hb.2⟩), rfl⟩

noncomputable instance (u : List ℕ) : Fintype (Idx u) := haveI := idx_finite u; Fintype.ofFinite _

/-- The law of the noise of the two sampling calls: all draws, of all samples and batch elements, are independent and standard normal. -/
noncomputable def noiseLaw (u : List ℕ) (ι κ : Type) [Fintype ι] [Fintype κ] : Measure (Idx u → (ι → ℝ) × (κ → ℝ)) :=
  Measure.pi fun _ => (stdNormal ι).prod (stdNormal κ)

end MF.Spec
