import Mathlib.InformationTheory.KullbackLeibler.ChainRule
import Mathlib.InformationTheory.KullbackLeibler.DataProcessing
import Mathlib.MeasureTheory.Constructions.Pi
import Mathlib.Probability.Kernel.Composition.MeasureCompProd

/-!
# Kullback-Leibler divergence of product measures
-/

namespace MF
open MeasureTheory ProbabilityTheory InformationTheory

theorem klDiv_map_equiv {X Y : Type*} [MeasurableSpace X] [MeasurableSpace Y] (e : X ≃ᵐ Y) (μ ν : Measure X)
    [IsProbabilityMeasure μ] [IsProbabilityMeasure ν] : klDiv (μ.map e) (ν.map e) = klDiv μ ν := by
  have : IsProbabilityMeasure (μ.map e) := Measure.isProbabilityMeasure_map e.measurable.aemeasurable
  have : IsProbabilityMeasure (ν.map e) := Measure.isProbabilityMeasure_map e.measurable.aemeasurable
  refine le_antisymm (klDiv_map_le μ ν e.measurable) ?_
  have := klDiv_map_le (μ.map e) (ν.map e) e.symm.measurable
  rwa [Measure.map_map e.symm.measurable e.measurable, Measure.map_map e.symm.measurable e.measurable,
    MeasurableEquiv.symm_comp_self, Measure.map_id, Measure.map_id] at this

theorem klDiv_prod {X Y : Type*} [MeasurableSpace X] [MeasurableSpace Y] (μ ν : Measure X) (μ' ν' : Measure Y)
    [IsProbabilityMeasure μ] [IsProbabilityMeasure ν] [IsProbabilityMeasure μ'] [IsProbabilityMeasure ν'] :
    klDiv (μ.prod μ') (ν.prod ν') = klDiv μ ν + klDiv μ' ν' := by
  have h1 : klDiv (μ.prod μ') (μ.prod ν') = klDiv μ' ν' := by
    rw [← klDiv_map_equiv MeasurableEquiv.prodComm]
    have e : ∀ ρ : Measure Y, IsProbabilityMeasure ρ →
        (μ.prod ρ).map (MeasurableEquiv.prodComm : X × Y ≃ᵐ Y × X) = ρ.compProd (Kernel.const Y μ) := fun ρ _ => by
      rw [Measure.compProd_const]
      exact Measure.prod_swap
    rw [e _ inferInstance, e _ inferInstance, klDiv_compProd_left]
  have h2 := klDiv_compProd_eq_add μ ν (Kernel.const X μ') (Kernel.const X ν')
  rw [Measure.compProd_const, Measure.compProd_const, Measure.compProd_const, h1] at h2
  exact h2

theorem klDiv_pi {R : ℕ} {X : Fin R → Type*} [∀ r, MeasurableSpace (X r)] (μ ν : ∀ r, Measure (X r))
    [∀ r, IsProbabilityMeasure (μ r)] [∀ r, IsProbabilityMeasure (ν r)] :
    klDiv (Measure.pi μ) (Measure.pi ν) = ∑ r, klDiv (μ r) (ν r) := by
  induction R with
  | zero =>
    rw [Finset.univ_eq_empty, Finset.sum_empty]
    have : Measure.pi μ = Measure.pi ν := by
      congr 1
      funext r
      exact r.elim0
    rw [this, klDiv_self]
  | succ R ih =>
    rw [Fin.sum_univ_succ, ← klDiv_map_equiv (MeasurableEquiv.piFinSuccAbove X 0),
      (measurePreserving_piFinSuccAbove μ 0).map_eq, (measurePreserving_piFinSuccAbove ν 0).map_eq, klDiv_prod, ih]
    rfl

end MF
