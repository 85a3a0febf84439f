import Verif.Model.SVGP
import Verif.Props.VGP
import Mathlib.InformationTheory.KullbackLeibler.ChainRule

/-!
# Lemmas for C35
-/

namespace MF
open Matrix Spec MeasureTheory ProbabilityTheory InformationTheory
variable {n d o p p' : ℕ}

/-- Predictions are made one query at a time. -/
theorem predictFDiag_comp {c : CondProcess n o d} {new : Fin p → ℝ} {f}
    (h : c.predictFDiag new = .ok f) (e : Fin p' → Fin p) :
    c.predictFDiag (new ∘ e) = .ok (f ∘ e) := by
  unfold CondProcess.predictFDiag CondProcess.predictState conditionalPredict at h ⊢
  simp only [bind, Except.bind, pure, Except.pure] at h ⊢
  split at h
  · cases h
  rename_i v hv
  split at hv
  · cases hv
  rename_i pw hpw
  split at hv
  · cases hv
  rename_i st hst
  obtain ⟨cs, hcs, rfl⟩ := conditionalStatisticsAux_ok hst
  rw [conditionalStatisticsAux_of (new := new ∘ e) (c := cs ∘ e) fun j => hcs (e j)]
  cases hv
  cases h
  rfl

/-- KL between predictive processes with the same conditional. -/
theorem klDiv_predictive {U S : Type*} [MeasurableSpace U] [MeasurableSpace S] {prior : Measure (U × S)}
    [IsProbabilityMeasure prior] {q : Measure U} [IsProbabilityMeasure q] {ν : Measure (U × S)}
    (hν : IsPredictive prior q ν) :
    IsProbabilityMeasure ν ∧ klDiv ν prior = klDiv q (prior.map Prod.fst) := by
  obtain ⟨κ, hκ, hp, rfl⟩ := hν
  have : IsProbabilityMeasure (prior.map Prod.fst) :=
    Measure.isProbabilityMeasure_map measurable_fst.aemeasurable
  refine ⟨inferInstance, ?_⟩
  conv_lhs => rw [hp]
  exact klDiv_compProd_left _ _ _

/-- Latent outputs at arbitrary times. -/
noncomputable def latentAt (K : Stationary o d) (m : ℝ → Vec o) (ts : Fin p → ℝ)
    (x : Fin p × Fin d → ℝ) : Fin p × Fin o → ℝ :=
  fun i => (K.emission (ts i.1) *ᵥ fun a => x (i.1, a)) i.2 + m (ts i.1) i.2

theorem latentAt_eq (K : Stationary o d) (m : ℝ → Vec o) (ts : Fin p → ℝ) :
    latentAt K m ts = fun x => meanVec m ts + outMat K ts *ᵥ x := by
  funext x i
  rw [outMat_mulVec, Pi.add_apply, add_comm]
  rfl

theorem measurable_latentAt (K : Stationary o d) (m : ℝ → Vec o) (ts : Fin p → ℝ) :
    Measurable (latentAt K m ts) := by
  rw [latentAt_eq]
  exact measurable_affine _ _

/-- The latent outputs of the state prior at any times are the Gaussian process prior. -/
theorem priorLaw_latent {K : Stationary o d} {k} (hK : Builds K k) (m : ℝ → Vec o) (z : Fin (n + 1) → ℝ)
    (ts : Fin p → ℝ) :
    (priorLaw K z ts).map (fun x => latentAt K m ts x.2) = gpLaw m k ts := by
  obtain ⟨hc, -, hD⟩ := Builds.good hK
  have hm := measurable_latentAt K m ts
  have h1 : (priorLaw K z ts).map Prod.snd = gpLaw (fun _ => 0) (stateCov (K.stateTransitions 0) K.Pinf) ts := by
    rw [priorLaw, Measure.map_map measurable_snd measurable_atTimes]
    exact gpLaw_comp hc.statProc (Sum.elim z ts) Sum.inr
  rw [show (fun x : (Fin (n + 1) × Fin d → ℝ) × (Fin p × Fin d → ℝ) => latentAt K m ts x.2) =
    latentAt K m ts ∘ Prod.snd from rfl, ← Measure.map_map hm measurable_snd, h1, latentAt_eq]
  unfold gpLaw
  rw [gaussLaw_map_affine (hc.statProc.psd_any ts), outMat_conj hD]
  congr 1
  rw [show (fun i : Fin p × Fin d => (0 : Vec d) i.2) = 0 from rfl, mulVec_zero, add_zero]
  rfl

instance priorLaw_isProb (K : Stationary o d) (z : Fin (n + 1) → ℝ) (ts : Fin p → ℝ) :
    IsProbabilityMeasure (priorLaw K z ts) := by
  have := gpLaw_isProb (fun _ => (0 : Vec d)) (stateCov (K.stateTransitions 0) K.Pinf) (Sum.elim z ts)
  exact Measure.isProbabilityMeasure_map measurable_atTimes.aemeasurable

end MF
