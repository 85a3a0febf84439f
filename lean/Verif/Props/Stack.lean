import Verif.Lemmas.Stack
import Verif.Props.LikelihoodObjects

/-!
# C55: models over an `IndependentMultiOutputStack`

Specification vocabulary: `slicePrior K D m z X`: the Gaussian process of child `K` at the conditioning times `z` (states,
followed by independent standard normals up to dimension `D`) and at the data times `X` (latent values); `IsPredictive`,
`evidence`, `IsBayesPosterior`, `gpLaw` as elsewhere; `ExactVector`, `stackLogLik` in `Spec/Stack`. Products over the children
are Mathlib's `Measure.pi`.
-/

namespace MF
open Matrix Spec MeasureTheory ProbabilityTheory InformationTheory
variable {n p R : ℕ} {β : Type}

/-- The hypotheses on a stack and a distribution `q`: children that are kernel expressions with noise throughout, jitter zero,
for each child strictly increasing conditioning times within `±1e10`, at least two of them, and a non-degenerate `q`. -/
structure StackKernel.Valid (k : StackKernel R) (cov : Fin R → ℝ → ℝ → Mat 1 1) (z : Fin R → Fin (n + 1) → ℝ)
    (q : Fin R → SSM n k.stateDim) : Prop where
  builds : ∀ r, Builds (k.children r).2 (cov r)
  noise : ∀ r, NoiseTag (k.children r).2 true
  jitter : k.jitter = 0
  times : ∀ r, StrictMono (z r)
  lower : ∀ r, -10000000000 < z r 0
  upper : ∀ r, z r (Fin.last n) ≤ 10000000000
  two : 0 < n
  q : ∀ r, (q r).Nondegenerate

/-- The prior of the stack: independent children. -/
noncomputable def StackKernel.prior (k : StackKernel R) (m : Fin R → ℝ → ℝ) (z : Fin R → Fin (n + 1) → ℝ) (X : Fin R → Fin p → ℝ) :
    Measure (Fin R → (Fin (n + 1) × Fin k.stateDim → ℝ) × (Fin p × Fin 1 → ℝ)) :=
  Measure.pi fun r => slicePrior (k.children r).2 k.stateDim (m r) (z r) (X r)

section
variable {k : StackKernel R} {cov : Fin R → ℝ → ℝ → Mat 1 1} {z : Fin R → Fin (n + 1) → ℝ} {q : Fin R → SSM n k.stateDim}

theorem StackKernel.Valid.slice (h : k.Valid cov z q) {X : Fin R → Fin p → ℝ} (h0 : ∀ r j, z r 0 ≤ X r j)
    (h1 : ∀ r j, X r j ≤ z r (Fin.last n)) (m : Fin R → ℝ → ℝ) (r : Fin R) :
    (0 < k.stateDim ∧ ∃ s : SSM n k.stateDim, (k.slice r).stateSpaceModel (z r) = .ok s ∧ s.Nondegenerate ∧
      s.law = (slicePrior (k.children r).2 k.stateDim (m r) (z r) (X r)).map Prod.fst) ∧
    ∃ P ν, CondProcess.predictState ⟨q r, k.slice r, z r, fun t _ => m r t⟩ (X r) = .ok P ∧
      IsPredictive (slicePrior (k.children r).2 k.stateDim (m r) (z r) (X r)) (q r).law ν ∧
      ∀ j, 0 ≤ ((k.slice r).emission (X r j) * (P j).2 * ((k.slice r).emission (X r j))ᵀ) 0 0 ∧
        ν.map (fun x => x.2 (j, 0)) = gaussianReal (((k.slice r).emission (X r j) *ᵥ (P j).1) 0 + m r (X r j))
          (((k.slice r).emission (X r j) * (P j).2 * ((k.slice r).emission (X r j))ᵀ) 0 0).toNNReal :=
  slice_all (h.builds r) (h.noise r) (Nat.add_sub_cancel' (k.le_stateDim r)) (S := k.slice r)
    (by unfold StackKernel.slice; rw [h.jitter]) (h.q r) h.two (h.times r) (h.lower r) (h.upper r) (h0 r) (h1 r) (m r)

/-- C55: the state space models of a stack have the laws of independent children: the states at the conditioning times follow
the stack's prior, and the latent values at any times are independent Gaussian processes with the children's covariances. -/
theorem C55_prior (h : k.Valid cov z q) (m : Fin R → ℝ → ℝ) {X : Fin R → Fin p → ℝ} (h0 : ∀ r j, z r 0 ≤ X r j)
    (h1 : ∀ r j, X r j ≤ z r (Fin.last n)) :
    (∃ s, k.stateSpaceModel z = .ok s ∧ (∀ r, (s r).Nondegenerate) ∧
      (k.prior m z X).map (fun x r => (x r).1) = Measure.pi fun r => (s r).law) ∧
    (k.prior m z X).map (fun x r => (x r).2) = Measure.pi fun r => gpLaw (fun t _ => m r t) (cov r) (X r) := by
  constructor
  · choose s hs hnd hl using fun r => (h.slice h0 h1 m r).1.2
    refine ⟨s, seqFin_ok hs, hnd, ?_⟩
    unfold StackKernel.prior
    rw [Measure.pi_map_pi (fun r => measurable_fst.aemeasurable)]
    congr 1
    funext r
    exact (hl r).symm
  · unfold StackKernel.prior
    rw [Measure.pi_map_pi (fun r => measurable_snd.aemeasurable)]
    congr 1
    funext r
    exact slicePrior_snd (h.builds r) _ _ _ _

/-- C55: `predict_f` of a process over a stack, at query times between the first and the last conditioning time of each child:
the outputs are the marginals of independent processes, one per child, each following `q` at its conditioning times and the
child's prior conditional in between; `full_output_cov` gives the diagonal matrix of the same variances. -/
theorem C55_predict {c : StackProcess n k} (h : k.Valid cov c.times c.q) {X : Fin R → Fin p → ℝ}
    (h0 : ∀ r j, c.times r 0 ≤ X r j) (h1 : ∀ r j, X r j ≤ c.times r (Fin.last n)) :
    ∃ (f : Fin p → Vec R × Vec R) (F : Fin p → Vec R × Mat R R) (ν : Fin R → Measure _), c.predictFDiag X = .ok f ∧
      c.predictF X = .ok F ∧ (∀ r, IsProbabilityMeasure (ν r)) ∧
      (∀ r, IsPredictive (slicePrior (k.children r).2 k.stateDim (c.meanFunction r) (c.times r) (X r)) (c.q r).law (ν r)) ∧
      ∀ j, (F j).1 = (f j).1 ∧ (F j).2 = diagonal (f j).2 ∧ (∀ r, 0 ≤ (f j).2 r) ∧
        (Measure.pi ν).map (fun x r => (x r).2 (j, 0)) =
          Measure.pi fun r => gaussianReal ((f j).1 r) ((f j).2 r).toNNReal := by
  choose s ν hs hν hmarg using fun r => (h.slice h0 h1 c.meanFunction r).2
  have hps : c.predictState X = .ok s := seqFin_ok hs
  have hpν : ∀ r, IsProbabilityMeasure (ν r) := fun r => by
    have : IsProbabilityMeasure (c.q r).law := by rw [SSM.law_eq_gauss]; infer_instance
    exact (klDiv_predictive (q := (c.q r).law) (hν r)).1
  have hF : ∃ f, c.predictFDiag X = .ok f ∧ f = fun q =>
      (stackProjectStateToF (fun r q => (k.slice r).emission (X r q)) (fun r q => (s r q).1) q +
          fun r => c.meanFunction r (X r q),
        stackProjectStateCovarianceToFDiag (fun r q => (k.slice r).emission (X r q)) (fun r q => (s r q).2) q) :=
    ⟨_, by unfold StackProcess.predictFDiag; rw [hps]; rfl, rfl⟩
  have hFF : ∃ F, c.predictF X = .ok F ∧ F = fun q =>
      (stackProjectStateToF (fun r q => (k.slice r).emission (X r q)) (fun r q => (s r q).1) q +
          fun r => c.meanFunction r (X r q),
        stackProjectStateCovarianceToFFull (fun r q => (k.slice r).emission (X r q)) (fun r q => (s r q).2) q) :=
    ⟨_, by unfold StackProcess.predictF; rw [hps]; rfl, rfl⟩
  obtain ⟨f, hf, hfe⟩ := hF
  obtain ⟨F, hF, hFe⟩ := hFF
  have hst := fun j r => C25_stack (fun r q => (k.slice r).emission (X r q)) (fun r q => (s r q).1) (fun r q => (s r q).2) j r
  have hm1 : ∀ j r, (f j).1 r = ((k.slice r).emission (X r j) *ᵥ (s r j).1) 0 + c.meanFunction r (X r j) := fun j r => by
    rw [hfe]; exact congrArg (· + _) (hst j r).1
  have hm2 : ∀ j r, (f j).2 r = ((k.slice r).emission (X r j) * (s r j).2 * ((k.slice r).emission (X r j))ᵀ) 0 0 := fun j r => by
    rw [hfe]; exact (hst j r).2.1
  refine ⟨f, F, ν, hf, hF, hpν, hν, fun j => ⟨by rw [hFe, hfe], by rw [hFe, hfe]; rfl, fun r => ?_, ?_⟩⟩
  · rw [hm2]; exact (hmarg r j).1
  · have hme : ∀ r : Fin R, Measurable fun x : (Fin (n + 1) × Fin k.stateDim → ℝ) × (Fin p × Fin 1 → ℝ) => x.2 (j, 0) := fun _ => by
      fun_prop
    rw [Measure.pi_map_pi (fun r => (hme r).aemeasurable)]
    congr 1
    funext r
    rw [(hmarg r j).2, hm1, hm2]

end

/-! ### Objectives -/

/-- The factor of the data term: `num_data / minibatch_size`, or one. -/
noncomputable def StackSVGP.scale {k : StackKernel R} (v : StackSVGP n k β) (p : ℕ) : ℝ :=
  match v.numData with
  | some N => (N : ℝ) / p
  | none => 1

section
variable {k : StackKernel R} {cov : Fin R → ℝ → ℝ → Mat 1 1}

/-- The log likelihood of the latent values under the stack's prior. -/
def StackSVGP.logLik (v : StackSVGP n k β) (Y : Fin p → β) (x : Fin R → (Fin (n + 1) × Fin k.stateDim → ℝ) × (Fin p × Fin 1 → ℝ)) : ℝ :=
  stackLogLik v.likelihood Y fun r => (x r).2

theorem measurable_stackLogLik {lik : VectorLikelihood R β} (hlik : ExactVector lik) (Y : Fin p → β) :
    Measurable (stackLogLik lik Y) := by
  unfold stackLogLik
  refine Finset.measurable_sum _ fun i _ => ?_
  have h := hlik.measurable (Y i)
  exact h.comp (measurable_pi_lambda _ fun r => (measurable_pi_apply (i, 0)).comp (measurable_pi_apply r))

theorem StackSVGP.measurable_logLik {v : StackSVGP n k β} (hlik : ExactVector v.likelihood) (Y : Fin p → β) :
    Measurable (v.logLik Y) :=
  (measurable_stackLogLik hlik Y).comp (measurable_pi_lambda _ fun r => measurable_snd.comp (measurable_pi_apply r))

/-- C55: `elbo` of the sparse model over a stack, for every likelihood that couples the outputs at a datum: the expected log
likelihood under independent sparse processes, scaled, minus the KL divergence between the product of the `q`s and the product
of the priors, which is also the KL divergence between the processes. -/
theorem C55_elbo {v : StackSVGP n k β} (h : k.Valid cov v.inducing v.q) (hlik : ExactVector v.likelihood) {X : Fin R → Fin p → ℝ}
    (h0 : ∀ r j, v.inducing r 0 ≤ X r j) (h1 : ∀ r j, X r j ≤ v.inducing r (Fin.last n)) (Y : Fin p → β) :
    ∃ (s : Fin R → SSM n k.stateDim) (e kl : ℝ) (ν : Fin R → Measure _), v.distP = .ok s ∧ v.elbo X Y = .ok e ∧
      v.loss X Y = .ok (-e) ∧ (∀ r, IsProbabilityMeasure (ν r)) ∧
      (∀ r, IsPredictive (slicePrior (k.children r).2 k.stateDim (v.meanFunction r) (v.inducing r) (X r)) (v.q r).law (ν r)) ∧
      klDiv (Measure.pi fun r => (v.q r).law) (Measure.pi fun r => (s r).law) = ENNReal.ofReal kl ∧
      klDiv (Measure.pi ν) (k.prior v.meanFunction v.inducing X) = ENNReal.ofReal kl ∧ 0 ≤ kl ∧
      Integrable (v.logLik Y) (Measure.pi ν) ∧
      e = v.scale p * (∫ x, v.logLik Y x ∂Measure.pi ν) - kl := by
  choose hD s hs hnd hl using fun r => (h.slice h0 h1 v.meanFunction r).1
  obtain ⟨f, _, ν, hf, _, hprob, hν, hmarg⟩ := C55_predict (c := v.posterior) h h0 h1
  choose kls hkl hkl' hkl0 _ using fun r => C13_kl_divergence (v.q r) (s r) (h.q r) (hnd r) h.two (hD r)
  have hpq : ∀ r, IsProbabilityMeasure (v.q r).law := fun r => by rw [SSM.law_eq_gauss]; infer_instance
  have hps : ∀ r, IsProbabilityMeasure (s r).law := fun r => by rw [SSM.law_eq_gauss]; infer_instance
  have hdist : v.distP = .ok s := seqFin_ok hs
  have hklr : ∀ r, klDiv (ν r) (slicePrior (k.children r).2 k.stateDim (v.meanFunction r) (v.inducing r) (X r)) =
      ENNReal.ofReal (kls r) := fun r => by
    rw [← hkl' r]
    change _ = klDiv (v.q r).law (s r).law
    rw [hl r]
    exact (klDiv_predictive (q := (v.q r).law) (hν r)).2
  have hklsum : ∑ r, ENNReal.ofReal (kls r) = ENNReal.ofReal (∑ r, kls r) :=
    (ENNReal.ofReal_sum_of_nonneg fun r _ => hkl0 r).symm
  have hmj : ∀ j, Measurable fun x : Fin R → (Fin (n + 1) × Fin k.stateDim → ℝ) × (Fin p × Fin 1 → ℝ) =>
      fun r => (x r).2 (j, 0) := fun j => by fun_prop
  have hint : ∀ j, Integrable (fun x : Fin R → (Fin (n + 1) × Fin k.stateDim → ℝ) × (Fin p × Fin 1 → ℝ) =>
      v.likelihood.logProb (fun r => (x r).2 (j, 0)) (Y j)) (Measure.pi ν) := by
    intro j
    have := hlik.integrable (f j).1 (f j).2 (Y j)
    rw [← (hmarg j).2.2.2] at this
    exact this.comp_measurable (hmj j)
  have hsum : ∫ x, v.logLik Y x ∂Measure.pi ν = ∑ j, v.likelihood.varExp (f j).1 (f j).2 (Y j) := by
    unfold StackSVGP.logLik stackLogLik
    rw [integral_finsetSum _ fun j _ => hint j]
    refine Finset.sum_congr rfl fun j _ => ?_
    rw [hlik.varExp _ _ _ (hmarg j).2.2.1, ← (hmarg j).2.2.2,
      integral_map (hmj j).aemeasurable (hlik.measurable _).aestronglyMeasurable]
  have he : v.elbo X Y = .ok (v.scale p * (∫ x, v.logLik Y x ∂Measure.pi ν) - ∑ r, kls r) := by
    unfold StackSVGP.elbo StackSVGP.scale
    rw [hf, hdist, hsum]
    simp only [bind, Except.bind, seqFin_ok hkl, pure, Except.pure]
    cases v.numData <;> simp only [mul_comm]
  refine ⟨s, _, ∑ r, kls r, ν, hdist, he, ?_, hprob, hν, ?_, ?_, Finset.sum_nonneg fun r _ => hkl0 r, ?_, rfl⟩
  · unfold StackSVGP.loss; rw [he]; rfl
  · rw [klDiv_pi, ← hklsum]
    exact Finset.sum_congr rfl fun r _ => hkl' r
  · unfold StackKernel.prior
    rw [klDiv_pi, ← hklsum]
    exact Finset.sum_congr rfl fun r _ => hklr r
  · exact integrable_finsetSum Finset.univ fun j _ => hint j

/-- C55: on the full data `log p(y) = elbo + KL(q-processes ‖ posterior)`, where `p(y)` is the evidence of the model with independent
Gaussian process latents (the children's covariances, the given means) and the joint likelihood; so `elbo` is a lower bound, tight
exactly if the independent sparse processes are the posterior. -/
theorem C55_bound {v : StackSVGP n k β} (h : k.Valid cov v.inducing v.q) (hlik : ExactVector v.likelihood) {X : Fin R → Fin p → ℝ}
    (hp : 0 < p) (hN : v.numData = none ∨ v.numData = some p)
    (h0 : ∀ r j, v.inducing r 0 ≤ X r j) (h1 : ∀ r j, X r j ≤ v.inducing r (Fin.last n)) (Y : Fin p → β) :
    ∃ (e : ℝ) (ν : Fin R → Measure _), v.elbo X Y = .ok e ∧ v.loss X Y = .ok (-e) ∧
      (∀ r, IsPredictive (slicePrior (k.children r).2 k.stateDim (v.meanFunction r) (v.inducing r) (X r)) (v.q r).law (ν r)) ∧
      ∀ post, IsBayesPosterior (k.prior v.meanFunction v.inducing X) (v.logLik Y) post →
        klDiv (Measure.pi ν) post ≠ ⊤ ∧
        Real.log (evidence (Measure.pi fun r => gpLaw (fun t _ => v.meanFunction r t) (cov r) (X r))
          (stackLogLik v.likelihood Y)).toReal = e + (klDiv (Measure.pi ν) post).toReal ∧
        e ≤ Real.log (evidence (Measure.pi fun r => gpLaw (fun t _ => v.meanFunction r t) (cov r) (X r))
          (stackLogLik v.likelihood Y)).toReal ∧
        (e = Real.log (evidence (Measure.pi fun r => gpLaw (fun t _ => v.meanFunction r t) (cov r) (X r))
          (stackLogLik v.likelihood Y)).toReal ↔ Measure.pi ν = post) := by
  obtain ⟨s, e, kl, ν, hs, he, hl, hprob, hν, -, hkν, hkl0, hi, hev⟩ := C55_elbo h hlik h0 h1 Y
  refine ⟨e, ν, he, hl, hν, fun post hpost => ?_⟩
  have hsc : v.scale p = 1 := by
    unfold StackSVGP.scale
    rcases hN with hN | hN <;> rw [hN]
    exact div_self (Nat.cast_ne_zero.2 hp.ne')
  rw [hsc, one_mul] at hev
  have hpp0 : IsProbabilityMeasure (k.prior v.meanFunction v.inducing X) := by unfold StackKernel.prior; infer_instance
  have hm := StackSVGP.measurable_logLik hlik Y (v := v)
  obtain ⟨h2, h3⟩ := elbo_identity hm hpost (by rw [hkν]; exact ENNReal.ofReal_ne_top) hi
  have hevd : evidence (k.prior v.meanFunction v.inducing X) (v.logLik Y) =
      evidence (Measure.pi fun r => gpLaw (fun t _ => v.meanFunction r t) (cov r) (X r)) (stackLogLik v.likelihood Y) := by
    rw [← (C55_prior h v.meanFunction h0 h1).2]
    unfold evidence
    have hmm : Measurable fun (x : Fin R → (Fin (n + 1) × Fin k.stateDim → ℝ) × (Fin p × Fin 1 → ℝ)) r => (x r).2 := by fun_prop
    rw [lintegral_map _ hmm]
    · rfl
    · have := measurable_stackLogLik hlik Y
      fun_prop
  rw [hevd, hkν, ENNReal.toReal_ofReal hkl0, ← hev] at h3
  have hpp : IsProbabilityMeasure post := by
    rw [IsBayesPosterior.tilted hm hpost]
    exact isProbabilityMeasure_tilted (IsBayesPosterior.integrable_exp hm hpost)
  refine ⟨h2, h3, by rw [h3]; linarith [ENNReal.toReal_nonneg (a := klDiv (Measure.pi ν) post)], ?_⟩
  rw [h3, ← klDiv_eq_zero_iff]
  constructor
  · intro h4
    have h0 : (klDiv (Measure.pi ν) post).toReal = 0 := by linarith
    exact (ENNReal.toReal_eq_zero_iff _).1 h0 |>.resolve_right h2
  · intro h4
    rw [h4]; simp

/-- The sparse model with the inducing points of a variational model at its data. -/
def StackVGP.toSparse (v : StackVGP n k β) : StackSVGP n k β := ⟨v.likelihood, v.times, v.meanFunction, none, v.q⟩

/-- C55: the dense variational model over a stack: the same identity, with `q` at the data times. -/
theorem C55_vgp {v : StackVGP n k β} (h : k.Valid cov v.times v.q) (hlik : ExactVector v.likelihood) :
    ∃ (e : ℝ) (ν : Fin R → Measure _), v.elbo = .ok e ∧ v.loss = .ok (-e) ∧
      (∀ r, IsPredictive (slicePrior (k.children r).2 k.stateDim (v.meanFunction r) (v.times r) (v.times r)) (v.q r).law (ν r)) ∧
      ∀ post, IsBayesPosterior (k.prior v.meanFunction v.times v.times) (v.toSparse.logLik v.observations) post →
        klDiv (Measure.pi ν) post ≠ ⊤ ∧
        Real.log (evidence (Measure.pi fun r => gpLaw (fun t _ => v.meanFunction r t) (cov r) (v.times r))
          (stackLogLik v.likelihood v.observations)).toReal = e + (klDiv (Measure.pi ν) post).toReal ∧
        e ≤ Real.log (evidence (Measure.pi fun r => gpLaw (fun t _ => v.meanFunction r t) (cov r) (v.times r))
          (stackLogLik v.likelihood v.observations)).toReal ∧
        (e = Real.log (evidence (Measure.pi fun r => gpLaw (fun t _ => v.meanFunction r t) (cov r) (v.times r))
          (stackLogLik v.likelihood v.observations)).toReal ↔ Measure.pi ν = post) := by
  obtain ⟨e, ν, he, hl, hν, hb⟩ := C55_bound (v := v.toSparse) h hlik (Nat.succ_pos n) (Or.inl rfl) (X := v.times)
    (fun r j => (h.times r).monotone (Fin.zero_le j)) (fun r j => (h.times r).monotone (Fin.le_last j)) v.observations
  have hee : v.elbo = v.toSparse.elbo v.times v.observations := by
    unfold StackVGP.elbo StackSVGP.elbo
    simp only [StackVGP.toSparse, mul_one]
    rfl
  have hle : v.loss = v.toSparse.loss v.times v.observations := by
    unfold StackVGP.loss StackSVGP.loss
    rw [hee]
  exact ⟨e, ν, hee.trans he, hle.trans hl, hν, hb⟩

end

/-! ### Minibatches -/

/-- Predictions of a stack are made one query at a time. -/
theorem StackProcess.predictFDiag_comp {p' : ℕ} {k : StackKernel R} {c : StackProcess n k} {X : Fin R → Fin p → ℝ} {f}
    (h : c.predictFDiag X = .ok f) (e : Fin p' → Fin p) : c.predictFDiag (fun r => X r ∘ e) = .ok (f ∘ e) := by
  unfold StackProcess.predictFDiag StackProcess.predictState at h ⊢
  simp only [bind, Except.bind, pure, Except.pure] at h ⊢
  split at h
  · cases h
  rename_i s hs
  have hs' : seqFin (fun r => CondProcess.predictState ⟨c.q r, k.slice r, c.times r, fun t _ => c.meanFunction r t⟩ (X r ∘ e)) =
      .ok fun r => s r ∘ e := by
    refine seqFin_ok fun r => ?_
    have hr := seqFin_ok_iff.1 hs r
    unfold CondProcess.predictState conditionalPredict at hr ⊢
    simp only [bind, Except.bind, pure, Except.pure] at hr ⊢
    split at hr
    · cases hr
    rename_i pw hpw
    split at hr
    · cases hr
    rename_i st hst
    obtain ⟨cs, hcs, rfl⟩ := conditionalStatisticsAux_ok hst
    rw [conditionalStatisticsAux_of (new := X r ∘ e) (c := cs ∘ e) fun j => hcs (e j)]
    rw [← Except.ok.inj hr]
    rfl
  rw [hs']
  cases h
  rfl

/-- C55: for every partition of the data into minibatches (of any sizes), the average of the minibatch objectives of a sparse
model over a stack, weighted by the minibatch sizes, is the full objective. -/
theorem C55_partition {N : ℕ} {k : StackKernel R} {v : StackSVGP n k β} (hN : v.numData = some N) {X : Fin R → Fin N → ℝ} {Y : Fin N → β}
    {E : ℝ} (h : v.elbo X Y = .ok E) {B : ℕ} (size : Fin B → ℕ) (hs : ∀ b, 0 < size b) (hpos : 0 < N)
    (e : (Σ b, Fin (size b)) ≃ Fin N) :
    ∃ eb : Fin B → ℝ, (∀ b, v.elbo (fun r i => X r (e ⟨b, i⟩)) (fun i => Y (e ⟨b, i⟩)) = .ok (eb b)) ∧
      ∑ b, (size b / N : ℝ) * eb b = E := by
  obtain ⟨g, kl, rfl, hg⟩ : ∃ (g : Fin N → ℝ) (kl : ℝ), E = v.scale N * (∑ i, g i) - kl ∧
      ∀ {p : ℕ} (e : Fin p → Fin N), v.elbo (fun r => X r ∘ e) (Y ∘ e) = .ok (v.scale p * (∑ i, g (e i)) - kl) := by
    unfold StackSVGP.elbo at h
    simp only [bind, Except.bind, pure, Except.pure] at h
    split at h
    · cases h
    rename_i f hf
    split at h
    · cases h
    rename_i pr hpr
    split at h
    · cases h
    rename_i kls hkl
    refine ⟨fun i => v.likelihood.varExp (f i).1 (f i).2 (Y i), ∑ r, kls r, ?_, fun e => ?_⟩
    · cases h
      unfold StackSVGP.scale
      cases v.numData <;> simp only [mul_comm]
    · unfold StackSVGP.elbo StackSVGP.scale
      rw [StackProcess.predictFDiag_comp hf e, hpr]
      simp only [bind, Except.bind, pure, Except.pure, hkl, Function.comp_apply]
      cases v.numData <;> simp only [mul_comm]
  refine ⟨_, fun b => hg fun i => e ⟨b, i⟩, ?_⟩
  have hN' : (N : ℝ) ≠ 0 := Nat.cast_ne_zero.2 hpos.ne'
  have hcard : ∑ b, (size b : ℝ) = N := by
    have := Fintype.card_congr e
    simp only [Fintype.card_sigma, Fintype.card_fin] at this
    exact_mod_cast this
  have hsum : ∑ i, g i = ∑ b, ∑ i, g (e ⟨b, i⟩) := by
    rw [← e.sum_comp, Fintype.sum_sigma]
  simp only [StackSVGP.scale, hN]
  have : ∀ b, (size b / N : ℝ) * ((N : ℝ) / size b * ∑ i, g (e ⟨b, i⟩) - kl) =
      ∑ i, g (e ⟨b, i⟩) - (size b : ℝ) * (kl / N) := by
    intro b
    have := (Nat.cast_ne_zero (R := ℝ)).2 (hs b).ne'
    field_simp
  simp only [this]
  rw [Finset.sum_sub_distrib, ← Finset.sum_mul, hcard, ← hsum, div_self hN']
  field_simp

/-! ### Building stacks -/

/-- C55: a stack needs a child and a non-negative jitter. -/
theorem C55_init (children : Fin R → Σ d, Stationary 1 d) (j : ℝ) :
    (0 < R ∧ 0 ≤ j → StackKernel.init children j = .ok ⟨children, j⟩) ∧
      (¬ (0 < R ∧ 0 ≤ j) → StackKernel.init children j = .error .assertion) := by
  unfold StackKernel.init
  constructor
  · rintro ⟨h, h'⟩
    rw [if_neg h.ne', if_neg (not_not.2 h')]
  · intro h
    by_cases h0 : R = 0
    · rw [if_pos h0]
    · rw [if_neg h0, if_pos fun h' => h ⟨Nat.pos_of_ne_zero h0, h'⟩]

/-- C55: the sum of two stacks is the stack of the sums: independent processes with covariances `c_r + c'_r`; noisy children stay
noisy. Only the jitter of the left operand is kept. -/
theorem C55_add {k k' : StackKernel R} {c c' : Fin R → ℝ → ℝ → Mat 1 1} (hR : 0 < R) (hj : 0 ≤ k.jitter)
    (h : ∀ r, Builds (k.children r).2 (c r)) (h' : ∀ r, Builds (k'.children r).2 (c' r)) :
    ∃ s, k.add k' = .ok s ∧ s.jitter = k.jitter ∧ (∀ r, Builds (s.children r).2 fun t t' => c r t t' + c' r t t') ∧
      ((∀ r, NoiseTag (k.children r).2 true) → (∀ r, NoiseTag (k'.children r).2 true) → ∀ r, NoiseTag (s.children r).2 true) := by
  have hs : ∀ r, ∃ K, SDEKernel.add (k.children r).2 (k'.children r).2 = .ok K := fun r =>
    ⟨_, by unfold SDEKernel.add sumKernel combineInit; rw [if_neg (by simp), if_neg (by simp)]⟩
  choose K hK using hs
  have hseq := seqFin_ok (f := fun r => (do
    let s ← SDEKernel.add (k.children r).2 (k'.children r).2
    return (⟨_, s⟩ : Σ d, Stationary 1 d))) (g := fun r => ⟨_, K r⟩) fun r => by rw [hK r]; rfl
  refine ⟨⟨fun r => ⟨_, K r⟩, k.jitter⟩, ?_, rfl, fun r => ?_, fun hn hn' r => ?_⟩
  · unfold StackKernel.add
    rw [hseq]
    exact (C55_init _ _).1 ⟨hR, hj⟩
  · have hb := Builds.sum (ks := [k.children r, k'.children r]) (c := ![c r, c' r]) (j := 0) (K := K r)
      (fun a => by
        refine Fin.cases ?_ (fun a => ?_) a
        · exact h r
        · refine Fin.cases ?_ (fun a => a.elim0) a; exact h' r) (hK r)
    have e : (fun t t' => c r t t' + c' r t t') = fun t t' => ∑ a : Fin [k.children r, k'.children r].length,
        (![c r, c' r] : Fin 2 → ℝ → ℝ → Mat 1 1) a t t' := by
      funext t t'
      exact (Fin.sum_univ_two fun a : Fin 2 => (![c r, c' r] : Fin 2 → ℝ → ℝ → Mat 1 1) a t t').symm
    rw [e]
    exact hb
  · exact NoiseTag.sum (ks := [k.children r, k'.children r]) (j := 0) (K := K r)
      (fun a => by
        refine Fin.cases ?_ (fun a => ?_) a
        · exact hn r
        · refine Fin.cases ?_ (fun a => a.elim0) a; exact hn' r) (hK r)

/-- C55: the product of two stacks is the stack of the products: independent processes with covariances `c_r c'_r`; it is noisy as soon
as one factor of each child is. Only the jitter of the left operand is kept. -/
theorem C55_mul {k k' : StackKernel R} {c c' : Fin R → ℝ → ℝ → Mat 1 1} (hR : 0 < R) (hj : 0 ≤ k.jitter)
    (h : ∀ r, Builds (k.children r).2 (c r)) (h' : ∀ r, Builds (k'.children r).2 (c' r)) :
    ∃ s, k.mul k' = .ok s ∧ s.jitter = k.jitter ∧
      (∀ r, Builds (s.children r).2 fun t t' => Matrix.of fun _ _ => c r t t' 0 0 * c' r t t' 0 0) ∧
      ∀ b b' : Fin R → Bool, (∀ r, NoiseTag (k.children r).2 (b r)) → (∀ r, NoiseTag (k'.children r).2 (b' r)) →
        ∀ r, NoiseTag (s.children r).2 (b r || b' r) := by
  have hs : ∀ r, ∃ K, SDEKernel.mul (k.children r).2 (k'.children r).2 = .ok K := fun r =>
    ⟨_, by unfold SDEKernel.mul productKernel combineInit; rw [if_neg (by simp), if_neg (by simp)]⟩
  choose K hK using hs
  have hseq := seqFin_ok (f := fun r => (do
    let s ← SDEKernel.mul (k.children r).2 (k'.children r).2
    return (⟨_, s⟩ : Σ d, Stationary 1 d))) (g := fun r => ⟨_, K r⟩) fun r => by rw [hK r]; rfl
  refine ⟨⟨fun r => ⟨_, K r⟩, k.jitter⟩, ?_, rfl, fun r => ?_, fun b b' hn hn' r => ?_⟩
  · unfold StackKernel.mul
    rw [hseq]
    exact (C55_init _ _).1 ⟨hR, hj⟩
  · have hb := Builds.prod (ks := [k.children r, k'.children r]) (c := ![c r, c' r]) (j := 0) (K := K r)
      (fun a => by
        refine Fin.cases ?_ (fun a => ?_) a
        · exact h r
        · refine Fin.cases ?_ (fun a => a.elim0) a; exact h' r) (hK r)
    have e : (fun t t' => (Matrix.of fun _ _ => c r t t' 0 0 * c' r t t' 0 0 : Mat 1 1)) = fun t t' =>
        Matrix.of fun _ _ => ∏ a : Fin [k.children r, k'.children r].length,
          (![c r, c' r] : Fin 2 → ℝ → ℝ → Mat 1 1) a t t' 0 0 := by
      funext t t'
      ext _ _
      exact (Fin.prod_univ_two fun a : Fin 2 => (![c r, c' r] : Fin 2 → ℝ → ℝ → Mat 1 1) a t t' 0 0).symm
    rw [e]
    exact hb
  · have ht := NoiseTag.prod (ks := [k.children r, k'.children r]) (bs := ![b r, b' r]) (j := 0) (K := K r)
      (fun a => by
        refine Fin.cases ?_ (fun a => ?_) a
        · exact hn r
        · refine Fin.cases ?_ (fun a => a.elim0) a; exact hn' r) (hK r)
    have e : (b r || b' r) = decide (∃ a : Fin [k.children r, k'.children r].length, (![b r, b' r] : Fin 2 → Bool) a = true) := by
      rw [Bool.eq_iff_iff, decide_eq_true_iff, Bool.or_eq_true]
      exact (Fin.exists_fin_two (p := fun a => (![b r, b' r] : Fin 2 → Bool) a = true)).symm
    rw [e]
    exact ht

/-! ### Likelihoods -/

/-- C55: a scalar likelihood with exact variational expectations, one observation per output, is exact for the stack. -/
theorem C55_scalar_likelihood {lik : ScalarLikelihood} (h : ExactLikelihood lik) : ExactVector (lik.toVector (R := R)) := by
  have mp := fun (m v : Vec R) r => measurePreserving_eval (fun r => gaussianReal (m r) (v r).toNNReal) r
  have hi : ∀ (m v y : Vec R) r, Integrable (fun f : Vec R => lik.logProb (f r) (y r))
      (Measure.pi fun r => gaussianReal (m r) (v r).toNNReal) := fun m v y r =>
    (mp m v r).integrable_comp_of_integrable (h.integrable (m r) (v r) (y r))
  refine ⟨fun y => ?_, fun m v y => ?_, fun m v y hv => ?_⟩
  · exact Finset.measurable_sum Finset.univ fun r _ => (h.measurable (y r)).comp (measurable_pi_apply r)
  · exact integrable_finsetSum Finset.univ fun r _ => hi m v y r
  · simp only [ScalarLikelihood.toVector, ScalarLikelihood.varExps]
    rw [integral_finsetSum _ fun r _ => hi m v y r]
    refine Finset.sum_congr rfl fun r _ => ?_
    rw [h.varExp _ _ _ (hv r)]
    have := integral_map (μ := Measure.pi fun r => gaussianReal (m r) (v r).toNNReal) (φ := Function.eval r)
      (mp m v r).measurable.aemeasurable (f := fun f => lik.logProb f (y r)) (h.measurable _).aestronglyMeasurable
    rw [(mp m v r).map_eq] at this
    exact this

/-- The multi-stage likelihood as a likelihood of three latent outputs. -/
noncomputable def MultiStage.toVector (l : MultiStage) : VectorLikelihood 3 ℝ := ⟨l.logProb, l.varExp⟩

/-- C55: the multi-stage likelihood with the default links (GPflow's `inv_probit` has values in `[ε, 1 - ε]` with `ε = 1e-3`;
`exp`) is exact for a stack of three kernels, if the Bernoulli and Poisson expectations are. -/
theorem C55_multistage_likelihood (l : MultiStage) {ε : ℝ} (h0 : 0 < ε) (hm : Measurable l.sigma) (hs : ∀ f, ε ≤ l.sigma f)
    (hs' : ∀ f, l.sigma f ≤ 1 - ε) (hr : l.rate = Real.exp)
    (hb : ∀ m v y : ℝ, 0 ≤ v → l.bernVarExp m v y = ∫ f, bernoulliLog y (l.sigma f) ∂gaussianReal m v.toNNReal)
    (hp : ∀ m v y : ℝ, 0 ≤ v → l.poisVarExp m v y = ∫ f, poissonLog y (l.rate f) ∂gaussianReal m v.toNNReal) :
    ExactVector l.toVector := by
  have mb : ∀ y, Measurable fun f => bernoulliLog y (l.sigma f) := fun y => by
    unfold bernoulliLog
    by_cases hy : y = 1
    · simp only [hy, if_true]; exact Real.measurable_log.comp hm
    · simp only [hy, if_false]; exact Real.measurable_log.comp (measurable_const.sub hm)
  have mq : ∀ y, Measurable fun f => poissonLog y (l.rate f) := fun y => by
    unfold poissonLog; rw [hr]; fun_prop
  have ib : ∀ (m v y : ℝ), Integrable (fun f => bernoulliLog y (l.sigma f)) (gaussianReal m v.toNNReal) := fun m v y => by
    refine Integrable.of_bound (mb y).aestronglyMeasurable (-Real.log ε) (Filter.Eventually.of_forall fun f => ?_)
    have key : ∀ x, ε ≤ x → x ≤ 1 - ε → ‖Real.log x‖ ≤ -Real.log ε := fun x hx hx' => by
      rw [Real.norm_eq_abs, abs_of_nonpos (Real.log_nonpos (h0.le.trans hx) (by linarith))]
      linarith [Real.log_le_log h0 hx]
    unfold bernoulliLog
    split_ifs
    · exact key _ (hs f) (hs' f)
    · exact key _ (by linarith [hs' f]) (by linarith [hs f])
  have ip : ∀ (m v y : ℝ), Integrable (fun f => poissonLog y (l.rate f)) (gaussianReal m v.toNNReal) := fun m v y => by
    have e : (fun f => poissonLog y (l.rate f)) = fun f => poissonLikelihood.logProb f y := by
      funext f; rw [hr]; simp only [poissonLog, poissonLikelihood, Real.log_exp]
    rw [e]
    exact poissonLikelihood_exact.integrable m v y
  refine ⟨fun y => ?_, fun m v y => ?_, fun m v y hv => ?_⟩
  · have b0 := fun y => (mb y).comp (measurable_pi_apply (0 : Fin 3) (X := fun _ => ℝ))
    have b1 := fun y => (mb y).comp (measurable_pi_apply (1 : Fin 3) (X := fun _ => ℝ))
    have q2 := fun y => (mq y).comp (measurable_pi_apply (2 : Fin 3) (X := fun _ => ℝ))
    simp only [MultiStage.toVector, MultiStage.logProb]
    refine ((?_ : Measurable _).add ?_).add ?_
    · split_ifs
      · exact b0 1
      · exact measurable_const
    · split_ifs
      · exact (b0 0).add (b1 1)
      · exact measurable_const
    · split_ifs
      · exact ((b0 0).add (b1 0)).add (q2 _)
      · exact measurable_const
  · have mp := fun i => measurePreserving_eval (fun i : Fin 3 => gaussianReal (m i) (v i).toNNReal) i
    have jb := fun (i : Fin 3) y => (mp i).integrable_comp_of_integrable (ib (m i) (v i) y)
    have jp := fun y => (mp 2).integrable_comp_of_integrable (ip (m 2) (v 2) y)
    simp only [MultiStage.toVector, MultiStage.logProb]
    refine ((?_ : Integrable _ _).add ?_).add ?_
    · split_ifs
      · exact jb 0 1
      · exact integrable_const _
    · split_ifs
      · exact (jb 0 0).add (jb 1 1)
      · exact integrable_const _
    · split_ifs
      · exact ((jb 0 0).add (jb 1 0)).add (jp _)
      · exact integrable_const _
  · exact C40_multistage_variational_expectations l m v y (fun i y => ⟨ib _ _ _, hb _ _ _ (hv i)⟩)
      fun y => ⟨ip _ _ _, hp _ _ _ (hv 2)⟩

/-- Non-vacuity: Matérn 1/2 and Matérn 3/2 children (state dimension two for both), different inducing points for the two, Poisson
counts for both outputs, distributions that are not the prior. -/
example : ∃ (k : StackKernel 2) (cov : _) (v : StackSVGP 2 k (Vec 2)) (X : Fin 2 → Fin 3 → ℝ) (E : ℝ),
    k.stateDim = 2 ∧ k.Valid cov v.inducing v.q ∧ ExactVector v.likelihood ∧ (∀ r j, v.inducing r 0 ≤ X r j) ∧
    (∀ r j, X r j ≤ v.inducing r (Fin.last 2)) ∧ v.inducing 0 ≠ v.inducing 1 ∧ X 0 ≠ X 1 ∧ v.elbo X ![![1, 2], ![0, 3], ![2, 2]] = .ok E := by
  obtain ⟨K1, hK1⟩ := (C28_constructors (o := 1) 2 3 1 1 1 0).1.2 (by norm_num)
  obtain ⟨K2, hK2⟩ := (C28_constructors (o := 1) 1 2 1 1 1 0).2.1.2 (by norm_num)
  obtain ⟨k, hk⟩ : ∃ k : StackKernel 2, k = ⟨![⟨_, K1⟩, ⟨_, K2⟩], 0⟩ := ⟨_, rfl⟩
  have hd : k.stateDim = 2 := by
    rw [hk]; rfl
  obtain ⟨z, hz⟩ : ∃ z : Fin 2 → Fin 3 → ℝ, z = ![![0, 1, 3], ![0, 2, 4]] := ⟨_, rfl⟩
  have hB : ∀ r, ∃ c, Builds (k.children r).2 c := by
    subst hk
    exact Fin.cases ⟨_, .leaf (.matern12 hK1)⟩ fun r => by rw [Subsingleton.elim r 0]; exact ⟨_, .leaf (.matern32 hK2)⟩
  choose cov hB using hB
  have hv : k.Valid cov z (fun _ => (⟨fun _ => 1, 1, fun _ => 1, fun _ => 0, fun _ => 1⟩ : SSM 2 k.stateDim)) := by
    refine ⟨hB, ?_, by rw [hk], ?_, ?_, ?_, by norm_num, fun r i => ?_⟩
    · subst hk
      exact Fin.cases (.matern12 hK1) fun r => by rw [Subsingleton.elim r 0]; exact .matern32 hK2
    · intro r
      refine Fin.strictMono_iff_lt_succ.2 fun i => ?_
      rw [hz]
      fin_cases r <;> fin_cases i <;> simp; norm_num
    · intro r; rw [hz]; fin_cases r <;> simp
    · intro r; rw [hz]; fin_cases r <;> simp [Fin.last] <;> norm_num
    · refine Fin.cases ?_ (fun i => ?_) i <;>
      exact ⟨fun a b hab => Matrix.one_apply_ne hab.ne, fun a => (Matrix.one_apply_eq (α := ℝ) a).trans_ne one_ne_zero⟩
  obtain ⟨X, hX⟩ : ∃ X : Fin 2 → Fin 3 → ℝ, X = ![![2, 1 / 2, 3], ![1, 0, 4]] := ⟨_, rfl⟩
  have h0 : ∀ r j, z r 0 ≤ X r j := fun r j => by rw [hz, hX]; fin_cases r <;> fin_cases j <;> simp
  have h1 : ∀ r j, X r j ≤ z r (Fin.last 2) := fun r j => by
    rw [hz, hX]; fin_cases r <;> fin_cases j <;> simp [Fin.last] <;> norm_num
  obtain ⟨_, e, _, _, -, he, -⟩ := C55_elbo (v := ⟨poissonLikelihood.toVector, z, fun r t => r + t, none, _⟩) hv
    (C55_scalar_likelihood poissonLikelihood_exact) h0 h1 ![![1, 2], ![0, 3], ![2, 2]]
  refine ⟨k, _, _, X, e, hd, hv, C55_scalar_likelihood poissonLikelihood_exact, h0, h1, ?_, ?_, he⟩
  · intro h; have := congrFun h 1; simp [hz] at this
  · intro h; have := congrFun h 0; simp [hX] at this

end MF
