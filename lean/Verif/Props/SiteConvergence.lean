import Verif.Lemmas.SiteDynamics2
import Verif.Props.HistoryInvariance
import Verif.Props.GlobalOptimum

/-!
# C81: training converges to the optimum
-/

namespace MF
open Matrix Spec Filter Topology
variable {n d : ℕ}

namespace CVI

/-- sites with given parameters -/
def sitesOf (θ : (Fin (n + 1) × Fin 1 → ℝ) × (Fin (n + 1) × Fin 1 → ℝ)) : UnivariateSites (n + 1) :=
  ⟨fun t _ => θ.1 (t, 0), fun t => Matrix.of fun _ _ => θ.2 (t, 0)⟩

/-- parameters of given sites -/
def ofSites (s : UnivariateSites (n + 1)) : (Fin (n + 1) × Fin 1 → ℝ) × (Fin (n + 1) × Fin 1 → ℝ) :=
  (siteFirst s, fun i => s.nat2 i.1 0 0)

theorem sitesOf_ofSites (s : UnivariateSites (n + 1)) : sitesOf (ofSites s) = s := by
  obtain ⟨a, b⟩ := s
  unfold sitesOf ofSites siteFirst
  congr 1
  · funext t i; rw [Subsingleton.elim i 0]
  · funext t; ext i j; rw [Subsingleton.elim i 0, Subsingleton.elim j 0]; rfl

theorem ofSites_sitesOf (θ : (Fin (n + 1) × Fin 1 → ℝ) × (Fin (n + 1) × Fin 1 → ℝ)) : ofSites (sitesOf θ) = θ := by
  refine Prod.ext ?_ ?_ <;> funext i <;> obtain ⟨t, a⟩ := i <;> rw [Subsingleton.elim a 0] <;> rfl

theorem prec_ofSites (G : Matrix (Fin (n + 1) × Fin 1) (Fin (n + 1) × Fin 1) ℝ) (s : UnivariateSites (n + 1)) :
    SiteDyn.prec G (ofSites s) = G⁻¹ + sitePrec s := rfl

/-- expected log likelihoods of the data -/
noncomputable def psi (c : CVI n d) : Fin (n + 1) × Fin 1 → ℝ → ℝ → ℝ := fun i m v => c.likelihood.varExp m v (c.observations i.1 i.2)

theorem mem_neg {s : UnivariateSites (n + 1)} (hneg : ∀ t, s.nat2 t 0 0 ≤ 0) : ofSites s ∈ SiteDyn.neg (Fin (n + 1) × Fin 1) := fun i => hneg i.1

theorem update_dyn {c : CVI n d} {k} (h : c.Valid k) (hG : (gpGram k c.times).PosDef) (hneg : ∀ t, c.sites.nat2 t 0 0 ≤ 0) :
    c.updateSites = .ok { c with sites := sitesOf (ofSites c.sites + c.learningRate •
      (SiteDyn.target c.psi (gpGram k c.times) (ofSites c.sites) - ofSites c.sites)) } := by
  obtain ⟨r, h1, h2, h3⟩ := CVI.update_functions h hG (SiteDyn.prec_posDef hG (mem_neg hneg))
  rw [h1, h2]
  refine congrArg (fun s => Except.ok ({ c with sites := s } : CVI n d)) ?_
  rw [← sitesOf_ofSites r.sites]
  refine congrArg sitesOf (Prod.ext ?_ ?_) <;> funext i <;> obtain ⟨t, a⟩ := i <;> rw [Subsingleton.elim a 0]
  · show r.sites.nat1 t 0 = c.sites.nat1 t 0 + c.learningRate * (_ - c.sites.nat1 t 0)
    rw [(h3 t).1]
    unfold localGradients gradMeanVarToExpectation
    show _ + c.learningRate * (SiteDyn.target c.psi (gpGram k c.times) (ofSites c.sites)).1 (t, 0) = _
    ring
  · show r.sites.nat2 t 0 0 = c.sites.nat2 t 0 0 + c.learningRate * (_ - c.sites.nat2 t 0 0)
    rw [(h3 t).2]
    unfold localGradients gradMeanVarToExpectation
    show _ + c.learningRate * (SiteDyn.target c.psi (gpGram k c.times) (ofSites c.sites)).2 (t, 0) = _
    ring

theorem bound_dyn {c : CVI n d} {k} (h : c.Valid k) (hG : (gpGram k c.times).PosDef) (hneg : ∀ t, c.sites.nat2 t 0 0 ≤ 0) :
    c.classicElbo = .ok (SiteDyn.bound c.psi (gpGram k c.times) (ofSites c.sites)) :=
  CVI.classicElbo_functions h hG (SiteDyn.prec_posDef hG (mem_neg hneg))

theorem predict_dyn {c : CVI n d} {k} (h : c.Valid k) (hG : (gpGram k c.times).PosDef) (hneg : ∀ t, c.sites.nat2 t 0 0 ≤ 0) {p : ℕ} (new : Fin p → ℝ)
    (n0 : ∀ j, c.times 0 ≤ new j) (n1 : ∀ j, new j ≤ c.times (Fin.last n)) :
    ∃ post f, c.posterior = .ok post ∧ post.predictF new = .ok f ∧
      ∀ j, (f j).1 = gpPredictMean (fun _ => 0) k c.times (SiteDyn.mean (gpGram k c.times) (ofSites c.sites)) (new j) ∧
        (f j).2 = gpPredictCov k c.times (SiteDyn.cov (gpGram k c.times) (ofSites c.sites)) (new j) := by
  have hJ : ((gpGram k c.times)⁻¹ + sitePrec c.sites).PosDef := SiteDyn.prec_posDef hG (mem_neg hneg)
  obtain ⟨s, q, hs, hq, hqn, hlaw, hb, -⟩ := (CVI.distQ_functions h hG).1 hJ
  have hℓ : Measurable fun f : Fin (n + 1) × Fin 1 → ℝ =>
      siteLogLik (fun t => c.sites.nat1 t 0) (fun t => c.sites.nat2 t 0 0) fun t => f (t, 0) :=
    (measurable_siteLogLik _ _).comp (measurable_pi_lambda _ fun t => measurable_pi_apply _)
  have hlat : ∀ x : Ix n d → ℝ, latent1 c.kernel c.times x = fun t => (outMat c.kernel c.times *ᵥ x) (t, 0) := fun x => by
    funext t
    rw [latent1_eq, outMat_mulVec]
    rfl
  simp only [hlat] at hb
  obtain ⟨f, hf, hfv⟩ := VGP.predict_sites (CVI.toVGP_valid h hqn) hG hs hℓ hb hJ.inv.posSemidef hlaw new n0 n1
  exact ⟨(c.toVGP q).posterior, f, by unfold CVI.posterior; rw [hq]; rfl, hf, hfv⟩

end CVI

open CVI in
/-- C81: with a log-concave, smooth likelihood, CVI training converges to the optimum. There are sites which `update_sites()` leaves as they are, whatever the
learning rate, and whose bound is the largest of all Gaussian Markov distributions. From any sites with `nat2 ≤ 0` there is a positive learning rate such that,
with that or any smaller constant learning rate, every call of `update_sites()` returns, `classic_elbo()` never decreases, and the site parameters and
`classic_elbo()` converge to those of these sites. -/
theorem C81_converges {c : CVI n d} {k} (h : c.Valid k) (hG : (gpGram k c.times).PosDef) (he : ExactLikelihood c.likelihood)
    (hl : LogConcaveLikelihood c.likelihood) (hs : SmoothVarExp c.likelihood) :
    ∃ (best : UnivariateSites (n + 1)) (e : ℝ), (∀ t, best.nat2 t 0 0 ≤ 0) ∧
      (∀ r, ({ c with learningRate := r, sites := best } : CVI n d).updateSites = .ok { c with learningRate := r, sites := best }) ∧
      (∀ r, ({ c with learningRate := r, sites := best } : CVI n d).classicElbo = .ok e) ∧
      (∀ s : SSM n d, s.Nondegenerate → ∃ e', (c.toVGP s).elbo = .ok e' ∧ e' ≤ e) ∧
      ∀ sites : UnivariateSites (n + 1), (∀ t, sites.nat2 t 0 0 ≤ 0) → ∃ r₀ : ℝ, 0 < r₀ ∧ r₀ ≤ 1 ∧
        ∀ r, 0 < r → r ≤ r₀ → ∃ (run : ℕ → UnivariateSites (n + 1)) (b : ℕ → ℝ),
          (∀ N, CVI.updates N { c with learningRate := r, sites := sites } = .ok { c with learningRate := r, sites := run N }) ∧
          (∀ N, ({ c with learningRate := r, sites := run N } : CVI n d).classicElbo = .ok (b N)) ∧ (∀ N t, (run N).nat2 t 0 0 ≤ 0) ∧
          Monotone b ∧ Tendsto b atTop (𝓝 e) ∧ (∀ t, Tendsto (fun N => (run N).nat1 t 0) atTop (𝓝 (best.nat1 t 0))) ∧
          ∀ t, Tendsto (fun N => (run N).nat2 t 0 0) atTop (𝓝 (best.nat2 t 0 0)) := by
  set G := gpGram k c.times with hGd
  have hψs : ∀ i m v, 0 < v → ContDiffAt ℝ 2 (fun x : ℝ × ℝ => c.psi i x.1 x.2) (m, v) := fun i m v hv => hs m v _ hv
  have hval : ∀ r s, ({ c with learningRate := r, sites := s } : CVI n d).Valid k := fun r s =>
    ⟨h.builds, h.noise, h.jitter, h.times, h.lower, h.upper, h.two⟩
  obtain ⟨-, -, -, θ, hθ, hfix, -⟩ := SiteDyn.converges he hl hs hG (fun i => c.observations i.1 i.2)
    (θ₀ := 0) (fun i => le_refl (0 : ℝ))
  have hθn : ∀ t, (sitesOf θ).nat2 t 0 0 ≤ 0 := fun t => hθ (t, 0)
  have hupd : ∀ r x, x ∈ SiteDyn.neg (Fin (n + 1) × Fin 1) → ({ c with learningRate := r, sites := sitesOf x } : CVI n d).updateSites =
      .ok { c with learningRate := r, sites := sitesOf (x + r • (SiteDyn.target c.psi G x - x)) } := fun r x hx => by
    have := update_dyn (hval r (sitesOf x)) hG fun t => hx (t, 0)
    simp only [ofSites_sitesOf] at this
    exact this
  have hbd : ∀ r x, x ∈ SiteDyn.neg (Fin (n + 1) × Fin 1) → ({ c with learningRate := r, sites := sitesOf x } : CVI n d).classicElbo =
      .ok (SiteDyn.bound c.psi G x) := fun r x hx => by
    have := bound_dyn (hval r (sitesOf x)) hG fun t => hx (t, 0)
    simp only [ofSites_sitesOf] at this
    exact this
  have hfix' : SiteDyn.target c.psi G θ = θ := hfix
  have hbest : ∀ r, ({ c with learningRate := r, sites := sitesOf θ } : CVI n d).updateSites = .ok { c with learningRate := r, sites := sitesOf θ } := fun r => by
    rw [hupd r θ hθ, hfix', sub_self, smul_zero, add_zero]
  refine ⟨sitesOf θ, SiteDyn.bound c.psi G θ, hθn, hbest, fun r => hbd r θ hθ, ?_, fun sites hneg => ?_⟩
  · obtain ⟨_, -, -, hq, -⟩ := C34_dist_q (hval 1 (sitesOf θ))
    obtain ⟨q, hq⟩ := hq hθn
    have hem : ∀ t, c.kernel.emission (c.times t) ≠ 0 := fun t h0 => emission_ne_zero h.builds hG t 0 (by rw [h0]; rfl)
    obtain ⟨e, e1, e2, -⟩ := C77_cvi (hval 1 (sitesOf θ)) he hl hs.differentiable hem one_ne_zero hq
    obtain rfl := Except.ok.inj (e1.symm.trans (hbd 1 θ hθ))
    exact e2.1 ⟨_, q, hbest 1, hq, rfl⟩
  · obtain ⟨r₀, h0, h1, θ₁, hθ₁, hfix₁, hrun⟩ := SiteDyn.converges he hl hs hG (fun i => c.observations i.1 i.2) (mem_neg hneg)
    obtain ⟨a1, -⟩ := SiteDyn.fixed_max he hl hs.differentiable hG hθ hfix hθ₁
    obtain ⟨b1, b2⟩ := SiteDyn.fixed_max he hl hs.differentiable hG hθ₁ hfix₁ hθ
    obtain rfl : θ = θ₁ := b2 (le_antisymm b1 a1)
    refine ⟨r₀, h0, h1, fun r hr hr' => ?_⟩
    set x : ℕ → (Fin (n + 1) × Fin 1 → ℝ) × (Fin (n + 1) × Fin 1 → ℝ) := fun N =>
      (fun x => x + r • (SiteDyn.target c.psi G x - x))^[N] (ofSites sites) with hx
    have hx1 : ∀ N, x (N + 1) = x N + r • (SiteDyn.target c.psi G (x N) - x N) := fun N => Function.iterate_succ_apply' _ N _
    obtain ⟨a1, a2, a3⟩ := hrun r hr hr' x rfl hx1
    have hcont : Tendsto (fun N => SiteDyn.bound c.psi G (x N)) atTop (𝓝 (SiteDyn.bound c.psi G θ)) :=
      (SiteDyn.contDiffAt_bound hG hψs hθ).continuousAt.tendsto.comp a3
    refine ⟨fun N => sitesOf (x N), fun N => SiteDyn.bound c.psi G (x N), fun N => ?_, fun N => hbd r _ (a1 N), fun N t => a1 N (t, 0),
      monotone_nat_of_le_succ a2, hcont, fun t => ?_, fun t => ?_⟩
    · induction N with
      | zero =>
        show Except.ok _ = Except.ok _
        beta_reduce
        rw [show sitesOf (x 0) = sites from sitesOf_ofSites sites]
      | succ N ih =>
        rw [CVI.updates_succ, ih]
        show ({ c with learningRate := r, sites := sitesOf (x N) } : CVI n d).updateSites = _
        beta_reduce
        rw [hupd r _ (a1 N), hx1]
    · exact ((continuous_apply (t, 0)).comp continuous_fst).continuousAt.tendsto.comp a3
    · exact ((continuous_apply (t, 0)).comp continuous_snd).continuousAt.tendsto.comp a3

open CVI in
/-- C81: and so do the predictions: if the site parameters converge (with `nat2 ≤ 0`), so do the means and covariances of `predict_f` at every time within the
range of the data. -/
theorem C81_predictions {c : CVI n d} {k} (h : c.Valid k) (hG : (gpGram k c.times).PosDef) {run : ℕ → UnivariateSites (n + 1)} {best : UnivariateSites (n + 1)}
    (hneg : ∀ N t, (run N).nat2 t 0 0 ≤ 0) (hneg' : ∀ t, best.nat2 t 0 0 ≤ 0)
    (h1 : ∀ t, Tendsto (fun N => (run N).nat1 t 0) atTop (𝓝 (best.nat1 t 0)))
    (h2 : ∀ t, Tendsto (fun N => (run N).nat2 t 0 0) atTop (𝓝 (best.nat2 t 0 0))) {p : ℕ} (new : Fin p → ℝ)
    (n0 : ∀ j, c.times 0 ≤ new j) (n1 : ∀ j, new j ≤ c.times (Fin.last n)) :
    ∃ (post : ℕ → CondProcess n 1 d) (post' : CondProcess n 1 d) (f : ℕ → Fin p → Vec 1 × Mat 1 1) (f' : Fin p → Vec 1 × Mat 1 1),
      (∀ N, ({ c with sites := run N } : CVI n d).posterior = .ok (post N) ∧ (post N).predictF new = .ok (f N)) ∧
      ({ c with sites := best } : CVI n d).posterior = .ok post' ∧ post'.predictF new = .ok f' ∧
      ∀ j, Tendsto (fun N => (f N j).1) atTop (𝓝 (f' j).1) ∧ Tendsto (fun N => (f N j).2) atTop (𝓝 (f' j).2) := by
  have hval : ∀ s, ({ c with sites := s } : CVI n d).Valid k := fun s => ⟨h.builds, h.noise, h.jitter, h.times, h.lower, h.upper, h.two⟩
  choose post f e1 e2 e3 using fun N => predict_dyn (hval (run N)) hG (hneg N) new n0 n1
  obtain ⟨post', f', e1', e2', e3'⟩ := predict_dyn (hval best) hG hneg' new n0 n1
  have hlim : Tendsto (fun N => ofSites (run N)) atTop (𝓝 (ofSites best)) := by
    refine Tendsto.prodMk_nhds (tendsto_pi_nhds.2 fun i => h1 i.1) (tendsto_pi_nhds.2 fun i => h2 i.1)
  have hdet : (SiteDyn.prec (gpGram k c.times) (ofSites best)).det ≠ 0 := (SiteDyn.prec_posDef hG (mem_neg hneg')).det_pos.ne'
  have hm : Tendsto (fun N => SiteDyn.mean (gpGram k c.times) (ofSites (run N))) atTop (𝓝 (SiteDyn.mean (gpGram k c.times) (ofSites best))) :=
    tendsto_pi_nhds.2 fun i => ((SiteDyn.contDiffAt_mean (N := 0) hdet i).continuousAt.tendsto.comp hlim)
  have hc : Tendsto (fun N => SiteDyn.cov (gpGram k c.times) (ofSites (run N))) atTop (𝓝 (SiteDyn.cov (gpGram k c.times) (ofSites best))) :=
    tendsto_pi_nhds.2 fun i => tendsto_pi_nhds.2 fun j => ((SiteDyn.contDiffAt_cov (N := 0) hdet i j).continuousAt.tendsto.comp hlim)
  refine ⟨post, post', f, f', fun N => ⟨e1 N, e2 N⟩, e1', e2', fun j => ⟨?_, ?_⟩⟩
  · simp only [(e3 _ j).1, (e3' j).1]
    have : Continuous fun μ => gpPredictMean (fun _ => 0) k c.times μ (new j) := by
      unfold gpPredictMean
      fun_prop
    exact this.continuousAt.tendsto.comp hm
  · simp only [(e3 _ j).2, (e3' j).2]
    have : Continuous fun S => gpPredictCov k c.times S (new j) := by
      unfold gpPredictCov
      fun_prop
    exact this.continuousAt.tendsto.comp hc

/-- C81: the model as the constructor builds it. For all small enough learning rates, training it any number of times returns, and the bound and all predictions
within the range of the data converge; the bound to the largest of all Gaussian Markov distributions, the predictions to the same values whatever the learning
rate. -/
theorem C81_training {times : Fin (n + 1) → ℝ} {Y : Fin (n + 1) → Vec 1} {K : Stationary 1 d} {k} {lik : ScalarLikelihood} {mf : Option (ℝ → Vec 1)}
    (h : (CVI.init times Y K lik mf).Valid k) (hG : (gpGram k times).PosDef) (he : ExactLikelihood lik) (hl : LogConcaveLikelihood lik)
    (hs : SmoothVarExp lik) {p : ℕ} (new : Fin p → ℝ) (n0 : ∀ j, times 0 ≤ new j) (n1 : ∀ j, new j ≤ times (Fin.last n)) :
    ∃ (r₀ e : ℝ) (f' : Fin p → Vec 1 × Mat 1 1), 0 < r₀ ∧
      (∀ s : SSM n d, s.Nondegenerate → ∃ e', ((CVI.init times Y K lik mf).toVGP s).elbo = .ok e' ∧ e' ≤ e) ∧
      ∀ r, 0 < r → r ≤ r₀ → ∃ (c : ℕ → CVI n d) (b : ℕ → ℝ) (post : ℕ → CondProcess n 1 d) (f : ℕ → Fin p → Vec 1 × Mat 1 1),
        (∀ N, CVI.updates N (CVI.init times Y K lik mf r) = .ok (c N) ∧ (c N).classicElbo = .ok (b N) ∧ (c N).posterior = .ok (post N) ∧
          (post N).predictF new = .ok (f N)) ∧
        Monotone b ∧ Tendsto b atTop (𝓝 e) ∧ ∀ j, Tendsto (fun N => (f N j).1) atTop (𝓝 (f' j).1) ∧ Tendsto (fun N => (f N j).2) atTop (𝓝 (f' j).2) := by
  obtain ⟨best, e, hbn, -, -, hmax, hrun⟩ := C81_converges h hG he hl hs
  obtain ⟨r₀, h0, -, hr⟩ := hrun (CVI.init times Y K lik mf).sites fun t => by
    show (-1e-10 : ℝ) ≤ 0
    norm_num
  obtain ⟨-, post', -, f', -, hp', hf', -⟩ := C81_predictions h hG (run := fun _ => best) (fun _ => hbn) hbn (fun t => tendsto_const_nhds)
    (fun t => tendsto_const_nhds) new n0 n1
  refine ⟨r₀, e, f', h0, hmax, fun r h1 h2 => ?_⟩
  obtain ⟨run, b, u1, u2, u3, u4, u5, u6, u7⟩ := hr r h1 h2
  obtain ⟨post, post₂, f, f₂, v1, v2, v3, v4⟩ := C81_predictions h hG u3 hbn u6 u7 new n0 n1
  obtain rfl : post' = post₂ := Except.ok.inj (hp'.symm.trans v2)
  obtain rfl : f' = f₂ := Except.ok.inj (hf'.symm.trans v3)
  exact ⟨fun N => { CVI.init times Y K lik mf with learningRate := r, sites := run N }, b, post, f, fun N => ⟨u1 N, u2 N, (v1 N).1, (v1 N).2⟩, u4, u5, v4⟩

theorem poissonLikelihood_smooth : SmoothVarExp poissonLikelihood := fun m v y _ => by
  refine ContDiff.contDiffAt ?_
  show ContDiff ℝ 2 fun x : ℝ × ℝ => y * x.1 - Real.exp (x.1 + x.2 / 2) - Real.log (Real.Gamma (y + 1))
  fun_prop

theorem gaussianLikelihood_smooth (σ2 : ℝ) : SmoothVarExp (gaussianLikelihood σ2) := fun m v y _ => by
  refine ContDiff.contDiffAt ?_
  show ContDiff ℝ 2 fun x : ℝ × ℝ => -(1 / 2) * Real.log (2 * Real.pi) - 1 / 2 * Real.log σ2 - 1 / 2 * ((y - x.1) ^ 2 + x.2) / σ2
  fun_prop

/-- Non-vacuity: Poisson data, three time points and a Matérn 3/2 kernel meet the hypotheses of C81_training; the Gaussian likelihood also does. -/
example : ∃ (K : Stationary 1 2) (k : ℝ → ℝ → Mat 1 1), (CVI.init (n := 2) ![0, 1, 3] (fun i => ![(i : ℝ)]) K poissonLikelihood none).Valid k ∧
    (gpGram k (![0, 1, 3] : Fin 3 → ℝ)).PosDef ∧ ExactLikelihood poissonLikelihood ∧ LogConcaveLikelihood poissonLikelihood ∧
    SmoothVarExp poissonLikelihood ∧ ExactLikelihood (gaussianLikelihood 2) ∧ LogConcaveLikelihood (gaussianLikelihood 2) ∧
    SmoothVarExp (gaussianLikelihood 2) := by
  obtain ⟨K, hK⟩ := (C28_constructors (o := 1) 2 1 1 1 1 0).2.1.2 (by norm_num)
  have hB : Builds K (iso (matern32Cov 2 1)) := .leaf (.matern32 hK)
  have hts : StrictMono (![0, 1, 3] : Fin 3 → ℝ) := by
    refine Fin.strictMono_iff_lt_succ.2 fun i => ?_
    fin_cases i <;> simp
  have hj : K.jitter = 0 := by rw [(kernelInit_ok hK).2.2]; rfl
  refine ⟨K, _, ⟨hB, .matern32 hK, hj, hts, by show -10000000000 < (0 : ℝ); norm_num, by show (3 : ℝ) ≤ 10000000000; norm_num, two_pos⟩,
    gpGram_posDef hB (.matern32 hK) two_pos hts hj fun i => ?_, poissonLikelihood_exact, poissonLikelihood_logConcave, poissonLikelihood_smooth,
    gaussianLikelihood_exact 2, gaussianLikelihood_logConcave two_pos, gaussianLikelihood_smooth 2⟩
  refine LinearIndependent.of_subsingleton 0 fun h0 => ?_
  have := congrFun h0 0
  rw [(kernelInit_ok hK).2.2] at this
  exact one_ne_zero this

end MF
