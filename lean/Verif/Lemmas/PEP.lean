import Verif.Model.PEP
import Verif.Props.CVI

/-!
# Lemmas for `PowerExpectationPropagation`
-/

namespace MF
open Matrix Spec MeasureTheory ProbabilityTheory InformationTheory
variable {n d : ℕ}

/-! ### Bayes' rule in two steps -/

theorem IsBayesPosterior.chain {X : Type*} [MeasurableSpace X] {π ρ₁ ρ₂ : Measure X} {ℓ₁ ℓ₂ : X → ℝ}
    (h₁ : Measurable ℓ₁) (h₂ : Measurable ℓ₂) (hb₁ : IsBayesPosterior π ℓ₁ ρ₁)
    (hb₂ : IsBayesPosterior π (fun x => ℓ₁ x + ℓ₂ x) ρ₂) : IsBayesPosterior ρ₁ ℓ₂ ρ₂ := by
  obtain ⟨hz, ht, rfl⟩ := hb₁
  obtain ⟨hz', ht', rfl⟩ := hb₂
  have m₁ : Measurable fun x => ENNReal.ofReal (Real.exp (ℓ₁ x)) := by fun_prop
  have m₂ : Measurable fun x => ENNReal.ofReal (Real.exp (ℓ₂ x)) := by fun_prop
  have hf : (fun x => ENNReal.ofReal (Real.exp (ℓ₁ x + ℓ₂ x))) =
      (fun x => ENNReal.ofReal (Real.exp (ℓ₁ x))) * fun x => ENNReal.ofReal (Real.exp (ℓ₂ x)) := by
    funext x
    rw [Real.exp_add, ENNReal.ofReal_mul (Real.exp_pos _).le]; rfl
  have hev : evidence ((evidence π ℓ₁)⁻¹ • π.withDensity fun x => ENNReal.ofReal (Real.exp (ℓ₁ x))) ℓ₂ =
      (evidence π ℓ₁)⁻¹ * evidence π (fun x => ℓ₁ x + ℓ₂ x) := by
    conv_lhs => unfold evidence
    rw [lintegral_smul_measure, lintegral_withDensity_eq_lintegral_mul _ m₁ m₂, smul_eq_mul]
    congr 1
    unfold evidence
    rw [hf]
  refine ⟨?_, ?_, ?_⟩
  · rw [hev]; exact mul_ne_zero (ENNReal.inv_ne_zero.2 ht) hz'
  · rw [hev]; exact ENNReal.mul_ne_top (ENNReal.inv_ne_top.2 hz) ht'
  · rw [hev, withDensity_smul_measure, ← withDensity_mul _ m₁ m₂, smul_smul, ENNReal.mul_inv
      (.inl (ENNReal.inv_ne_zero.2 ht)) (.inl (ENNReal.inv_ne_top.2 hz)), inv_inv]
    rw [mul_comm (evidence π ℓ₁), mul_assoc, ENNReal.mul_inv_cancel hz ht, mul_one, hf]

theorem IsBayesPosterior.zero {X : Type*} [MeasurableSpace X] (π : Measure X) [IsProbabilityMeasure π] :
    IsBayesPosterior π (fun _ => 0) π := by
  have he : evidence π (fun _ => 0) = 1 := by simp [evidence]
  refine ⟨by rw [he]; exact one_ne_zero, by rw [he]; exact ENNReal.one_ne_top, ?_⟩
  rw [he]
  simp

theorem IsBayesPosterior.symm {X : Type*} [MeasurableSpace X] {π ρ : Measure X} [IsProbabilityMeasure π] {ℓ : X → ℝ}
    (hℓ : Measurable ℓ) (h : IsBayesPosterior π ℓ ρ) : IsBayesPosterior ρ (fun x => -ℓ x) π := by
  refine IsBayesPosterior.chain hℓ hℓ.neg h ?_
  simp only [Pi.neg_apply, add_neg_cancel]
  exact IsBayesPosterior.zero π

/-! ### Gaussians in natural form -/

section natural
variable {ι : Type*} [Fintype ι] [DecidableEq ι]

theorem gaussLogDensity_natural {K : Matrix ι ι ℝ} (hK : K.PosDef) (μ x : ι → ℝ) :
    gaussLogDensity μ K x = gaussLogDensity μ K 0 + (K⁻¹ *ᵥ μ) ⬝ᵥ x - (1 / 2) * (x ⬝ᵥ (K⁻¹ *ᵥ x)) := by
  have hs : (K⁻¹)ᵀ = K⁻¹ := posDef_tr hK.inv
  have e : x ⬝ᵥ (K⁻¹ *ᵥ μ) = μ ⬝ᵥ (K⁻¹ *ᵥ x) := by
    rw [dotProduct_mulVec, ← mulVec_transpose, hs, dotProduct_comm]
  unfold gaussLogDensity
  rw [zero_sub, mulVec_neg, neg_dotProduct_neg, mulVec_sub, sub_dotProduct, dotProduct_sub, dotProduct_sub,
    dotProduct_comm (K⁻¹ *ᵥ μ), e]
  ring

theorem bayes_natural {K K' M : Matrix ι ι ℝ} (hK : K.PosDef) (hK' : K'.PosDef) (h : K'⁻¹ = K⁻¹ - (2 : ℝ) • M)
    {μ μ' l : ι → ℝ} (hm : K'⁻¹ *ᵥ μ' = K⁻¹ *ᵥ μ + l) :
    IsBayesPosterior (gaussLaw μ K) (fun x => l ⬝ᵥ x + x ⬝ᵥ (M *ᵥ x)) (gaussLaw μ' K') ∧
      evidence (gaussLaw μ K) (fun x => l ⬝ᵥ x + x ⬝ᵥ (M *ᵥ x)) =
        ENNReal.ofReal (Real.exp (gaussLogDensity μ K 0 - gaussLogDensity μ' K' 0)) := by
  refine bayes_of_log hK hK' (measurable_quad l M) fun x => ?_
  rw [gaussLogDensity_natural hK μ x, gaussLogDensity_natural hK' μ' x, hm, h, add_dotProduct, sub_mulVec, smul_mulVec,
    dotProduct_sub, dotProduct_smul, smul_eq_mul]
  ring

/-- Adding a site on a block changes the precision of that block's marginal by the site. -/
theorem marginal_site {κ : Type*} [Fintype κ] [DecidableEq κ] {K K' : Matrix ι ι ℝ} (hK : K.PosDef) (hK' : K'.PosDef)
    {E : Matrix κ ι ℝ} {b : Matrix κ κ ℝ} (h : K'⁻¹ = K⁻¹ + Eᵀ * b * E) (hC : (E * K * Eᵀ).PosDef) :
    (E * K' * Eᵀ)⁻¹ = (E * K * Eᵀ)⁻¹ + b := by
  have hKu := isUnit_det' hK.isUnit
  have hKu' := isUnit_det' hK'.isUnit
  have hCu := isUnit_det' hC.isUnit
  apply inv_eq_right_inv
  have e : K' * K⁻¹ = 1 - K' * (Eᵀ * b * E) := by
    have := mul_nonsing_inv K' hKu'
    rw [h, Matrix.mul_add] at this
    rw [← this]; abel
  have e2 : K' = K - K' * (Eᵀ * b * E) * K := by
    have := congrArg (· * K) e
    simp only [Matrix.mul_assoc, nonsing_inv_mul K hKu, Matrix.mul_one, Matrix.sub_mul, Matrix.one_mul] at this
    simpa only [Matrix.mul_assoc] using this
  have e3 : E * K' * Eᵀ = E * K * Eᵀ - E * K' * Eᵀ * b * (E * K * Eᵀ) := by
    conv_lhs => rw [e2]
    simp only [Matrix.mul_sub, Matrix.sub_mul, Matrix.mul_assoc]
  rw [Matrix.mul_add]
  conv_lhs => enter [1, 1]; rw [e3]
  rw [Matrix.sub_mul, mul_nonsing_inv _ hCu, Matrix.mul_assoc _ (E * K * Eᵀ), mul_nonsing_inv _ hCu, Matrix.mul_one]
  abel

end natural

/-! ### the cavity -/

/-- The row `H(t)`. -/
noncomputable def PEP.row (c : PEP n d) (t : Fin (n + 1)) : Vec d := c.kernel.emission (c.times t) 0

/-- Precision of the cavity state at `t`. -/
noncomputable def PEP.cavPrec (c : PEP n d) (q : SSM n d) (t : Fin (n + 1)) : Mat d d :=
  (blk q.Kd t t)⁻¹ + (2 * c.alpha * c.sites.nat2 t 0 0) • vecMulVec (c.row t) (c.row t)

noncomputable def PEP.cavLin (c : PEP n d) (q : SSM n d) (t : Fin (n + 1)) : Vec d :=
  (blk q.Kd t t)⁻¹ *ᵥ q.mus t - (c.alpha * c.sites.nat1 t 0) • c.row t

theorem PEP.cavPrec_symm (c : PEP n d) {q : SSM n d} (hq : q.Nondegenerate) (t) : (c.cavPrec q t)ᵀ = c.cavPrec q t := by
  unfold PEP.cavPrec
  rw [transpose_add, transpose_smul, transpose_vecMulVec, posDef_tr (posDef_blk (SSM.Kd_posDef hq) t).inv]

theorem SSM.marginals_eq {q : SSM n d} (hq : q.Nondegenerate) (hn : 0 < n) (hd : 0 < d) :
    q.marginals = .ok (q.mus, fun t => blk q.Kd t t) := by
  unfold SSM.marginals
  rw [SSM.marginalMeans_eq hn, SSM.marginalCovariances_eq hq hn hd]; rfl

theorem PEP.cavity_cases (c : PEP n d) {q : SSM n d} (hq : q.Nondegenerate) :
    ((∀ t, (c.cavPrec q t).PosDef) → c.cavityFromMarginals (q.mus, fun t => blk q.Kd t t) =
      .ok (fun t _ => c.row t ⬝ᵥ ((c.cavPrec q t)⁻¹ *ᵥ c.cavLin q t),
        fun t _ => c.row t ⬝ᵥ ((c.cavPrec q t)⁻¹ *ᵥ c.row t))) ∧
    (¬ (∀ t, (c.cavPrec q t).PosDef) →
      c.cavityFromMarginals (q.mus, fun t => blk q.Kd t t) = .error .invalidArgument) := by
  obtain ⟨L, hL, hLc⟩ := seqFin_cholesky_ok (S := fun t => blk q.Kd t t) (posDef_blk (SSM.Kd_posDef hq))
  have hn2 : ∀ t, -((-(1 / 2) : ℝ) • cholSolve (L t) (1 : Mat d d) - c.alpha • (backProjectNats c.sites.nat1
      (fun t a => c.sites.nat2 t a 0) (fun t => c.kernel.emission (c.times t))).2 t) = (1 / 2 : ℝ) • c.cavPrec q t := by
    intro t
    rw [cholSolve_eq (hLc t), Matrix.mul_one, PEP.cavPrec]
    ext i j
    simp only [backProjectNats, Fin.sum_univ_one, Matrix.neg_apply, Matrix.sub_apply, Matrix.smul_apply, Matrix.add_apply,
      smul_eq_mul, of_apply, vecMulVec_apply, PEP.row]
    ring
  have hn1 : ∀ t, (cholSolve (L t) (replicateCol Unit (q.mus t))).col () - c.alpha • (backProjectNats c.sites.nat1
      (fun t a => c.sites.nat2 t a 0) (fun t => c.kernel.emission (c.times t))).1 t = c.cavLin q t := by
    intro t
    rw [cholSolve_eq (hLc t), PEP.cavLin]
    funext i
    simp only [backProjectNats, Fin.sum_univ_one, Pi.sub_apply, Pi.smul_apply, smul_eq_mul, PEP.row]
    congr 1
    ring
  have hhalf : ∀ t, ((1 / 2 : ℝ) • c.cavPrec q t).PosDef ↔ (c.cavPrec q t).PosDef := fun t => by
    refine ⟨fun h => ?_, fun h => h.smul (by norm_num)⟩
    have := h.smul (show (0 : ℝ) < 2 by norm_num)
    rwa [smul_smul, show (2 : ℝ) * (1 / 2) = 1 by norm_num, one_smul] at this
  constructor
  · intro hp
    obtain ⟨L', hL', hLc'⟩ := seqFin_cholesky_ok (S := fun t => (1 / 2 : ℝ) • c.cavPrec q t) fun t => (hhalf t).2 (hp t)
    have hinv : ∀ t, (1 / 2 : ℝ) • ((1 / 2 : ℝ) • c.cavPrec q t)⁻¹ = (c.cavPrec q t)⁻¹ := fun t => by
      symm
      apply inv_eq_right_inv
      have := mul_nonsing_inv ((1 / 2 : ℝ) • c.cavPrec q t) (isUnit_det' ((hhalf t).2 (hp t)).isUnit)
      rw [Matrix.mul_smul, ← Matrix.smul_mul]
      exact this
    unfold PEP.cavityFromMarginals
    simp only [hL, bind, Except.bind, pure, Except.pure, hn2, hn1, hL']
    congr 2
    · funext t a
      rw [(C25_projection _ _ (fun _ => 0) t).1, cholSolve_eq (hLc' t)]
      obtain rfl : a = 0 := Subsingleton.elim _ _
      show _ ⬝ᵥ _ = _
      rw [← hinv, smul_mulVec]
      rfl
    · funext t a
      rw [(C25_projection _ (fun _ => 0) _ t).2.2, cholSolve_eq (hLc' t), Matrix.mul_one, hinv]
      obtain rfl : a = 0 := Subsingleton.elim _ _
      simp only [Matrix.mul_apply, transpose_apply, dotProduct, mulVec, PEP.row, Finset.sum_mul, Finset.mul_sum]
      rw [Finset.sum_comm]
      exact Finset.sum_congr rfl fun i _ => Finset.sum_congr rfl fun j _ => by ring
  · intro hp
    push Not at hp
    have he := seqFin_cholesky_error (S := fun t => (1 / 2 : ℝ) • c.cavPrec q t)
      (fun t => by rw [transpose_smul, c.cavPrec_symm hq]) (hp.imp fun t ht h => ht ((hhalf t).1 h))
    unfold PEP.cavityFromMarginals
    simp only [hL, bind, Except.bind, pure, Except.pure, hn2, he]

/-- The site of datum `t` as a function of the state. -/
theorem PEP.site_quad (c : PEP n d) (t : Fin (n + 1)) (a : ℝ) (x : Vec d) :
    ((a * c.sites.nat1 t 0) • c.row t) ⬝ᵥ x + x ⬝ᵥ (((a * c.sites.nat2 t 0 0) • vecMulVec (c.row t) (c.row t)) *ᵥ x) =
      a * (c.sites.nat1 t 0 * (c.row t ⬝ᵥ x) + c.sites.nat2 t 0 0 * (c.row t ⬝ᵥ x) ^ 2) := by
  rw [smul_dotProduct, smul_mulVec, dotProduct_smul, vecMulVec_mulVec]
  simp only [smul_eq_mul, MulOpposite.smul_eq_mul_unop, MulOpposite.unop_op, dotProduct_smul]
  rw [dotProduct_comm x]
  ring

theorem gaussLaw_dot {K : Mat d d} (hK : K.PosSemidef) (μ w : Vec d) : 0 ≤ w ⬝ᵥ (K *ᵥ w) ∧
    (gaussLaw μ K).map (fun x => w ⬝ᵥ x) = gaussianReal (w ⬝ᵥ μ) (w ⬝ᵥ (K *ᵥ w)).toNNReal := by
  set G : Matrix (Fin 1) (Fin d) ℝ := Matrix.of fun _ => w
  have hv : w ⬝ᵥ (K *ᵥ w) = (G * K * Gᵀ) 0 0 := by
    rw [Matrix.mul_assoc, mul_apply]
    simp only [dotProduct, mulVec, mul_apply, transpose_apply]
    rfl
  have hpsd : (G * K * Gᵀ).PosSemidef := posSemidef_conj' hK _
  have hm : w ⬝ᵥ μ = (0 + G *ᵥ μ) 0 := by rw [zero_add]; rfl
  refine ⟨by rw [hv]; exact hpsd.diag_nonneg, ?_⟩
  rw [hv, hm, ← gaussLaw_eval hpsd, ← gaussLaw_map_affine hK, Measure.map_map (measurable_pi_apply 0) (measurable_affine 0 G)]
  congr 1
  funext x
  simp only [Function.comp_apply, zero_add]
  rfl

theorem SSM.law_block (q : SSM n d) (t : Fin (n + 1)) :
    q.law.map (fun x => unstk x t) = gaussLaw (q.mus t) (blk q.Kd t t) := by
  rw [SSM.law_eq_gauss]
  exact gaussLaw_comp q.Kd_posSemidef (stk q.mus) (fun a : Fin d => (t, a))

theorem measurable_dot (w : Vec d) : Measurable fun x : Vec d => w ⬝ᵥ x := by
  unfold dotProduct; fun_prop

theorem latent1_row (c : PEP n d) (x : Ix n d → ℝ) (t : Fin (n + 1)) :
    latent1 c.kernel c.times x t = c.row t ⬝ᵥ unstk x t := by
  rw [latent1_eq]; rfl

theorem measurable_unstk (t : Fin (n + 1)) : Measurable fun x : Ix n d → ℝ => unstk x t := by
  unfold unstk; fun_prop

/-- The precision of `dist_q`. -/
theorem CVI.distQ_precision {c : CVI n d} {k} (h : c.Valid k) {s : SSM n d}
    (hs : c.kernel.stateSpaceModel c.times = .ok s) {q} (hq : c.distQ = .ok q) :
    q.Kd⁻¹ = s.Kd⁻¹ - (2 : ℝ) • denseSym (fun t => c.sites.nat2 t 0 0 • vecMulVec (c.kernel.emission (c.times t) 0)
      (c.kernel.emission (c.times t) 0)) (0 : Fin n → Mat d d) := by
  obtain ⟨s', hs', hnd⟩ := kernel_ssm_nondegenerate h.builds h.noise h.two h.times
  obtain rfl : s = s' := Except.ok.inj (hs.symm.trans hs')
  obtain ⟨hco, -, -⟩ := Builds.good h.builds
  have hbp : (backProjectNats c.sites.nat1 (fun t a => c.sites.nat2 t a 0) fun t => c.kernel.emission (c.times t)).2 =
      fun t => c.sites.nat2 t 0 0 • vecMulVec (c.kernel.emission (c.times t) 0) (c.kernel.emission (c.times t) 0) := by
    funext t; ext i j
    simp only [backProjectNats, Fin.sum_univ_one, of_apply, Matrix.smul_apply, vecMulVec_apply, smul_eq_mul]
    ring
  have hdq : c.distQ = naturalsToSSM
      (backProjectNats c.sites.nat1 (fun t a => c.sites.nat2 t a 0) fun t => c.kernel.emission (c.times t)).1
      (fun b => (-(1 / 2) : ℝ) • s.precD b + (backProjectNats c.sites.nat1 (fun t a => c.sites.nat2 t a 0)
        fun t => c.kernel.emission (c.times t)).2 b)
      (fun k => -s.precS k + (2 : ℝ) • (0 : Fin n → Mat d d) k) := by
    unfold CVI.distQ CVI.distP
    rw [hs]
    simp only [bind, Except.bind, SSM.precision_eq hnd h.two, Option.getD_some, Pi.zero_apply, smul_zero, add_zero]
  obtain ⟨h1, h2⟩ := naturals_posterior hnd (kernel_moments h.builds h.jitter hs).1 h.two hco.pos
    (backProjectNats c.sites.nat1 (fun t a => c.sites.nat2 t a 0) fun t => c.kernel.emission (c.times t)).1
    (backProjectNats c.sites.nat1 (fun t a => c.sites.nat2 t a 0) fun t => c.kernel.emission (c.times t)).2
    (0 : Fin n → Mat d d) (backProject_symm _ _ _ _)
  rw [← hdq] at h1 h2
  rcases (Classical.em _).imp h1 h2 with ⟨q', hq', -, hK, -⟩ | he
  · obtain rfl : q = q' := Except.ok.inj (hq.symm.trans hq')
    rw [hK, hbp]
  · rw [he] at hq; cases hq

/-- `normalizer()` of `dist_q` minus that of `dist_p` is the log evidence of the sites. -/
theorem CVI.sites_evidence {c : CVI n d} {k} (h : c.Valid k) {s : SSM n d}
    (hs : c.kernel.stateSpaceModel c.times = .ok s) {q} (hq : c.distQ = .ok q) :
    ∃ zq zp, q.normalizer = .ok zq ∧ s.normalizer = .ok zp ∧
      evidence s.law (fun x => siteLogLik (fun t => c.sites.nat1 t 0) (fun t => c.sites.nat2 t 0 0)
        (latent1 c.kernel c.times x)) = ENNReal.ofReal (Real.exp (zq - zp)) := by
  obtain ⟨s', hs', hnd⟩ := kernel_ssm_nondegenerate h.builds h.noise h.two h.times
  obtain rfl : s = s' := Except.ok.inj (hs.symm.trans hs')
  obtain ⟨hco, -, -⟩ := Builds.good h.builds
  set l := (backProjectNats c.sites.nat1 (fun t a => c.sites.nat2 t a 0) fun t => c.kernel.emission (c.times t)).1 with hl
  set D := (backProjectNats c.sites.nat1 (fun t a => c.sites.nat2 t a 0) fun t => c.kernel.emission (c.times t)).2 with hD
  have hdq : c.distQ = naturalsToSSM l (fun b => (-(1 / 2) : ℝ) • s.precD b + D b)
      (fun k => -s.precS k + (2 : ℝ) • (0 : Fin n → Mat d d) k) := by
    unfold CVI.distQ CVI.distP
    rw [hs]
    simp only [bind, Except.bind, SSM.precision_eq hnd h.two, Option.getD_some, Pi.zero_apply, smul_zero, add_zero]
    rfl
  have h0 := (kernel_moments h.builds h.jitter hs).1
  obtain ⟨h1, h2⟩ := naturals_posterior hnd h0 h.two hco.pos l D (0 : Fin n → Mat d d) (backProject_symm _ _ _ _)
  rw [← hdq] at h1 h2
  rcases (Classical.em _).imp h1 h2 with ⟨q', hq', hqn, hK, hm, -⟩ | he
  · obtain rfl : q = q' := Except.ok.inj (hq.symm.trans hq')
    have hKq := SSM.Kd_posDef hqn
    have hev := (bayes_natural (SSM.Kd_posDef hnd) hKq hK (μ := 0) (μ' := stk q.mus) (l := stk l) (by
      rw [hm, mulVec_mulVec, nonsing_inv_mul _ (isUnit_det' hKq.isUnit), one_mulVec, mulVec_zero, zero_add])).2
    obtain ⟨zq, _, _, hzq, -, -, hz1, -⟩ := C14_normalizer q hqn h.two hco.pos
    obtain ⟨zp, _, _, hzp, -, -, hz2, -⟩ := C14_normalizer s hnd h.two hco.pos
    refine ⟨zq, zp, hzq, hzp, ?_⟩
    have e1 := hz1 0
    have e2 := hz2 0
    have hstk : stk (0 : Fin (n + 1) → Vec d) = 0 := rfl
    rw [SSM.logPdf_eq hqn, hstk] at e1
    rw [SSM.logPdf_eq hnd, hstk, h0] at e2
    simp only [mulVec_zero, dotProduct_zero, mul_zero, sub_zero, zero_sub] at e1 e2
    rw [e1, e2, ← h0, ← SSM.law_eq_gauss] at hev
    rw [show zq - zp = -zp - -zq by ring, ← hev]
    simp only [hl, hD, backProject_quad]
  · rw [he] at hq; cases hq

/-- Selects the state at `t`. -/
def blkSel (t : Fin (n + 1)) : Matrix (Fin d) (Ix n d) ℝ := Matrix.of fun a i => if i = (t, a) then 1 else 0

theorem blkSel_conj (t : Fin (n + 1)) (K : Matrix (Ix n d) (Ix n d) ℝ) : blkSel t * K * (blkSel t)ᵀ = blk K t t := by
  ext a b
  simp [blkSel, mul_apply, blk]

theorem denseSym_single (t : Fin (n + 1)) (b : Mat d d) :
    denseSym (Function.update (0 : Fin (n + 1) → Mat d d) t b) (0 : Fin n → Mat d d) = (blkSel t)ᵀ * b * blkSel t := by
  apply blk_ext
  intro i j
  rw [blk_denseSym]
  have e : blk ((blkSel t)ᵀ * b * blkSel t) i j = if i = t ∧ j = t then b else 0 := by
    ext a a'
    simp only [blk, blkSel, mul_apply, transpose_apply, of_apply, Prod.mk.injEq]
    by_cases hi : i = t <;> by_cases hj : j = t <;> simp [hi, hj]
  rw [e]
  unfold symBlk
  by_cases hij : i = j
  · subst hij
    simp only [if_true, and_self]
    by_cases hi : i = t
    · subst hi; simp
    · simp [hi]
  · rw [if_neg hij, if_neg fun h => hij (h.1.trans h.2.symm)]
    simp

end MF
