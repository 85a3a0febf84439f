import Verif.Lemmas.SiteDynamics
import Verif.Lemmas.FullGaussian
import Verif.Spec.SmoothLikelihood

/-!
# Site updates with a log-concave likelihood converge
-/

namespace MF
open Matrix Spec Set Filter Topology

theorem _root_.MF.Spec.SmoothVarExp.differentiable {lik : ScalarLikelihood} (h : SmoothVarExp lik) : DifferentiableVarExp lik :=
  fun m v y hv => (h m v y hv).differentiableAt (by norm_num)

namespace SiteDyn
variable {ι : Type*} [Fintype ι] [DecidableEq ι] {G : Matrix ι ι ℝ} {θ : (ι → ℝ) × (ι → ℝ)}

theorem continuousOn_target {ψ : ι → ℝ → ℝ → ℝ} (hG : G.PosDef) (hψ : ∀ i m v, 0 < v → ContDiffAt ℝ 2 (fun x : ℝ × ℝ => ψ i x.1 x.2) (m, v)) :
    ContinuousOn (target ψ G) (neg ι) := by
  have hm : ∀ i, ContinuousOn (fun θ => mean G θ i) (neg ι) := fun i θ hθ =>
    (contDiffAt_mean (N := 0) (prec_posDef hG hθ).det_pos.ne' i).continuousAt.continuousWithinAt
  have hF : ∀ i (w : ℝ × ℝ), ContinuousOn (fun θ => fderiv ℝ (fun x : ℝ × ℝ => ψ i x.1 x.2) (mean G θ i, cov G θ i i) w) (neg ι) := fun i w θ hθ => by
    refine ContinuousAt.continuousWithinAt ?_
    have hd := (prec_posDef hG hθ).det_pos.ne'
    have h1 : ContDiffAt ℝ 1 (fderiv ℝ (fun x : ℝ × ℝ => ψ i x.1 x.2)) (mean G θ i, cov G θ i i) :=
      ContDiffAt.fderiv_right (hψ i _ _ (cov_posDef hG hθ).diag_pos) (by norm_num)
    have h2 : ContinuousAt (fun θ => (mean G θ i, cov G θ i i)) θ :=
      (contDiffAt_mean (N := 0) hd i).continuousAt.prodMk (contDiffAt_cov (N := 0) hd i i).continuousAt
    have h3 : ContinuousAt (fun θ => fderiv ℝ (fun x : ℝ × ℝ => ψ i x.1 x.2) (mean G θ i, cov G θ i i)) θ :=
      ContinuousAt.comp (g := fderiv ℝ (fun x : ℝ × ℝ => ψ i x.1 x.2)) (f := fun θ => (mean G θ i, cov G θ i i)) h1.continuousAt h2
    exact h3.clm_apply continuousAt_const
  have e1 : ∀ i, ∀ θ ∈ neg ι, deriv (fun x => ψ i x (cov G θ i i)) (mean G θ i) =
      fderiv ℝ (fun x : ℝ × ℝ => ψ i x.1 x.2) (mean G θ i, cov G θ i i) (1, 0) := fun i θ hθ => by
    have hf := ((hψ i (mean G θ i) (cov G θ i i) (cov_posDef hG hθ).diag_pos).differentiableAt (by norm_num)).hasFDerivAt
    have := hf.comp_hasDerivAt (mean G θ i) ((hasDerivAt_id (𝕜 := ℝ) (mean G θ i)).prodMk (hasDerivAt_const (mean G θ i) (cov G θ i i)))
    exact this.deriv
  have e2 : ∀ i, ∀ θ ∈ neg ι, deriv (fun x => ψ i (mean G θ i) x) (cov G θ i i) =
      fderiv ℝ (fun x : ℝ × ℝ => ψ i x.1 x.2) (mean G θ i, cov G θ i i) (0, 1) := fun i θ hθ => by
    have hf := ((hψ i (mean G θ i) (cov G θ i i) (cov_posDef hG hθ).diag_pos).differentiableAt (by norm_num)).hasFDerivAt
    have := hf.comp_hasDerivAt (cov G θ i i) ((hasDerivAt_const (cov G θ i i) (mean G θ i)).prodMk (hasDerivAt_id (𝕜 := ℝ) (cov G θ i i)))
    exact this.deriv
  have d1 : ∀ i, ContinuousOn (fun θ => deriv (fun x => ψ i x (cov G θ i i)) (mean G θ i)) (neg ι) := fun i => (hF i (1, 0)).congr (e1 i)
  have d2 : ∀ i, ContinuousOn (fun θ => deriv (fun x => ψ i (mean G θ i) x) (cov G θ i i)) (neg ι) := fun i => (hF i (0, 1)).congr (e2 i)
  exact (continuousOn_pi.2 fun i => (d1 i).sub ((continuousOn_const.mul (d2 i)).mul (hm i))).prodMk (continuousOn_pi.2 fun i => d2 i)

/-- the sites are determined by the moments -/
theorem sites_of_moments (hG : G.PosDef) (hθ : θ ∈ neg ι) :
    θ = ((cov G θ)⁻¹ *ᵥ mean G θ, fun i => 1 / 2 * (G⁻¹ i i - (cov G θ)⁻¹ i i)) := by
  have hu := isUnit_det' (prec_posDef hG hθ).isUnit
  have hP : (cov G θ)⁻¹ = prec G θ := nonsing_inv_nonsing_inv _ hu
  refine Prod.ext ?_ ?_
  · show θ.1 = (cov G θ)⁻¹ *ᵥ mean G θ
    rw [hP, mean, cov, mulVec_mulVec, mul_nonsing_inv _ hu, one_mulVec]
  · funext i
    show θ.2 i = 1 / 2 * (G⁻¹ i i - (cov G θ)⁻¹ i i)
    rw [hP]
    simp only [prec, Matrix.add_apply, Matrix.diagonal_apply_eq]
    ring

variable {lik : ScalarLikelihood}

/-- Sites that a full update leaves alone give the unique best Gaussian. -/
theorem fixed_max (he : ExactLikelihood lik) (hl : LogConcaveLikelihood lik) (hd : DifferentiableVarExp lik) (hG : G.PosDef) {y : ι → ℝ} (hθ : θ ∈ neg ι)
    (hfix : target (fun i m v => lik.varExp m v (y i)) G θ = θ) {θ' : (ι → ℝ) × (ι → ℝ)} (hθ' : θ' ∈ neg ι) :
    bound (fun i m v => lik.varExp m v (y i)) G θ' ≤ bound (fun i m v => lik.varExp m v (y i)) G θ ∧
    (bound (fun i m v => lik.varExp m v (y i)) G θ' = bound (fun i m v => lik.varExp m v (y i)) G θ → θ' = θ) := by
  have hc := cov_posDef hG hθ
  have hu := isUnit_det' (prec_posDef hG hθ).isUnit
  have hP : (cov G θ)⁻¹ = prec G θ := nonsing_inv_nonsing_inv _ hu
  have hw : ∀ (i : ι) (x : ι → ℝ), (Pi.single i 1 : ι → ℝ) ⬝ᵥ x = x i := fun i x => single_one_dotProduct i x
  have hw2 : ∀ (i : ι) (A : Matrix ι ι ℝ), (Pi.single i 1 : ι → ℝ) ⬝ᵥ (A *ᵥ Pi.single i 1) = A i i := fun i A => by
    rw [hw, mulVec_single_one, col_apply]
  have hf1 : ∀ i, θ.1 i = deriv (fun x => lik.varExp x (cov G θ i i) (y i)) (mean G θ i) -
      2 * deriv (fun x => lik.varExp (mean G θ i) x (y i)) (cov G θ i i) * mean G θ i := fun i => (congrFun (congrArg Prod.fst hfix) i).symm
  have hf2 : ∀ i, θ.2 i = deriv (fun x => lik.varExp (mean G θ i) x (y i)) (cov G θ i i) := fun i => (congrFun (congrArg Prod.snd hfix) i).symm
  obtain ⟨h1, h2⟩ := dense_global_max (K0 := G) (K := cov G θ) (μ0 := 0) (μ := mean G θ) he hl hd hG hc (fun i : ι => (Pi.single i 1 : ι → ℝ)) (b := fun _ => 0)
    (y := y) (fun i => by rw [hw2]; exact hc.diag_pos) (g := fun i => (θ.1 i, θ.2 i))
    (fun i => by simp only [hw2, hw, add_zero]; exact hf1 i) (fun i => by simp only [hw2, hw, add_zero]; exact hf2 i) (by
      rw [hP, prec]
      ext a b
      simp only [Matrix.add_apply, Matrix.sub_apply, Matrix.smul_apply, Matrix.sum_apply, vecMulVec_apply, smul_eq_mul, Matrix.diagonal_apply, Pi.single_apply,
        mul_ite, mul_one, mul_zero]
      by_cases hab : a = b
      · subst hab
        simp
        ring
      · simp [hab]) (by
      rw [hP, mean, cov, mulVec_mulVec, mul_nonsing_inv _ hu, one_mulVec, mulVec_zero, zero_add]
      funext a
      simp [Finset.sum_apply, Pi.single_apply]) (cov_posDef hG hθ') (μ' := mean G θ')
  simp only [hw2, hw, add_zero] at h1 h2
  unfold bound
  refine ⟨by linarith, fun h3 => ?_⟩
  obtain ⟨h4, h5⟩ := h2 (by linarith)
  rw [sites_of_moments hG hθ', sites_of_moments hG hθ, h4, h5]

/-- Sites with at least a given bound form a compact set. -/
theorem superlevel_compact (he : ExactLikelihood lik) (hl : LogConcaveLikelihood lik) (hs : SmoothVarExp lik) (hG : G.PosDef) (y : ι → ℝ) (b₀ : ℝ) :
    IsCompact {θ | θ ∈ neg ι ∧ b₀ ≤ bound (fun i m v => lik.varExp m v (y i)) G θ} := by
  set ψ : ι → ℝ → ℝ → ℝ := fun i m v => lik.varExp m v (y i) with hψ
  have hψs : ∀ i m v, 0 < v → ContDiffAt ℝ 2 (fun x : ℝ × ℝ => ψ i x.1 x.2) (m, v) := fun i m v hv => hs m v (y i) hv
  set N : ℝ := (Fintype.card ι : ℝ) with hN
  set A : ι → ℝ := fun i => lik.varExp 0 1 (y i) - 2 * deriv (fun x => lik.varExp 0 x (y i)) 1 with hA
  set B : ι → ℝ := fun i => deriv (fun x => lik.varExp x 1 (y i)) 0 with hB
  have haff : ∀ (i : ι) (m v : ℝ), 0 < v → ψ i m v ≤ A i + B i * m := fun i m v hv => by
    have := tangent_ineq he hl hs.differentiable (m := 0) (v := 1) (m' := m) (v' := v) (c := 0) (y := y i) one_pos hv.le (by rw [one_mul]; norm_num; exact hv.le)
    simp only [hA, hB, hψ]
    linarith
  set C0 : ℝ := -b₀ + ∑ i, A i + N / 2 - 1 / 2 * Real.log G.det with hC0
  have hsub : ∀ θ ∈ neg ι, b₀ ≤ bound ψ G θ → 1 / 2 * (mean G θ ⬝ᵥ (G⁻¹ *ᵥ mean G θ)) - B ⬝ᵥ mean G θ +
      1 / 2 * ((G⁻¹ * cov G θ).trace - Real.log (cov G θ).det) ≤ C0 := fun θ hθ hb => by
    have h1 : ∑ i, ψ i (mean G θ i) (cov G θ i i) ≤ ∑ i, A i + B ⬝ᵥ mean G θ := by
      rw [dotProduct, ← Finset.sum_add_distrib]
      exact Finset.sum_le_sum fun i _ => haff i _ _ (cov_posDef hG hθ).diag_pos
    simp only [bound, gaussKL, zero_sub, mulVec_neg, neg_dotProduct_neg] at hb
    rw [hC0]
    linarith
  obtain ⟨R1, hR1⟩ := mean_sublevel hG B (C0 - 1 / 2 * (N - Real.log G.det))
  obtain ⟨R2, δ, hδ, hR2⟩ := cov_sublevel hG (2 * (C0 + ∑ i, |B i| * R1))
  set T : Set ((ι → ℝ) × (ι → ι → ℝ)) := {x | (∀ i, |x.1 i| ≤ R1) ∧ (∀ i j, |x.2 i j| ≤ R2) ∧ δ ≤ (Matrix.of x.2).det} with hT
  have ho : Continuous fun x : (ι → ℝ) × (ι → ι → ℝ) => (Matrix.of x.2 : Matrix ι ι ℝ) := continuous_snd
  have hTc : IsCompact T := by
    have hbox : IsCompact (Set.Icc ((fun _ => -R1, fun _ _ => -R2) : (ι → ℝ) × (ι → ι → ℝ)) (fun _ => R1, fun _ _ => R2)) := isCompact_Icc
    refine hbox.of_isClosed_subset ?_ ?_
    · have c1 : IsClosed {x : (ι → ℝ) × (ι → ι → ℝ) | ∀ i, |x.1 i| ≤ R1} := by
        simp only [Set.ofPred_forall]
        exact isClosed_iInter fun i => isClosed_le (by fun_prop) continuous_const
      have c2 : IsClosed {x : (ι → ℝ) × (ι → ι → ℝ) | ∀ i j, |x.2 i j| ≤ R2} := by
        simp only [Set.ofPred_forall]
        exact isClosed_iInter fun i => isClosed_iInter fun j => isClosed_le (by fun_prop) continuous_const
      have c3 : IsClosed {x : (ι → ℝ) × (ι → ι → ℝ) | δ ≤ (Matrix.of x.2).det} := isClosed_le continuous_const ho.matrix_det
      exact c1.inter (c2.inter c3)
    · rintro x ⟨c1, c2, -⟩
      exact ⟨⟨fun i => (abs_le.1 (c1 i)).1, fun i j => (abs_le.1 (c2 i j)).1⟩, ⟨fun i => (abs_le.1 (c1 i)).2, fun i j => (abs_le.1 (c2 i j)).2⟩⟩
  set Φ : (ι → ℝ) × (ι → ι → ℝ) → (ι → ℝ) × (ι → ℝ) := fun x => ((Matrix.of x.2)⁻¹ *ᵥ x.1, fun i => 1 / 2 * (G⁻¹ i i - (Matrix.of x.2)⁻¹ i i)) with hΦ
  have hinv : ∀ i j, ContinuousOn (fun x : (ι → ℝ) × (ι → ι → ℝ) => (Matrix.of x.2)⁻¹ i j) T := fun i j x hx => by
    refine ContinuousAt.continuousWithinAt (ContDiffAt.continuousAt (n := 0) (𝕜 := ℝ) ?_)
    refine contDiffAt_inv (C := fun x : (ι → ℝ) × (ι → ι → ℝ) => (Matrix.of x.2 : Matrix ι ι ℝ)) (fun a b => ?_) (hδ.trans_le hx.2.2).ne' i j
    exact ((contDiff_apply_apply ℝ ℝ a b).comp contDiff_snd).contDiffAt
  have hΦc : ContinuousOn Φ T := by
    refine (continuousOn_pi.2 fun i => ?_).prodMk (continuousOn_pi.2 fun i => continuousOn_const.mul (continuousOn_const.sub (hinv i i)))
    show ContinuousOn (fun x : (ι → ℝ) × (ι → ι → ℝ) => ∑ j, (Matrix.of x.2)⁻¹ i j * x.1 j) T
    exact continuousOn_finsetSum _ fun j _ => (hinv i j).mul (by fun_prop)
  have hclosed : IsClosed {θ | θ ∈ neg ι ∧ b₀ ≤ bound ψ G θ} := by
    have hnc : IsClosed (neg ι) := by
      simp only [neg, Set.ofPred_forall]
      exact isClosed_iInter fun i => isClosed_le (by fun_prop) continuous_const
    have hbc : ContinuousOn (bound ψ G) (neg ι) := fun θ hθ => (contDiffAt_bound hG hψs hθ).continuousAt.continuousWithinAt
    exact hbc.preimage_isClosed_of_isClosed hnc (isClosed_Ici (a := b₀))
  refine (hTc.image_of_continuousOn hΦc).of_isClosed_subset hclosed ?_
  rintro θ ⟨hθ, hb⟩
  have hK := cov_posDef hG hθ
  have h1 := hsub θ hθ hb
  have h2 := (gauss_trace_logdet hK hG).1
  have h3 := hR1 (mean G θ) (by rw [← hN] at h2; linarith)
  have q0 := hG.inv.posSemidef.dotProduct_mulVec_nonneg (mean G θ)
  rw [star_trivial] at q0
  have h4 : B ⬝ᵥ mean G θ ≤ ∑ i, |B i| * R1 :=
    Finset.sum_le_sum fun i _ => (le_abs_self _).trans (by rw [abs_mul]; exact mul_le_mul_of_nonneg_left (h3 i) (abs_nonneg _))
  obtain ⟨h5, h6⟩ := hR2 (cov G θ) hK (by linarith)
  exact ⟨(mean G θ, cov G θ), ⟨h3, h5, h6⟩, (sites_of_moments hG hθ).symm⟩

/-- Site updates with a small enough constant learning rate converge to the sites of the best Gaussian. -/
theorem converges (he : ExactLikelihood lik) (hl : LogConcaveLikelihood lik) (hs : SmoothVarExp lik) (hG : G.PosDef) (y : ι → ℝ) {θ₀ : (ι → ℝ) × (ι → ℝ)}
    (hθ₀ : θ₀ ∈ neg ι) : ∃ r₀ : ℝ, 0 < r₀ ∧ r₀ ≤ 1 ∧ ∃ θ' ∈ neg ι, target (fun i m v => lik.varExp m v (y i)) G θ' = θ' ∧
      ∀ r, 0 < r → r ≤ r₀ → ∀ x : ℕ → (ι → ℝ) × (ι → ℝ), x 0 = θ₀ →
        (∀ k, x (k + 1) = x k + r • (target (fun i m v => lik.varExp m v (y i)) G (x k) - x k)) →
        (∀ k, x k ∈ neg ι) ∧ (∀ k, bound (fun i m v => lik.varExp m v (y i)) G (x k) ≤ bound (fun i m v => lik.varExp m v (y i)) G (x (k + 1))) ∧
        Tendsto x atTop (𝓝 θ') := by
  set ψ : ι → ℝ → ℝ → ℝ := fun i m v => lik.varExp m v (y i) with hψ
  have hψs : ∀ i m v, 0 < v → ContDiffAt ℝ 2 (fun x : ℝ × ℝ => ψ i x.1 x.2) (m, v) := fun i m v hv => hs m v (y i) hv
  obtain ⟨r₀, h0, h1, θ', hθ', hz, hr⟩ := ascent_converges (C := neg ι) (B := bound ψ G) (fun θ hθ => contDiffAt_bound hG hψs hθ)
    (d := fun θ => target ψ G θ - θ) ((continuousOn_target hG hψs).sub continuousOn_id) (fun θ hθ t ht i => by
      have h2 : (target ψ G θ).2 i ≤ 0 := localGradients_nonpos he hl (y i) (cov_posDef hG hθ).diag_pos.le
      have h3 := hθ i
      show θ.2 i + t * ((target ψ G θ).2 i - θ.2 i) ≤ 0
      nlinarith [mul_nonpos_of_nonneg_of_nonpos (sub_nonneg.2 ht.2) h3, mul_nonpos_of_nonneg_of_nonpos ht.1 h2]) hθ₀
    (superlevel_compact he hl hs hG y _) (Q := quad G) (fun θ hθ => fderiv_bound hG hψs hθ) (continuousOn_quad hG) (fun θ hθ h hh => quad_pos hG hθ hh)
    (fun θ _ h t => quad_smul t) (fun θ hθ θ' hθ' h h' => by
      obtain ⟨a1, -⟩ := fixed_max he hl hs.differentiable hG hθ (sub_eq_zero.1 h) hθ'
      obtain ⟨b1, b2⟩ := fixed_max he hl hs.differentiable hG hθ' (sub_eq_zero.1 h') hθ
      exact b2 (le_antisymm b1 a1))
  exact ⟨r₀, h0, h1, θ', hθ', sub_eq_zero.1 hz, hr⟩

end SiteDyn
end MF
