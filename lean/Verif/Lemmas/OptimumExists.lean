import Verif.Lemmas.GlobalOptimum

/-!
# The variational bound has a maximum when the likelihood is log-concave
-/

namespace MF
open Matrix Spec MeasureTheory ProbabilityTheory InformationTheory Filter Topology

section dense
variable {ι : Type*} [Fintype ι] [DecidableEq ι]

omit [DecidableEq ι] in
theorem mulVec_sq_le (A : Matrix ι ι ℝ) (x : ι → ℝ) : (A *ᵥ x) ⬝ᵥ (A *ᵥ x) ≤ (∑ i, ∑ j, A i j ^ 2) * (x ⬝ᵥ x) := by
  rw [Finset.sum_mul]
  refine Finset.sum_le_sum fun i _ => ?_
  have := Finset.sum_mul_sq_le_sq_mul_sq Finset.univ (A i) x
  simp only [dotProduct, mulVec, ← sq] at this ⊢
  exact this

theorem dot_le_quad {K : Matrix ι ι ℝ} (hK : K.PosDef) (x : ι → ℝ) : x ⬝ᵥ x ≤ K.trace * (x ⬝ᵥ (K⁻¹ *ᵥ x)) := by
  obtain ⟨R, hR, hRR⟩ := exists_sqrt hK
  have hRu := isUnit_det' hR.isUnit
  have hRt : Rᵀ = R := posDef_tr hR
  have h1 := mulVec_sq_le R (R⁻¹ *ᵥ x)
  rw [mulVec_mulVec, mul_nonsing_inv _ hRu, one_mulVec] at h1
  have e1 : ∑ i, ∑ j, R i j ^ 2 = K.trace := by
    rw [← hRR, trace]
    refine Finset.sum_congr rfl fun i _ => ?_
    rw [diag_apply, Matrix.mul_apply]
    refine Finset.sum_congr rfl fun j _ => ?_
    rw [sq]; congr 1
    exact congrFun (congrFun hRt j) i
  have e2 : (R⁻¹ *ᵥ x) ⬝ᵥ (R⁻¹ *ᵥ x) = x ⬝ᵥ (K⁻¹ *ᵥ x) := by
    rw [← hRR, Matrix.mul_inv_rev, ← mulVec_mulVec, dotProduct_mulVec x, ← mulVec_transpose, transpose_nonsing_inv, hRt]
  rwa [e1, e2] at h1

theorem trace_le_trace {K0 K : Matrix ι ι ℝ} (hK0 : K0.PosDef) (hK : K.PosDef) : K.trace ≤ K0.trace * (K0⁻¹ * K).trace := by
  obtain ⟨R, hR, hRR⟩ := exists_sqrt hK
  have hRt : Rᵀ = R := posDef_tr hR
  have e1 : K.trace = ∑ j, R j ⬝ᵥ R j := by
    rw [← hRR, trace]
    refine Finset.sum_congr rfl fun i _ => ?_
    rw [diag_apply, Matrix.mul_apply]
    refine Finset.sum_congr rfl fun j _ => ?_
    congr 1
    exact congrFun (congrFun hRt i) j
  have e2 : (K0⁻¹ * K).trace = ∑ j, R j ⬝ᵥ (K0⁻¹ *ᵥ R j) := by
    rw [← hRR, ← Matrix.mul_assoc, trace_mul_comm, trace]
    refine Finset.sum_congr rfl fun i _ => ?_
    rw [diag_apply, Matrix.mul_apply]
    refine Finset.sum_congr rfl fun j _ => ?_
    congr 1
    rw [Matrix.mul_apply]
    refine Finset.sum_congr rfl fun k _ => ?_
    congr 1
    exact congrFun (congrFun hRt i) k
  rw [e1, e2, Finset.mul_sum]
  exact Finset.sum_le_sum fun j _ => dot_le_quad hK0 _

theorem entry_le_trace {K : Matrix ι ι ℝ} (hK : K.PosDef) (i j : ι) : |K i j| ≤ K.trace := by
  have hd : ∀ k, 0 ≤ K k k := fun k => hK.posSemidef.diag_nonneg
  have ht : ∀ k, K k k ≤ K.trace := fun k => Finset.single_le_sum (f := fun k => K k k) (fun k _ => hd k) (Finset.mem_univ k)
  have hsym : K j i = K i j := congrFun (congrFun (posDef_tr hK) i) j
  have q : ∀ s : ℝ, 0 ≤ K i i + s * K i j + s * K j i + s ^ 2 * K j j := fun s => by
    have := hK.posSemidef.dotProduct_mulVec_nonneg (Pi.single i 1 + s • Pi.single j 1)
    simp only [star_trivial, mulVec_add, mulVec_smul, add_dotProduct, dotProduct_add, smul_dotProduct, dotProduct_smul, mulVec_single_one,
      single_one_dotProduct, smul_eq_mul, col_apply] at this
    nlinarith [this]
  have q1 := q 1
  have q2 := q (-1)
  rw [hsym] at q1 q2
  rw [abs_le]
  have := ht i
  have := ht j
  constructor <;> nlinarith

/-- Bounds on a covariance in terms of its divergence. -/
theorem cov_sublevel {K0 : Matrix ι ι ℝ} (hK0 : K0.PosDef) (C : ℝ) : ∃ R δ : ℝ, 0 < δ ∧ ∀ K : Matrix ι ι ℝ, K.PosDef →
    (K0⁻¹ * K).trace - Real.log K.det ≤ C → (∀ i j, |K i j| ≤ R) ∧ δ ≤ K.det := by
  set c1 := -(Fintype.card ι : ℝ) + Real.log K0.det + Fintype.card ι * Real.log 2 with hc1
  have ht0 : 0 ≤ K0.trace := hK0.posSemidef.trace_nonneg
  refine ⟨K0.trace * (2 * (C + c1)), Real.exp (-C), Real.exp_pos _, fun K hK h => ?_⟩
  have hh := (gauss_trace_logdet (K₁ := (1 / 2 : ℝ) • K) (hK.smul (by norm_num)) hK0).1
  rw [Matrix.mul_smul, trace_smul, det_smul, Real.log_mul (by positivity) hK.det_pos.ne', Real.log_pow, smul_eq_mul,
    show (1 / 2 : ℝ) = 2⁻¹ by norm_num, Real.log_inv] at hh
  have htr : (K0⁻¹ * K).trace ≤ 2 * (C + c1) := by
    rw [hc1]; linarith
  have htn : 0 ≤ (K0⁻¹ * K).trace := by
    by_contra hneg
    push Not at hneg
    have h1 := trace_le_trace hK0 hK
    have h2 := hK.posSemidef.trace_nonneg
    have hz : K.trace = 0 := le_antisymm (h1.trans (mul_nonpos_of_nonneg_of_nonpos ht0 hneg.le)) h2
    have : K = 0 := by
      ext i j
      have := entry_le_trace hK i j
      rw [hz] at this
      exact abs_eq_zero.1 (le_antisymm this (abs_nonneg _))
    rw [this, Matrix.mul_zero, trace_zero] at hneg
    exact lt_irrefl _ hneg
  refine ⟨fun i j => (entry_le_trace hK i j).trans ((trace_le_trace hK0 hK).trans (mul_le_mul_of_nonneg_left htr ht0)), ?_⟩
  rw [← Real.exp_log hK.det_pos]
  exact Real.exp_le_exp.2 (by linarith)

theorem mean_sublevel {K0 : Matrix ι ι ℝ} (hK0 : K0.PosDef) (u : ι → ℝ) (C : ℝ) : ∃ R : ℝ, ∀ e : ι → ℝ,
    1 / 2 * (e ⬝ᵥ (K0⁻¹ *ᵥ e)) - u ⬝ᵥ e ≤ C → ∀ i, |e i| ≤ R := by
  set t := K0.trace + 1 with ht
  have ht0 : 0 < t := add_pos_of_nonneg_of_pos hK0.posSemidef.trace_nonneg one_pos
  refine ⟨Real.sqrt (t * (4 * (C + t * (u ⬝ᵥ u)))), fun e h i => Real.abs_le_sqrt ?_⟩
  have q0 := hK0.inv.posSemidef.dotProduct_mulVec_nonneg e
  rw [star_trivial] at q0
  have h1 : e ⬝ᵥ e ≤ t * (e ⬝ᵥ (K0⁻¹ *ᵥ e)) := (dot_le_quad hK0 e).trans (mul_le_mul_of_nonneg_right (by linarith) q0)
  have h2 : u ⬝ᵥ e ≤ t * (u ⬝ᵥ u) + 1 / 4 * (e ⬝ᵥ e) / t := by
    have : 0 ≤ ∑ i, (2 * t * u i - e i) ^ 2 := Finset.sum_nonneg fun i _ => sq_nonneg _
    have e1 : ∑ i, (2 * t * u i - e i) ^ 2 = 4 * t ^ 2 * (u ⬝ᵥ u) - 4 * t * (u ⬝ᵥ e) + e ⬝ᵥ e := by
      simp only [dotProduct, Finset.mul_sum]
      rw [← Finset.sum_sub_distrib, ← Finset.sum_add_distrib]
      exact Finset.sum_congr rfl fun i _ => by ring
    rw [e1] at this
    have e2 : t * (u ⬝ᵥ u) + 1 / 4 * (e ⬝ᵥ e) / t - u ⬝ᵥ e = (4 * t ^ 2 * (u ⬝ᵥ u) - 4 * t * (u ⬝ᵥ e) + e ⬝ᵥ e) / (4 * t) := by
      field_simp
      ring
    have : 0 ≤ (4 * t ^ 2 * (u ⬝ᵥ u) - 4 * t * (u ⬝ᵥ e) + e ⬝ᵥ e) / (4 * t) := by positivity
    linarith
  have h3 : 1 / 4 * (e ⬝ᵥ e) / t ≤ 1 / 4 * (e ⬝ᵥ (K0⁻¹ *ᵥ e)) := by
    rw [div_le_iff₀ ht0]; nlinarith
  have h4 : e i ^ 2 ≤ e ⬝ᵥ e := by
    rw [sq]
    exact Finset.single_le_sum (f := fun i => e i * e i) (fun i _ => mul_self_nonneg _) (Finset.mem_univ i)
  refine h4.trans (h1.trans (mul_le_mul_of_nonneg_left ?_ ht0.le))
  linarith

end dense

variable {n d : ℕ}

/-- A positive definite matrix whose inverse has no blocks away from the diagonals is the covariance of a Gaussian Markov model. -/
theorem exists_ssm_of_cov {K : Matrix (Ix n d) (Ix n d) ℝ} (hK : K.PosDef)
    (hfar : ∀ b c : Fin (n + 1), (b : ℕ) + 1 < c → blk K⁻¹ b c = 0) (μ : Ix n d → ℝ) :
    ∃ s : SSM n d, s.Nondegenerate ∧ stk s.mus = μ ∧ s.Kd = K := by
  have hsym : ∀ i j, K⁻¹ i j = K⁻¹ j i := fun i j => congrFun (congrFun (posDef_tr hK.inv) j) i
  have e : denseSym (fun b => blk K⁻¹ b b) (fun k : Fin n => blk K⁻¹ k.succ k.castSucc) = K⁻¹ := by
    apply blk_ext
    intro b c
    rw [blk_denseSym]
    unfold symBlk
    split_ifs with h1 h2 h3
    · rw [h1]
    · have hb : (⟨c, by omega⟩ : Fin n).succ = b := Fin.ext h2.symm
      have hc : (⟨c, by omega⟩ : Fin n).castSucc = c := Fin.ext rfl
      beta_reduce
      rw [hb, hc]
    · have hb : (⟨b, by omega⟩ : Fin n).succ = c := Fin.ext h3.symm
      have hc : (⟨b, by omega⟩ : Fin n).castSucc = b := Fin.ext rfl
      beta_reduce
      rw [hb, hc]
      ext i j
      exact hsym _ _
    · rcases lt_trichotomy (b : ℕ) c with h | h | h
      · exact (hfar b c (by omega)).symm
      · exact absurd (Fin.ext h) h1
      · have := hfar c b (by omega)
        ext i j
        have := congrFun (congrFun this j) i
        exact (this.symm.trans (hsym _ _))
  obtain ⟨s, hs, -, h1, h2, h3⟩ := exists_ssm_of_naturals (vblk (K⁻¹ *ᵥ μ)) (fun b => blk K⁻¹ b b) (fun k : Fin n => blk K⁻¹ k.succ k.castSucc)
    (fun b => by ext i j; exact hsym _ _) (by rw [e]; exact hK.inv)
  have hP : s.Pd = K⁻¹ := by rw [← SSM.denseSym_prec hs, h1, h2, e]
  have hKd : s.Kd = K := by
    have := SSM.Kd_inv hs
    rw [hP] at this
    rw [← nonsing_inv_nonsing_inv _ (isUnit_det' (SSM.Kd_posDef hs).isUnit), this, nonsing_inv_nonsing_inv _ (isUnit_det' hK.isUnit)]
  refine ⟨s, hs, ?_, hKd⟩
  have h4 : K⁻¹ *ᵥ stk s.mus = K⁻¹ *ᵥ μ := by
    rw [hP] at h3
    have := congrArg stk h3
    rwa [stk_vblk, stk_vblk] at this
  have := congrArg (K *ᵥ ·) h4
  simpa only [mulVec_mulVec, mul_nonsing_inv _ (isUnit_det' hK.isUnit), one_mulVec] using this

theorem far_of_ssm {s : SSM n d} (hs : s.Nondegenerate) (b c : Fin (n + 1)) (h : (b : ℕ) + 1 < c) : blk s.Kd⁻¹ b c = 0 := by
  rw [SSM.Kd_inv hs, ← SSM.denseSym_prec hs, blk_denseSym]
  unfold symBlk
  rw [if_neg (fun e => by rw [e] at h; omega), dif_neg (by omega), dif_neg (by omega)]

/-- With concave likelihood terms the loss has a minimum among the non-degenerate models. -/
theorem elbo_exists_min {lik : ScalarLikelihood} (he : ExactLikelihood lik) (hl : LogConcaveLikelihood lik) (hd : DifferentiableVarExp lik)
    {ι : Type*} [Fintype ι] {p : SSM n d} (hp : p.Nondegenerate) (w : ι → Ix n d → ℝ)
    {κ b r y : ι → ℝ} (hκ : ∀ i, 0 ≤ κ i) (hr : ∀ i, 0 ≤ r i)
    (hpos : ∀ s : SSM n d, s.Nondegenerate → ∀ i, 0 < w i ⬝ᵥ (s.Kd *ᵥ w i) + r i)
    {L : SSM n d → ℝ} (hL : ∀ s : SSM n d, s.Nondegenerate → L s = (klDiv s.law p.law).toReal -
      ∑ i, κ i * lik.varExp (w i ⬝ᵥ stk s.mus + b i) (w i ⬝ᵥ (s.Kd *ᵥ w i) + r i) (y i)) :
    ∃ q : SSM n d, q.Nondegenerate ∧ ∀ s : SSM n d, s.Nondegenerate → L q ≤ L s := by
  set N : ℝ := (Fintype.card (Ix n d) : ℝ) with hN
  have hKp := SSM.Kd_posDef hp
  -- the loss as a function of the moments
  set f : (Ix n d → ℝ) × (Ix n d → Ix n d → ℝ) → ℝ := fun x => gaussKL x.1 (Matrix.of x.2) (stk p.mus) p.Kd -
    ∑ i, κ i * lik.varExp (w i ⬝ᵥ x.1 + b i) (w i ⬝ᵥ (Matrix.of x.2 *ᵥ w i) + r i) (y i) with hf
  have hLf : ∀ s : SSM n d, s.Nondegenerate → L s = f (stk s.mus, s.Kd) := fun s hs => by
    rw [hL s hs, s.law_eq_gauss, p.law_eq_gauss, klDiv_gaussLaw (SSM.Kd_posDef hs) hKp,
      ENNReal.toReal_ofReal (gaussKL_nonneg (SSM.Kd_posDef hs) hKp)]
    rfl
  -- an affine bound of the likelihood terms
  set A : ι → ℝ := fun i => lik.varExp 0 1 (y i) - 2 * deriv (fun x => lik.varExp 0 x (y i)) 1 with hA
  set B : ι → ℝ := fun i => deriv (fun x => lik.varExp x 1 (y i)) 0 with hB
  have haff : ∀ s : SSM n d, s.Nondegenerate → ∀ i, lik.varExp (w i ⬝ᵥ stk s.mus + b i) (w i ⬝ᵥ (s.Kd *ᵥ w i) + r i) (y i) ≤
      A i + B i * (w i ⬝ᵥ stk s.mus + b i) := fun s hs i => by
    have := tangent_ineq he hl hd (m := 0) (v := 1) (m' := w i ⬝ᵥ stk s.mus + b i) (v' := w i ⬝ᵥ (s.Kd *ᵥ w i) + r i) (c := 0) (y := y i)
      one_pos (hpos s hs i).le (by rw [one_mul]; norm_num; exact (hpos s hs i).le)
    simp only [hA, hB]
    linarith
  set u : Ix n d → ℝ := ∑ i, (κ i * B i) • w i with hu
  set A' : ℝ := ∑ i, κ i * (A i + B i * (w i ⬝ᵥ stk p.mus + b i)) with hA'
  set C0 : ℝ := L p + A' + N / 2 - 1 / 2 * Real.log p.Kd.det with hC0
  have hsub : ∀ s : SSM n d, s.Nondegenerate → L s ≤ L p →
      1 / 2 * ((stk s.mus - stk p.mus) ⬝ᵥ (p.Kd⁻¹ *ᵥ (stk s.mus - stk p.mus))) - u ⬝ᵥ (stk s.mus - stk p.mus) +
        1 / 2 * ((p.Kd⁻¹ * s.Kd).trace - Real.log s.Kd.det) ≤ C0 := fun s hs h => by
    rw [hLf s hs] at h
    simp only [hf, gaussKL] at h
    have h1 : ∑ i, κ i * lik.varExp (w i ⬝ᵥ stk s.mus + b i) (w i ⬝ᵥ (s.Kd *ᵥ w i) + r i) (y i) ≤
        u ⬝ᵥ (stk s.mus - stk p.mus) + A' := by
      rw [hu, hA', sum_dotProduct, ← Finset.sum_add_distrib]
      refine Finset.sum_le_sum fun i _ => (mul_le_mul_of_nonneg_left (haff s hs i) (hκ i)).trans (le_of_eq ?_)
      rw [smul_dotProduct, smul_eq_mul, dotProduct_sub]
      ring
    have e1 : (stk p.mus - stk s.mus) ⬝ᵥ (p.Kd⁻¹ *ᵥ (stk p.mus - stk s.mus)) =
        (stk s.mus - stk p.mus) ⬝ᵥ (p.Kd⁻¹ *ᵥ (stk s.mus - stk p.mus)) := by
      rw [← neg_sub (stk s.mus), mulVec_neg, neg_dotProduct_neg]
    have e2 : (Matrix.of s.Kd : Matrix (Ix n d) (Ix n d) ℝ) = s.Kd := rfl
    rw [e1, e2, ← hN] at h
    rw [hC0]
    linarith
  obtain ⟨R1, hR1⟩ := mean_sublevel hKp u (C0 - 1 / 2 * (N - Real.log p.Kd.det))
  obtain ⟨R2, δ, hδ, hR2⟩ := cov_sublevel hKp (2 * (C0 + ∑ i, |u i| * R1))
  set C : Set ((Ix n d → ℝ) × (Ix n d → Ix n d → ℝ)) := {x | (∀ i, |x.1 i - stk p.mus i| ≤ R1) ∧ (∀ i j, |x.2 i j| ≤ R2) ∧
    (∀ i j, x.2 i j = x.2 j i) ∧ (∀ v : Ix n d → ℝ, 0 ≤ v ⬝ᵥ (Matrix.of x.2 *ᵥ v)) ∧ δ ≤ (Matrix.of x.2).det ∧
    ∀ (b c : Fin (n + 1)) (i j : Fin d), (b : ℕ) + 1 < c → (Matrix.of x.2).adjugate (b, i) (c, j) = 0} with hC
  have hmem : ∀ s : SSM n d, s.Nondegenerate → L s ≤ L p → ((stk s.mus, s.Kd) : (Ix n d → ℝ) × (Ix n d → Ix n d → ℝ)) ∈ C := fun s hs h => by
    have hK := SSM.Kd_posDef hs
    have h1 := hsub s hs h
    have h2 := (gauss_trace_logdet hK hKp).1
    have h3 := hR1 (stk s.mus - stk p.mus) (by rw [← hN] at h2; linarith)
    have q0 := hKp.inv.posSemidef.dotProduct_mulVec_nonneg (stk s.mus - stk p.mus)
    rw [star_trivial] at q0
    have h4 : u ⬝ᵥ (stk s.mus - stk p.mus) ≤ ∑ i, |u i| * R1 :=
      Finset.sum_le_sum fun i _ => (le_abs_self _).trans (by rw [abs_mul]; exact mul_le_mul_of_nonneg_left (h3 i) (abs_nonneg _))
    obtain ⟨h5, h6⟩ := hR2 s.Kd hK (by linarith)
    refine ⟨fun i => h3 i, h5, fun i j => congrFun (congrFun (posDef_tr hK) j) i, fun v => ?_, h6, fun b c i j hbc => ?_⟩
    · have := hK.posSemidef.dotProduct_mulVec_nonneg v
      rwa [star_trivial] at this
    · have h7 := congrFun (congrFun (far_of_ssm hs b c hbc) i) j
      have h8 : s.Kd.adjugate = s.Kd.det • s.Kd⁻¹ := by
        rw [Matrix.inv_def, smul_smul, Ring.mul_inverse_cancel _ (isUnit_det' hK.isUnit), one_smul]
      show s.Kd.adjugate (b, i) (c, j) = 0
      rw [h8, Matrix.smul_apply, show s.Kd⁻¹ (b, i) (c, j) = 0 from h7, smul_zero]
  have hback : ∀ x ∈ C, (Matrix.of x.2).PosDef ∧ ∃ s : SSM n d, s.Nondegenerate ∧ stk s.mus = x.1 ∧ s.Kd = Matrix.of x.2 := by
    rintro x ⟨-, -, c3, c4, c5, c6⟩
    have hpsd : (Matrix.of x.2).PosSemidef := by
      refine PosSemidef.of_dotProduct_mulVec_nonneg ?_ fun v => ?_
      · ext i j
        simp only [conjTranspose_apply, star_trivial, of_apply]
        exact (c3 i j).symm
      · rw [star_trivial]; exact c4 v
    have hpd : (Matrix.of x.2).PosDef := by
      refine hpsd.posDef_iff_isUnit.2 ((Matrix.isUnit_iff_isUnit_det _).2 ?_)
      exact isUnit_iff_ne_zero.2 (hδ.trans_le c5).ne'
    refine ⟨hpd, exists_ssm_of_cov hpd (fun b c hbc => ?_) x.1⟩
    ext i j
    show (Matrix.of x.2)⁻¹ (b, i) (c, j) = 0
    rw [Matrix.inv_def, Matrix.smul_apply, c6 b c i j hbc, smul_zero]
  have hcomp : IsCompact C := by
    have hbox : IsCompact (Set.Icc ((fun i => stk p.mus i - R1, fun _ _ => -R2) : (Ix n d → ℝ) × (Ix n d → Ix n d → ℝ))
      (fun i => stk p.mus i + R1, fun _ _ => R2)) := isCompact_Icc
    refine hbox.of_isClosed_subset ?_ ?_
    · have ho : Continuous fun x : (Ix n d → ℝ) × (Ix n d → Ix n d → ℝ) => (Matrix.of x.2 : Matrix (Ix n d) (Ix n d) ℝ) := continuous_snd
      have c1 : IsClosed {x : (Ix n d → ℝ) × (Ix n d → Ix n d → ℝ) | ∀ i, |x.1 i - stk p.mus i| ≤ R1} := by
        simp only [Set.setOf_forall]
        exact isClosed_iInter fun i => isClosed_le (by fun_prop) continuous_const
      have c2 : IsClosed {x : (Ix n d → ℝ) × (Ix n d → Ix n d → ℝ) | ∀ i j, |x.2 i j| ≤ R2} := by
        simp only [Set.setOf_forall]
        exact isClosed_iInter fun i => isClosed_iInter fun j => isClosed_le (by fun_prop) continuous_const
      have c3 : IsClosed {x : (Ix n d → ℝ) × (Ix n d → Ix n d → ℝ) | ∀ i j, x.2 i j = x.2 j i} := by
        simp only [Set.setOf_forall]
        exact isClosed_iInter fun i => isClosed_iInter fun j => isClosed_eq (by fun_prop) (by fun_prop)
      have c4 : IsClosed {x : (Ix n d → ℝ) × (Ix n d → Ix n d → ℝ) | ∀ v : Ix n d → ℝ, 0 ≤ v ⬝ᵥ (Matrix.of x.2 *ᵥ v)} := by
        simp only [Set.setOf_forall]
        exact isClosed_iInter fun v => isClosed_le continuous_const (continuous_const.dotProduct (ho.matrix_mulVec continuous_const))
      have c5 : IsClosed {x : (Ix n d → ℝ) × (Ix n d → Ix n d → ℝ) | δ ≤ (Matrix.of x.2).det} := isClosed_le continuous_const ho.matrix_det
      have c6 : IsClosed {x : (Ix n d → ℝ) × (Ix n d → Ix n d → ℝ) | ∀ (b c : Fin (n + 1)) (i j : Fin d), (b : ℕ) + 1 < c →
          (Matrix.of x.2).adjugate (b, i) (c, j) = 0} := by
        simp only [Set.setOf_forall]
        exact isClosed_iInter fun b => isClosed_iInter fun c => isClosed_iInter fun i => isClosed_iInter fun j => isClosed_iInter fun _ =>
          isClosed_eq (ho.matrix_adjugate.matrix_elem _ _) continuous_const
      exact c1.inter (c2.inter (c3.inter (c4.inter (c5.inter c6))))
    · rintro x ⟨c1, c2, -⟩
      refine ⟨⟨fun i => ?_, fun i j => (abs_le.1 (c2 i j)).1⟩, ⟨fun i => ?_, fun i j => (abs_le.1 (c2 i j)).2⟩⟩
      · have := (abs_le.1 (c1 i)).1
        show stk p.mus i - R1 ≤ x.1 i
        linarith
      · have := (abs_le.1 (c1 i)).2
        show x.1 i ≤ stk p.mus i + R1
        linarith
  have hcont : ContinuousOn f C := by
    intro x hx
    obtain ⟨hpd, s, hs, hs1, hs2⟩ := hback x hx
    refine ContinuousAt.continuousWithinAt ?_
    have ho : Continuous fun x : (Ix n d → ℝ) × (Ix n d → Ix n d → ℝ) => (Matrix.of x.2 : Matrix (Ix n d) (Ix n d) ℝ) := continuous_snd
    have hm : Continuous fun x : (Ix n d → ℝ) × (Ix n d → Ix n d → ℝ) => stk p.mus - x.1 := continuous_const.sub continuous_fst
    refine ContinuousAt.sub ?_ ?_
    · unfold gaussKL
      have k1 : Continuous fun x : (Ix n d → ℝ) × (Ix n d → Ix n d → ℝ) => (p.Kd⁻¹ * Matrix.of x.2).trace :=
        (continuous_const.matrix_mul ho).matrix_trace
      have k2 : Continuous fun x : (Ix n d → ℝ) × (Ix n d → Ix n d → ℝ) => (stk p.mus - x.1) ⬝ᵥ (p.Kd⁻¹ *ᵥ (stk p.mus - x.1)) :=
        hm.dotProduct (continuous_const.matrix_mulVec hm)
      have k3 : ContinuousAt (fun x : (Ix n d → ℝ) × (Ix n d → Ix n d → ℝ) => Real.log (Matrix.of x.2).det) x :=
        (ho.matrix_det.continuousAt).log hpd.det_pos.ne'
      exact continuousAt_const.mul ((((k1.continuousAt.add k2.continuousAt).sub continuousAt_const).add continuousAt_const).sub k3)
    · refine tendsto_finset_sum _ fun i _ => ?_
      refine Tendsto.const_mul _ ?_
      have hv := hpos s hs i
      rw [hs2] at hv
      have hc1 := (hd (w i ⬝ᵥ x.1 + b i) (w i ⬝ᵥ (Matrix.of x.2 *ᵥ w i) + r i) (y i) hv).continuousAt
      have hc2 : Continuous fun x : (Ix n d → ℝ) × (Ix n d → Ix n d → ℝ) => (w i ⬝ᵥ x.1 + b i, w i ⬝ᵥ (Matrix.of x.2 *ᵥ w i) + r i) :=
        ((continuous_const.dotProduct continuous_fst).add continuous_const).prodMk
          ((continuous_const.dotProduct (ho.matrix_mulVec continuous_const)).add continuous_const)
      exact ContinuousAt.comp (g := fun z : ℝ × ℝ => lik.varExp z.1 z.2 (y i)) (f := fun x : (Ix n d → ℝ) × (Ix n d → Ix n d → ℝ) =>
        (w i ⬝ᵥ x.1 + b i, w i ⬝ᵥ (Matrix.of x.2 *ᵥ w i) + r i)) hc1 hc2.continuousAt
  obtain ⟨x, hx, hmin⟩ := hcomp.exists_isMinOn ⟨_, hmem p hp le_rfl⟩ hcont
  obtain ⟨-, q, hq, hq1, hq2⟩ := hback x hx
  have hqx : L q = f x := by
    rw [hLf q hq, hq1, hq2]; rfl
  refine ⟨q, hq, fun s hs => ?_⟩
  by_cases h : L s ≤ L p
  · rw [hqx, hLf s hs]
    exact hmin (hmem s hs h)
  · have : L q ≤ L p := by
      rw [hqx, hLf p hp]
      exact hmin (hmem p hp le_rfl)
    linarith

end MF
