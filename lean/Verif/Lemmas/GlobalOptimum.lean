import Verif.Lemmas.ElboConcave
import Verif.Lemmas.SVGPNatGrad
import Verif.Lemmas.PEP
import Verif.Lemmas.SparsePEP
import Verif.Props.SVGPNatGrad

/-!
# Stationary points of a variational bound with concave likelihood terms are global maxima
-/

namespace MF
open Matrix Spec MeasureTheory ProbabilityTheory InformationTheory Filter Topology
variable {n d : ℕ}

theorem couple_rest {c v v' r : ℝ} (hv : 0 ≤ v) (hv' : 0 ≤ v') (hr : 0 ≤ r) (h : c ^ 2 ≤ v * v') : (c + r) ^ 2 ≤ (v + r) * (v' + r) := by
  have h2 : 2 * c ≤ v + v' := by
    by_contra hh
    push Not at hh
    nlinarith [sq_nonneg (v - v')]
  nlinarith

/-- If the natural gradient of a bound with concave likelihood terms is zero at `q`, then `q` is the unique best Gaussian Markov law. -/
theorem elbo_global_max {lik : ScalarLikelihood} (he : ExactLikelihood lik) (hl : LogConcaveLikelihood lik) (hd : DifferentiableVarExp lik)
    {ι : Type*} [Fintype ι] {q p : SSM n d} (hq : q.Nondegenerate) (hp : p.Nondegenerate) {α β : ι → ExpPar n d} (w : ι → Ix n d → ℝ)
    (hα : ∀ i (s : SSM n d), pairing (α i) (expPar s) = w i ⬝ᵥ stk s.mus)
    (hβ : ∀ i (s : SSM n d), pairing (β i) (expPar s) = w i ⬝ᵥ (s.Kd *ᵥ w i) + (w i ⬝ᵥ stk s.mus) ^ 2)
    (hα' : ∀ i, denseOf (α i) = 0) (hβ' : ∀ i, denseOf (β i) = (-2 : ℝ) • vecMulVec (w i) (w i))
    {κ b r y : ι → ℝ} (hκ : ∀ i, 0 ≤ κ i) (hr : ∀ i, 0 ≤ r i) (hpos : ∀ i, 0 < w i ⬝ᵥ (q.Kd *ᵥ w i) + r i)
    {L : SSM n d → ℝ} (hL : ∀ s : SSM n d, s.Nondegenerate → L s = (klDiv s.law p.law).toReal -
      ∑ i, κ i * lik.varExp (w i ⬝ᵥ stk s.mus + b i) (w i ⬝ᵥ (s.Kd *ᵥ w i) + r i) (y i))
    {g : ι → ℝ × ℝ}
    (hg1 : ∀ i, (g i).1 = κ i * (deriv (fun x => lik.varExp x (w i ⬝ᵥ (q.Kd *ᵥ w i) + r i) (y i)) (w i ⬝ᵥ stk q.mus + b i) -
      2 * deriv (fun x => lik.varExp (w i ⬝ᵥ stk q.mus + b i) x (y i)) (w i ⬝ᵥ (q.Kd *ᵥ w i) + r i) * (w i ⬝ᵥ stk q.mus)))
    (hg2 : ∀ i, (g i).2 = κ i * deriv (fun x => lik.varExp (w i ⬝ᵥ stk q.mus + b i) x (y i)) (w i ⬝ᵥ (q.Kd *ᵥ w i) + r i))
    (hst : ssmToNaturals q - ssmToNaturals p = ∑ i, ((g i).1 • α i + (g i).2 • β i))
    {s : SSM n d} (hs : s.Nondegenerate) : L q ≤ L s ∧ (L s = L q → s.law = q.law) := by
  have hden : q.Kd⁻¹ = p.Kd⁻¹ - (2 : ℝ) • ∑ i, (g i).2 • vecMulVec (w i) (w i) := by
    rw [SSM.Kd_inv hq, SSM.Kd_inv hp, ← denseOf_naturals hq, ← denseOf_naturals hp,
      show ssmToNaturals q = ssmToNaturals p + (1 : ℝ) • ∑ i, (1 : ℝ) • (α i |> fun a => (g i).1 • a + (g i).2 • β i) by
        rw [one_smul]; simp only [one_smul]; rw [← hst]; abel,
      denseOf_add_smul, denseOf_sum, one_smul, sub_eq_add_neg, Finset.smul_sum, ← Finset.sum_neg_distrib]
    congr 1
    refine Finset.sum_congr rfl fun i _ => ?_
    have h0 : denseOf ((g i).1 • α i) = 0 := by
      have := denseOf_sum {i} (fun i => (g i).1) α
      rwa [Finset.sum_singleton, Finset.sum_singleton, hα', smul_zero] at this
    rw [one_smul, denseOf_add_smul, h0, hβ', zero_add, smul_smul, smul_smul, ← neg_smul]
    congr 1
    ring
  obtain ⟨c, hc, hc0, hc1⟩ := coupling_kl (SSM.Kd_posDef hp) (SSM.Kd_posDef hq) (SSM.Kd_posDef hs) w (fun i => (g i).2) hden (stk q.mus) (stk s.mus)
  have hkl : (klDiv s.law q.law).toReal = gaussKL (stk s.mus) s.Kd (stk q.mus) q.Kd := by
    rw [s.law_eq_gauss, q.law_eq_gauss, klDiv_gaussLaw (SSM.Kd_posDef hs) (SSM.Kd_posDef hq),
      ENNReal.toReal_ofReal (gaussKL_nonneg (SSM.Kd_posDef hs) (SSM.Kd_posDef hq))]
  have h3 := klDiv_three hs hq hp
  rw [hkl, hst, pairing_sum_left] at h3
  have hnn : ∀ (s : SSM n d), s.Nondegenerate → ∀ i, 0 ≤ w i ⬝ᵥ (s.Kd *ᵥ w i) := fun s hs i => by
    have := (SSM.Kd_posDef hs).posSemidef.dotProduct_mulVec_nonneg (w i)
    rwa [star_trivial] at this
  have hsum : ∑ i, pairing ((g i).1 • α i + (g i).2 • β i) (expPar s - expPar q) -
      ∑ i, κ i * lik.varExp (w i ⬝ᵥ stk s.mus + b i) (w i ⬝ᵥ (s.Kd *ᵥ w i) + r i) (y i) +
      ∑ i, κ i * lik.varExp (w i ⬝ᵥ stk q.mus + b i) (w i ⬝ᵥ (q.Kd *ᵥ w i) + r i) (y i) ≥
      ∑ i, (g i).2 * ((w i ⬝ᵥ stk s.mus - w i ⬝ᵥ stk q.mus) ^ 2 + w i ⬝ᵥ (s.Kd *ᵥ w i) + w i ⬝ᵥ (q.Kd *ᵥ w i) - 2 * c i) := by
    rw [← Finset.sum_sub_distrib, ← Finset.sum_add_distrib]
    refine Finset.sum_le_sum fun i _ => ?_
    have ht := mul_le_mul_of_nonneg_left (tangent_ineq he hl hd (m := w i ⬝ᵥ stk q.mus + b i) (m' := w i ⬝ᵥ stk s.mus + b i) (y := y i) (hpos i)
      (add_nonneg (hnn s hs i) (hr i)) (couple_rest (hnn q hq i) (hnn s hs i) (hr i) (hc i))) (hκ i)
    rw [pairing_add_left, pairing_smul_left, pairing_smul_left, pairing_sub_right, pairing_sub_right, hα, hα, hβ, hβ, hg1, hg2]
    nlinarith [ht]
  rw [hL s hs, hL q hq]
  refine ⟨by linarith, fun hz => ?_⟩
  obtain ⟨e1, e2⟩ := hc1 (by linarith)
  rw [s.law_eq_gauss, q.law_eq_gauss, e1, e2]

/-- The gradient of a bound with likelihood terms on linear functionals of the states. -/
theorem elbo_gradient {lik : ScalarLikelihood} (hd : DifferentiableVarExp lik)
    {ι : Type*} [Fintype ι] {q p : SSM n d} (hq : q.Nondegenerate) (hp : p.Nondegenerate) {α β : ι → ExpPar n d} (w : ι → Ix n d → ℝ)
    (hsα : ∀ i, SymDiag (α i)) (hsβ : ∀ i, SymDiag (β i))
    (hα : ∀ i (s : SSM n d), pairing (α i) (expPar s) = w i ⬝ᵥ stk s.mus)
    (hβ : ∀ i (s : SSM n d), pairing (β i) (expPar s) = w i ⬝ᵥ (s.Kd *ᵥ w i) + (w i ⬝ᵥ stk s.mus) ^ 2)
    {κ b r y : ι → ℝ} (hpos : ∀ i, 0 < w i ⬝ᵥ (q.Kd *ᵥ w i) + r i)
    {L : SSM n d → ℝ} (hL : ∀ s : SSM n d, s.Nondegenerate → L s = (klDiv s.law p.law).toReal -
      ∑ i, κ i * lik.varExp (w i ⬝ᵥ stk s.mus + b i) (w i ⬝ᵥ (s.Kd *ᵥ w i) + r i) (y i)) :
    ∃ g : ι → ℝ × ℝ,
    (∀ i, (g i).1 = κ i * (deriv (fun x => lik.varExp x (w i ⬝ᵥ (q.Kd *ᵥ w i) + r i) (y i)) (w i ⬝ᵥ stk q.mus + b i) -
      2 * deriv (fun x => lik.varExp (w i ⬝ᵥ stk q.mus + b i) x (y i)) (w i ⬝ᵥ (q.Kd *ᵥ w i) + r i) * (w i ⬝ᵥ stk q.mus))) ∧
    (∀ i, (g i).2 = κ i * deriv (fun x => lik.varExp (w i ⬝ᵥ stk q.mus + b i) x (y i)) (w i ⬝ᵥ (q.Kd *ᵥ w i) + r i)) ∧
    IsGradient (lossOfExpectations L) (expPar q) (ssmToNaturals q - ssmToNaturals p - ∑ i, ((g i).1 • α i + (g i).2 • β i)) := by
  refine ⟨fun i => (_, _), fun i => rfl, fun i => rfl, Spec.IsTotalGradient.isGradient (symDiag_expPar q) ?_⟩
  refine totalGradient_elbo hq hp (c := 0) (α := α) (β := β) (g := fun i => (_, _))
    (F := fun i e => κ i * lik.varExp (e.1 + b i) (e.2 - e.1 ^ 2 + r i) (y i)) hsα hsβ (fun i => ?_) fun s hs => ?_
  · rw [hα, hβ]
    set m := w i ⬝ᵥ stk q.mus with hm
    set var := w i ⬝ᵥ (q.Kd *ᵥ w i) with hv
    have hd0 := (hd (m + b i) (var + r i) (y i) (hpos i)).hasFDerivAt
    set lik' : ScalarLikelihood := ⟨lik.logProb, fun m s y => κ i * lik.varExp (m + b i) (s + r i) y⟩ with hl
    have hsh : HasFDerivAt (fun x : ℝ × ℝ => (x.1 + b i, x.2 + r i))
        ((ContinuousLinearMap.fst ℝ ℝ ℝ).prod (ContinuousLinearMap.snd ℝ ℝ ℝ)) (m, var) :=
      (hasFDerivAt_fst.add_const _).prodMk (hasFDerivAt_snd.add_const _)
    have hd' : HasFDerivAt (fun x : ℝ × ℝ => lik'.varExp x.1 x.2 (y i)) _ (m, var) :=
      (HasFDerivAt.comp (g := fun x : ℝ × ℝ => lik.varExp x.1 x.2 (y i)) (f := fun x : ℝ × ℝ => (x.1 + b i, x.2 + r i)) (m, var)
        hd0 hsh).const_mul (κ i)
    refine (C34_gradient hd').congr_fderiv ?_
    have d1 : deriv (fun x => lik'.varExp x var (y i)) m = κ i * deriv (fun x => lik.varExp x (var + r i) (y i)) (m + b i) := by
      show deriv (fun x => κ i * lik.varExp (x + b i) (var + r i) (y i)) m = _
      rw [deriv_const_mul_field, deriv_comp_add_const (fun x => lik.varExp x (var + r i) (y i)) (b i) m]
    have d2 : deriv (fun x => lik'.varExp m x (y i)) var = κ i * deriv (fun x => lik.varExp (m + b i) x (y i)) (var + r i) := by
      show deriv (fun x => κ i * lik.varExp (m + b i) (x + r i) (y i)) var = _
      rw [deriv_const_mul_field, deriv_comp_add_const (fun x => lik.varExp (m + b i) x (y i)) (r i) var]
    unfold localGradients gradMeanVarToExpectation
    simp only [d1, d2]
    congr 2
    ring
  · rw [hL s hs, add_zero]
    congr 1
    refine Finset.sum_congr rfl fun i _ => ?_
    beta_reduce
    rw [hα, hβ, add_sub_cancel_right]

/-- At a minimum of a differentiable loss over the non-degenerate models the gradient is zero. -/
theorem gradient_zero_of_min {q : SSM n d} (hq : q.Nondegenerate) {L : SSM n d → ℝ} (ho : OfLaw L) {g : ExpPar n d}
    (hg : IsGradient (lossOfExpectations L) (expPar q) g) (hm : ∀ s : SSM n d, s.Nondegenerate → L q ≤ L s) : g = 0 := by
  refine pairing_self_eq_zero ?_
  have hc : Continuous fun t : ℝ => expPar q + t • g := by fun_prop
  obtain ⟨hev, -⟩ := ExpPar.path hq (fun t => expPar q + t • g) hc.continuousAt (by rw [zero_smul, add_zero])
    (fun t => SymDiag.add (symDiag_expPar q) (SymDiag.smul hg.1 t))
  have h0 : lossOfExpectations L (expPar q + (0 : ℝ) • g) = L q := by
    rw [zero_smul, add_zero, lossOfExpectations_expPar ho hq]
  have hmin : IsLocalMin (fun t : ℝ => lossOfExpectations L (expPar q + t • g)) 0 := by
    filter_upwards [hev] with t ⟨s, a1, a2, _⟩
    rw [h0]
    unfold lossOfExpectations
    rw [a1]
    exact hm s a2
  exact hmin.hasDerivAt_eq_zero (hg.2 g hg.1)

/-- With concave likelihood terms, the gradient is zero exactly at the minima of the loss, and the minimum is unique. -/
theorem elbo_stationary {lik : ScalarLikelihood} (he : ExactLikelihood lik) (hl : LogConcaveLikelihood lik) (hd : DifferentiableVarExp lik)
    {ι : Type*} [Fintype ι] {q p : SSM n d} (hq : q.Nondegenerate) (hp : p.Nondegenerate) {α β : ι → ExpPar n d} (w : ι → Ix n d → ℝ)
    (hsα : ∀ i, SymDiag (α i)) (hsβ : ∀ i, SymDiag (β i))
    (hα : ∀ i (s : SSM n d), pairing (α i) (expPar s) = w i ⬝ᵥ stk s.mus)
    (hβ : ∀ i (s : SSM n d), pairing (β i) (expPar s) = w i ⬝ᵥ (s.Kd *ᵥ w i) + (w i ⬝ᵥ stk s.mus) ^ 2)
    (hα' : ∀ i, denseOf (α i) = 0) (hβ' : ∀ i, denseOf (β i) = (-2 : ℝ) • vecMulVec (w i) (w i))
    {κ b r y : ι → ℝ} (hκ : ∀ i, 0 ≤ κ i) (hr : ∀ i, 0 ≤ r i) (hpos : ∀ i, 0 < w i ⬝ᵥ (q.Kd *ᵥ w i) + r i)
    {L : SSM n d → ℝ} (hL : ∀ s : SSM n d, s.Nondegenerate → L s = (klDiv s.law p.law).toReal -
      ∑ i, κ i * lik.varExp (w i ⬝ᵥ stk s.mus + b i) (w i ⬝ᵥ (s.Kd *ᵥ w i) + r i) (y i)) :
    (IsGradient (lossOfExpectations L) (expPar q) 0 ↔ ∀ s : SSM n d, s.Nondegenerate → L q ≤ L s) ∧
    (IsGradient (lossOfExpectations L) (expPar q) 0 → ∀ s : SSM n d, s.Nondegenerate → L s = L q → s.law = q.law) := by
  obtain ⟨g, g1, g2, hg⟩ := elbo_gradient hd hq hp w hsα hsβ hα hβ hpos hL
  have ho : OfLaw L := fun a c ha hc e => by
    obtain ⟨m1, m2⟩ := mus_Kd_of_law e
    have e' : a.law = c.law := e
    rw [hL a ha, hL c hc, m1, m2, e']
  have key : IsGradient (lossOfExpectations L) (expPar q) 0 → ∀ s : SSM n d, s.Nondegenerate → L q ≤ L s ∧ (L s = L q → s.law = q.law) :=
    fun h s hs => elbo_global_max he hl hd hq hp w hα hβ hα' hβ' hκ hr hpos hL g1 g2 (sub_eq_zero.1 (IsGradient.unique hg h)) hs
  refine ⟨⟨fun h s hs => (key h s hs).1, fun h => ?_⟩, fun h s hs => (key h s hs).2⟩
  have := gradient_zero_of_min hq ho hg h
  rwa [this] at hg

/-! ### the linear functionals -/

/-- The functional of the stacked states that reads output `i.2` at step `i.1`. -/
noncomputable def outRow {o : ℕ} (H : Fin (n + 1) → Mat o d) (i : Fin (n + 1) × Fin o) : Ix n d → ℝ := (blkSel i.1)ᵀ *ᵥ H i.1 i.2

theorem blkSel_stk (t : Fin (n + 1)) (m : Fin (n + 1) → Vec d) : blkSel t *ᵥ stk m = m t := by
  funext a
  simp [blkSel, mulVec, dotProduct, stk]

theorem outRow_mean {o : ℕ} (H : Fin (n + 1) → Mat o d) (i : Fin (n + 1) × Fin o) (m : Fin (n + 1) → Vec d) :
    outRow H i ⬝ᵥ stk m = (H i.1 *ᵥ m i.1) i.2 := by
  rw [outRow, mulVec_transpose, ← dotProduct_mulVec, blkSel_stk]; rfl

theorem outRow_var {o : ℕ} (H : Fin (n + 1) → Mat o d) (i : Fin (n + 1) × Fin o) (K : Matrix (Ix n d) (Ix n d) ℝ) :
    outRow H i ⬝ᵥ (K *ᵥ outRow H i) = (H i.1 * blk K i.1 i.1 * (H i.1)ᵀ) i.2 i.2 := by
  rw [outRow, mulVec_transpose, ← dotProduct_mulVec, ← mulVec_transpose, mulVec_mulVec, mulVec_mulVec, blkSel_conj]
  simp only [dotProduct, mulVec, Matrix.mul_apply, transpose_apply, Finset.mul_sum, Finset.sum_mul]
  rw [Finset.sum_comm]
  exact Finset.sum_congr rfl fun i _ => Finset.sum_congr rfl fun j _ => by ring

theorem denseOf_unitSite {o : ℕ} (H : Fin (n + 1) → Mat o d) (i : Fin (n + 1) × Fin o) :
    denseOf (siteNaturals H 0 (unitSite i)) = (-2 : ℝ) • vecMulVec (outRow H i) (outRow H i) := by
  have h1 := denseSym_single (n := n) i.1 ((-2 : ℝ) • vecMulVec (H i.1 i.2) (H i.1 i.2))
  unfold denseOf siteNaturals
  have e : (fun b : Fin (n + 1) => (-2 : ℝ) • ((H b)ᵀ * Matrix.diagonal (unitSite i b) * H b)) =
      Function.update (0 : Fin (n + 1) → Mat d d) i.1 ((-2 : ℝ) • vecMulVec (H i.1 i.2) (H i.1 i.2)) := by
    funext b
    by_cases hb : b = i.1
    · subst hb
      rw [Function.update_self]
      congr 1
      ext a c
      rw [Matrix.mul_apply, Finset.sum_eq_single i.2]
      · rw [mul_diagonal, vecMulVec_apply]
        simp [unitSite]
      · intro e _ he
        rw [mul_diagonal]
        simp [unitSite, he]
      · simp
    · rw [Function.update_of_ne hb]
      have : unitSite i b = 0 := by unfold unitSite; rw [Pi.single_eq_of_ne hb]
      rw [this]
      simp
  have e0 : (fun k : Fin n => -((0 : Fin n → Mat d d) k)) = 0 := by funext k; simp
  dsimp only
  rw [e, e0, h1, outRow, Matrix.mul_smul, Matrix.smul_mul, Matrix.mul_assoc, vecMulVec_mul, mul_vecMulVec, ← mulVec_transpose]

theorem denseOf_zero_pair {t1 : Fin (n + 2) → Fin d ⊕ Fin d → ℝ} : denseOf (pairSiteNaturals t1 0) = 0 := by
  rw [denseOf_pairSites, sites_dense (θ₂ := 0) (fun j => transpose_zero)]
  simp

theorem denseOf_unitSite1 {o : ℕ} (H : Fin (n + 1) → Mat o d) (i : Fin (n + 1) × Fin o) : denseOf (siteNaturals H (unitSite i) 0) = 0 := by
  have : denseOf (siteNaturals H (unitSite i) 0) = denseOf (0 : ExpPar n d) := by
    unfold denseOf siteNaturals
    congr 1
    funext b
    simp
  rw [this]
  have := denseOf_sum (n := n) (d := d) (∅ : Finset (Fin 1)) 0 0
  rwa [Finset.sum_empty, Finset.sum_empty] at this

/-- The functional of the inducing states that predicts output `a` at datum `i`. -/
noncomputable def pairRow (W : Fin d ⊕ Fin d → ℝ) (j : Fin (n + 2)) : Ix n d → ℝ := (pickMat (nbIdx d j))ᵀ *ᵥ W

theorem pairRow_mean (W : Fin d ⊕ Fin d → ℝ) (j : Fin (n + 2)) (m : Fin (n + 1) → Vec d) :
    pairRow W j ⬝ᵥ stk m = W ⬝ᵥ neighbours m j := by
  rw [pairRow, mulVec_transpose, ← dotProduct_mulVec, ← neighbours_eq]; rfl

theorem pairRow_var (W : Fin d ⊕ Fin d → ℝ) (j : Fin (n + 2)) (K : Matrix (Ix n d) (Ix n d) ℝ) :
    pairRow W j ⬝ᵥ (K *ᵥ pairRow W j) = W ⬝ᵥ ((pickMat (nbIdx d j) * K * (pickMat (nbIdx d j))ᵀ) *ᵥ W) := by
  rw [pairRow, mulVec_transpose, ← dotProduct_mulVec, ← mulVec_transpose, mulVec_mulVec, mulVec_mulVec]

theorem denseOf_pairRow (W : Fin d ⊕ Fin d → ℝ) (j : Fin (n + 2)) :
    denseOf (pairSiteNaturals 0 (Pi.single j (vecMulVec W W))) = (-2 : ℝ) • vecMulVec (pairRow W j) (pairRow (n := n) W j) := by
  have hs : ∀ i, ((Pi.single j (vecMulVec W W) : PairMat n d) i)ᵀ = (Pi.single j (vecMulVec W W) : PairMat n d) i := fun i => by
    by_cases hi : i = j
    · rw [hi, Pi.single_eq_same, transpose_vecMulVec]
    · rw [Pi.single_eq_of_ne hi, transpose_zero]
  rw [denseOf_pairSites, sites_dense hs, Finset.sum_eq_single j]
  · rw [Pi.single_eq_same, pairRow, Matrix.mul_assoc, vecMulVec_mul, mul_vecMulVec, ← mulVec_transpose]
  · intro i _ hi
    rw [Pi.single_eq_of_ne hi, Matrix.mul_zero, Matrix.zero_mul]
  · simp

theorem restRow_nonneg {o p : ℕ} {K : Stationary o d} {k} (hK : Builds K k) (hN : NoiseTag K true) (hj : K.jitter = 0)
    {z : Fin (n + 1) → ℝ} (hz : Monotone z) {X : Fin p → ℝ}
    (h0 : ∀ j, -10000000000 < X j) (h1 : ∀ j, X j ≤ 10000000000) {P T}
    (hst : conditionalStatistics approxInf X z K.trans = .ok (P, T)) (i : Fin p) (a : Fin o) : 0 ≤ restRow K z X P T i a := by
  obtain ⟨hc, hreg, -⟩ := Builds.good hK
  have hst' := hst
  unfold conditionalStatistics at hst'
  simp only [Bind.bind, Except.bind, Pure.pure, Except.pure] at hst'
  split at hst'
  · cases hst'
  rename_i v hv
  obtain ⟨cs, hcs, rfl⟩ := conditionalStatisticsAux_ok hv
  obtain ⟨rfl, rfl⟩ := Prod.mk.inj (Except.ok.inj hst')
  have hT : (cs i).T.PosSemidef := codeStats_psd hc hreg hj hz h0 h1 hcs i
  unfold restRow
  have hPd : K.initialCovariance.PosDef := by
    have := (NoiseTag.noisy hN).2.pd
    unfold Stationary.initialCovariance
    rwa [hj, jitterMatrix_zero, add_zero]
  have hq0 : ∀ v : Vec d, 0 ≤ v ⬝ᵥ (K.initialCovariance *ᵥ v) := fun v => by
    have := hPd.posSemidef.dotProduct_mulVec_nonneg v
    rwa [star_trivial] at this
  refine add_nonneg (posSemidef_conj' hT _).diag_nonneg ?_
  rw [endCov_quad]
  refine add_nonneg ?_ ?_ <;> split_ifs <;> first | exact hq0 _ | exact le_rfl

end MF
