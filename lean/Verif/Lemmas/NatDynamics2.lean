import Verif.Lemmas.NatDynamics
import Verif.Spec.SmoothLikelihood
import Verif.Lemmas.SiteDynamics2
import Verif.Props.NatGrad

/-!
# Natural gradient steps of a small enough rate converge to the optimum
-/

namespace MF
open Matrix Spec MeasureTheory ProbabilityTheory InformationTheory Filter Topology
variable {n d : ℕ}

namespace NatDyn

theorem denseOf_add (g h : ExpPar n d) : denseOf (g + h) = denseOf g + denseOf h := by
  have := denseOf_add_smul g h 1
  rwa [one_smul, one_smul] at this

theorem denseOf_zero : denseOf (0 : ExpPar n d) = 0 := by
  have := denseOf_add (0 : ExpPar n d) 0
  rw [add_zero] at this
  exact left_eq_add.1 this

theorem denseOf_smul (t : ℝ) (h : ExpPar n d) : denseOf (t • h) = t • denseOf h := by
  have := denseOf_add_smul 0 h t
  rwa [zero_add, denseOf_zero, zero_add] at this

/-- natural parameters as a vector and a matrix -/
def vecMat : ExpPar n d →ₗ[ℝ] (Ix n d → ℝ) × (Ix n d → Ix n d → ℝ) where
  toFun θ := (stk θ.1, fun i j => denseOf θ i j)
  map_add' g h := by
    refine Prod.ext rfl ?_
    funext i j
    show denseOf (g + h) i j = denseOf g i j + denseOf h i j
    rw [denseOf_add]; rfl
  map_smul' t h := by
    refine Prod.ext rfl ?_
    funext i j
    show denseOf (t • h) i j = t * denseOf h i j
    rw [denseOf_smul]; rfl

/-- blocks away from the diagonals -/
def farBlocks (i j : Ix n d) : Prop := (i.1 : ℕ) + 1 < j.1 ∨ (j.1 : ℕ) + 1 < i.1

theorem denseOf_far (θ : ExpPar n d) {i j : Ix n d} (h : farBlocks i j) : denseOf θ i j = 0 := by
  have e : blk (denseOf θ) i.1 j.1 = 0 := by
    unfold denseOf
    rw [blk_denseSym]
    unfold symBlk
    rcases h with h | h
    · rw [if_neg (fun e => by rw [e] at h; omega), dif_neg (by omega), dif_neg (by omega)]
    · rw [if_neg (fun e => by rw [e] at h; omega), dif_neg (by omega), dif_neg (by omega)]
  exact congrFun (congrFun e i.2) j.2

theorem denseOf_diag (θ : ExpPar n d) (b : Fin (n + 1)) (i j : Fin d) : θ.2.1 b i j = -(1 / 2) * denseOf θ (b, i) (b, j) := by
  have e : blk (denseOf θ) b b = (-2 : ℝ) • θ.2.1 b := by
    unfold denseOf
    rw [blk_denseSym]
    unfold symBlk
    rw [if_pos rfl]
  have := congrFun (congrFun e i) j
  have e' : denseOf θ (b, i) (b, j) = -2 * θ.2.1 b i j := this
  rw [e']; ring

theorem denseOf_sub (θ : ExpPar n d) (k : Fin n) (i j : Fin d) : θ.2.2 k i j = -denseOf θ (k.succ, i) (k.castSucc, j) := by
  have e : blk (denseOf θ) k.succ k.castSucc = -θ.2.2 k := by
    unfold denseOf
    rw [blk_denseSym]
    unfold symBlk
    rw [if_neg (Fin.castSucc_lt_succ (i := k)).ne', dif_pos (by simp)]
    rfl
  have e' : denseOf θ (k.succ, i) (k.castSucc, j) = -θ.2.2 k i j := congrFun (congrFun e i) j
  rw [e', neg_neg]

/-- Convergence of the vector and the matrix is convergence of the natural parameters. -/
theorem tendsto_of_vecMat {θ : ℕ → ExpPar n d} {θ' : ExpPar n d} (h : Tendsto (fun N => vecMat (θ N)) atTop (𝓝 (vecMat θ'))) :
    Tendsto θ atTop (𝓝 θ') := by
  have h1 : ∀ i, Tendsto (fun N => (vecMat (θ N)).1 i) atTop (𝓝 ((vecMat θ').1 i)) := fun i =>
    ((continuous_apply i).comp continuous_fst).continuousAt.tendsto.comp h
  have h2 : ∀ i j, Tendsto (fun N => denseOf (θ N) i j) atTop (𝓝 (denseOf θ' i j)) := fun i j =>
    ((continuous_apply_apply i j).comp continuous_snd).continuousAt.tendsto.comp h
  refine Prod.tendsto_iff _ _ |>.2 ⟨tendsto_pi_nhds.2 fun b => tendsto_pi_nhds.2 fun i => h1 (b, i), Prod.tendsto_iff _ _ |>.2 ⟨?_, ?_⟩⟩
  · refine tendsto_pi_nhds.2 fun b => tendsto_pi_nhds.2 fun i => tendsto_pi_nhds.2 fun j => ?_
    simp only [denseOf_diag]
    exact (h2 _ _).const_mul _
  · refine tendsto_pi_nhds.2 fun b => tendsto_pi_nhds.2 fun i => tendsto_pi_nhds.2 fun j => ?_
    simp only [denseOf_sub]
    exact (h2 _ _).neg

/-- the point of a model -/
noncomputable def pt (s : SSM n d) : (Ix n d → ℝ) × (Ix n d → Ix n d → ℝ) := vecMat (ssmToNaturals s)

theorem of_pt {s : SSM n d} (hs : s.Nondegenerate) : Matrix.of (pt s).2 = s.Pd := denseOf_naturals hs

theorem cov_pt {s : SSM n d} (hs : s.Nondegenerate) : cov (pt s) = s.Kd := by
  unfold cov
  rw [of_pt hs, ← SSM.Kd_inv hs, nonsing_inv_nonsing_inv _ (isUnit_det' (SSM.Kd_posDef hs).isUnit)]

theorem pt_fst {s : SSM n d} (hs : s.Nondegenerate) : (pt s).1 = s.Kd⁻¹ *ᵥ stk s.mus := by
  show stk (ssmToNaturals s).1 = _
  rw [ssmToNaturals_eq s hs, SSM.Kd_inv hs]; rfl

theorem mean_pt {s : SSM n d} (hs : s.Nondegenerate) : mean (pt s) = stk s.mus := by
  unfold mean
  rw [cov_pt hs, pt_fst hs, mulVec_mulVec, mul_nonsing_inv _ (isUnit_det' (SSM.Kd_posDef hs).isUnit), one_mulVec]

theorem pt_mem {s : SSM n d} (hs : s.Nondegenerate) : pt s ∈ proper (farBlocks (n := n) (d := d)) :=
  ⟨by rw [of_pt hs]; exact SSM.Pd_posDef hs, fun _ _ h => denseOf_far _ h⟩

theorem pt_congr {s s' : SSM n d} (hs : s.Nondegenerate) (hs' : s'.Nondegenerate) (h : s.law = s'.law) : pt s = pt s' := by
  obtain ⟨h1, h2⟩ := mus_Kd_of_law h
  refine Prod.ext (by rw [pt_fst hs, pt_fst hs', h1, h2]) ?_
  have : Matrix.of (pt s).2 = Matrix.of (pt s').2 := by rw [of_pt hs, of_pt hs', ← SSM.Kd_inv hs, ← SSM.Kd_inv hs', h2]
  exact this

theorem exists_pt {x : (Ix n d → ℝ) × (Ix n d → Ix n d → ℝ)} (hx : x ∈ proper (farBlocks (n := n) (d := d))) :
    ∃ s : SSM n d, s.Nondegenerate ∧ pt s = x := by
  have hu := isUnit_det' hx.1.isUnit
  have hi : (cov x)⁻¹ = Matrix.of x.2 := nonsing_inv_nonsing_inv _ hu
  obtain ⟨s, hs, h1, h2⟩ := exists_ssm_of_cov (cov_posDef hx) (fun b c h => by
    rw [hi]
    ext i j
    exact hx.2 (b, i) (c, j) (.inl h)) (mean x)
  refine ⟨s, hs, Prod.ext ?_ ?_⟩
  · rw [pt_fst hs, h1, h2, hi]
    show Matrix.of x.2 *ᵥ ((Matrix.of x.2)⁻¹ *ᵥ x.1) = x.1
    rw [mulVec_mulVec, mul_nonsing_inv _ hu, one_mulVec]
  · have : Matrix.of (pt s).2 = Matrix.of x.2 := by rw [of_pt hs, ← SSM.Kd_inv hs, h2, hi]
    exact this

/-- With concave smooth likelihood terms, natural gradient steps of a small enough rate converge to the optimum. -/
theorem natgrad_converges {lik : ScalarLikelihood} (he : ExactLikelihood lik) (hl : LogConcaveLikelihood lik) (hsm : SmoothVarExp lik)
    (hn : 0 < n) (hd0 : 0 < d)
    {ι : Type*} [Fintype ι] {p : SSM n d} (hp : p.Nondegenerate) {α β : ι → ExpPar n d} (w : ι → Ix n d → ℝ)
    (hsα : ∀ i, SymDiag (α i)) (hsβ : ∀ i, SymDiag (β i))
    (hα : ∀ i (s : SSM n d), pairing (α i) (expPar s) = w i ⬝ᵥ stk s.mus)
    (hβ : ∀ i (s : SSM n d), pairing (β i) (expPar s) = w i ⬝ᵥ (s.Kd *ᵥ w i) + (w i ⬝ᵥ stk s.mus) ^ 2)
    (hα' : ∀ i, denseOf (α i) = 0) (hβ' : ∀ i, denseOf (β i) = (-2 : ℝ) • vecMulVec (w i) (w i)) (hβ1 : ∀ i, (β i).1 = 0)
    {κ b r y : ι → ℝ} (hκ : ∀ i, 0 ≤ κ i) (hr : ∀ i, 0 ≤ r i) (hpos : ∀ s : SSM n d, s.Nondegenerate → ∀ i, 0 < w i ⬝ᵥ (s.Kd *ᵥ w i) + r i)
    {L : SSM n d → ℝ} (hL : ∀ s : SSM n d, s.Nondegenerate → L s = (klDiv s.law p.law).toReal -
      ∑ i, κ i * lik.varExp (w i ⬝ᵥ stk s.mus + b i) (w i ⬝ᵥ (s.Kd *ᵥ w i) + r i) (y i)) :
    ∃ best : SSM n d, best.Nondegenerate ∧ (∀ s : SSM n d, s.Nondegenerate → L best ≤ L s ∧ (L s = L best → s.law = best.law)) ∧
      ∀ q₀ : SSM n d, q₀.Nondegenerate → ∃ γ₀ : ℝ, 0 < γ₀ ∧ γ₀ ≤ 1 ∧ ∀ grad : ℕ → SSM n d → ExpPar n d × ExpPar n d, GivesGradient L grad →
        ∀ opt : NatGrad n d, opt.momentum = false → 0 < opt.gamma → opt.gamma ≤ γ₀ → ∃ run : ℕ → SSM n d,
          (∀ N, NatGrad.steps grad N (opt, q₀) = .ok (opt, run N)) ∧ (∀ N, (run N).Nondegenerate) ∧ Antitone (fun N => L (run N)) ∧
          Tendsto (fun N => L (run N)) atTop (𝓝 (L best)) ∧ Tendsto (fun N => ssmToNaturals (run N)) atTop (𝓝 (ssmToNaturals best)) ∧
          Tendsto (fun N => (run N).mus) atTop (𝓝 best.mus) ∧ Tendsto (fun N => (run N).Kd) atTop (𝓝 best.Kd) := by
  have hd := hsm.differentiable
  have hKp := SSM.Kd_posDef hp
  set P : Problem (Ix n d) ι := ⟨stk p.mus, p.Kd, w, fun j m v => κ j * lik.varExp (m + b j) (v + r j) (y j), r⟩ with hP
  -- the functionals are those of the first order terms
  have hα1 : ∀ i, stk (α i).1 = w i := fun i => by
    have h2 := denseOf_eq_zero (hα' i)
    have h3 : ∀ μ : Ix n d → ℝ, stk (α i).1 ⬝ᵥ μ = w i ⬝ᵥ μ := fun μ => by
      obtain ⟨s, hs, h4, h5⟩ := exists_ssm_of_cov hKp (fun b c h => far_of_ssm hp b c h) μ
      have h6 := hα i s
      rw [h4] at h6
      rw [← h6, ← h4]
      unfold pairing
      rw [h2]
      simp only [dotProduct, Fintype.sum_prod_type, stk, Prod.fst_zero, Prod.snd_zero, Pi.zero_apply, Matrix.zero_apply, zero_mul, Finset.sum_const_zero, add_zero]
      rfl
    funext a
    have := h3 (Pi.single a 1)
    rwa [dotProduct_single_one, dotProduct_single_one] at this
  have hw : ∀ l i j, farBlocks i j → w l i * w l j = 0 := fun l i j h => by
    have h1 := denseOf_far (β l) h
    rw [hβ' l, Matrix.smul_apply, vecMulVec_apply, smul_eq_mul] at h1
    linarith
  have hfar : ∀ i j, farBlocks i j → P.K0⁻¹ i j = 0 := fun i j h => by
    show p.Kd⁻¹ i j = 0
    rw [SSM.Kd_inv hp, ← of_pt hp]
    exact (pt_mem hp).2 i j h
  -- smoothness
  have hpos' : ∀ K : Matrix (Ix n d) (Ix n d) ℝ, K.PosDef → ∀ j, 0 < P.w j ⬝ᵥ (K *ᵥ P.w j) + P.r j := fun K hK j => by
    by_cases h0 : w j = 0
    · have := hpos p hp j
      show 0 < w j ⬝ᵥ (K *ᵥ w j) + r j
      rw [h0] at this ⊢
      simpa using this
    · have := hK.dotProduct_mulVec_pos h0
      rw [star_trivial] at this
      exact add_pos_of_pos_of_nonneg this (hr j)
  have hS : Smooth P 2 := ⟨hpos', fun j m v hv => by
    have h1 := hsm (m + b j) (v + r j) (y j) hv
    have h2 : ContDiffAt ℝ 2 (fun z : ℝ × ℝ => (z.1 + b j, z.2 + r j)) (m, v) :=
      (contDiffAt_fst.add contDiffAt_const).prodMk (contDiffAt_snd.add contDiffAt_const)
    exact contDiffAt_const.mul (ContDiffAt.comp (g := fun z : ℝ × ℝ => lik.varExp z.1 z.2 (y j)) (m, v) h1 h2)⟩
  have haff : ∀ j m v, 0 < v + P.r j → P.ψ j m v ≤ κ j * (lik.varExp 0 1 (y j) - 2 * deriv (fun x => lik.varExp 0 x (y j)) 1 +
      deriv (fun x => lik.varExp x 1 (y j)) 0 * b j) + κ j * deriv (fun x => lik.varExp x 1 (y j)) 0 * m := fun j m v hv => by
    have hv' : 0 < v + r j := hv
    have := mul_le_mul_of_nonneg_left (tangent_ineq he hl hd (m := 0) (v := 1) (m' := m + b j) (v' := v + r j) (c := 0) (y := y j)
      one_pos hv'.le (by rw [one_mul]; norm_num; exact hv'.le)) (hκ j)
    show κ j * lik.varExp (m + b j) (v + r j) (y j) ≤ _
    refine this.trans (le_of_eq ?_)
    ring
  have hgm : ∀ x j, gm P x j = κ j * deriv (fun z => lik.varExp z (w j ⬝ᵥ (cov x *ᵥ w j) + r j) (y j)) (w j ⬝ᵥ mean x + b j) := fun x j => by
    show deriv (fun z => κ j * lik.varExp (z + b j) (w j ⬝ᵥ (cov x *ᵥ w j) + r j) (y j)) (w j ⬝ᵥ mean x) = _
    rw [deriv_const_mul_field, deriv_comp_add_const (fun z => lik.varExp z (w j ⬝ᵥ (cov x *ᵥ w j) + r j) (y j)) (b j)]
  have hgv : ∀ x j, gv P x j = κ j * deriv (fun z => lik.varExp (w j ⬝ᵥ mean x + b j) z (y j)) (w j ⬝ᵥ (cov x *ᵥ w j) + r j) := fun x j => by
    show deriv (fun z => κ j * lik.varExp (w j ⬝ᵥ mean x + b j) (z + r j) (y j)) (w j ⬝ᵥ (cov x *ᵥ w j)) = _
    rw [deriv_const_mul_field, deriv_comp_add_const (fun z => lik.varExp (w j ⬝ᵥ mean x + b j) z (y j)) (r j)]
  have hgn : ∀ x ∈ proper (farBlocks (n := n) (d := d)), ∀ j, gv P x j ≤ 0 := fun x hx j => by
    rw [hgv]
    exact mul_nonpos_of_nonneg_of_nonpos (hκ j) (localGradients_nonpos he hl _ (hpos' _ (cov_posDef hx) j).le)
  have hbd : ∀ s : SSM n d, s.Nondegenerate → bound P (pt s) = -L s := fun s hs => by
    rw [hL s hs, s.law_eq_gauss, p.law_eq_gauss, klDiv_gaussLaw (SSM.Kd_posDef hs) hKp,
      ENNReal.toReal_ofReal (gaussKL_nonneg (SSM.Kd_posDef hs) hKp)]
    unfold bound
    rw [cov_pt hs, mean_pt hs, neg_sub]
  -- the gradient is the way to the target
  have hgrad : ∀ (s : SSM n d) (g : ExpPar n d), s.Nondegenerate → IsGradient (lossOfExpectations L) (expPar s) g →
      vecMat g = pt s - target P (pt s) := fun s g hs hg => by
    obtain ⟨c, c1, c2, hg'⟩ := elbo_gradient hd hs hp w hsα hsβ hα hβ (hpos s hs) hL
    rw [IsGradient.unique hg hg', map_sub, map_sub, map_sum]
    have e : ∀ i, vecMat ((c i).1 • α i + (c i).2 • β i) = ((c i).1 • w i, fun a a' => (-2 * (c i).2) * (w i a * w i a')) := fun i => by
      refine Prod.ext ?_ ?_
      · show stk ((c i).1 • (α i).1 + (c i).2 • (β i).1) = _
        rw [hβ1, smul_zero, add_zero, ← hα1]; rfl
      · funext a a'
        show denseOf ((c i).1 • α i + (c i).2 • β i) a a' = _
        rw [denseOf_add, denseOf_smul, denseOf_smul, hα', hβ']
        simp only [smul_zero, zero_add, Matrix.smul_apply, vecMulVec_apply, smul_eq_mul]
        ring
    have e1 : (c : ι → ℝ × ℝ) = fun j => (gm P (pt s) j - 2 * gv P (pt s) j * (P.w j ⬝ᵥ mean (pt s)), gv P (pt s) j) := by
      funext j
      refine Prod.ext ?_ ?_
      · rw [c1, hgm, hgv, cov_pt hs, mean_pt hs]
        ring
      · rw [c2, hgv, cov_pt hs, mean_pt hs]
    show pt s - pt p - ∑ i, vecMat ((c i).1 • α i + (c i).2 • β i) = _
    simp only [e]
    rw [sub_sub]
    congr 1
    refine Prod.ext ?_ ?_
    · rw [Prod.fst_add, Prod.fst_sum, pt_fst hp, e1]
      rfl
    · funext a a'
      rw [Prod.snd_add, Prod.snd_sum]
      simp only [Pi.add_apply, Finset.sum_apply]
      show (pt p).2 a a' + _ = (p.Kd⁻¹ - (2 : ℝ) • ∑ j, gv P (pt s) j • vecMulVec (P.w j) (P.w j)) a a'
      rw [SSM.Kd_inv hp, ← of_pt hp, Matrix.sub_apply, Matrix.smul_apply, Matrix.sum_apply, sub_eq_add_neg, smul_eq_mul, Finset.mul_sum, ← Finset.sum_neg_distrib]
      congr 1
      refine Finset.sum_congr rfl fun j _ => ?_
      rw [e1]
      simp only [Matrix.smul_apply, vecMulVec_apply, smul_eq_mul]
      ring
  have hstat : ∀ s : SSM n d, s.Nondegenerate → target P (pt s) = pt s → ∀ s' : SSM n d, s'.Nondegenerate → L s ≤ L s' ∧ (L s' = L s → s'.law = s.law) :=
    fun s hs ht s' hs' => by
    obtain ⟨c, c1, c2, hg'⟩ := elbo_gradient hd hs hp w hsα hsβ hα hβ (hpos s hs) hL
    have h1 := hgrad s _ hs hg'
    rw [ht, sub_self] at h1
    have h2 : ∀ g : ExpPar n d, vecMat g = 0 → g = 0 := fun g hg => by
      have a1 : stk g.1 = 0 := congrArg Prod.fst hg
      have a2 : denseOf g = 0 := congrArg Prod.snd hg
      refine Prod.ext ?_ (denseOf_eq_zero a2)
      funext t a
      exact congrFun a1 (t, a)
    rw [h2 _ h1] at hg'
    obtain ⟨k1, k2⟩ := elbo_stationary he hl hd hs hp w hsα hsβ hα hβ hα' hβ' hκ hr (hpos s hs) hL
    exact ⟨k1.1 hg' s' hs', k2 hg' s' hs'⟩
  have huniq : ∀ x ∈ proper (farBlocks (n := n) (d := d)), ∀ y ∈ proper (farBlocks (n := n) (d := d)), target P x = x → target P y = y → x = y :=
    fun x hx y hy h1 h2 => by
    obtain ⟨s, hs, rfl⟩ := exists_pt hx
    obtain ⟨s', hs', rfl⟩ := exists_pt hy
    obtain ⟨a1, a2⟩ := hstat s hs h1 s' hs'
    obtain ⟨b1, -⟩ := hstat s' hs' h2 s hs
    exact (pt_congr hs' hs (a2 (le_antisymm b1 a1))).symm
  obtain ⟨-, -, -, y₁, hy₁, hfix₁, -⟩ := converges (P := P) hKp hS haff hfar hw hgn huniq (pt_mem hp)
  obtain ⟨best, hbest, rfl⟩ := exists_pt hy₁
  refine ⟨best, hbest, hstat best hbest hfix₁, fun q₀ hq₀ => ?_⟩
  obtain ⟨γ₀, g0, g1, y₂, hy₂, hfix₂, hrun⟩ := converges (P := P) hKp hS haff hfar hw hgn huniq (pt_mem hq₀)
  obtain rfl := huniq _ hy₂ _ hy₁ hfix₂ hfix₁
  refine ⟨γ₀, g0, g1, fun grad hgr opt hm h0 h1 => ?_⟩
  set x : ℕ → (Ix n d → ℝ) × (Ix n d → Ix n d → ℝ) := fun N => (fun x => x + opt.gamma • (target P x - x))^[N] (pt q₀) with hx
  have hx1 : ∀ N, x (N + 1) = x N + opt.gamma • (target P (x N) - x N) := fun N => Function.iterate_succ_apply' _ N _
  obtain ⟨a1, a2, a3⟩ := hrun opt.gamma h0 h1 x rfl hx1
  have hex : ∀ N, ∃ q : SSM n d, NatGrad.steps grad N (opt, q₀) = .ok (opt, q) ∧ q.Nondegenerate ∧ pt q = x N := fun N => by
    induction N with
    | zero => exact ⟨q₀, rfl, hq₀, rfl⟩
    | succ N ih =>
      obtain ⟨q, e1, hq, e2⟩ := ih
      have hgq := hgr N q (expPar q) hq (ssmToExpectations_eq q hq hn hd0)
      have e3 : vecMat (ssmToNaturals q - opt.gamma • (grad N q).1) = x (N + 1) := by
        rw [map_sub, map_smul, hgrad q _ hq hgq, hx1, ← e2]
        show pt q - opt.gamma • (pt q - target P (pt q)) = _
        rw [← neg_sub (target P (pt q)), smul_neg, sub_neg_eq_add]
      have hprop : ProperNaturals (ssmToNaturals q - opt.gamma • (grad N q).1) := by
        have := (a1 (N + 1)).1
        rw [← e3] at this
        exact this
      obtain ⟨q', f1, f2, f3⟩ := (C39_step opt hm hq hn hd0 _ (grad N q).2 hgq.1).1 hprop
      refine ⟨q', ?_, f2, ?_⟩
      · rw [NatGrad.steps, e1]
        exact f1
      · unfold pt
        rw [f3, e3]
  choose run r1 r2 r3 using hex
  have hlim : Tendsto (fun N => pt (run N)) atTop (𝓝 (pt best)) := by
    simp only [r3]
    exact a3
  have hLb : ∀ s : SSM n d, s.Nondegenerate → L s = -bound P (pt s) := fun s hs => by rw [hbd s hs, neg_neg]
  refine ⟨run, r1, r2, antitone_nat_of_succ_le fun N => ?_, ?_, tendsto_of_vecMat hlim, ?_, ?_⟩
  · beta_reduce
    rw [hLb _ (r2 _), hLb _ (r2 _), r3, r3]
    exact neg_le_neg (a2 N)
  · have : (fun N => L (run N)) = fun N => -bound P (pt (run N)) := funext fun N => hLb _ (r2 N)
    rw [this, hLb _ hbest]
    exact ((contDiffAt_bound hS hy₁).continuousAt.tendsto.comp hlim).neg
  · have : (fun N => (run N).mus) = fun N => vblk (mean (pt (run N))) := funext fun N => by rw [mean_pt (r2 N)]; rfl
    rw [this, show best.mus = vblk (mean (pt best)) by rw [mean_pt hbest]; rfl]
    refine tendsto_pi_nhds.2 fun t => tendsto_pi_nhds.2 fun a => ?_
    exact (contDiffAt_mean (N := 0) hy₁.1.det_pos.ne' (t, a)).continuousAt.tendsto.comp hlim
  · have : (fun N => (run N).Kd) = fun N => cov (pt (run N)) := funext fun N => by rw [cov_pt (r2 N)]
    rw [this, show best.Kd = cov (pt best) by rw [cov_pt hbest]]
    refine tendsto_pi_nhds.2 fun t => tendsto_pi_nhds.2 fun a => ?_
    exact (contDiffAt_cov (N := 0) hy₁.1.det_pos.ne' t a).continuousAt.tendsto.comp hlim

end NatDyn
end MF
