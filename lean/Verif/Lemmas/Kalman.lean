import Verif.Model.KalmanFilter
import Verif.Lemmas.Naturals
import Verif.Lemmas.Obs
import Verif.Props.BlockTriDiag

/-! # Kalman filter -/

namespace MF
open Matrix Spec BTD

variable {n d m : ℕ}

theorem stk_solve (M : LowerBTD n d) (v : Fin (n + 1) → Vec d) (t : Bool) :
    stk (M.solve v t) = (if t then (unflat M.toDense)ᵀ else unflat M.toDense)⁻¹ *ᵥ stk v := by
  unfold BTD.solve solveTriangMat
  rw [stk_unflatten_mulVec, unflat_inv]
  cases t <;> rfl

theorem tfLogdet_posDef {M : Mat m m} (h : M.PosDef) : tfLogdet M = .ok (Real.log M.det) := by
  obtain ⟨L, hL, hc⟩ := tfCholesky_posDef h
  unfold tfLogdet
  rw [hL]
  simp only [bind, Except.bind, pure, Except.pure]
  congr 1
  rw [← hc.mul_transpose, det_mul, det_transpose, hc.lower.det,
    Real.log_mul (Finset.prod_ne_zero_iff.2 fun i _ => (hc.diag_pos i).ne')
      (Finset.prod_ne_zero_iff.2 fun i _ => (hc.diag_pos i).ne'),
    Real.log_prod fun i _ => (hc.diag_pos i).ne']
  ring

theorem sumLogdet_posDef {N : ℕ} {M : Fin N → Mat m m} (h : ∀ j, (M j).PosDef) :
    sumLogdet M = .ok (∑ j, Real.log (M j).det) := by
  induction N with
  | zero => simp [sumLogdet]
  | succ N ih =>
    rw [sumLogdet, tfLogdet_posDef (h 0), ih (M := Fin.tail M) fun j => h j.succ]
    simp only [bind, Except.bind, pure, Except.pure]
    rw [Fin.sum_univ_succ]
    rfl

namespace KF
variable (f : KF n d m)

/-- The likelihood precision blocks. -/
def lik (t : Fin (n + 1)) : Mat d d := (f.H t)ᵀ * f.rInv t * f.H t

/-- Posterior precision, dense. -/
noncomputable def J : Matrix (Ix n d) (Ix n d) ℝ := f.prior.Pd + denseDiag f.lik

variable {f}

theorem lik_symm (hs : ∀ t, (f.rInv t)ᵀ = f.rInv t) (t) : (f.lik t)ᵀ = f.lik t := by
  rw [lik, transpose_mul, transpose_mul, transpose_transpose, hs, Matrix.mul_assoc]

theorem kInvPost_eq (h : f.prior.Nondegenerate) (hn : 0 < n) :
    f.kInvPost = .ok ⟨fun t => f.prior.precD t + f.lik t, some f.prior.precS⟩ := by
  unfold kInvPost
  rw [SSM.precision_eq h hn]
  simp only [bind, Except.bind, BTD.init]
  rw [if_neg (by simp)]
  simp only [BTD.add, BTD.init]
  rw [if_neg (by omega)]
  rfl

theorem denseSym_post (h : f.prior.Nondegenerate) :
    denseSym (fun t => f.prior.precD t + f.lik t) f.prior.precS = f.J := by
  rw [J, ← SSM.denseSym_prec h]
  apply blk_ext
  intro b c
  rw [blk_add, blk_denseSym, blk_denseSym, blk_denseDiag]
  by_cases hbc : b = c
  · subst hbc; simp [symBlk_self]
  · simp [symBlk, hbc]

theorem post_symm (hs : ∀ t, (f.rInv t)ᵀ = f.rInv t) (t) :
    (f.prior.precD t + f.lik t)ᵀ = f.prior.precD t + f.lik t := by
  rw [transpose_add, SSM.precD_symm, lik_symm hs]

theorem unflat_post (h : f.prior.Nondegenerate) (hs : ∀ t, (f.rInv t)ᵀ = f.rInv t) :
    unflat (BTD.toDense (⟨fun t => f.prior.precD t + f.lik t, some f.prior.precS⟩ : SymBTD n d)) =
      f.J := by
  rw [BTD.unflat_toDense_sym, ← denseSym_post h]
  congr 1
  funext b
  exact symLower_eq (post_symm hs b)

theorem backProject_eq (hs : ∀ t, (f.rInv t)ᵀ = f.rInv t) (y : Fin (n + 1) → Vec m) (t) :
    f.backProject y t = ((f.H t)ᵀ * f.rInv t) *ᵥ y t := by
  funext j
  simp only [backProject, of_apply, mulVec, dotProduct, mul_apply, transpose_apply]
  refine Finset.sum_congr rfl fun i _ => ?_
  congr 1
  refine Finset.sum_congr rfl fun k _ => ?_
  congr 1
  exact congrFun (congrFun (hs t) k) i

/-- The posterior state space model. -/
theorem posteriorSSM_ok (h : f.prior.Nondegenerate) (hs : ∀ t, (f.rInv t)ᵀ = f.rInv t)
    (hn : 0 < n) (hJ : f.J.PosDef) :
    ∃ s, f.posteriorSSM = .ok s ∧ s.Nondegenerate ∧ (∀ b i, 0 < s.concatChol b i i) ∧
      s.Pd = f.J ∧
      f.J *ᵥ stk s.mus = stk (fun t => ((f.H t)ᵀ * f.rInv t) *ᵥ f.obs t)
        + f.prior.Pd *ᵥ stk f.prior.mus := by
  set D : Fin (n + 1) → Mat d d := fun t => f.prior.precD t + f.lik t with hD
  set S := f.prior.precS with hS
  have hDs : ∀ b, (D b)ᵀ = D b := post_symm hs
  have hsl : (fun b => symLower (D b)) = D := by funext b; exact symLower_eq (hDs b)
  have hP : (denseSym D S).PosDef := by rw [denseSym_post h]; exact hJ
  obtain ⟨cs, hcs, hch⟩ := udlLoop_ok D S (by rw [hsl]; exact hP)
  rw [hsl] at hch
  have hus : (fun k : Fin n => cholSolve (cs k.succ) (S k)) = schurU D S := by
    funext k; rw [cholSolve_eq (hch k.succ)]; rfl
  have hudl : BTD.upperDiagonalLower (⟨D, some S⟩ : SymBTD n d) =
      .ok (⟨fun _ => 1, some (schurU D S)⟩, ⟨cs, none⟩) := by
    unfold BTD.upperDiagonalLower
    simp only [hcs, bind, Except.bind, hus]
    unfold init
    simp only [Option.isSome_some, Option.isSome_none]
    simp [hn, pure, Except.pure]
  have hsch := schur_posDef D S hP
  have hqs : (fun t => cholSolve (cs t) (1 : Mat d d)) = fun t => (schur D S t)⁻¹ := by
    funext t; rw [cholSolve_eq (hch t), Matrix.mul_one]
  obtain ⟨q, hq, hq2⟩ := seqFin_cholesky_ok fun b => (hsch b).inv
  set l : Fin (n + 1) → Vec d := fun t => f.backProject f.obs t +
    (BTD.denseMult (⟨f.prior.precD, some f.prior.precS⟩ : SymBTD n d) f.prior.mus) t with hl
  set mPost := BTD.solve (⟨cs, none⟩ : LowerBTD n d) (BTD.solve (⟨cs, none⟩ : LowerBTD n d)
      (BTD.solve (⟨fun _ => 1, some (schurU D S)⟩ : LowerBTD n d) l true) false) true with hm
  have hcsD : unflat (BTD.toDense (⟨cs, none⟩ : LowerBTD n d)) = denseDiag cs := by
    rw [unflat_toDense_low, denseDiag_eq_low]
    congr 1
    funext b; exact (hch b).lower.tril_eq
  have haD : unflat (BTD.toDense (⟨fun _ => 1, some (schurU D S)⟩ : LowerBTD n d)) =
      denseLow (fun _ => 1) (schurU D S) := by
    rw [unflat_toDense_low]
    congr 1
    funext b
    exact LowerTri.tril_eq fun i j hij => one_apply_ne hij.ne
  have hmstk : stk mPost = denseDiag (fun b => (schur D S b)⁻¹) *ᵥ
      (((denseLow (fun _ => 1) (schurU D S))ᵀ)⁻¹ *ᵥ stk l) := by
    rw [hm, stk_solve, stk_solve, stk_solve, hcsD, haD]
    simp only [if_true, Bool.false_eq_true, if_false]
    rw [mulVec_mulVec, ← Matrix.mul_inv_rev, denseDiag_transpose, denseDiag_mul]
    congr 1
    have e : (fun b => cs b * (cs b)ᵀ) = schur D S := by
      funext b; exact (hch b).mul_transpose
    rw [e]
    exact inv_eq_right_inv (SSM.denseDiag_mul_inv fun b => (hsch b).isUnit)
  set s : SSM n d := ⟨mPost 0, q 0, fun k => -schurU D S k, fun k => mPost k.succ,
    fun k => q k.succ⟩ with hsdef
  have hco : s.concatOffsets = mPost := by
    funext b; exact Fin.cases rfl (fun k => rfl) b
  obtain ⟨hnd, hpos, h1, h2, h3⟩ := ssm_of_schur s l D S hDs hP
    (fun b => Fin.cases (hq2 0) (fun k => hq2 k.succ) b) rfl (by rw [hco, hmstk])
  have hPd : s.Pd = f.J := by rw [← SSM.denseSym_prec hnd, h1, h2, denseSym_post h]
  refine ⟨s, ?_, hnd, hpos, hPd, ?_⟩
  · unfold posteriorSSM
    rw [kInvPost_eq h hn, SSM.precision_eq h hn, SSM.marginalMeans_eq hn]
    simp only [bind, Except.bind]
    rw [hudl]
    simp only [congrFun hqs, hq]
    rfl
  · rw [← hPd]
    have h4 := congrArg stk h3
    rw [stk_vblk] at h4
    rw [h4, hl, stk_add]
    congr 1
    · congr 1
      funext t
      exact backProject_eq hs f.obs t
    · have := (C02_dense_mult true (⟨f.prior.precD, some f.prior.precS⟩ : SymBTD n d) f.prior.mus).1
      rw [this, SSM.unflat_prec h]


theorem posteriorSSM_error (h : f.prior.Nondegenerate) (hs : ∀ t, (f.rInv t)ᵀ = f.rInv t)
    (hn : 0 < n) (hJ : ¬ f.J.PosDef) : f.posteriorSSM = .error .invalidArgument := by
  unfold posteriorSSM
  rw [kInvPost_eq h hn]
  have : BTD.upperDiagonalLower (⟨fun t => f.prior.precD t + f.lik t, some f.prior.precS⟩ :
      SymBTD n d) = .error .invalidArgument := by
    unfold BTD.upperDiagonalLower
    simp only
    rw [udlLoop_error]
    · rfl
    · have hsl : (fun b => symLower (f.prior.precD b + f.lik b)) =
          fun t => f.prior.precD t + f.lik t := by
        funext b; exact symLower_eq (post_symm hs b)
      rw [hsl, denseSym_post h]
      exact hJ
  simp only [bind, Except.bind]
  rw [this]

theorem sq_sum_eq (c : LowerBTD n d) (v : Fin (n + 1) → Vec d) {P : Matrix (Ix n d) (Ix n d) ℝ}
    (hc : unflat c.toDense * (unflat c.toDense)ᵀ = P) :
    ∑ t, ∑ i, (c.solve v false t i) ^ 2 = stk v ⬝ᵥ (P⁻¹ *ᵥ stk v) := by
  have h2 : ∑ t, ∑ i, (c.solve v false t i) ^ 2 =
      stk (c.solve v false) ⬝ᵥ stk (c.solve v false) := by
    rw [dotProduct_blk]
    simp only [sq]
    rfl
  rw [h2, stk_solve, ← hc]
  simp only [Bool.false_eq_true, if_false]
  rw [Matrix.mul_inv_rev, ← mulVec_mulVec, dotProduct_mulVec (stk v), ← mulVec_transpose,
    transpose_nonsing_inv, transpose_transpose]

/-- The Cholesky factor of the posterior precision. -/
theorem post_cholesky (h : f.prior.Nondegenerate) (hs : ∀ t, (f.rInv t)ᵀ = f.rInv t)
    (hn : 0 < n) (hd : 0 < d) (hJ : f.J.PosDef) :
    ∃ c : LowerBTD n d, BTD.cholesky (⟨fun t => f.prior.precD t + f.lik t, some f.prior.precS⟩ :
        SymBTD n d) = .ok c ∧
      unflat c.toDense * (unflat c.toDense)ᵀ = f.J ∧
      c.absLogDet = (1 / 2) * Real.log f.J.det := by
  have hpd : (BTD.toDense (⟨fun t => f.prior.precD t + f.lik t, some f.prior.precS⟩ :
      SymBTD n d)).PosDef := by
    rw [← posDef_unflat, unflat_post h hs]; exact hJ
  obtain ⟨c, hc, hch, -, -⟩ := BTD.cholesky_ok _ hd (fun _ => hn) hpd
  have e : unflat c.toDense * (unflat c.toDense)ᵀ = f.J := by
    rw [← unflat_post h hs, ← hch.mul_transpose, unflat_mul, unflat_transpose]
  refine ⟨c, hc, e, ?_⟩
  have hdet : c.toDense.det ^ 2 = f.J.det := by
    rw [← e, det_mul, det_transpose, det_unflat, sq]
  have hne : c.toDense.det ≠ 0 := by
    intro h0
    rw [h0] at hdet
    exact hJ.det_pos.ne' (by rw [← hdet]; norm_num)
  rw [C05_abs_log_det c, ← hdet, Real.log_pow, Real.log_abs]
  · push_cast; ring
  · intro b i h0
    rw [det_toDense_low] at hne
    exact (Finset.prod_ne_zero_iff.1 (Finset.prod_ne_zero_iff.1 hne b (Finset.mem_univ _)) i
      (Finset.mem_univ _)) h0

/-- The log likelihood, in dense form. -/
theorem logLikelihood_eq (h : f.prior.Nondegenerate) (hs : ∀ t, (f.rInv t)ᵀ = f.rInv t)
    (hn : 0 < n) (hd : 0 < d) (hJ : f.J.PosDef) {ld : ℝ} (hld : f.logDetR = .ok ld) :
    f.logLikelihood = .ok (-((((n + 1) * m : ℕ) : ℝ) / 2) * Real.log (2 * Real.pi)
      - (1 / 2) * ∑ t, (f.obs t - f.H t *ᵥ f.prior.mus t) ⬝ᵥ
          (f.rInv t *ᵥ (f.obs t - f.H t *ᵥ f.prior.mus t))
      + (1 / 2) * (stk (fun t => ((f.H t)ᵀ * f.rInv t) *ᵥ (f.obs t - f.H t *ᵥ f.prior.mus t)) ⬝ᵥ
          (f.J⁻¹ *ᵥ stk (fun t => ((f.H t)ᵀ * f.rInv t) *ᵥ (f.obs t - f.H t *ᵥ f.prior.mus t))))
      - (1 / 2) * Real.log f.prior.Kd.det + (1 / 2) * ld - (1 / 2) * Real.log f.J.det) := by
  obtain ⟨c, hc, hcc, hca⟩ := post_cholesky h hs hn hd hJ
  have hproj : projectStateToF f.H f.prior.mus = fun t => f.H t *ᵥ f.prior.mus t := rfl
  have hb : f.backProject (fun t => f.obs t - f.H t *ᵥ f.prior.mus t) =
      fun t => ((f.H t)ᵀ * f.rInv t) *ᵥ (f.obs t - f.H t *ᵥ f.prior.mus t) := by
    funext t; exact backProject_eq hs _ t
  unfold logLikelihood
  rw [kInvPost_eq h hn, SSM.marginalMeans_eq hn]
  simp only [bind, Except.bind, hc, hproj, hld, hb, pure, Except.pure]
  rw [sq_sum_eq c _ hcc, hca, SSM.logdet_Kd h]
  congr 1
  have e1 : ∀ t, ∑ o, ∑ p, f.rInv t o p * (f.obs t - f.H t *ᵥ f.prior.mus t) p *
      (f.obs t - f.H t *ᵥ f.prior.mus t) o = (f.obs t - f.H t *ᵥ f.prior.mus t) ⬝ᵥ
          (f.rInv t *ᵥ (f.obs t - f.H t *ᵥ f.prior.mus t)) := by
    intro t
    simp only [dotProduct, mulVec]
    refine Finset.sum_congr rfl fun o _ => ?_
    rw [← Finset.sum_mul, mul_comm]
  simp only [e1]
  push_cast
  ring

end KF
end MF

namespace MF
open Matrix Spec BTD

variable {n d m : ℕ}

/-- The dense filter observes every time point once. -/
theorem denseDiag_lik_eq {N : ℕ} (f : KF n d m) (H : Fin N → Mat m d) (idx : Fin N → Fin (n + 1))
    (P : Fin N → Mat m m)
    (hlik : ∀ k, f.lik k = ∑ j, if idx j = k then (H j)ᵀ * P j * H j else 0) :
    denseDiag f.lik = (obsMatrix H idx)ᵀ * blkDiag P * obsMatrix H idx := by
  apply blk_ext
  intro b c
  rw [blk_obsMatrix_quad, blk_denseDiag, ← hlik]

theorem stk_backproj_eq {N : ℕ} (g : Fin (n + 1) → Vec d) (H : Fin N → Mat m d)
    (idx : Fin N → Fin (n + 1)) (P : Fin N → Mat m m) (y : Fin N → Vec m)
    (hg : ∀ k, g k = ∑ j, if idx j = k then ((H j)ᵀ * P j) *ᵥ y j else 0) :
    stk g = ((obsMatrix H idx)ᵀ * blkDiag P) *ᵥ stk y := by
  apply vblk_ext
  intro k
  rw [vblk_stk, ← mulVec_mulVec, vblk_obsMatrixT_mulVec, hg]
  refine Finset.sum_congr rfl fun j _ => ?_
  rw [vblk_blkDiag_mulVec, vblk_stk, mulVec_mulVec]

/-- The filter's posterior is the Bayes posterior of the observation model it encodes. -/
theorem KF.posterior_bayes {N : ℕ} {f : KF n d m} (h : f.prior.Nondegenerate)
    (hs : ∀ t, (f.rInv t)ᵀ = f.rInv t) (hn : 0 < n)
    (H : Fin N → Mat m d) (idx : Fin N → Fin (n + 1)) (R : Fin N → Mat m m) (y : Fin N → Vec m)
    (hR : ∀ j, (R j).PosDef)
    (hlik : ∀ k, f.lik k = ∑ j, if idx j = k then (H j)ᵀ * (R j)⁻¹ * H j else 0)
    (hobs : ∀ k, ((f.H k)ᵀ * f.rInv k) *ᵥ f.obs k =
      ∑ j, if idx j = k then ((H j)ᵀ * (R j)⁻¹) *ᵥ y j else 0) :
    f.J.PosDef ∧ ∃ s, f.posteriorSSM = .ok s ∧ s.Nondegenerate ∧
      (∀ b i, 0 < s.concatChol b i i) ∧
      s.Kd = (f.prior.Kd⁻¹ + (obsMatrix H idx)ᵀ * (blkDiag R)⁻¹ * obsMatrix H idx)⁻¹ ∧
      stk s.mus = stk f.prior.mus +
        (f.prior.Kd⁻¹ + (obsMatrix H idx)ᵀ * (blkDiag R)⁻¹ * obsMatrix H idx)⁻¹ *ᵥ
        (((obsMatrix H idx)ᵀ * (blkDiag R)⁻¹) *ᵥ (stk y - obsMatrix H idx *ᵥ stk f.prior.mus)) ∧
      IsBayesPosterior f.prior.law (obsLogLik H idx R y) s.law := by
  set G := obsMatrix H idx with hG
  have hu : ∀ j, IsUnit (R j).det := fun j => isUnit_det' (hR j).isUnit
  have hRi : (blkDiag R)⁻¹ = blkDiag fun j => (R j)⁻¹ := blkDiag_inv hu
  have hK := SSM.Kd_posDef h
  have hRp := posDef_blkDiag hR
  have hJe : f.J = f.prior.Kd⁻¹ + Gᵀ * (blkDiag R)⁻¹ * G := by
    rw [KF.J, SSM.Kd_inv h, denseDiag_lik_eq f H idx _ hlik, hRi]
  have hJ : f.J.PosDef := by rw [hJe]; exact bayes_J_posDef hK hRp G
  have hJu := isUnit_det' hJ.isUnit
  obtain ⟨s, hok, hnd, hpos, hPd, hm⟩ := KF.posteriorSSM_ok h hs hn hJ
  have hKd : s.Kd = (f.prior.Kd⁻¹ + Gᵀ * (blkDiag R)⁻¹ * G)⁻¹ := by
    rw [← hJe, ← hPd, SSM.Pd_inv hnd]
  have hmus : stk s.mus = stk f.prior.mus + (f.prior.Kd⁻¹ + Gᵀ * (blkDiag R)⁻¹ * G)⁻¹ *ᵥ
        ((Gᵀ * (blkDiag R)⁻¹) *ᵥ (stk y - G *ᵥ stk f.prior.mus)) := by
    rw [← hJe]
    have h1 : stk s.mus = f.J⁻¹ *ᵥ (f.J *ᵥ stk s.mus) := by
      rw [mulVec_mulVec, nonsing_inv_mul _ hJu, one_mulVec]
    have h2 : ∀ z, stk f.prior.mus + f.J⁻¹ *ᵥ z = f.J⁻¹ *ᵥ (f.J *ᵥ stk f.prior.mus + z) := by
      intro z
      rw [mulVec_add, mulVec_mulVec, nonsing_inv_mul _ hJu, one_mulVec]
    rw [h2, h1, hm, stk_backproj_eq _ H idx _ y hobs, ← hRi, ← hG]
    congr 1
    have hJm : f.J *ᵥ stk f.prior.mus = f.prior.Pd *ᵥ stk f.prior.mus +
        (Gᵀ * (blkDiag R)⁻¹) *ᵥ (G *ᵥ stk f.prior.mus) := by
      rw [hJe, add_mulVec, SSM.Kd_inv h, mulVec_mulVec]
    rw [hJm, mulVec_sub]
    abel
  refine ⟨hJ, s, hok, hnd, hpos, hKd, hmus, ?_⟩
  have hb := bayes_posterior hK hRp G (stk f.prior.mus) (stk y)
  rw [← hmus, ← hKd, ← SSM.law_eq_gauss, ← SSM.law_eq_gauss] at hb
  have : obsLogLik H idx R y = fun x => gaussLogDensity (G *ᵥ x) (blkDiag R) (stk y) := by
    funext x; exact obsLogLik_eq H idx hR y x
  rw [this]
  exact hb

/-- The evidence of the observation model. -/
theorem evidence_eq {N : ℕ} {p : SSM n d} (h : p.Nondegenerate)
    (H : Fin N → Mat m d) (idx : Fin N → Fin (n + 1)) (R : Fin N → Mat m m) (y : Fin N → Vec m)
    (hR : ∀ j, (R j).PosDef) :
    evidence p.law (obsLogLik H idx R y) = ENNReal.ofReal (Real.exp
      (gaussLogDensity (obsMatrix H idx *ᵥ stk p.mus)
        (obsMatrix H idx * p.Kd * (obsMatrix H idx)ᵀ + blkDiag R) (stk y))) := by
  have : obsLogLik H idx R y = fun x => gaussLogDensity (obsMatrix H idx *ᵥ x) (blkDiag R) (stk y) := by
    funext x; exact obsLogLik_eq H idx hR y x
  rw [this, SSM.law_eq_gauss, bayes_evidence (SSM.Kd_posDef h) (posDef_blkDiag hR)]

/-- The evidence in the form computed by the filters. -/
theorem evidence_formula' {N : ℕ} {f : KF n d m} (h : f.prior.Nondegenerate)
    (H : Fin N → Mat m d) (idx : Fin N → Fin (n + 1)) (R : Fin N → Mat m m) (y : Fin N → Vec m)
    (hR : ∀ j, (R j).PosDef)
    (hlik : ∀ k, f.lik k = ∑ j, if idx j = k then (H j)ᵀ * (R j)⁻¹ * H j else 0)
    (g : Fin (n + 1) → Vec d)
    (hg : ∀ k, g k = ∑ j, if idx j = k then
      ((H j)ᵀ * (R j)⁻¹) *ᵥ (y j - H j *ᵥ f.prior.mus (idx j)) else 0) :
    gaussLogDensity (obsMatrix H idx *ᵥ stk f.prior.mus)
        (obsMatrix H idx * f.prior.Kd * (obsMatrix H idx)ᵀ + blkDiag R) (stk y) =
      -(((N * m : ℕ) : ℝ) / 2) * Real.log (2 * Real.pi)
      - (1 / 2) * ∑ j, (y j - H j *ᵥ f.prior.mus (idx j)) ⬝ᵥ
          ((R j)⁻¹ *ᵥ (y j - H j *ᵥ f.prior.mus (idx j)))
      + (1 / 2) * (stk g ⬝ᵥ (f.J⁻¹ *ᵥ stk g))
      - (1 / 2) * Real.log f.prior.Kd.det + (1 / 2) * (∑ j, Real.log ((R j)⁻¹).det)
      - (1 / 2) * Real.log f.J.det := by
  set G := obsMatrix H idx with hG
  have hu : ∀ j, IsUnit (R j).det := fun j => isUnit_det' (hR j).isUnit
  have hRi : (blkDiag R)⁻¹ = blkDiag fun j => (R j)⁻¹ := blkDiag_inv hu
  have hJe : f.J = f.prior.Kd⁻¹ + Gᵀ * (blkDiag R)⁻¹ * G := by
    rw [KF.J, SSM.Kd_inv h, denseDiag_lik_eq f H idx _ hlik, hRi]
  have hdisp : stk y - G *ᵥ stk f.prior.mus = stk (fun j => y j - H j *ᵥ f.prior.mus (idx j)) := by
    apply vblk_ext
    intro j
    rw [vblk_sub, hG, vblk_obsMatrix_mulVec]
    rfl
  have hgs : stk g = (Gᵀ * (blkDiag R)⁻¹) *ᵥ (stk y - G *ᵥ stk f.prior.mus) := by
    rw [hdisp, hRi]
    exact stk_backproj_eq g H idx _ _ hg
  rw [evidence_formula (SSM.Kd_posDef h) (posDef_blkDiag hR), ← hgs, ← hJe, hRi, hdisp,
    dotProduct_blk, det_blkDiag, Real.log_prod (fun j _ => (hR j).det_pos.ne')]
  simp only [vblk_blkDiag_mulVec, vblk_stk]
  have hld : ∑ j, Real.log ((R j)⁻¹).det = -∑ j, Real.log (R j).det := by
    rw [← Finset.sum_neg_distrib]
    refine Finset.sum_congr rfl fun j _ => ?_
    rw [det_nonsing_inv, Ring.inverse_eq_inv', Real.log_inv]
  rw [hld]
  have hc : Fintype.card (Fin N × Fin m) = N * m := by simp
  rw [hc]
  ring

end MF
