import Verif.Spec.Jitter
import Verif.Lemmas.GPR
import Verif.Lemmas.Predict
import Verif.Props.GPR
import Mathlib.Topology.Instances.Matrix
import Mathlib.Analysis.SpecialFunctions.Log.Basic

/-! # The effect of the jitter -/

namespace MF
open Matrix Spec MeasureTheory ProbabilityTheory Filter Topology
variable {n d o p : ℕ}

/-! ### continuity -/

section cont
variable {ι κ : Type*} [Fintype ι] [DecidableEq ι] [Fintype κ] [DecidableEq κ] {α : Type*} {l : Filter α}

theorem tendsto_matrix_inv {f : α → Matrix ι ι ℝ} {M : Matrix ι ι ℝ} (h : Tendsto f l (𝓝 M)) (hM : M.det ≠ 0) :
    Tendsto (fun x => (f x)⁻¹) l (𝓝 M⁻¹) := by
  have h1 : Tendsto (fun x => (f x).det) l (𝓝 M.det) := (continuous_id.matrix_det.tendsto M).comp h
  have h2 : Tendsto (fun x => (f x).adjugate) l (𝓝 M.adjugate) := (continuous_id.matrix_adjugate.tendsto M).comp h
  simp only [Matrix.inv_def, Ring.inverse_eq_inv']
  exact (h1.inv₀ hM).smul h2

theorem tendsto_gaussLogDensity {f : α → Matrix ι ι ℝ} {M : Matrix ι ι ℝ} (h : Tendsto f l (𝓝 M)) (hM : M.PosDef)
    (m x : ι → ℝ) : Tendsto (fun a => gaussLogDensity m (f a) x) l (𝓝 (gaussLogDensity m M x)) := by
  have hdet : M.det ≠ 0 := hM.det_pos.ne'
  have h1 : Tendsto (fun x => (f x).det) l (𝓝 M.det) := (continuous_id.matrix_det.tendsto M).comp h
  have h2 := tendsto_matrix_inv h hdet
  have h3 : Tendsto (fun a => (x - m) ⬝ᵥ ((f a)⁻¹ *ᵥ (x - m))) l (𝓝 ((x - m) ⬝ᵥ (M⁻¹ *ᵥ (x - m)))) :=
    ((continuous_const.dotProduct (continuous_id.matrix_mulVec continuous_const)).tendsto M⁻¹).comp h2
  unfold gaussLogDensity
  exact ((h3.const_mul _).sub ((h1.log hdet).const_mul _)).sub tendsto_const_nhds

theorem Tendsto.matrix_mul' {γ : Type*} [Fintype γ] {f : α → Matrix ι κ ℝ} {g : α → Matrix κ γ ℝ} {F G} (hf : Tendsto f l (𝓝 F))
    (hg : Tendsto g l (𝓝 G)) : Tendsto (fun a => f a * g a) l (𝓝 (F * G)) :=
  ((continuous_fst.matrix_mul continuous_snd).tendsto (F, G)).comp (hf.prodMk_nhds hg)

theorem Tendsto.matrix_mulVec' {f : α → Matrix ι κ ℝ} {g : α → κ → ℝ} {F G} (hf : Tendsto f l (𝓝 F))
    (hg : Tendsto g l (𝓝 G)) : Tendsto (fun a => f a *ᵥ g a) l (𝓝 (F *ᵥ G)) :=
  ((continuous_fst.matrix_mulVec continuous_snd).tendsto (F, G)).comp (hf.prodMk_nhds hg)

theorem Tendsto.matrix_transpose' {f : α → Matrix ι κ ℝ} {F} (hf : Tendsto f l (𝓝 F)) :
    Tendsto (fun a => (f a)ᵀ) l (𝓝 Fᵀ) :=
  (continuous_id.matrix_transpose.tendsto F).comp hf

end cont

/-! ### the state space model of a kernel with jitter -/

/-- The covariance of the process is the joint covariance of a chain. -/
theorem StatProc.isJointCov {A : ℝ → Mat d d} {P : Mat d d} (h : StatProc A P) {ts : Fin (n + 1) → ℝ} (hts : Monotone ts) :
    IsJointCov P (fun k : Fin n => A (ts k.succ - ts k.castSucc))
      (fun k => P - A (ts k.succ - ts k.castSucc) * P * (A (ts k.succ - ts k.castSucc))ᵀ) (covMat A P ts) where
  symm := isSymm_of_psd (h.psd_any ts)
  zero := by
    show stateCov A P (ts 0) (ts 0) = P
    exact h.cov_self _
  succ k := by
    have e : ∀ i, blk (covMat A P ts) i i = P := fun i => by
      show stateCov A P (ts i) (ts i) = P
      exact h.cov_self _
    rw [e, e]; abel
  cross k c hc := by
    show stateCov A P (ts k.succ) (ts c) = A _ * stateCov A P (ts k.castSucc) (ts c)
    have h1 : ts c ≤ ts k.castSucc := hts hc
    have h2 : ts k.castSucc ≤ ts k.succ := hts (Fin.castSucc_lt_succ).le
    unfold stateCov
    rw [if_pos h1, if_pos (h1.trans h2), ← Matrix.mul_assoc, ← h.add _ _ (sub_nonneg.2 h2) (sub_nonneg.2 h1)]
    congr 2
    ring

/-- The covariance of a chain driven by unit noise: what one unit of jitter adds. -/
noncomputable def unitCov (A : Fin n → Mat d d) : Matrix (Ix n d) (Ix n d) ℝ :=
  (⟨0, 1, A, 0, fun _ => 1⟩ : SSM n d).Kd

theorem unitCov_isJointCov (A : Fin n → Mat d d) : IsJointCov 1 A (fun _ => 1) (unitCov A) := by
  have h := SSM.Kd_isJointCov (s := (⟨0, 1, A, 0, fun _ => 1⟩ : SSM n d))
  have e1 : (⟨0, 1, A, 0, fun _ => 1⟩ : SSM n d).initialCovariance = 1 := by
    unfold SSM.initialCovariance; simp
  have e2 : (⟨0, 1, A, 0, fun _ => 1⟩ : SSM n d).Q = fun _ => 1 := by
    funext k; show (1 : Mat d d) * 1ᵀ = 1; simp
  rw [e1, e2] at h
  exact h

theorem Spec.IsJointCov.add_smul {P P' : Mat d d} {A Q Q' : Fin n → Mat d d} {K K' : Matrix (Ix n d) (Ix n d) ℝ}
    (h : IsJointCov P A Q K) (h' : IsJointCov P' A Q' K') (ε : ℝ) :
    IsJointCov (P + ε • P') A (fun k => Q k + ε • Q' k) (K + ε • K') where
  symm := by rw [transpose_add, transpose_smul, h.symm, h'.symm]
  zero := by
    show blk K 0 0 + ε • blk K' 0 0 = _
    rw [h.zero, h'.zero]
  succ k := by
    show blk K k.succ k.succ + ε • blk K' k.succ k.succ = A k * (blk K k.castSucc k.castSucc + ε • blk K' k.castSucc k.castSucc) * (A k)ᵀ + _
    rw [h.succ, h'.succ, Matrix.mul_add, Matrix.add_mul, Matrix.mul_smul, Matrix.smul_mul, smul_add]
    abel
  cross k c hc := by
    show blk K k.succ c + ε • blk K' k.succ c = A k * (blk K k.castSucc c + ε • blk K' k.castSucc c)
    rw [h.cross k c hc, h'.cross k c hc, Matrix.mul_add, Matrix.mul_smul]

/-- With positive jitter every kernel expression has a state space model, at any non-decreasing times. -/
theorem jitter_ssm {K : Stationary o d} {k} (hK : Builds K k) (hj : 0 < K.jitter) (hn : 0 < n)
    {ts : Fin (n + 1) → ℝ} (hts : Monotone ts) :
    ∃ s, K.stateSpaceModel ts = .ok s ∧ s.Nondegenerate := by
  obtain ⟨hc, hr, -⟩ := Builds.good hK
  have hd := hc.pos
  have h0 : K.initialCovariance.PosDef := PosDef.posSemidef_add hc.psd (posDef_jitter d hj)
  have h1 : ∀ k : Fin n, (K.transitionNoise (ts k.castSucc) (ts k.succ - ts k.castSucc)).PosDef := fun k => by
    have hδ : 0 ≤ ts k.succ - ts k.castSucc := sub_nonneg.2 (hts (Fin.castSucc_lt_succ).le)
    rw [hr.noise _ _ hδ]
    exact PosDef.posSemidef_add (hc.contr _ hδ) (posDef_jitter d hj)
  unfold Stationary.stateSpaceModel
  rw [toDeltaTime_of_mono hts]
  obtain ⟨c0, hc0, hc0'⟩ := choleskyOrZero_ok hd (Or.inr h0)
  obtain ⟨cs, hcs, hcs'⟩ := choleskyOrZeros_ok hd fun k => Or.inr (h1 k)
  have nz : ∀ {M : Mat d d}, M.PosDef → M ≠ 0 := by
    rintro M hM rfl
    exact lt_irrefl _ (hM.diag_pos (i := (⟨0, hd⟩ : Fin d)))
  refine ⟨⟨K.initialMean, c0, fun k => K.stateTransitions (ts k.castSucc) (ts k.succ - ts k.castSucc),
    fun k => K.stateOffsets (ts k.castSucc) (ts k.succ - ts k.castSucc), cs⟩, ?_, ?_⟩
  · simp only [Bind.bind, Except.bind]
    unfold ssmFromCovariances
    rw [if_neg (by omega), hc0]
    simp only [Bind.bind, Except.bind, Pure.pure, Except.pure]
    rw [hcs]
  · intro b
    refine Fin.cases ?_ (fun k => ?_) b
    · rcases hc0' with h | h
      · exact absurd h.1 (nz h0)
      · exact ⟨h.2.lower, fun i => (h.2.diag_pos i).ne'⟩
    · rcases hcs' k with h | h
      · exact absurd h.1 (nz (h1 k))
      · exact ⟨h.2.lower, fun i => (h.2.diag_pos i).ne'⟩

/-- Mean and covariance of the state space model of any kernel expression, any jitter. -/
theorem jitter_moments {K : Stationary o d} {k} (hK : Builds K k) {ts : Fin (n + 1) → ℝ} (hts : Monotone ts) {s : SSM n d}
    (hs : K.stateSpaceModel ts = .ok s) :
    stk s.mus = 0 ∧ s.Kd = covMat (K.stateTransitions 0) K.Pinf ts +
      K.jitter • unitCov fun k : Fin n => K.stateTransitions 0 (ts k.succ - ts k.castSucc) := by
  obtain ⟨hc, hr, -⟩ := Builds.good hK
  unfold Stationary.stateSpaceModel at hs
  rw [toDeltaTime_of_mono hts] at hs
  simp only [Bind.bind, Except.bind] at hs
  have hδ : ∀ k : Fin n, 0 ≤ ts k.succ - ts k.castSucc := fun k => sub_nonneg.2 (hts (Fin.castSucc_lt_succ).le)
  have hQ : ∀ k : Fin n, K.transitionNoise (ts k.castSucc) (ts k.succ - ts k.castSucc) =
      (K.Pinf - K.stateTransitions 0 (ts k.succ - ts k.castSucc) * K.Pinf *
        (K.stateTransitions 0 (ts k.succ - ts k.castSucc))ᵀ) + K.jitter • (1 : Mat d d) := fun k => by
    rw [hr.noise _ _ (hδ k), jitterMatrix_eq]
  have hPs : K.initialCovariance = K.Pinf + K.jitter • (1 : Mat d d) := by
    rw [Stationary.initialCovariance, jitterMatrix_eq]
  obtain ⟨e1, e2, e3, e4, e5⟩ := ssmFromCovariances_ok (by
      rw [hPs, transpose_add, transpose_smul, transpose_one, hc.statProc.symm]) (fun k => by
      rw [hQ, transpose_add, transpose_smul, transpose_one, isSymm_of_psd (hc.contr _ (hδ k))]) hs
  refine ⟨?_, ?_⟩
  · have hm : s.mus = 0 := by
      refine SSM.IsMeans.unique SSM.mus_isMeans ⟨?_, fun k => ?_⟩
      · rw [e1, hr.mean]; rfl
      · rw [e3]; dsimp only; rw [hr.offs]; simp
    rw [hm]; rfl
  · refine SSM.IsJointCov.unique SSM.Kd_isJointCov ?_
    have h1 := (hc.statProc.isJointCov hts).add_smul
      (unitCov_isJointCov fun k : Fin n => K.stateTransitions 0 (ts k.succ - ts k.castSucc)) K.jitter
    have hA : s.A = fun k : Fin n => K.stateTransitions 0 (ts k.succ - ts k.castSucc) := by
      rw [e2]; funext k; exact hc.time _ _
    have hQ' : s.Q = fun k => (K.Pinf - K.stateTransitions 0 (ts k.succ - ts k.castSucc) * K.Pinf *
        (K.stateTransitions 0 (ts k.succ - ts k.castSucc))ᵀ) + K.jitter • (1 : Mat d d) := by
      funext k; rw [e5, hQ]
    rw [e4, hA, hQ', hPs]
    exact h1

end MF
