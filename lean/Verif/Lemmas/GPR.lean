import Verif.Lemmas.BayesPSD
import Verif.Lemmas.Predict
import Verif.Lemmas.Conditionals
import Verif.Model.GPR
import Verif.Spec.GPR
import Verif.Props.Conditionals
import Verif.Props.KalmanFilter

/-! # Dense GP regression -/

namespace MF
open Matrix Spec MeasureTheory ProbabilityTheory

section dense
variable {o : ℕ} {T S : Type} [Fintype T] [DecidableEq T] [Fintype S] [DecidableEq S]

/-- Selection of the observed coordinates. -/
def selObs : Matrix (T × Fin o) ((T ⊕ S) × Fin o) ℝ :=
  (1 : Matrix ((T ⊕ S) × Fin o) ((T ⊕ S) × Fin o) ℝ).submatrix (fun i => (.inl i.1, i.2)) id

theorem selObs_mulVec (x : (T ⊕ S) × Fin o → ℝ) :
    (selObs : Matrix (T × Fin o) _ ℝ) *ᵥ x = fun i => x (.inl i.1, i.2) := by
  funext i; simp [selObs, mulVec, dotProduct, Matrix.one_apply]

theorem selObs_mul {β : Type*} (M : Matrix ((T ⊕ S) × Fin o) β ℝ) :
    (selObs : Matrix (T × Fin o) _ ℝ) * M = M.submatrix (fun i => (.inl i.1, i.2)) id := by
  ext i j; simp [selObs, Matrix.mul_apply, Matrix.one_apply]

theorem mul_selObsT {β : Type*} (M : Matrix β ((T ⊕ S) × Fin o) ℝ) :
    M * (selObs : Matrix (T × Fin o) _ ℝ)ᵀ = M.submatrix id (fun i => (.inl i.1, i.2)) := by
  ext i j; simp [selObs, Matrix.mul_apply, Matrix.one_apply]

/-- The dense posterior at the data times and the new times. -/
theorem dense_bayes (m : ℝ → Vec o) {k : ℝ → ℝ → Mat o o} (hk : ∀ t t', (k t t')ᵀ = k t' t) (ts : T → ℝ) (new : S → ℝ)
    (hpsd : (gpGram k (Sum.elim ts new)).PosSemidef) {R : Matrix (T × Fin o) (T × Fin o) ℝ} (hR : R.PosDef)
    (y : T × Fin o → ℝ) :
    (Matrix.of fun i j : (T ⊕ S) × Fin o =>
        gpPostCov k ts R (Sum.elim ts new i.1) (Sum.elim ts new j.1) i.2 j.2).PosSemidef ∧
    IsBayesPosterior (gpLaw m k (Sum.elim ts new))
      (fun f => gaussLogDensity (fun i : T × Fin o => f (.inl i.1, i.2)) R y)
      (gaussLaw (fun i : (T ⊕ S) × Fin o => gpPostMean m k ts R y (Sum.elim ts new i.1) i.2)
        (Matrix.of fun i j => gpPostCov k ts R (Sum.elim ts new i.1) (Sum.elim ts new j.1) i.2 j.2)) ∧
    evidence (gpLaw m k (Sum.elim ts new))
      (fun f => gaussLogDensity (fun i : T × Fin o => f (.inl i.1, i.2)) R y) =
        ENNReal.ofReal (Real.exp (gaussLogDensity (meanVec m ts) (gpGram k ts + R) y)) := by
  obtain ⟨h1, h2, h3⟩ := bayes_psd hpsd hR selObs (fun i => m (Sum.elim ts new i.1) i.2) y
  have e1 : (selObs : Matrix (T × Fin o) _ ℝ) * gpGram k (Sum.elim ts new) * selObsᵀ = gpGram k ts := by
    rw [selObs_mul, mul_selObsT]; rfl
  have e2 : gpGram k (Sum.elim ts new) * (selObs : Matrix (T × Fin o) _ ℝ)ᵀ =
      Matrix.of fun i j => crossCov k ts (Sum.elim ts new i.1) i.2 j := by
    rw [mul_selObsT]; rfl
  have e3 : (selObs : Matrix (T × Fin o) _ ℝ) * gpGram k (Sum.elim ts new) =
      Matrix.of fun i j => (crossCov k ts (Sum.elim ts new j.1))ᵀ i j.2 := by
    rw [selObs_mul]
    ext i j
    show k (ts i.1) (Sum.elim ts new j.1) i.2 j.2 = k (Sum.elim ts new j.1) (ts i.1) j.2 i.2
    rw [← hk]; rfl
  rw [e1, e2, e3] at h1 h2
  rw [e1] at h3
  simp only [selObs_mulVec] at h2 h3
  have eC : gpGram k (Sum.elim ts new) - (Matrix.of fun (i : (T ⊕ S) × Fin o) (j : T × Fin o) =>
        crossCov k ts (Sum.elim ts new i.1) i.2 j) * (gpGram k ts + R)⁻¹ *
        (Matrix.of fun (i : T × Fin o) (j : (T ⊕ S) × Fin o) => (crossCov k ts (Sum.elim ts new j.1))ᵀ i j.2) =
      Matrix.of fun i j : (T ⊕ S) × Fin o =>
        gpPostCov k ts R (Sum.elim ts new i.1) (Sum.elim ts new j.1) i.2 j.2 := by
    ext i j
    simp only [Matrix.sub_apply, Matrix.mul_apply, Matrix.of_apply, gpPostCov, gpGram]
  have eM : ((fun i => m (Sum.elim ts new i.1) i.2) + ((Matrix.of fun (i : (T ⊕ S) × Fin o) (j : T × Fin o) =>
        crossCov k ts (Sum.elim ts new i.1) i.2 j) * (gpGram k ts + R)⁻¹) *ᵥ
        (y - fun i : T × Fin o => m (Sum.elim ts new (Sum.inl i.1)) i.2)) =
      fun i : (T ⊕ S) × Fin o => gpPostMean m k ts R y (Sum.elim ts new i.1) i.2 := by
    funext i
    rw [← mulVec_mulVec]
    rfl
  rw [eC] at h1 h2
  rw [eM] at h2
  exact ⟨h1, h2, h3⟩

end dense

variable {n d o p : ℕ}

theorem kernel_ssm_nondegenerate {K : Stationary o d} {k} (hK : Builds K k) (hN : NoiseTag K true) (hn : 0 < n)
    {ts : Fin (n + 1) → ℝ} (hts : StrictMono ts) : ∃ s, K.stateSpaceModel ts = .ok s ∧ s.Nondegenerate := by
  obtain ⟨hc, hr, -⟩ := Builds.good hK
  have hd := hc.pos
  have h0 : K.initialCovariance.PosDef :=
    (NoiseTag.noisy hN).2.pd.add_posSemidef (posSemidef_jitter d hr.jit)
  have h1 : ∀ k : Fin n, (K.transitionNoise (ts k.castSucc) (ts k.succ - ts k.castSucc)).PosDef := fun k =>
    (C27_process_covariance_pd hK hN _ (sub_pos.2 (hts Fin.castSucc_lt_succ))).2
  unfold Stationary.stateSpaceModel
  rw [toDeltaTime_of_mono hts.monotone]
  obtain ⟨c0, hc0, hc0'⟩ := choleskyOrZero_ok hd (Or.inr h0)
  obtain ⟨cs, hcs, hcs'⟩ := choleskyOrZeros_ok hd fun k => Or.inr (h1 k)
  have nz : ∀ {M : Mat d d}, M.PosDef → M ≠ 0 := by
    rintro M hM rfl
    exact lt_irrefl _ (hM.diag_pos (i := (⟨0, hd⟩ : Fin d)))
  refine ⟨⟨K.initialMean, c0, fun k => K.stateTransitions (ts k.castSucc) (ts k.succ - ts k.castSucc),
    fun k => K.stateOffsets (ts k.castSucc) (ts k.succ - ts k.castSucc), cs⟩, ?_, ?_⟩
  · simp only [bind, Except.bind]
    unfold ssmFromCovariances
    rw [if_neg (by omega), hc0]
    simp only [bind, Except.bind, pure, Except.pure]
    rw [hcs]
  · intro b
    refine Fin.cases ?_ (fun k => ?_) b
    · rcases hc0' with h | h
      · exact absurd h.1 (nz h0)
      · exact ⟨h.2.lower, fun i => (h.2.diag_pos i).ne'⟩
    · rcases hcs' k with h | h
      · exact absurd h.1 (nz (h1 k))
      · exact ⟨h.2.lower, fun i => (h.2.diag_pos i).ne'⟩

/-- Each query is answered independently of the others. -/
theorem predictState_single {c : CondProcess n o d} (hq : c.q.Nondegenerate) (hn : 0 < n) (hd : 0 < d)
    {new : Fin p → ℝ} {r} (h : c.predictState new = .ok r) (j : Fin p) :
    c.predictState (fun _ : Fin 1 => new j) = .ok fun _ => r j := by
  obtain ⟨cs, hcs, mu, C, S, rfl, rfl, rfl, hr⟩ := predictState_ok hq hn hd h
  obtain ⟨r', hr'⟩ := predictState_of (c := c) (p := 1) (new := fun _ => new j) (cs := fun _ => cs j) hq hn hd
    fun _ => hcs j
  obtain ⟨cs', hcs', mu, C, S, rfl, rfl, rfl, hr2⟩ := predictState_ok hq hn hd hr'
  rw [hr']
  congr 1
  funext i
  have e : cs' i = cs j := by
    have h1 := hcs' i
    have h2 := hcs j
    unfold CodeStats at h1 h2
    exact Except.ok.inj (h1.symm.trans h2)
  rw [hr2 i, hr j, e]

section outputs
variable {T : Type} [Fintype T] [DecidableEq T]

/-- Outputs of the stationary process at arbitrary times. -/
noncomputable def outMat (K : Stationary o d) (τ : T → ℝ) : Matrix (T × Fin o) (T × Fin d) ℝ :=
  Matrix.of fun i j => if i.1 = j.1 then K.emission (τ i.1) i.2 j.2 else 0

theorem outMat_mulVec (K : Stationary o d) (τ : T → ℝ) (x : T × Fin d → ℝ) :
    outMat K τ *ᵥ x = fun i => (K.emission (τ i.1) *ᵥ fun a => x (i.1, a)) i.2 := by
  funext i
  simp only [outMat, mulVec, dotProduct, Matrix.of_apply, Fintype.sum_prod_type, ite_mul, zero_mul]
  rw [Finset.sum_eq_single i.1]
  · simp
  · intro b _ hb; simp [hb.symm]
  · simp

theorem outMat_conj {K : Stationary o d} {k} (hD : Denotes K k) (τ : T → ℝ) :
    outMat K τ * (Matrix.of fun i j : T × Fin d =>
      stateCov (K.stateTransitions 0) K.Pinf (τ i.1) (τ j.1) i.2 j.2) * (outMat K τ)ᵀ = gpGram k τ := by
  have hk : ∀ t t', K.emission t * stateCov (K.stateTransitions 0) K.Pinf t t' * (K.emission t')ᵀ = k t t' := by
    intro t t'
    unfold stateCov
    split_ifs with h
    · rw [← hD.cov t t' h]; simp only [Matrix.mul_assoc]
    · rw [← hD.symm, ← hD.cov t' t (not_le.1 h).le]
      simp only [transpose_mul, transpose_transpose, Matrix.mul_assoc]
  ext ⟨s, a⟩ ⟨t, b⟩
  show _ = k (τ s) (τ t) a b
  rw [← hk]
  simp only [outMat, Matrix.mul_apply, Matrix.of_apply, transpose_apply, Fintype.sum_prod_type, ite_mul, zero_mul,
    mul_ite, mul_zero]
  rw [Finset.sum_eq_single t]
  · refine Finset.sum_congr rfl fun e _ => ?_
    rw [if_pos rfl, Finset.sum_eq_single s]
    · simp
    · intro b _ hb; simp [hb.symm]
    · simp
  · intro b _ hb; simp [hb.symm]
  · simp

theorem gpGram_psd {K : Stationary o d} {k} (hK : Builds K k) (τ : T → ℝ) : (gpGram k τ).PosSemidef := by
  obtain ⟨hc, hr, hD⟩ := Builds.good hK
  rw [← outMat_conj hD]
  exact posSemidef_conj' (hc.statProc.psd_any τ) _

theorem output_gpLaw {K : Stationary o d} {k} (hK : Builds K k) (τ : T → ℝ) :
    (gpLaw (fun _ => 0) (stateCov (K.stateTransitions 0) K.Pinf) τ).map
      (fun x => fun i : T × Fin o => (K.emission (τ i.1) *ᵥ fun a => x (i.1, a)) i.2) =
    gpLaw (fun _ => 0) k τ := by
  obtain ⟨hc, hr, hD⟩ := Builds.good hK
  have h := gaussLaw_map_affine (hc.statProc.psd_any τ) (fun _ => 0) (0 : T × Fin o → ℝ) (outMat K τ)
  simp only [zero_add, outMat_mulVec, outMat_conj hD] at h
  unfold gpLaw
  have e : (fun i : T × Fin o => (K.emission (τ i.1) *ᵥ fun _ => (0 : ℝ)) i.2) = fun _ => 0 := by
    funext i
    simp [mulVec, dotProduct]
  rw [e] at h
  exact h

end outputs

end MF
