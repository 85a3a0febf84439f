import Verif.Props.PEPInvariance
import Verif.Props.LogConcave

/-!
# C80: cases that meet the hypotheses
-/

namespace MF
open Matrix Spec MeasureTheory ProbabilityTheory

/-- Non-vacuity: a CVI model from the constructor, with a Poisson likelihood, three data and a Matérn 3/2 kernel, meets the hypotheses of C80_translation
(by 7), C80_reversal, C80_units (minutes instead of hours) and C80_same_covariance (with the sum of two Matérn kernels of half the variance); and its
training does not raise. -/
example : ∃ (c : CVI 2 2) (K' : Stationary 1 2) (D : ℕ) (S : Stationary 1 D) (k : ℝ → ℝ → Mat 1 1), c.Valid k ∧ (gpGram k c.times).PosDef ∧
    (∀ t, c.kernel.emission t = c.kernel.emission 0) ∧ c.likelihood = poissonLikelihood ∧ c.times 0 + 7 = 7 ∧ c.times 2 + 7 = 10 ∧
    SameUpToUnits 1 60 1 c.kernel K' ∧ Builds S k ∧ NoiseTag S true ∧ S.jitter = 0 ∧ 2 < D ∧ ∀ N, ∃ r, CVI.updates N c = .ok r := by
  obtain ⟨K, hK⟩ := (C28_constructors (o := 1) 2 1 1 1 1 0).2.1.2 (by norm_num)
  obtain ⟨K', hK'⟩ := (C28_constructors (o := 1) (60 * 2) (1 ^ 2 * 1) 1 1 1 0).2.1.2 (by norm_num)
  obtain ⟨K₂, hK₂⟩ := (C28_constructors (o := 1) 2 (1 / 2) 1 1 1 0).2.1.2 (by norm_num)
  have hB : Builds K (iso (matern32Cov 2 1)) := .leaf (.matern32 hK)
  obtain ⟨S, hS, hSj, hSb, -⟩ := C29_add (.leaf (.matern32 hK₂)) (.leaf (.matern32 hK₂))
  have hkk : (fun t t' => iso (o := 1) (matern32Cov 2 (1 / 2)) t t' + iso (matern32Cov 2 (1 / 2)) t t') = iso (matern32Cov 2 1) := by
    funext t t'
    ext i j
    simp only [iso, Matrix.add_apply, Matrix.of_apply, matern32Cov]
    ring
  rw [hkk] at hSb
  have tS : NoiseTag S true := NoiseTag.sum (ks := [⟨_, K₂⟩, ⟨_, K₂⟩]) (by
    intro a
    match a with
    | ⟨0, _⟩ => exact NoiseTag.matern32 hK₂
    | ⟨1, _⟩ => exact NoiseTag.matern32 hK₂) hS
  have hts : StrictMono (![0, 1, 3] : Fin 3 → ℝ) := by
    refine Fin.strictMono_iff_lt_succ.2 fun i => ?_
    fin_cases i <;> simp
  have hj : K.jitter = 0 := by rw [(kernelInit_ok hK).2.2]; rfl
  have hG : (gpGram (iso (o := 1) (matern32Cov 2 1)) (![0, 1, 3] : Fin 3 → ℝ)).PosDef := by
    refine gpGram_posDef hB (.matern32 hK) two_pos hts hj fun i => ?_
    refine LinearIndependent.of_subsingleton 0 fun h0 => ?_
    have := congrFun h0 0
    rw [(kernelInit_ok hK).2.2] at this
    exact one_ne_zero this
  have hv : (CVI.init (n := 2) ![0, 1, 3] (fun i => ![(i : ℝ)]) K poissonLikelihood none).Valid (iso (matern32Cov 2 1)) :=
    ⟨hB, .matern32 hK, hj, hts, by show -10000000000 < (0 : ℝ); norm_num, by show (3 : ℝ) ≤ 10000000000; norm_num, two_pos⟩
  refine ⟨_, K', _, S, _, hv, hG, fun t => ?_, rfl, ?_, ?_, .matern32 hK hK', hSb, tS, hSj, by simp [sumDim], fun N => ?_⟩
  · show K.emission t = K.emission 0
    rw [(kernelInit_ok hK).2.2]
    rfl
  · show (0 : ℝ) + 7 = 7
    norm_num
  · show (3 : ℝ) + 7 = 10
    norm_num
  · obtain ⟨r, _, hr, -⟩ := C75_cvi hv poissonLikelihood_exact poissonLikelihood_logConcave (by show (0 : ℝ) ≤ 0.1; norm_num)
      (by show (0.1 : ℝ) ≤ 1; norm_num) (fun t => by show (-1e-10 : ℝ) ≤ 0; norm_num) N
    exact ⟨r, hr⟩

/-- Non-vacuity: a power EP model from the constructor meets the hypotheses of the power EP theorems, and a call of `update_sites` does not raise. -/
example : ∃ (c : PEP 2 2) (k : ℝ → ℝ → Mat 1 1), c.toBase.Valid k ∧ (gpGram k c.times).PosDef ∧ (∀ t, c.kernel.emission t = c.kernel.emission 0) ∧
    c.alpha = 1 / 2 ∧ c.likelihood = pepGaussian 2 ∧ c.observations 1 0 = 1 ∧ ∀ i, ∃ r, PEP.updates [i] c = .ok r := by
  obtain ⟨K, hK⟩ := (C28_constructors (o := 1) 2 1 1 1 1 0).2.1.2 (by norm_num)
  have hB : Builds K (iso (matern32Cov 2 1)) := .leaf (.matern32 hK)
  have hts : StrictMono (![0, 1, 3] : Fin 3 → ℝ) := by
    refine Fin.strictMono_iff_lt_succ.2 fun i => ?_
    fin_cases i <;> simp
  have hj : K.jitter = 0 := by rw [(kernelInit_ok hK).2.2]; rfl
  have hG : (gpGram (iso (o := 1) (matern32Cov 2 1)) (![0, 1, 3] : Fin 3 → ℝ)).PosDef := by
    refine gpGram_posDef hB (.matern32 hK) two_pos hts hj fun i => ?_
    refine LinearIndependent.of_subsingleton 0 fun h0 => ?_
    have := congrFun h0 0
    rw [(kernelInit_ok hK).2.2] at this
    exact one_ne_zero this
  obtain ⟨c, rfl, hv, -, -, -, -, -, -, s, q, ⟨m, v⟩, -, hq, hmv, -⟩ := C37_init (times := ![0, 1, 3]) hB (.matern32 hK) hj hts
    (by show -10000000000 < (0 : ℝ); norm_num) (by show (3 : ℝ) ≤ 10000000000; norm_num) two_pos (fun i => ![(i : ℝ)]) (pepGaussian 2) none 1
    (a := 1 / 2) (by norm_num)
  refine ⟨_, _, hv, hG, fun t => ?_, rfl, rfl, ?_, fun i => ?_⟩
  · show K.emission t = K.emission 0
    rw [(kernelInit_ok hK).2.2]
    rfl
  · simp [PEP.init]
  · obtain ⟨r, hr, -, -⟩ := PEP.updateSites_eq hv hq hmv i
    exact ⟨r, by unfold PEP.updates; rw [hr]; rfl⟩

end MF
