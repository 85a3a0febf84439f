import Verif.Lemmas.Schur
import Verif.Props.GPR

/-!
# C51: Gaussian process regression depends on the data and the covariance function only

Changing the origin, the direction or the unit of time, the unit of the observations, or the expression by which a
covariance function is built changes `log_likelihood()` and the predictions in the obvious way and no other.
-/

namespace MF
open Matrix Spec
variable {n d d' o p : ℕ}

theorem GPR.Valid.posDef {g : GPR n o d} {k} (h : g.Valid k) : (gpGram k g.times + g.noiseCov).PosDef :=
  Matrix.PosDef.posSemidef_add (gpGram_psd h.builds _) (posDef_blkDiag fun _ => h.factor.posDef)

theorem blkDiag_const_apply (R : Mat o o) (i j : Fin (n + 1) × Fin o) :
    blkDiag (fun _ => R) i j = if i.1 = j.1 then R i.2 j.2 else 0 := by
  simp only [blkDiag, ofBlk, Matrix.of_apply]
  split_ifs <;> rfl

/-- Relabelling and rescaling of the total covariance. -/
theorem total_cov_units {g : GPR n o d} {g' : GPR n o d'} {k k' : ℝ → ℝ → Mat o o} (σ : Equiv.Perm (Fin (n + 1))) {s : ℝ}
    (hk : ∀ i j, k' (g'.times (σ i)) (g'.times (σ j)) = s ^ 2 • k (g.times i) (g.times j))
    (hR : g'.cholObsCov * g'.cholObsCovᵀ = s ^ 2 • (g.cholObsCov * g.cholObsCovᵀ)) :
    (gpGram k' g'.times + g'.noiseCov).submatrix (σ.prodCongr (.refl (Fin o))) (σ.prodCongr (.refl (Fin o))) =
      s ^ 2 • (gpGram k g.times + g.noiseCov) := by
  ext ⟨i, a⟩ ⟨j, b⟩
  have h1 : k' (g'.times (σ i)) (g'.times (σ j)) a b = s ^ 2 * k (g.times i) (g.times j) a b :=
    congrFun (congrFun (hk i j) a) b
  have h2 : (g'.cholObsCov * g'.cholObsCovᵀ) a b = s ^ 2 * (g.cholObsCov * g.cholObsCovᵀ) a b :=
    congrFun (congrFun hR a) b
  show k' (g'.times (σ i)) (g'.times (σ j)) a b + blkDiag (fun _ => g'.cholObsCov * g'.cholObsCovᵀ) (σ i, a) (σ j, b) =
    s ^ 2 * (k (g.times i) (g.times j) a b + blkDiag (fun _ => g.cholObsCov * g.cholObsCovᵀ) (i, a) (j, b))
  rw [blkDiag_const_apply, blkDiag_const_apply, h1]
  simp only [EmbeddingLike.apply_eq_iff_eq]
  split_ifs
  · rw [h2]; ring
  · ring

/-- C51: `log_likelihood()` of two regression models whose data are the same up to order, whose covariances at the
data times (kernel and noise) are the same up to the factor `s²`, and whose residuals are the same up to the factor
`s`: they differ by the log determinant of the change of units. The kernels may be different objects with
different state dimensions. -/
theorem C51_log_likelihood {g : GPR n o d} {g' : GPR n o d'} {k k'} (h : g.Valid k) (h' : g'.Valid k')
    (σ : Equiv.Perm (Fin (n + 1))) {s : ℝ} (hs : s ≠ 0)
    (hk : ∀ i j, k' (g'.times (σ i)) (g'.times (σ j)) = s ^ 2 • k (g.times i) (g.times j))
    (hR : g'.cholObsCov * g'.cholObsCovᵀ = s ^ 2 • (g.cholObsCov * g.cholObsCovᵀ))
    (hy : ∀ i, g'.observations (σ i) - g'.meanFunction (g'.times (σ i)) =
      s • (g.observations i - g.meanFunction (g.times i))) :
    ∃ l, g.logLikelihood = .ok l ∧ g'.logLikelihood = .ok (l - ((n + 1) * o) * Real.log |s|) := by
  refine ⟨_, (C32_log_likelihood h).1, ?_⟩
  rw [(C32_log_likelihood h').1, gaussLogDensity_units (σ.prodCongr (.refl (Fin o))) hs h.posDef
    (total_cov_units σ hk hR) (x := stk g.observations) (m := meanVec g.meanFunction g.times)
    (fun i => congrFun (hy i.1) i.2)]
  congr 2
  simp

/-- C51: the predictions of two such models, at new times that are related to the data times in the same way. -/
theorem C51_predict {g : GPR n o d} {g' : GPR n o d'} {k k'} (h : g.Valid k) (h' : g'.Valid k')
    (ht0 : -10000000000 < g.times 0) (ht1 : g.times (Fin.last n) ≤ 10000000000)
    (ht0' : -10000000000 < g'.times 0) (ht1' : g'.times (Fin.last n) ≤ 10000000000)
    (σ : Equiv.Perm (Fin (n + 1))) {s : ℝ} (hs : s ≠ 0)
    (hk : ∀ i j, k' (g'.times (σ i)) (g'.times (σ j)) = s ^ 2 • k (g.times i) (g.times j))
    (hR : g'.cholObsCov * g'.cholObsCovᵀ = s ^ 2 • (g.cholObsCov * g.cholObsCovᵀ))
    (hy : ∀ i, g'.observations (σ i) - g'.meanFunction (g'.times (σ i)) =
      s • (g.observations i - g.meanFunction (g.times i)))
    {new new' : Fin p → ℝ} (hn : ∀ q, g.times 0 ≤ new q ∧ new q ≤ g.times (Fin.last n))
    (hn' : ∀ q, g'.times 0 ≤ new' q ∧ new' q ≤ g'.times (Fin.last n))
    (hkn : ∀ q, k' (new' q) (new' q) = s ^ 2 • k (new q) (new q))
    (hkx : ∀ q i, k' (new' q) (g'.times (σ i)) = s ^ 2 • k (new q) (g.times i)) :
    ∃ c c' f f', g.posterior = .ok c ∧ g'.posterior = .ok c' ∧ c.predictF new = .ok f ∧ c'.predictF new' = .ok f' ∧
      ∀ q, (f' q).1 - g'.meanFunction (new' q) = s • ((f q).1 - g.meanFunction (new q)) ∧
        (f' q).2 = s ^ 2 • (f q).2 := by
  obtain ⟨c, hc, -, hf⟩ := C32_posterior h ht0 ht1
  obtain ⟨c', hc', -, hf'⟩ := C32_posterior h' ht0' ht1'
  obtain ⟨f, hf, hv⟩ := hf new (fun q => (hn q).1) fun q => (hn q).2
  obtain ⟨f', hf', hv'⟩ := hf' new' (fun q => (hn' q).1) fun q => (hn' q).2
  refine ⟨c, c', f, f', hc, hc', hf, hf', fun q => ?_⟩
  rw [(hv q).1, (hv q).2, (hv' q).1, (hv' q).2]
  set e := σ.prodCongr (.refl (Fin o)) with he
  have hK := total_cov_units σ hk hR
  rw [← he] at hK
  have hs2 : s ^ 2 ≠ 0 := pow_ne_zero 2 hs
  have hKi : (gpGram k' g'.times + g'.noiseCov)⁻¹.submatrix e e = (s ^ 2)⁻¹ • (gpGram k g.times + g.noiseCov)⁻¹ := by
    rw [← inv_submatrix_equiv, hK]
    refine inv_eq_right_inv ?_
    rw [smul_mul_smul_comm, mul_inv_cancel₀ hs2, one_smul, mul_nonsing_inv _ h.posDef.det_pos.ne'.isUnit]
  have hC : (crossCov k' g'.times (new' q)).submatrix id e = s ^ 2 • crossCov k g.times (new q) := by
    ext a ⟨i, b⟩
    exact congrFun (congrFun (hkx q i) a) b
  have hr : (stk g'.observations - meanVec g'.meanFunction g'.times) ∘ e =
      s • (stk g.observations - meanVec g.meanFunction g.times) := funext fun i => congrFun (hy i.1) i.2
  constructor
  · have : crossCov k' g'.times (new' q) *ᵥ ((gpGram k' g'.times + g'.noiseCov)⁻¹ *ᵥ
        (stk g'.observations - meanVec g'.meanFunction g'.times)) =
        (crossCov k' g'.times (new' q)).submatrix id e *ᵥ ((gpGram k' g'.times + g'.noiseCov)⁻¹.submatrix e e *ᵥ
        ((stk g'.observations - meanVec g'.meanFunction g'.times) ∘ e)) := by
      rw [submatrix_mulVec_equiv, submatrix_mulVec_equiv]
      simp [Function.comp_assoc]
    unfold gpPostMean
    rw [add_sub_cancel_left, add_sub_cancel_left, this, hC, hKi, hr]
    simp only [smul_mulVec, mulVec_smul, smul_smul]
    congr 1
    field_simp
  · have : crossCov k' g'.times (new' q) * (gpGram k' g'.times + g'.noiseCov)⁻¹ * (crossCov k' g'.times (new' q))ᵀ =
        (crossCov k' g'.times (new' q)).submatrix id e * (gpGram k' g'.times + g'.noiseCov)⁻¹.submatrix e e *
          ((crossCov k' g'.times (new' q)).submatrix id e)ᵀ := by
      rw [transpose_submatrix, submatrix_mul_equiv, submatrix_mul_equiv, submatrix_id_id]
    unfold gpPostCov
    rw [this, hC, hKi, hkn]
    simp only [transpose_smul, Matrix.smul_mul, Matrix.mul_smul, smul_smul, smul_sub]
    congr 2
    field_simp

/-- The same data with every time shifted by `c` (the mean function shifted with it). -/
def GPR.shifted (g : GPR n o d) (c : ℝ) : GPR n o d :=
  { g with times := fun i => g.times i + c, meanFunction := fun t => g.meanFunction (t - c) }

/-- The same data with time running backwards. -/
def GPR.reversed (g : GPR n o d) : GPR n o d :=
  { g with times := fun i => -g.times i.rev, observations := fun i => g.observations i.rev,
           meanFunction := fun t => g.meanFunction (-t) }

/-- The same data with time measured in a unit `a` times smaller and observations in a unit `s` times smaller; `K'` is
the kernel in the new units. -/
noncomputable def GPR.rescaled (g : GPR n o d) (K' : Stationary o d) (a s : ℝ) : GPR n o d where
  times i := a * g.times i
  observations i := s • g.observations i
  kernel := K'
  meanFunction t := s • g.meanFunction (t / a)
  cholObsCov := s • g.cholObsCov

/-- A kernel whose emission matrix is constant has a covariance function of the difference of the times. -/
theorem Builds.stationary {K : Stationary o d} {k} (h : Builds K k) (hH : ∀ t, K.emission t = K.emission 0) (c t t' : ℝ) :
    k (t + c) (t' + c) = k t t' := by
  obtain ⟨-, -, hD⟩ := Builds.good h
  have key : ∀ t t', t' ≤ t → k (t + c) (t' + c) = k t t' := fun t t' hle => by
    rw [← hD.cov t t' hle, ← hD.cov (t + c) (t' + c) (by linarith), hH (t + c), hH (t' + c), hH t, hH t',
      add_sub_add_right_eq_sub]
  rcases le_total t' t with hle | hle
  · exact key t t' hle
  · rw [← hD.symm, key t' t hle, hD.symm]

theorem Builds.reversible {K : Stationary 1 d} {k} (h : Builds K k) (hH : ∀ t, K.emission t = K.emission 0) (t t' : ℝ) :
    k (-t) (-t') = k t t' := by
  obtain ⟨-, -, hD⟩ := Builds.good h
  have h1 := Builds.stationary h hH (t + t') (-t) (-t')
  rw [show -t + (t + t') = t' by ring, show -t' + (t + t') = t by ring] at h1
  rw [← h1, ← hD.symm]
  ext a b
  rw [Subsingleton.elim a 0, Subsingleton.elim b 0]
  rfl

theorem GPR.Valid.shifted {g : GPR n o d} {k} (h : g.Valid k) (c : ℝ) : (g.shifted c).Valid k :=
  ⟨h.builds, h.noise, h.jitter, fun i j hij => by simpa [GPR.shifted] using h.times hij, h.factor, h.two⟩

theorem GPR.Valid.reversed {g : GPR n o d} {k} (h : g.Valid k) : g.reversed.Valid k :=
  ⟨h.builds, h.noise, h.jitter, fun i j hij => by simpa [GPR.reversed] using h.times (Fin.rev_lt_rev.2 hij), h.factor,
    h.two⟩

/-- C51: the origin of time is irrelevant. If all times (and the mean function) are shifted by `c`, `log_likelihood()`
does not change and the predictions are those at the times shifted back. -/
theorem C51_translation {g : GPR n o d} {k} (h : g.Valid k) (hH : ∀ t, g.kernel.emission t = g.kernel.emission 0) (c : ℝ) :
    (∃ l, g.logLikelihood = .ok l ∧ (g.shifted c).logLikelihood = .ok l) ∧
    ((∀ i, |g.times i| < 10000000000) → (∀ i, |g.times i + c| < 10000000000) →
      ∃ P P', g.posterior = .ok P ∧ (g.shifted c).posterior = .ok P' ∧ ∀ {p : ℕ} (new : Fin p → ℝ),
        (∀ q, g.times 0 ≤ new q ∧ new q ≤ g.times (Fin.last n)) →
        ∃ f, P.predictF new = .ok f ∧ P'.predictF (fun q => new q + c) = .ok f) := by
  have hst := Builds.stationary h.builds hH c
  have hk : ∀ i j, k ((g.shifted c).times (Equiv.refl _ i)) ((g.shifted c).times (Equiv.refl _ j)) =
      (1 : ℝ) ^ 2 • k (g.times i) (g.times j) := fun i j => by
    rw [one_pow, one_smul]; exact hst _ _
  have hR : (g.shifted c).cholObsCov * (g.shifted c).cholObsCovᵀ = (1 : ℝ) ^ 2 • (g.cholObsCov * g.cholObsCovᵀ) := by
    rw [one_pow, one_smul]; rfl
  have hy : ∀ i, (g.shifted c).observations (Equiv.refl _ i) - (g.shifted c).meanFunction ((g.shifted c).times (Equiv.refl _ i)) =
      (1 : ℝ) • (g.observations i - g.meanFunction (g.times i)) := fun i => by
    rw [one_smul]
    show g.observations i - g.meanFunction (g.times i + c - c) = _
    rw [add_sub_cancel_right]
  constructor
  · obtain ⟨l, h1, h2⟩ := C51_log_likelihood h (h.shifted c) (Equiv.refl _) one_ne_zero hk hR hy
    refine ⟨l, h1, ?_⟩
    simpa using h2
  · intro hb hb'
    obtain ⟨P, hP, -⟩ := C32_posterior h (abs_lt.1 (hb 0)).1 (abs_lt.1 (hb (Fin.last n))).2.le
    obtain ⟨P', hP', -⟩ := C32_posterior (h.shifted c) (abs_lt.1 (hb' 0)).1 (abs_lt.1 (hb' (Fin.last n))).2.le
    refine ⟨P, P', hP, hP', fun {p} new hn => ?_⟩
    obtain ⟨P1, P1', f, f', e1, e1', hf, hf', hv⟩ := C51_predict h (h.shifted c) (abs_lt.1 (hb 0)).1
      (abs_lt.1 (hb (Fin.last n))).2.le (abs_lt.1 (hb' 0)).1 (abs_lt.1 (hb' (Fin.last n))).2.le (Equiv.refl _) one_ne_zero
      hk hR hy (new := new) (new' := fun q => new q + c) hn
      (fun q => ⟨add_le_add_left (hn q).1 c, add_le_add_left (hn q).2 c⟩)
      (fun q => by rw [one_pow, one_smul]; exact hst _ _) (fun q i => by rw [one_pow, one_smul]; exact hst _ _)
    obtain rfl : P = P1 := Except.ok.inj (hP.symm.trans e1)
    obtain rfl : P' = P1' := Except.ok.inj (hP'.symm.trans e1')
    refine ⟨f, hf, ?_⟩
    rw [hf']
    congr 1
    funext q
    obtain ⟨h1, h2⟩ := hv q
    have hm : (g.shifted c).meanFunction (new q + c) = g.meanFunction (new q) := by
      show g.meanFunction (new q + c - c) = _
      rw [add_sub_cancel_right]
    rw [hm, one_smul, sub_left_inj] at h1
    rw [one_pow, one_smul] at h2
    exact Prod.ext h1 h2

/-- C51: the direction of time is irrelevant for one output. -/
theorem C51_reversal {g : GPR n 1 d} {k} (h : g.Valid k) (hH : ∀ t, g.kernel.emission t = g.kernel.emission 0) :
    (∃ l, g.logLikelihood = .ok l ∧ g.reversed.logLikelihood = .ok l) ∧
    ((∀ i, |g.times i| < 10000000000) →
      ∃ P P', g.posterior = .ok P ∧ g.reversed.posterior = .ok P' ∧ ∀ {p : ℕ} (new : Fin p → ℝ),
        (∀ q, g.times 0 ≤ new q ∧ new q ≤ g.times (Fin.last n)) →
        ∃ f, P.predictF new = .ok f ∧ P'.predictF (fun q => -new q) = .ok f) := by
  have hst := Builds.reversible h.builds hH
  have hk : ∀ i j, k (g.reversed.times (Fin.revPerm i)) (g.reversed.times (Fin.revPerm j)) =
      (1 : ℝ) ^ 2 • k (g.times i) (g.times j) := fun i j => by
    rw [one_pow, one_smul]
    simp only [GPR.reversed, Fin.revPerm_apply, Fin.rev_rev]
    exact hst _ _
  have hR : g.reversed.cholObsCov * g.reversed.cholObsCovᵀ = (1 : ℝ) ^ 2 • (g.cholObsCov * g.cholObsCovᵀ) := by
    rw [one_pow, one_smul]; rfl
  have hy : ∀ i, g.reversed.observations (Fin.revPerm i) - g.reversed.meanFunction (g.reversed.times (Fin.revPerm i)) =
      (1 : ℝ) • (g.observations i - g.meanFunction (g.times i)) := fun i => by
    rw [one_smul]
    simp only [GPR.reversed, Fin.revPerm_apply, Fin.rev_rev, neg_neg]
  constructor
  · obtain ⟨l, h1, h2⟩ := C51_log_likelihood h h.reversed Fin.revPerm one_ne_zero hk hR hy
    refine ⟨l, h1, ?_⟩
    simpa using h2
  · intro hb
    have hb0 : -10000000000 < g.reversed.times 0 := by
      have := (abs_lt.1 (hb (Fin.last n))).2
      simp only [GPR.reversed, Fin.rev_zero]; linarith
    have hb1 : g.reversed.times (Fin.last n) ≤ 10000000000 := by
      have := (abs_lt.1 (hb 0)).1
      simp only [GPR.reversed, Fin.rev_last]; linarith
    obtain ⟨P, hP, -⟩ := C32_posterior h (abs_lt.1 (hb 0)).1 (abs_lt.1 (hb (Fin.last n))).2.le
    obtain ⟨P', hP', -⟩ := C32_posterior h.reversed hb0 hb1
    refine ⟨P, P', hP, hP', fun {p} new hn => ?_⟩
    obtain ⟨P1, P1', f, f', e1, e1', hf, hf', hv⟩ := C51_predict h h.reversed (abs_lt.1 (hb 0)).1
      (abs_lt.1 (hb (Fin.last n))).2.le hb0 hb1 Fin.revPerm one_ne_zero
      hk hR hy (new := new) (new' := fun q => -new q) hn
      (fun q => ⟨by simpa [GPR.reversed] using (hn q).2, by simpa [GPR.reversed] using (hn q).1⟩)
      (fun q => by rw [one_pow, one_smul]; exact hst _ _) (fun q i => by
        rw [one_pow, one_smul]
        simp only [GPR.reversed, Fin.revPerm_apply, Fin.rev_rev]
        exact hst _ _)
    obtain rfl : P = P1 := Except.ok.inj (hP.symm.trans e1)
    obtain rfl : P' = P1' := Except.ok.inj (hP'.symm.trans e1')
    refine ⟨f, hf, ?_⟩
    rw [hf']
    congr 1
    funext q
    obtain ⟨h1, h2⟩ := hv q
    have hm : g.reversed.meanFunction (-new q) = g.meanFunction (new q) := by
      simp only [GPR.reversed, neg_neg]
    rw [hm, one_smul, sub_left_inj] at h1
    rw [one_pow, one_smul] at h2
    exact Prod.ext h1 h2

/-- The same basic kernel in two systems of units: time in a unit `a` times smaller, values in a unit `s` times
smaller. -/
inductive SameUpToUnits (o : ℕ) (a s : ℝ) : {d : ℕ} → Stationary o d → Stationary o d → Prop
  | matern12 {l v : ℝ} {K K'} (h : MF.matern12 o l v 0 = .ok K) (h' : MF.matern12 o (a * l) (s ^ 2 * v) 0 = .ok K') :
      SameUpToUnits o a s K K'
  | matern32 {l v : ℝ} {K K'} (h : MF.matern32 o l v 0 = .ok K) (h' : MF.matern32 o (a * l) (s ^ 2 * v) 0 = .ok K') :
      SameUpToUnits o a s K K'
  | matern52 {l v : ℝ} {K K'} (h : MF.matern52 o l v 0 = .ok K) (h' : MF.matern52 o (a * l) (s ^ 2 * v) 0 = .ok K') :
      SameUpToUnits o a s K K'
  | ou {dec dif : ℝ} {K K'} (h : ornsteinUhlenbeck o dec dif 0 = .ok K)
      (h' : ornsteinUhlenbeck o (dec / a) (s ^ 2 * dif / a) 0 = .ok K') : SameUpToUnits o a s K K'

theorem SameUpToUnits.spec {a s : ℝ} (ha : 0 < a) {K K' : Stationary o d} (h : SameUpToUnits o a s K K') :
    ∃ k k', Builds K k ∧ Builds K' k' ∧ NoiseTag K true ∧ NoiseTag K' true ∧ K.jitter = 0 ∧ K'.jitter = 0 ∧
      ∀ t t', k' (a * t) (a * t') = s ^ 2 • k t t' := by
  have hab : ∀ t t' : ℝ, |a * t - a * t'| = a * |t - t'| := fun t t' => by rw [← mul_sub, abs_mul, abs_of_pos ha]
  have ha' := ha.ne'
  cases h with
  | matern12 h h' =>
    refine ⟨_, _, .leaf (.matern12 h), .leaf (.matern12 h'), .matern12 h, .matern12 h',
      by rw [(kernelInit_ok h).2.2]; rfl, by rw [(kernelInit_ok h').2.2]; rfl, fun t t' => ?_⟩
    ext i j
    simp only [iso, Matrix.of_apply, Matrix.smul_apply, hab, matern12Cov, smul_eq_mul, mul_div_mul_left _ _ ha']
    ring
  | matern32 h h' =>
    refine ⟨_, _, .leaf (.matern32 h), .leaf (.matern32 h'), .matern32 h, .matern32 h',
      by rw [(kernelInit_ok h).2.2]; rfl, by rw [(kernelInit_ok h').2.2]; rfl, fun t t' => ?_⟩
    ext i j
    simp only [iso, Matrix.of_apply, Matrix.smul_apply, hab, matern32Cov, smul_eq_mul, mul_left_comm _ a,
      mul_div_mul_left _ _ ha']
    ring
  | matern52 h h' =>
    refine ⟨_, _, .leaf (.matern52 h), .leaf (.matern52 h'), .matern52 h, .matern52 h',
      by rw [(kernelInit_ok h).2.2]; rfl, by rw [(kernelInit_ok h').2.2]; rfl, fun t t' => ?_⟩
    ext i j
    have e : ∀ r l : ℝ, 5 * (a * r) ^ 2 / (3 * (a * l) ^ 2) = 5 * r ^ 2 / (3 * l ^ 2) := fun r l => by
      rw [mul_pow, mul_pow, mul_left_comm 5, mul_left_comm 3, mul_div_mul_left _ _ (pow_ne_zero 2 ha')]
    simp only [iso, Matrix.of_apply, Matrix.smul_apply, hab, matern52Cov, smul_eq_mul, e, mul_left_comm _ a,
      mul_div_mul_left _ _ ha']
    ring
  | ou h h' =>
    refine ⟨_, _, .leaf (.ou h), .leaf (.ou h'), .ou h, .ou h',
      by rw [(kernelInit_ok h).2.2]; rfl, by rw [(kernelInit_ok h').2.2]; rfl, fun t t' => ?_⟩
    ext i j
    have e : ∀ r dec : ℝ, dec / a * (a * r) = dec * r := fun r dec => by field_simp
    have e' : ∀ dec dif : ℝ, s ^ 2 * dif / a / (2 * (dec / a)) = s ^ 2 * (dif / (2 * dec)) := fun dec dif => by
      rw [mul_div_assoc', div_div_div_cancel_right₀ ha', mul_div_assoc]
    simp only [iso, Matrix.of_apply, Matrix.smul_apply, hab, ouCov, smul_eq_mul, e, e']
    ring

/-- C51: units. With times multiplied by `a > 0`, observations, mean function and noise factor by `s > 0`, and the
kernel's own parameters converted, the predictions are the old ones converted, and `log_likelihood()` changes by the
log of the Jacobian of the change of units of the observations, whatever `a`. -/
theorem C51_units {a s : ℝ} (ha : 0 < a) (hs : 0 < s) {g : GPR n o d} {K' : Stationary o d}
    (hK : SameUpToUnits o a s g.kernel K') (ht : StrictMono g.times) (hf : NoiseFactor g.cholObsCov) (hn0 : 0 < n) :
    (∃ l, g.logLikelihood = .ok l ∧ (g.rescaled K' a s).logLikelihood = .ok (l - (n + 1) * o * Real.log s)) ∧
    ((∀ i, |g.times i| < 10000000000) → (∀ i, |a * g.times i| < 10000000000) →
      ∃ P P', g.posterior = .ok P ∧ (g.rescaled K' a s).posterior = .ok P' ∧ ∀ {p : ℕ} (new : Fin p → ℝ),
        (∀ q, g.times 0 ≤ new q ∧ new q ≤ g.times (Fin.last n)) →
        ∃ f, P.predictF new = .ok f ∧
          P'.predictF (fun q => a * new q) = .ok fun q => (s • (f q).1, s ^ 2 • (f q).2)) := by
  obtain ⟨k, k', hb, hb', hN, hN', hj, hj', hkk⟩ := hK.spec ha
  have h : g.Valid k := ⟨hb, hN, hj, ht, hf, hn0⟩
  have h' : (g.rescaled K' a s).Valid k' := ⟨hb', hN', hj', fun i j hij => by
    simpa [GPR.rescaled] using mul_lt_mul_of_pos_left (ht hij) ha, ⟨fun i j hij => by
      simp [GPR.rescaled, hf.1 i j hij], fun i => by simp [GPR.rescaled, hf.2 i, hs.ne']⟩, hn0⟩
  have hk : ∀ i j, k' ((g.rescaled K' a s).times (Equiv.refl _ i)) ((g.rescaled K' a s).times (Equiv.refl _ j)) =
      s ^ 2 • k (g.times i) (g.times j) := fun i j => hkk _ _
  have hR : (g.rescaled K' a s).cholObsCov * (g.rescaled K' a s).cholObsCovᵀ = s ^ 2 • (g.cholObsCov * g.cholObsCovᵀ) := by
    show (s • g.cholObsCov) * (s • g.cholObsCov)ᵀ = _
    rw [transpose_smul, smul_mul_smul_comm, sq]
  have hmf : ∀ t, (g.rescaled K' a s).meanFunction (a * t) = s • g.meanFunction t := fun t => by
    show s • g.meanFunction (a * t / a) = _
    rw [mul_div_cancel_left₀ _ ha.ne']
  have hy : ∀ i, (g.rescaled K' a s).observations (Equiv.refl _ i) -
      (g.rescaled K' a s).meanFunction ((g.rescaled K' a s).times (Equiv.refl _ i)) =
      s • (g.observations i - g.meanFunction (g.times i)) := fun i => by
    rw [smul_sub]
    exact congrArg (_ - ·) (hmf (g.times i))
  constructor
  · obtain ⟨l, h1, h2⟩ := C51_log_likelihood h h' (Equiv.refl _) hs.ne' hk hR hy
    rw [abs_of_pos hs] at h2
    exact ⟨l, h1, h2⟩
  · intro hc hc'
    obtain ⟨P, hP, -⟩ := C32_posterior h (abs_lt.1 (hc 0)).1 (abs_lt.1 (hc (Fin.last n))).2.le
    obtain ⟨P', hP', -⟩ := C32_posterior h' (abs_lt.1 (hc' 0)).1 (abs_lt.1 (hc' (Fin.last n))).2.le
    refine ⟨P, P', hP, hP', fun {p} new hn => ?_⟩
    obtain ⟨P1, P1', f, f', e1, e1', hf, hf', hv⟩ := C51_predict h h' (abs_lt.1 (hc 0)).1
      (abs_lt.1 (hc (Fin.last n))).2.le (abs_lt.1 (hc' 0)).1 (abs_lt.1 (hc' (Fin.last n))).2.le (Equiv.refl _) hs.ne'
      hk hR hy (new := new) (new' := fun q => a * new q) hn
      (fun q => ⟨mul_le_mul_of_nonneg_left (hn q).1 ha.le, mul_le_mul_of_nonneg_left (hn q).2 ha.le⟩)
      (fun q => hkk _ _) (fun q i => hkk _ _)
    obtain rfl : P = P1 := Except.ok.inj (hP.symm.trans e1)
    obtain rfl : P' = P1' := Except.ok.inj (hP'.symm.trans e1')
    refine ⟨f, hf, ?_⟩
    rw [hf']
    congr 1
    funext q
    obtain ⟨h1, h2⟩ := hv q
    rw [hmf, smul_sub, sub_left_inj] at h1
    exact Prod.ext h1 h2

/-- C51: the expression is irrelevant. Two kernel objects with the same covariance function (a sum in another order,
Matérn 1/2 and Ornstein-Uhlenbeck, ...), possibly with different state dimensions, give the same `log_likelihood()`
and the same predictions. -/
theorem C51_same_covariance {g : GPR n o d} {k} (h : g.Valid k) {K' : Stationary o d'} (hB : Builds K' k)
    (hN : NoiseTag K' true) (hj : K'.jitter = 0) :
    let g' : GPR n o d' := ⟨g.times, g.observations, K', g.meanFunction, g.cholObsCov⟩
    (∃ l, g.logLikelihood = .ok l ∧ g'.logLikelihood = .ok l) ∧
    (-10000000000 < g.times 0 → g.times (Fin.last n) ≤ 10000000000 →
      ∃ P P', g.posterior = .ok P ∧ g'.posterior = .ok P' ∧ ∀ {p : ℕ} (new : Fin p → ℝ),
        (∀ q, g.times 0 ≤ new q ∧ new q ≤ g.times (Fin.last n)) →
        ∃ f, P.predictF new = .ok f ∧ P'.predictF new = .ok f) := by
  intro g'
  have h' : g'.Valid k := ⟨hB, hN, hj, h.times, h.factor, h.two⟩
  refine ⟨⟨_, (C32_log_likelihood h).1, (C32_log_likelihood h').1⟩, fun h0 h1 => ?_⟩
  obtain ⟨P, hP, -, hp⟩ := C32_posterior h h0 h1
  obtain ⟨P', hP', -, hp'⟩ := C32_posterior h' h0 h1
  refine ⟨P, P', hP, hP', fun {p} new hn => ?_⟩
  obtain ⟨f, hf, hv⟩ := hp new (fun q => (hn q).1) fun q => (hn q).2
  obtain ⟨f', hf', hv'⟩ := hp' new (fun q => (hn q).1) fun q => (hn q).2
  refine ⟨f, hf, ?_⟩
  rw [hf']
  congr 1
  funext q
  exact Prod.ext ((hv' q).1.trans (hv q).1.symm) ((hv' q).2.trans (hv q).2.symm)

/-- Non-vacuity: Matérn 1/2 kernel on three times with a non-zero mean function: the hypotheses of `C51_translation`,
`C51_reversal`, `C51_units` (kilometres to metres, minutes to seconds) and `C51_same_covariance` (the
Ornstein-Uhlenbeck kernel with the same covariance). -/
example : ∃ (g : GPR 2 1 1) (k : ℝ → ℝ → Mat 1 1) (K' K'' : Stationary 1 1), g.Valid k ∧
    (∀ t, g.kernel.emission t = g.kernel.emission 0) ∧ (∀ i, |g.times i| < 10000000000) ∧
    (∀ i, |g.times i + 7| < 10000000000) ∧ (∀ i, |60 * g.times i| < 10000000000) ∧ g.meanFunction 1 ≠ 0 ∧
    SameUpToUnits 1 60 1000 g.kernel K' ∧ Builds K'' k ∧ NoiseTag K'' true ∧ K''.jitter = 0 := by
  obtain ⟨K, hK⟩ := (C28_constructors (o := 1) 2 3 1 1 1 0).1.2 (by norm_num)
  obtain ⟨K', hK'⟩ := (C28_constructors (o := 1) (60 * 2) (1000 ^ 2 * 3) 1 1 1 0).1.2 (by norm_num)
  obtain ⟨K'', hK''⟩ := (C28_constructors (o := 1) 2 3 1 (1 / 2) 3 0).2.2.2.1.2 (by norm_num)
  have hk : iso (o := 1) (ouCov (1 / 2) 3) = iso (matern12Cov 2 3) := by
    funext t t'
    ext i j
    simp only [iso, Matrix.of_apply, ouCov, matern12Cov]
    norm_num
    ring_nf
  refine ⟨⟨![0, 1, 3], fun i => ![(i : ℝ)], K, fun t => ![t], !![2]⟩, _, K', K'',
    ⟨.leaf (.matern12 hK), .matern12 hK, by rw [(kernelInit_ok hK).2.2]; rfl, ?_, ⟨?_, ?_⟩, by norm_num⟩, ?_, ?_, ?_, ?_, ?_,
    .matern12 hK hK', hk ▸ .leaf (.ou hK''), .ou hK'', by rw [(kernelInit_ok hK'').2.2]; rfl⟩
  · refine Fin.strictMono_iff_lt_succ.2 fun i => ?_
    fin_cases i <;> simp <;> norm_num
  · intro i j hij; fin_cases i; fin_cases j; simp at hij
  · intro i; fin_cases i; simp
  · intro t; rw [(kernelInit_ok hK).2.2]; rfl
  · intro i; fin_cases i <;> simp <;> norm_num
  · intro i; fin_cases i <;> simp <;> norm_num [abs_lt]
  · intro i; fin_cases i <;> simp <;> norm_num [abs_lt]
  · intro h; have := congrFun h 0; simp at this

end MF
