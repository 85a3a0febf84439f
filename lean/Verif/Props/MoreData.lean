import Verif.Props.Invariance

/-!
# C52: learning from more data

Yesterday's posterior is today's prior: for any split of the data, conditioning on all of it is conditioning on one
part and then on the other; hence the chain rule for `log_likelihood()`, predictive variances that never grow with
more data and never exceed the prior's, do not depend on the observed values, and means affine in the observations.
-/

namespace MF
open Matrix Spec
variable {n m u d d' o p : ℕ}

section dense
variable {T U T' : Type} [Fintype T] [DecidableEq T] [Fintype U] [DecidableEq U] [Fintype T'] [DecidableEq T']

/-- Pairs (datum, output) of the two parts and of all data. -/
def splitIx (o : ℕ) (e : T ⊕ U ≃ T') : (T × Fin o) ⊕ (U × Fin o) ≃ T' × Fin o :=
  (Equiv.sumProdDistrib T U (Fin o)).symm.trans (e.prodCongr (.refl _))

theorem splitIx_inl (e : T ⊕ U ≃ T') (i : T × Fin o) : splitIx o e (.inl i) = (e (.inl i.1), i.2) := rfl
theorem splitIx_inr (e : T ⊕ U ≃ T') (i : U × Fin o) : splitIx o e (.inr i) = (e (.inr i.1), i.2) := rfl

/-- Covariances between the two parts. -/
def betweenCov (k : ℝ → ℝ → Mat o o) (ts : T → ℝ) (us : U → ℝ) : Matrix (T × Fin o) (U × Fin o) ℝ :=
  Matrix.of fun i j => k (ts i.1) (us j.1) i.2 j.2

/-- The hypotheses of a split: all data `ts'`, with noise `R'`, consist of `ts` with noise `R` and of `us` with
noise `Q`, the noise of the parts being independent. -/
structure SplitData (o : ℕ) (e : T ⊕ U ≃ T') (ts : T → ℝ) (us : U → ℝ) (ts' : T' → ℝ) (R : Matrix (T × Fin o) (T × Fin o) ℝ)
    (Q : Matrix (U × Fin o) (U × Fin o) ℝ) (R' : Matrix (T' × Fin o) (T' × Fin o) ℝ) : Prop where
  old : ∀ i, ts' (e (.inl i)) = ts i
  new : ∀ i, ts' (e (.inr i)) = us i
  noise : R'.submatrix (splitIx o e) (splitIx o e) = fromBlocks R 0 0 Q

variable {e : T ⊕ U ≃ T'} {ts : T → ℝ} {us : U → ℝ} {ts' : T' → ℝ} {R : Matrix (T × Fin o) (T × Fin o) ℝ}
  {Q : Matrix (U × Fin o) (U × Fin o) ℝ} {R' : Matrix (T' × Fin o) (T' × Fin o) ℝ} {k : ℝ → ℝ → Mat o o}

theorem SplitData.gram (h : SplitData o e ts us ts' R Q R') (hk : ∀ t t', (k t t')ᵀ = k t' t) :
    (gpGram k ts' + R').submatrix (splitIx o e) (splitIx o e) =
      fromBlocks (gpGram k ts + R) (betweenCov k ts us) (betweenCov k ts us)ᵀ (gpGram k us + Q) := by
  rw [submatrix_add, Pi.add_apply, Pi.add_apply, h.noise]
  have : (gpGram k ts').submatrix (splitIx o e) (splitIx o e) =
      fromBlocks (gpGram k ts) (betweenCov k ts us) (betweenCov k ts us)ᵀ (gpGram k us) := by
    ext i j
    rcases i with i | i <;> rcases j with j | j <;>
      simp only [submatrix_apply, splitIx_inl, splitIx_inr, gpGram, betweenCov, Matrix.of_apply, h.old, h.new,
        fromBlocks_apply₁₁, fromBlocks_apply₁₂, fromBlocks_apply₂₁, fromBlocks_apply₂₂, transpose_apply]
    rw [← hk, transpose_apply]
  rw [this, fromBlocks_add, add_zero, add_zero]

theorem SplitData.cross (h : SplitData o e ts us ts' R Q R') (t : ℝ) :
    (crossCov k ts' t).submatrix id (splitIx o e) = fromCols (crossCov k ts t) (crossCov k us t) := by
  ext a j
  rcases j with j | j <;> simp [splitIx_inl, splitIx_inr, crossCov, h.old, h.new]

theorem post_gram (hk : ∀ t t', (k t t')ᵀ = k t' t) : gpGram (gpPostCov k ts R) us + Q =
    gpGram k us + Q - (betweenCov k ts us)ᵀ * (gpGram k ts + R)⁻¹ * betweenCov k ts us := by
  have hc : ∀ t a i, crossCov k ts t a i = k (ts i.1) t i.2 a := fun t a i => by
    rw [← hk]; rfl
  ext i j
  simp only [gpGram, gpPostCov, Matrix.add_apply, Matrix.sub_apply, Matrix.of_apply, Matrix.mul_apply, transpose_apply,
    hc, betweenCov]
  ring

theorem post_cross (hk : ∀ t t', (k t t')ᵀ = k t' t) (t : ℝ) : crossCov (gpPostCov k ts R) us t =
    crossCov k us t - crossCov k ts t * (gpGram k ts + R)⁻¹ * betweenCov k ts us := by
  have hc : ∀ t a i, crossCov k ts t a i = k (ts i.1) t i.2 a := fun t a i => by
    rw [← hk]; rfl
  ext a j
  have : ∀ x y, (crossCov k ts (us y.1))ᵀ x y.2 = betweenCov k ts us x y := fun x y => by
    rw [transpose_apply, hc]; rfl
  simp only [crossCov, gpPostCov, Matrix.sub_apply, Matrix.of_apply, Matrix.mul_apply]
  congr 1
  refine Finset.sum_congr rfl fun x _ => ?_
  congr 1
  exact this x j

theorem post_cross_transpose (hk : ∀ t t', (k t t')ᵀ = k t' t) (hR : (gpGram k ts + R)⁻¹ᵀ = (gpGram k ts + R)⁻¹) (t : ℝ) :
    (crossCov (gpPostCov k ts R) us t)ᵀ =
      (crossCov k us t)ᵀ - (betweenCov k ts us)ᵀ * (gpGram k ts + R)⁻¹ * (crossCov k ts t)ᵀ := by
  rw [post_cross hk, transpose_sub, transpose_mul, transpose_mul, hR, Matrix.mul_assoc]

/-- **Sequential conditioning.** The dense formulas for all data are the dense formulas for the second part with the
posterior given the first part in place of the prior; the log densities add up. -/
theorem sequential_dense (h : SplitData o e ts us ts' R Q R') (hk : ∀ t t', (k t t')ᵀ = k t' t)
    (hA : (gpGram k ts + R).PosDef) (hT : (gpGram k ts' + R').PosDef)
    (hS : (gpGram (gpPostCov k ts R) us + Q).PosDef) (m : ℝ → Vec o) {y : T × Fin o → ℝ}
    {z : U × Fin o → ℝ} {y' : T' × Fin o → ℝ} (hy : y' ∘ splitIx o e = Sum.elim y z) :
    (∀ t, gpPostMean m k ts' R' y' t = gpPostMean (gpPostMean m k ts R y) (gpPostCov k ts R) us Q z t) ∧
    (∀ t t', gpPostCov k ts' R' t t' = gpPostCov (gpPostCov k ts R) us Q t t') ∧
    gaussLogDensity (meanVec m ts') (gpGram k ts' + R') y' = gaussLogDensity (meanVec m ts) (gpGram k ts + R) y +
      gaussLogDensity (meanVec (gpPostMean m k ts R y) us) (gpGram (gpPostCov k ts R) us + Q) z := by
  have hA' : IsUnit (gpGram k ts + R).det := hA.det_pos.ne'.isUnit
  have hAt : (gpGram k ts + R)⁻¹ᵀ = (gpGram k ts + R)⁻¹ := by
    have := hA.inv.isHermitian
    rwa [IsHermitian, conjTranspose_eq_transpose_of_trivial] at this
  have hg := post_gram (ts := ts) (us := us) (R := R) (Q := Q) hk
  have hS' := hS
  rw [hg] at hS'
  have hSu := hS'.det_pos.ne'.isUnit
  have hmv : meanVec m ts' ∘ splitIx o e = Sum.elim (meanVec m ts) (meanVec m us) := by
    funext i
    rcases i with i | i <;> simp [splitIx_inl, splitIx_inr, meanVec, h.old, h.new]
  have hr : (y' - meanVec m ts') ∘ splitIx o e = Sum.elim (y - meanVec m ts) (z - meanVec m us) := by
    have : (y' - meanVec m ts') ∘ splitIx o e = y' ∘ splitIx o e - meanVec m ts' ∘ splitIx o e := rfl
    rw [this, hy, hmv]
    funext i; rcases i with i | i <;> rfl
  have hB : ∀ v : T × Fin o → ℝ, meanVec m us + (betweenCov k ts us)ᵀ *ᵥ v = meanVec (fun t => m t + crossCov k ts t *ᵥ v) us := by
    intro v
    funext j
    simp only [Pi.add_apply, meanVec]
    congr 1
    unfold mulVec dotProduct
    refine Finset.sum_congr rfl fun i _ => ?_
    congr 1
    simp only [transpose_apply, betweenCov, crossCov, Matrix.of_apply]
    rw [← hk, transpose_apply]
  refine ⟨fun t => ?_, fun t t' => ?_, ?_⟩
  · have e1 : crossCov k ts' t *ᵥ ((gpGram k ts' + R')⁻¹ *ᵥ (y' - meanVec m ts')) =
        (crossCov k ts' t).submatrix id (splitIx o e) *ᵥ (((gpGram k ts' + R').submatrix (splitIx o e) (splitIx o e))⁻¹ *ᵥ
          ((y' - meanVec m ts') ∘ splitIx o e)) := by
      rw [inv_submatrix_equiv, submatrix_mulVec_equiv, submatrix_mulVec_equiv]
      simp [Function.comp_assoc]
    have e2 : z - meanVec (gpPostMean m k ts R y) us =
        z - meanVec m us - (betweenCov k ts us)ᵀ *ᵥ ((gpGram k ts + R)⁻¹ *ᵥ (y - meanVec m ts)) := by
      rw [sub_sub, hB]; rfl
    unfold gpPostMean at e2 ⊢
    rw [e1, h.cross, h.gram hk, hr, quad_blocks hA' hSu, hg, post_cross hk, e2, add_assoc]
  · have e1 : crossCov k ts' t * (gpGram k ts' + R')⁻¹ * (crossCov k ts' t')ᵀ =
        (crossCov k ts' t).submatrix id (splitIx o e) * ((gpGram k ts' + R').submatrix (splitIx o e) (splitIx o e))⁻¹ *
          ((crossCov k ts' t').submatrix id (splitIx o e))ᵀ := by
      rw [inv_submatrix_equiv, transpose_submatrix, submatrix_mul_equiv, submatrix_mul_equiv, submatrix_id_id]
    conv_lhs => unfold gpPostCov
    rw [e1, h.cross, h.cross, h.gram hk, transpose_fromCols, quad_blocks_mat hA' hSu]
    conv_rhs => unfold gpPostCov
    rw [← post_cross_transpose hk hAt, ← post_cross hk, ← hg, ← sub_sub]
    rfl
  · have h1 := gaussLogDensity_blocks hA hS' (meanVec m ts) (meanVec m us) y z
    have hPD := hT.submatrix (splitIx o e).injective
    have h2 := gaussLogDensity_units (splitIx o e) one_ne_zero hPD (K' := gpGram k ts' + R') (by rw [one_pow, one_smul])
      (m := Sum.elim (meanVec m ts) (meanVec m us)) (x := Sum.elim y z) (m' := meanVec m ts') (x' := y') (fun i => by
        rw [one_mul, ← hmv, ← hy]; rfl)
    rw [h2, h.gram hk, h1, hB, ← hg]
    rw [abs_one, Real.log_one, mul_zero, sub_zero]
    rfl

end dense

theorem GPR.split_noise {g : GPR n o d} {g' : GPR m o d'} (e : Fin (n + 1) ⊕ Fin u ≃ Fin (m + 1))
    (hR : g'.cholObsCov = g.cholObsCov) : g'.noiseCov.submatrix (splitIx o e) (splitIx o e) =
      fromBlocks g.noiseCov 0 0 (blkDiag fun _ : Fin u => g.cholObsCov * g.cholObsCovᵀ) := by
  have hb : ∀ {N : ℕ} (R : Mat o o) (i j : Fin N × Fin o), blkDiag (fun _ => R) i j = if i.1 = j.1 then R i.2 j.2 else 0 := by
    intro N R i j
    simp only [blkDiag, ofBlk, Matrix.of_apply]
    split_ifs <;> rfl
  ext i j
  rcases i with i | i <;> rcases j with j | j <;>
    simp only [submatrix_apply, splitIx_inl, splitIx_inr, GPR.noiseCov, hb, hR, fromBlocks_apply₁₁, fromBlocks_apply₁₂,
      fromBlocks_apply₂₁, fromBlocks_apply₂₂, EmbeddingLike.apply_eq_iff_eq, Sum.inl.injEq, Sum.inr.injEq, reduceCtorEq,
      if_false, Matrix.zero_apply]

/-- The model `g'` has the data of `g` and `u` further data (in any order), everything else being equal; the two kernel
objects need only have the same covariance function. -/
structure GPR.Extends (g' : GPR m o d') (g : GPR n o d) (e : Fin (n + 1) ⊕ Fin u ≃ Fin (m + 1)) : Prop where
  times : ∀ i, g'.times (e (.inl i)) = g.times i
  observations : ∀ i, g'.observations (e (.inl i)) = g.observations i
  mean : g'.meanFunction = g.meanFunction
  noise : g'.cholObsCov = g.cholObsCov

theorem GPR.post_psd {g : GPR n o d} {k} (h : g.Valid k) {S : Type} [Fintype S] [DecidableEq S] (us : S → ℝ) :
    (gpGram (gpPostCov k g.times g.noiseCov) us).PosSemidef := by
  have hD := (Builds.good h.builds).2.2
  have := (dense_bayes (fun _ => 0) hD.symm g.times us (gpGram_psd h.builds _)
    (posDef_blkDiag (R := fun _ : Fin (n + 1) => g.cholObsCov * g.cholObsCovᵀ) fun _ => h.factor.posDef) 0).1
  exact this.submatrix fun i : S × Fin o => ((Sum.inr i.1 : Fin (n + 1) ⊕ S), i.2)

theorem GPR.Extends.dense {g : GPR n o d} {g' : GPR m o d'} {k} (h : g.Valid k) (h' : g'.Valid k)
    {e : Fin (n + 1) ⊕ Fin u ≃ Fin (m + 1)} (he : g'.Extends g e) {us : Fin u → ℝ} {z : Fin u → Vec o}
    (hu : ∀ i, us i = g'.times (e (.inr i))) (hz : ∀ i, z i = g'.observations (e (.inr i))) :
    (∀ t, gpPostMean g'.meanFunction k g'.times g'.noiseCov (stk g'.observations) t =
      gpPostMean (gpPostMean g.meanFunction k g.times g.noiseCov (stk g.observations))
        (gpPostCov k g.times g.noiseCov) us (blkDiag fun _ => g.cholObsCov * g.cholObsCovᵀ) (stk z) t) ∧
    (∀ t t', gpPostCov k g'.times g'.noiseCov t t' = gpPostCov (gpPostCov k g.times g.noiseCov) us
      (blkDiag fun _ => g.cholObsCov * g.cholObsCovᵀ) t t') ∧
    gaussLogDensity (meanVec g'.meanFunction g'.times) (gpGram k g'.times + g'.noiseCov) (stk g'.observations) =
      gaussLogDensity (meanVec g.meanFunction g.times) (gpGram k g.times + g.noiseCov) (stk g.observations) +
      gaussLogDensity (meanVec (gpPostMean g.meanFunction k g.times g.noiseCov (stk g.observations)) us)
        (gpGram (gpPostCov k g.times g.noiseCov) us + blkDiag fun _ => g.cholObsCov * g.cholObsCovᵀ) (stk z) := by
  have hD := (Builds.good h.builds).2.2
  rw [he.mean]
  refine sequential_dense (e := e) ⟨he.times, fun i => (hu i).symm, GPR.split_noise e he.noise⟩ hD.symm h.posDef h'.posDef
    (Matrix.PosDef.posSemidef_add (GPR.post_psd h us) (posDef_blkDiag fun _ => h.factor.posDef)) g.meanFunction ?_
  funext i
  rcases i with i | i
  · exact congrFun (he.observations i.1) i.2
  · exact (congrFun (hz i.1) i.2).symm

/-- C52: sequential learning. The model with all data predicts what conditioning the posterior process of the first
model on the further data gives, and the log likelihoods add up. -/
theorem C52_sequential {g : GPR n o d} {g' : GPR m o d'} {k} (h : g.Valid k) (h' : g'.Valid k)
    {e : Fin (n + 1) ⊕ Fin u ≃ Fin (m + 1)} (he : g'.Extends g e) {us : Fin u → ℝ} {z : Fin u → Vec o}
    (hu : ∀ i, us i = g'.times (e (.inr i))) (hz : ∀ i, z i = g'.observations (e (.inr i))) :
    ∃ (M : ℝ → Vec o) (C : ℝ → ℝ → Mat o o), (∀ {N : ℕ} (vs : Fin N → ℝ), (gpGram C vs).PosSemidef) ∧
      (∃ l, g.logLikelihood = .ok l ∧ g'.logLikelihood = .ok (l + gaussLogDensity (meanVec M us)
        (gpGram C us + blkDiag fun _ => g.cholObsCov * g.cholObsCovᵀ) (stk z))) ∧
      (-10000000000 < g.times 0 → g.times (Fin.last n) ≤ 10000000000 → ∃ P, g.posterior = .ok P ∧
        ∀ {p : ℕ} (new : Fin p → ℝ), (∀ q, g.times 0 ≤ new q ∧ new q ≤ g.times (Fin.last n)) →
        P.predictF new = .ok fun q => (M (new q), C (new q) (new q))) ∧
      (-10000000000 < g'.times 0 → g'.times (Fin.last m) ≤ 10000000000 → ∃ P', g'.posterior = .ok P' ∧
        ∀ {p : ℕ} (new : Fin p → ℝ), (∀ q, g'.times 0 ≤ new q ∧ new q ≤ g'.times (Fin.last m)) →
        P'.predictF new = .ok fun q =>
          (gpPostMean M C us (blkDiag fun _ => g.cholObsCov * g.cholObsCovᵀ) (stk z) (new q),
            gpPostCov C us (blkDiag fun _ => g.cholObsCov * g.cholObsCovᵀ) (new q) (new q))) := by
  obtain ⟨h1, h2, h3⟩ := GPR.Extends.dense h h' he hu hz
  refine ⟨gpPostMean g.meanFunction k g.times g.noiseCov (stk g.observations), gpPostCov k g.times g.noiseCov,
    fun vs => GPR.post_psd h vs, ⟨_, (C32_log_likelihood h).1, ?_⟩, fun h0 h1 => ?_, fun h0 h1' => ?_⟩
  · rw [(C32_log_likelihood h').1, h3]
  · obtain ⟨P, hP, -, hp⟩ := C32_posterior h h0 h1
    refine ⟨P, hP, fun {p} new hn => ?_⟩
    obtain ⟨f, hf, hv⟩ := hp new (fun q => (hn q).1) fun q => (hn q).2
    rw [hf]
    congr 1
    funext q
    exact Prod.ext (hv q).1 (hv q).2
  · obtain ⟨P, hP, -, hp⟩ := C32_posterior h' h0 h1'
    refine ⟨P, hP, fun {p} new hn => ?_⟩
    obtain ⟨f, hf, hv⟩ := hp new (fun q => (hn q).1) fun q => (hn q).2
    rw [hf]
    congr 1
    funext q
    exact Prod.ext ((hv q).1.trans (h1 _)) ((hv q).2.trans (h2 _ _))

/-- C52: the chain rule in terms of the API. With one further datum `(t, y)` inside the range of the data, the log
likelihood grows by the log density of `y` under the Gaussian that `predict_f` gives at `t`, plus noise. -/
theorem C52_chain_rule {g : GPR n o d} {g' : GPR m o d'} {k} (h : g.Valid k) (h' : g'.Valid k)
    (ht0 : -10000000000 < g.times 0) (ht1 : g.times (Fin.last n) ≤ 10000000000)
    {e : Fin (n + 1) ⊕ Fin 1 ≃ Fin (m + 1)} (he : g'.Extends g e) (h0 : g.times 0 ≤ g'.times (e (.inr 0)))
    (h1 : g'.times (e (.inr 0)) ≤ g.times (Fin.last n)) :
    ∃ P f l, g.posterior = .ok P ∧ P.predictF (fun _ : Fin 1 => g'.times (e (.inr 0))) = .ok f ∧ g.logLikelihood = .ok l ∧
      g'.logLikelihood = .ok (l + gaussLogDensity (f 0).1 ((f 0).2 + g.cholObsCov * g.cholObsCovᵀ)
        (g'.observations (e (.inr 0)))) := by
  obtain ⟨M, C, hC, ⟨l, hl, hl'⟩, hp, -⟩ := C52_sequential h h' he (us := fun i => g'.times (e (.inr i)))
    (z := fun i => g'.observations (e (.inr i))) (fun _ => rfl) fun _ => rfl
  obtain ⟨P, hP, hf⟩ := hp ht0 ht1
  refine ⟨P, _, l, hP, hf (fun _ : Fin 1 => g'.times (e (.inr 0))) fun _ => ⟨h0, h1⟩, hl, ?_⟩
  rw [hl']
  congr 2
  have hS : (gpGram C (fun i => g'.times (e (.inr i))) +
      blkDiag fun _ : Fin 1 => g.cholObsCov * g.cholObsCovᵀ).submatrix
      (Equiv.uniqueProd (Fin o) (Fin 1)).symm (Equiv.uniqueProd (Fin o) (Fin 1)).symm =
      (1 : ℝ) ^ 2 • (C (g'.times (e (.inr 0))) (g'.times (e (.inr 0))) + g.cholObsCov * g.cholObsCovᵀ) := by
    rw [one_pow, one_smul]
    ext a b
    simp [gpGram, blkDiag, ofBlk, Equiv.uniqueProd]
  rw [gaussLogDensity_units (Equiv.uniqueProd (Fin o) (Fin 1)).symm one_ne_zero ?_ hS
    (m := M (g'.times (e (.inr 0)))) (x := g'.observations (e (.inr 0))) fun a => ?_]
  · simp
  · exact Matrix.PosDef.posSemidef_add ((hC fun _ : Fin 1 => g'.times (e (.inr 0))).submatrix fun a : Fin o => (0, a))
      h.factor.posDef
  · rw [one_mul]; rfl

theorem post_le {T : Type} [Fintype T] [DecidableEq T] {ts : T → ℝ} {R : Matrix (T × Fin o) (T × Fin o) ℝ}
    {k : ℝ → ℝ → Mat o o} (hA : (gpGram k ts + R).PosDef) (t : ℝ) : (k t t - gpPostCov k ts R t t).PosSemidef := by
  unfold gpPostCov
  rw [sub_sub_cancel]
  exact posSemidef_conj' hA.inv.posSemidef _

/-- C52: information never hurts. With further data (whatever their values) the predictive covariance at any time in
the range of the first data can only decrease. -/
theorem C52_more_data {g : GPR n o d} {g' : GPR m o d'} {k} (h : g.Valid k) (h' : g'.Valid k)
    (ht0 : -10000000000 < g.times 0) (ht1 : g.times (Fin.last n) ≤ 10000000000)
    (ht0' : -10000000000 < g'.times 0) (ht1' : g'.times (Fin.last m) ≤ 10000000000)
    (e : Fin (n + 1) → Fin (m + 1)) (het : ∀ i, g'.times (e i) = g.times i) (hen : g'.cholObsCov = g.cholObsCov)
    (new : Fin p → ℝ) (hnew : ∀ q, g.times 0 ≤ new q ∧ new q ≤ g.times (Fin.last n)) :
    ∃ P P' f f', g.posterior = .ok P ∧ g'.posterior = .ok P' ∧ P.predictF new = .ok f ∧ P'.predictF new = .ok f' ∧
      ∀ q, ((f q).2 - (f' q).2).PosSemidef := by
  obtain ⟨P, hP, -, hp⟩ := C32_posterior h ht0 ht1
  obtain ⟨P', hP', -, hp'⟩ := C32_posterior h' ht0' ht1'
  obtain ⟨f, hf, hv⟩ := hp new (fun q => (hnew q).1) fun q => (hnew q).2
  have hmono := h'.times.monotone
  obtain ⟨f', hf', hv'⟩ := hp' new
    (fun q => (hmono (Fin.zero_le (e 0))).trans ((het 0).le.trans (hnew q).1))
    (fun q => (hnew q).2.trans ((het (Fin.last n)).ge.trans (hmono (Fin.le_last _))))
  refine ⟨P, P', f, f', hP, hP', hf, hf', fun q => ?_⟩
  have hinj : Function.Injective e := fun i j hij => h.times.injective (by rw [← het, ← het, hij])
  classical
  let eU : Fin (Fintype.card {j // j ∉ Set.range e}) ≃ {j // j ∉ Set.range e} := (Fintype.equivFin _).symm
  let E : Fin (n + 1) ⊕ Fin (Fintype.card {j // j ∉ Set.range e}) ≃ Fin (m + 1) :=
    ((Equiv.ofInjective e hinj).sumCongr eU).trans (Equiv.Set.sumCompl (Set.range e))
  have hE : ∀ i, E (.inl i) = e i := fun i => by
    show Equiv.Set.sumCompl (Set.range e) (.inl (Equiv.ofInjective e hinj i)) = e i
    rw [Equiv.Set.sumCompl_apply_inl]
    rfl
  let g1 : GPR n o d := ⟨g.times, g'.observations ∘ e, g.kernel, g'.meanFunction, g.cholObsCov⟩
  have h1 : g1.Valid k := ⟨h.builds, h.noise, h.jitter, h.times, h.factor, h.two⟩
  have hx : g'.Extends g1 E := ⟨fun i => by rw [hE]; exact het i, fun i => by rw [hE]; rfl, rfl, hen⟩
  obtain ⟨-, hc, -⟩ := GPR.Extends.dense h1 h' hx (us := fun i => g'.times (E (.inr i)))
    (z := fun i => g'.observations (E (.inr i))) (fun _ => rfl) fun _ => rfl
  rw [(hv q).2, (hv' q).2, hc]
  exact post_le (k := gpPostCov k g.times g.noiseCov) (Matrix.PosDef.posSemidef_add (GPR.post_psd h _)
    (posDef_blkDiag fun _ => h.factor.posDef)) (new q)

/-- C52: bounds. The predictive covariance is positive semi-definite, at most the prior's `k(t, t)`, and at a data time
at most the noise of one observation. -/
theorem C52_bounds {g : GPR n o d} {k} (h : g.Valid k) (ht0 : -10000000000 < g.times 0)
    (ht1 : g.times (Fin.last n) ≤ 10000000000) (new : Fin p → ℝ)
    (hnew : ∀ q, g.times 0 ≤ new q ∧ new q ≤ g.times (Fin.last n)) :
    ∃ P f, g.posterior = .ok P ∧ P.predictF new = .ok f ∧ ∀ q, (f q).2.PosSemidef ∧
      (k (new q) (new q) - (f q).2).PosSemidef ∧
      ∀ i, new q = g.times i → (g.cholObsCov * g.cholObsCovᵀ - (f q).2).PosSemidef := by
  obtain ⟨P, hP, -, hp⟩ := C32_posterior h ht0 ht1
  obtain ⟨f, hf, hv⟩ := hp new (fun q => (hnew q).1) fun q => (hnew q).2
  refine ⟨P, f, hP, hf, fun q => ⟨?_, ?_, fun i hi => ?_⟩⟩
  · rw [(hv q).2]
    exact (GPR.post_psd h fun _ : Fin 1 => new q).submatrix fun a : Fin o => (0, a)
  · rw [(hv q).2]
    exact post_le h.posDef _
  · rw [(hv q).2, hi]
    have hS := h.posDef
    set S := gpGram k g.times + g.noiseCov with hSd
    have hu := hS.det_pos.ne'.isUnit
    have hkey : gpGram k g.times - gpGram k g.times * S⁻¹ * gpGram k g.times = g.noiseCov - g.noiseCov * S⁻¹ * g.noiseCov := by
      have e : gpGram k g.times = S - g.noiseCov := by rw [hSd, add_sub_cancel_right]
      rw [e]
      simp only [Matrix.sub_mul, Matrix.mul_sub, mul_nonsing_inv _ hu, Matrix.one_mul, nonsing_inv_mul_cancel_right _ _ hu]
      abel
    have hsub : gpPostCov k g.times g.noiseCov (g.times i) (g.times i) =
        (gpGram k g.times - gpGram k g.times * S⁻¹ * gpGram k g.times).submatrix (fun a : Fin o => (i, a)) fun a => (i, a) := by
      have hsym := (Builds.good h.builds).2.2.symm
      ext a b
      have : ∀ x, (crossCov k g.times (g.times i))ᵀ x b = gpGram k g.times x (i, b) := fun x => by
        show k (g.times i) (g.times x.1) b x.2 = k (g.times x.1) (g.times i) x.2 b
        rw [← hsym (g.times i), transpose_apply]
      simp only [gpPostCov, Matrix.sub_apply, submatrix_apply, Matrix.mul_apply, this]
      rfl
    have hnb : g.cholObsCov * g.cholObsCovᵀ = g.noiseCov.submatrix (fun a : Fin o => (i, a)) fun a => (i, a) := by
      ext a b
      simp only [GPR.noiseCov, submatrix_apply, blkDiag_const_apply, if_true]
    have hNt : g.noiseCovᵀ = g.noiseCov := by
      have := (posDef_blkDiag (R := fun _ : Fin (n + 1) => g.cholObsCov * g.cholObsCovᵀ) fun _ => h.factor.posDef).isHermitian
      rwa [IsHermitian, conjTranspose_eq_transpose_of_trivial] at this
    have e2 : g.noiseCov.submatrix (fun a : Fin o => (i, a)) (fun a => (i, a)) -
        (g.noiseCov - g.noiseCov * S⁻¹ * g.noiseCov).submatrix (fun a : Fin o => (i, a)) (fun a => (i, a)) =
        (g.noiseCov * S⁻¹ * g.noiseCov).submatrix (fun a : Fin o => (i, a)) fun a => (i, a) := by
      ext a b
      simp only [Matrix.sub_apply, submatrix_apply, sub_sub_cancel]
    rw [hsub, hkey, hnb, e2]
    have := posSemidef_conj' hS.inv.posSemidef g.noiseCov
    rw [hNt] at this
    exact this.submatrix _

/-- C52: the predictions as functions of the observations. The predictive covariance does not depend on the observed
values; the predictive mean is an affine function of them. -/
theorem C52_affine {g : GPR n o d} {k} (h : g.Valid k) (ht0 : -10000000000 < g.times 0)
    (ht1 : g.times (Fin.last n) ≤ 10000000000) (new : Fin p → ℝ)
    (hnew : ∀ q, g.times 0 ≤ new q ∧ new q ≤ g.times (Fin.last n)) :
    ∃ (W : Fin p → Matrix (Fin o) (Fin (n + 1) × Fin o) ℝ) (b : Fin p → Vec o) (C : Fin p → Mat o o),
      ∀ y : Fin (n + 1) → Vec o, ∃ P, ({ g with observations := y } : GPR n o d).posterior = .ok P ∧
        P.predictF new = .ok fun q => (b q + W q *ᵥ (fun i => y i.1 i.2), C q) := by
  refine ⟨fun q => crossCov k g.times (new q) * (gpGram k g.times + g.noiseCov)⁻¹, fun q => g.meanFunction (new q) -
    (crossCov k g.times (new q) * (gpGram k g.times + g.noiseCov)⁻¹) *ᵥ meanVec g.meanFunction g.times,
    fun q => gpPostCov k g.times g.noiseCov (new q) (new q), fun y => ?_⟩
  have hy : ({ g with observations := y } : GPR n o d).Valid k := ⟨h.builds, h.noise, h.jitter, h.times, h.factor, h.two⟩
  obtain ⟨P, hP, -, hp⟩ := C32_posterior hy ht0 ht1
  obtain ⟨f, hf, hv⟩ := hp new (fun q => (hnew q).1) fun q => (hnew q).2
  refine ⟨P, hP, ?_⟩
  rw [hf]
  congr 1
  funext q
  refine Prod.ext ((hv q).1.trans ?_) (hv q).2
  show gpPostMean g.meanFunction k g.times g.noiseCov (stk y) (new q) = _
  unfold gpPostMean
  rw [mulVec_mulVec, mulVec_sub, sub_add_eq_add_sub, add_sub_assoc]
  rfl

/-- Non-vacuity: data at 0, 1, 3, and with a further datum at 2. -/
example : ∃ (g : GPR 2 1 2) (g' : GPR 3 1 2) (k : ℝ → ℝ → Mat 1 1) (e : Fin 3 ⊕ Fin 1 ≃ Fin 4), g.Valid k ∧ g'.Valid k ∧
    g'.Extends g e ∧ (∀ i, |g'.times i| < 10000000000) ∧ g.times 0 ≤ g'.times (e (.inr 0)) ∧
    g'.times (e (.inr 0)) ≤ g.times (Fin.last 2) := by
  obtain ⟨K, hK⟩ := (C28_constructors (o := 1) 2 3 1 1 1 0).2.1.2 (by norm_num)
  have hj : K.jitter = 0 := by rw [(kernelInit_ok hK).2.2]; rfl
  let e : Fin 3 ⊕ Fin 1 ≃ Fin 4 := ⟨Sum.elim ![0, 1, 3] ![2], ![.inl 0, .inl 1, .inr 0, .inl 2], by decide, by decide⟩
  have hL : NoiseFactor (!![2] : Mat 1 1) :=
    ⟨fun i j hij => by fin_cases i; fin_cases j; simp at hij, fun i => by fin_cases i; simp⟩
  refine ⟨⟨![0, 1, 3], ![![1], ![2], ![5]], K, fun t => ![t], !![2]⟩,
    ⟨![0, 1, 2, 3], ![![1], ![2], ![7], ![5]], K, fun t => ![t], !![2]⟩, _, e,
    ⟨.leaf (.matern32 hK), .matern32 hK, hj, ?_, hL, by norm_num⟩,
    ⟨.leaf (.matern32 hK), .matern32 hK, hj, ?_, hL, by norm_num⟩, ⟨?_, ?_, rfl, rfl⟩, ?_, ?_, ?_⟩
  · refine Fin.strictMono_iff_lt_succ.2 fun i => ?_
    fin_cases i <;> simp <;> norm_num
  · refine Fin.strictMono_iff_lt_succ.2 fun i => ?_
    fin_cases i <;> simp <;> norm_num
  · intro i; fin_cases i <;> simp [e]
  · intro i; fin_cases i <;> simp [e]
  · intro i; fin_cases i <;> simp [abs_lt] <;> norm_num
  · simp [e]
  · simp [e]; norm_num

end MF
