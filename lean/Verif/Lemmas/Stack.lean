import Verif.Spec.Stack
import Verif.Lemmas.SVGP
import Verif.Lemmas.KLProd
import Verif.Props.KernelStack

/-! # Padded kernels -/

namespace MF
open Matrix Spec MeasureTheory ProbabilityTheory
variable {n d e o p : ℕ}

theorem augment_add (M N : Mat d d) :
    augmentSquareMatrix M e + augmentSquareMatrix N e true = augmentSquareMatrix (M + N) e := by
  unfold augmentSquareMatrix
  ext i j
  simp only [Matrix.add_apply, submatrix_apply]
  rcases finSumFinEquiv.symm i with a | a <;> rcases finSumFinEquiv.symm j with b | b <;> simp

theorem augment_sub' (M N : Mat d d) :
    augmentSquareMatrix M e true - augmentSquareMatrix N e true = augmentSquareMatrix (M - N) e true := by
  unfold augmentSquareMatrix
  ext i j
  simp only [Matrix.sub_apply, submatrix_apply]
  rcases finSumFinEquiv.symm i with a | a <;> rcases finSumFinEquiv.symm j with b | b <;> simp

theorem augment_submatrix (M : Mat d d) (b : Bool) :
    (augmentSquareMatrix M e b).submatrix (Fin.castAdd e) (Fin.castAdd e) = M := by
  unfold augmentSquareMatrix
  ext i j
  simp

theorem augment_posSemidef {M : Mat d d} (h : M.PosSemidef) : (augmentSquareMatrix M e).PosSemidef := by
  unfold augmentSquareMatrix
  refine PosSemidef.submatrix ?_ _
  simp only [if_neg Bool.false_ne_true, one_smul]
  exact posSemidef_blockdiag h PosSemidef.one

theorem augmentMatrix_castAdd (N : Mat o d) (i : Fin o) (a : Fin d) : augmentMatrix N e i (Fin.castAdd e a) = N i a := by
  simp [augmentMatrix]

theorem augmentMatrix_natAdd (N : Mat o d) (i : Fin o) (a : Fin e) : augmentMatrix N e i (Fin.natAdd d a) = 0 := by
  simp [augmentMatrix]

theorem augmentMatrix_mulVec (N : Mat o d) (x : Vec (d + e)) :
    augmentMatrix N e *ᵥ x = N *ᵥ (x ∘ Fin.castAdd e) := by
  funext i
  simp only [mulVec, dotProduct]
  rw [Fin.sum_univ_add]
  simp [augmentMatrix_castAdd, augmentMatrix_natAdd]

theorem augmentMatrix_conj (N N' : Mat o d) (X : Mat (d + e) (d + e)) :
    augmentMatrix N e * X * (augmentMatrix N' e)ᵀ =
      N * X.submatrix (Fin.castAdd e) (Fin.castAdd e) * N'ᵀ := by
  ext i j
  simp only [Matrix.mul_apply, transpose_apply, Fin.sum_univ_add, augmentMatrix_castAdd, augmentMatrix_natAdd, zero_mul, mul_zero,
    Finset.sum_const_zero, add_zero, submatrix_apply]

/-- The statistics of a padded bridge are those of the bridge, padded. -/
theorem condStats_augment {A₁ Q₁ A₂ Q₂ : Mat d d} (h₁ : Q₁ᵀ = Q₁) (h₂ : Q₂ᵀ = Q₂) {c' : CondStats (d + e)}
    (h : condStatsFromTransitions (augmentSquareMatrix A₁ e true) (augmentSquareMatrix Q₁ e) (augmentSquareMatrix A₂ e true)
      (augmentSquareMatrix Q₂ e) = .ok c') :
    ∃ c, condStatsFromTransitions A₁ Q₁ A₂ Q₂ = .ok c ∧ c'.D = augmentSquareMatrix c.D e true ∧
      c'.E = augmentSquareMatrix c.E e true ∧ c'.T = augmentSquareMatrix c.T e := by
  obtain ⟨hS, hE, hD, hT⟩ := condStats_ok (by rw [augment_transpose, h₁]) (by rw [augment_transpose, h₂]) h
  have e1 : augmentSquareMatrix Q₂ e + augmentSquareMatrix A₂ e true * augmentSquareMatrix Q₁ e *
      (augmentSquareMatrix A₂ e true)ᵀ = augmentSquareMatrix (Q₂ + A₂ * Q₁ * A₂ᵀ) e := by
    rw [augment_transpose, augment_mul, augment_mul]
    exact augment_add _ _
  have e2 : augmentSquareMatrix Q₁ e * (augmentSquareMatrix A₂ e true)ᵀ = augmentSquareMatrix (Q₁ * A₂ᵀ) e true := by
    rw [augment_transpose, augment_mul]; rfl
  have hg := gain_mul hS hE
  rw [e1] at hS hg
  rw [e2] at hg
  have hS' : (Q₂ + A₂ * Q₁ * A₂ᵀ).PosDef := by
    have := hS.submatrix (Fin.castAdd_injective d e)
    rwa [augment_submatrix] at this
  obtain ⟨c, hc⟩ := condStats_succeeds (A_mt := A₁) h₁ hS'
  obtain ⟨-, hE', hD', hT'⟩ := condStats_ok h₁ h₂ hc
  have hg' := gain_mul hS' hE'
  have hEE : c'.E = augmentSquareMatrix c.E e true := by
    have hu : IsUnit (augmentSquareMatrix (Q₂ + A₂ * Q₁ * A₂ᵀ) e) := hS.isUnit
    refine hu.mul_right_cancel ?_
    rw [hg, augment_mul, hg']; rfl
  refine ⟨c, hc, ?_, hEE, ?_⟩
  · rw [hD, hEE, augment_mul, augment_mul, hD', ← augment_sub']; rfl
  · rw [hT, hEE, augment_mul, augment_mul, hT', ← augment_sub]; rfl

/-- The child without its own jitter: what the stack uses of it. -/
noncomputable def bareChild (K : Stationary o d) : Stationary o d :=
  { Stationary.base K.stateTransitions K.feedback K.Pinf 0 0 K.emission with stateOffsets := fun _ _ => 0 }

theorem bareChild_core {K : Stationary o d} (h : Core K) : Core (bareChild K) :=
  ⟨h.time, h.zero, h.add, h.psd, h.contr, h.pos⟩

theorem bareChild_regular {K : Stationary o d} (h : Core K) : Regular (bareChild K) where
  noise t δ _ := by
    simp only [bareChild, Stationary.base, statTransitionNoise]
    rw [h.time]
  proc t δ _ := ⟨0, le_rfl, le_rfl, by
    simp only [bareChild, Stationary.base, statTransitionNoise]
    rw [h.time]⟩
  jit := le_rfl
  mean := rfl
  offs _ _ := rfl

theorem slice_trans (K : Stationary 1 d) (t δ : ℝ) : (stackSlice K e 0).trans t δ =
    (augmentSquareMatrix ((bareChild K).trans t δ).1 e true, augmentSquareMatrix ((bareChild K).trans t δ).2 e) := by
  simp only [Stationary.trans, stackSlice, bareChild, Stationary.base, statTransitionNoise, jitterMatrix_zero, add_zero]
  rw [augment_transpose, augment_mul, augment_mul]
  congr 1
  exact augment_sub _ _

theorem bare_noise_symm {K : Stationary o d} (h : Core K) (t δ : ℝ) :
    (((bareChild K).trans t δ).2)ᵀ = ((bareChild K).trans t δ).2 := by
  simp only [Stationary.trans, bareChild, Stationary.base, statTransitionNoise, jitterMatrix_zero, add_zero]
  rw [transpose_sub, transpose_mul, transpose_mul, transpose_transpose, h.statProc.symm, Matrix.mul_assoc]

theorem slice_codeStats {K : Stationary 1 d} (h : Core K) {inf : ℝ} {ts : Fin (n + 1) → ℝ} {t : ℝ} {c' : CondStats (d + e)}
    (hc : CodeStats inf ts (stackSlice K e 0).trans t c') :
    ∃ c, CodeStats inf ts (bareChild K).trans t c ∧ c'.D = augmentSquareMatrix c.D e true ∧
      c'.E = augmentSquareMatrix c.E e true ∧ c'.T = augmentSquareMatrix c.T e := by
  unfold CodeStats at hc ⊢
  simp only [slice_trans] at hc
  exact condStats_augment (bare_noise_symm h _ _) (bare_noise_symm h _ _) hc

theorem slice_codeStats_of {K : Stationary 1 d} (h : Core K) {inf : ℝ} {ts : Fin (n + 1) → ℝ} {t : ℝ} {c : CondStats d}
    (hc : CodeStats inf ts (bareChild K).trans t c) :
    ∃ c', CodeStats (d := d + e) inf ts (stackSlice K e 0).trans t c' := by
  unfold CodeStats at hc ⊢
  simp only [slice_trans]
  obtain ⟨hS, -⟩ := condStats_ok (bare_noise_symm h _ _) (bare_noise_symm h _ _) hc
  refine condStats_succeeds (by rw [augment_transpose, bare_noise_symm h]) ?_
  rw [augment_transpose, augment_mul, augment_mul]
  have := augment_posDef hS e
  rwa [← augment_add] at this

/-! ### the law of the states -/

theorem slice_isProcess {K : Stationary 1 d} (hc : Core K) (hr : Regular K) : (stackSlice K e 0).IsProcess
    (fun δ => augmentSquareMatrix (K.stateTransitions 0 δ) e true) (augmentSquareMatrix K.Pinf e) 0 := by
  refine ⟨fun t δ _ => ?_, fun t δ _ => ?_, ?_, ?_, fun s t _ _ => ?_, rfl, fun t δ _ => ?_, fun t => ?_⟩
  · simp only [stackSlice, Stationary.base]; rw [hc.time]
  · simp only [stackSlice, Stationary.base, statTransitionNoise, jitterMatrix_zero, add_zero]
    rw [hc.time]
  · simp only [stackSlice, Stationary.base, Stationary.initialCovariance, jitterMatrix_zero, add_zero]
  · rw [augment_transpose, hc.statProc.symm]
  · rw [augment_mul, hc.add]; rfl
  · simp only [stackSlice, hr.offs, mulVec_zero, sub_zero]
    funext i
    simp only [augmentVec, Function.comp]
    rcases finSumFinEquiv.symm i with a | a <;> rfl
  · simp only [stackSlice, Stationary.base]
    rw [augmentMatrix_mul, hc.zero, Matrix.mul_one]

/-- Where each coordinate of a padded vector comes from. -/
def padIdx : Fin (n + 1) × Fin (d + e) → (Fin (n + 1) × Fin d) ⊕ (Fin (n + 1) × Fin (d + e)) := fun i =>
  if h : (i.2 : ℕ) < d then .inl (i.1, ⟨i.2, h⟩) else .inr i

theorem padStates_eq (x : (Fin (n + 1) × Fin d) ⊕ (Fin (n + 1) × Fin (d + e)) → ℝ) :
    padStates (splitV x).1 (splitV x).2 = x ∘ padIdx := by
  funext i
  simp only [padStates, padIdx, splitV, Function.comp]
  split_ifs <;> rfl

theorem measurable_padStates {N D : ℕ} : Measurable fun x : (Fin N × Fin d → ℝ) × (Fin N × Fin D → ℝ) => padStates x.1 x.2 := by
  refine measurable_pi_lambda _ fun i => ?_
  simp only [padStates]
  split_ifs
  · fun_prop
  · fun_prop

theorem stdNormal_eq_gaussLaw {ι : Type*} [Fintype ι] [DecidableEq ι] : stdNormal ι = gaussLaw 0 (1 : Matrix ι ι ℝ) := by
  have := stdNormal_map_affine (0 : ι → ℝ) (1 : Matrix ι ι ℝ)
  simp only [one_mulVec, zero_add, transpose_one, Matrix.mul_one] at this
  rw [← this]
  exact Measure.map_id.symm

/-- The states of a padded kernel: those of the child, and independent standard normals. -/
theorem slice_ssm_law {K : Stationary 1 d} (hc : Core K) (hr : Regular K) {ts : Fin (n + 1) → ℝ} (hts : StrictMono ts)
    {s : SSM n (d + e)} (hs : (stackSlice K e 0).stateSpaceModel ts = .ok s) :
    s.law = ((gpLaw (fun _ => 0) (stateCov (K.stateTransitions 0) K.Pinf) ts).prod (stdNormal _)).map
      fun x => padStates x.1 x.2 := by
  have hp := slice_isProcess (e := e) hc hr
  obtain ⟨hd, hlow⟩ := hp.Kd hs
  have hpsd := hc.statProc.psd_any ts
  rw [stdNormal_eq_gaussLaw]
  unfold gpLaw
  rw [gaussLaw_prod hpsd PosSemidef.one, Measure.map_map measurable_padStates measurable_splitV]
  have hfun : ((fun x : (Fin (n + 1) × Fin d → ℝ) × (Fin (n + 1) × Fin (d + e) → ℝ) => padStates x.1 x.2) ∘ splitV) =
      fun x => x ∘ padIdx := funext padStates_eq
  rw [hfun, gaussLaw_comp (posSemidef_blockdiag hpsd PosSemidef.one), SSM.law_eq_gauss, hp.mus hs]
  congr 1
  · funext i
    simp only [padIdx, Function.comp]
    split_ifs <;> rfl
  · have hsymK : (s.Kd)ᵀ = s.Kd := (SSM.Kd_isJointCov (s := s)).symm
    set G : Matrix ((Fin (n + 1) × Fin d) ⊕ (Fin (n + 1) × Fin (d + e))) _ ℝ := fromBlocks (Matrix.of fun i j : Fin (n + 1) × Fin d =>
      stateCov (K.stateTransitions 0) K.Pinf (ts i.1) (ts j.1) i.2 j.2) 0 0 (1 : Matrix (Fin (n + 1) × Fin (d + e)) (Fin (n + 1) × Fin (d + e)) ℝ) with hG
    have hsymG : Gᵀ = G := isSymm_of_psd (posSemidef_blockdiag hpsd PosSemidef.one)
    have key : ∀ i j : Fin (n + 1), j ≤ i → ∀ a b, s.Kd (i, a) (j, b) = G (padIdx (i, a)) (padIdx (j, b)) := by
      intro i j hij a b
      have hblk : blk s.Kd i j = augmentSquareMatrix (stateCov (K.stateTransitions 0) K.Pinf (ts i) (ts j)) e (decide (j < i)) := by
        rcases hij.lt_or_eq with h | h
        · rw [hlow i j h, augment_mul, StatProc.cov_ge (hts.monotone hij), decide_eq_true h]; rfl
        · rw [h, hd, hc.statProc.cov_self]; simp
      have h1 : s.Kd (i, a) (j, b) = blk s.Kd i j a b := rfl
      rw [h1, hblk, hG]
      unfold augmentSquareMatrix
      refine Fin.addCases (fun a => ?_) (fun a => ?_) a <;> refine Fin.addCases (fun b => ?_) (fun b => ?_) b
      · simp [padIdx]
      · simp [padIdx]
      · simp [padIdx]
      · rcases hij.lt_or_eq with h | h
        · simp [padIdx, h, Matrix.one_apply, h.ne']
        · subst h
          simp [padIdx, Matrix.one_apply]
    ext ⟨i, a⟩ ⟨j, b⟩
    rw [submatrix_apply]
    rcases le_total j i with h | h
    · exact key i j h a b
    · rw [← hsymK, ← hsymG]
      exact key j i h b a

/-! ### the predictive law -/

/-- The prior of one slice of a stack: the states at `z` are those of the child's process followed by independent standard
normals up to dimension `D`; the latent values at `X` are the child's. -/
noncomputable def slicePrior (K : Stationary 1 d) (D : ℕ) (m : ℝ → ℝ) (z : Fin (n + 1) → ℝ) (X : Fin p → ℝ) :
    Measure ((Fin (n + 1) × Fin D → ℝ) × (Fin p × Fin 1 → ℝ)) :=
  ((priorLaw K z X).prod (stdNormal (Fin (n + 1) × Fin D))).map
    fun x => (padStates x.1.1 x.2, latentAt K (fun t _ => m t) X x.1.2)

theorem measurable_slice (K : Stationary 1 d) (D : ℕ) (m : ℝ → ℝ) (X : Fin p → ℝ) :
    Measurable fun x : ((Fin (n + 1) × Fin d → ℝ) × (Fin p × Fin d → ℝ)) × (Fin (n + 1) × Fin D → ℝ) =>
      (padStates x.1.1 x.2, latentAt K (fun t _ => m t) X x.1.2) := by
  have h1 : Measurable fun x : ((Fin (n + 1) × Fin d → ℝ) × (Fin p × Fin d → ℝ)) × (Fin (n + 1) × Fin D → ℝ) =>
      padStates x.1.1 x.2 :=
    measurable_padStates.comp ((measurable_fst.comp measurable_fst).prodMk measurable_snd)
  exact h1.prodMk ((measurable_latentAt K _ X).comp (measurable_snd.comp measurable_fst))

instance slicePrior_isProb (K : Stationary 1 d) (D : ℕ) (m : ℝ → ℝ) (z : Fin (n + 1) → ℝ) (X : Fin p → ℝ) :
    IsProbabilityMeasure (slicePrior K D m z X) :=
  Measure.isProbabilityMeasure_map (measurable_slice K D m X).aemeasurable

theorem slicePrior_fst (K : Stationary 1 d) (hc : Core K) (D : ℕ) (m : ℝ → ℝ) (z : Fin (n + 1) → ℝ) (X : Fin p → ℝ) :
    (slicePrior K D m z X).map Prod.fst = ((gpLaw (fun _ => 0) (stateCov (K.stateTransitions 0) K.Pinf) z).prod
      (stdNormal (Fin (n + 1) × Fin D))).map fun x => padStates x.1 x.2 := by
  unfold slicePrior
  rw [Measure.map_map measurable_fst (measurable_slice K D m X)]
  have h1 : (priorLaw K z X).map Prod.fst = gpLaw (fun _ => 0) (stateCov (K.stateTransitions 0) K.Pinf) z := by
    rw [priorLaw, Measure.map_map measurable_fst measurable_atTimes]
    exact gpLaw_comp hc.statProc (Sum.elim z X) Sum.inl
  have h2 := Measure.map_prod_map (priorLaw K z X) (stdNormal (Fin (n + 1) × Fin D)) measurable_fst measurable_id
  rw [h1, Measure.map_id] at h2
  rw [h2, Measure.map_map measurable_padStates (measurable_fst.prodMap measurable_id)]
  rfl

theorem slicePrior_snd {K : Stationary 1 d} {k} (hK : Builds K k) (D : ℕ) (m : ℝ → ℝ) (z : Fin (n + 1) → ℝ) (X : Fin p → ℝ) :
    (slicePrior K D m z X).map Prod.snd = gpLaw (fun t _ => m t) k X := by
  unfold slicePrior
  rw [Measure.map_map measurable_snd (measurable_slice K D m X), ← priorLaw_latent hK (fun t _ => m t) z X]
  have h1 : Measurable fun x : (Fin (n + 1) × Fin d → ℝ) × (Fin p × Fin d → ℝ) => latentAt K (fun t _ => m t) X x.2 :=
    (measurable_latentAt K _ X).comp measurable_snd
  conv_rhs => rw [← (measurePreserving_fst (μ := priorLaw K z X) (ν := stdNormal (Fin (n + 1) × Fin D))).map_eq]
  rw [Measure.map_map h1 measurable_fst]
  rfl

/-- `u ↦ law of φ(u, w)`, `w ~ G`, as a Markov kernel. -/
theorem exists_kernel_of {U W F : Type*} [MeasurableSpace U] [MeasurableSpace W] [MeasurableSpace F] (G : Measure W)
    [IsProbabilityMeasure G] {φ : U × W → F} (hφ : Measurable φ) :
    ∃ k : Kernel U F, IsMarkovKernel k ∧ ∀ q : Measure U, IsProbabilityMeasure q →
      q.compProd k = (q.prod G).map fun x => (x.1, φ x) := by
  have hm2 : Measurable fun x : U × W => (x.1, φ x) := measurable_fst.prodMk hφ
  let k : Kernel U F := ((Kernel.id ×ₖ Kernel.const _ G) : Kernel U _).map φ
  have hk : IsMarkovKernel k := Kernel.IsMarkovKernel.map _ hφ
  refine ⟨k, hk, fun q _ => ?_⟩
  ext s hs
  rw [Measure.compProd_apply hs, Measure.map_apply hm2 hs, Measure.prod_apply (hm2 hs)]
  refine lintegral_congr fun u => ?_
  have hsu : MeasurableSet (Prod.mk u ⁻¹' s) := measurable_prodMk_left hs
  rw [Kernel.map_apply' _ hφ _ hsu, Kernel.prod_apply, Kernel.id_apply, Kernel.const_apply,
    Measure.prod_apply (hφ hsu), lintegral_dirac' _ (measurable_measure_prodMk_left (hφ hsu))]
  rfl

/-- Forget the padding. -/
def unpad (u : Fin (n + 1) × Fin (d + e) → ℝ) : Fin (n + 1) × Fin d → ℝ := fun i => u (i.1, Fin.castAdd e i.2)

theorem unpad_pad (u : Fin (n + 1) × Fin d → ℝ) (ξ : Fin (n + 1) × Fin (d + e) → ℝ) : unpad (padStates u ξ) = u := by
  funext i
  simp [unpad, padStates]

theorem measurable_unpad : Measurable (unpad (n := n) (d := d) (e := e)) := by unfold unpad; fun_prop

/-- The swap of the last two of three independent parts. -/
theorem prod_swap_right {U W N : Type*} [MeasurableSpace U] [MeasurableSpace W] [MeasurableSpace N] (μ : Measure U)
    (G : Measure W) (ξ : Measure N) [IsProbabilityMeasure μ] [IsProbabilityMeasure G] [IsProbabilityMeasure ξ] :
    ((μ.prod G).prod ξ) = ((μ.prod ξ).prod G).map fun x => ((x.1.1, x.2), x.1.2) := by
  have hm : Measurable fun x : (U × N) × W => ((x.1.1, x.2), x.1.2) := by fun_prop
  have : IsProbabilityMeasure (((μ.prod ξ).prod G).map fun x => ((x.1.1, x.2), x.1.2)) :=
    Measure.isProbabilityMeasure_map hm.aemeasurable
  have h1 : (μ.prod G).prod ξ = (μ.prod (G.prod ξ)).map (MeasurableEquiv.prodAssoc (α := U) (β := W) (γ := N)).symm := by
    rw [← MeasurableEquiv.map_apply_eq_iff_map_symm_apply_eq]
    exact (measurePreserving_prodAssoc μ G ξ).map_eq
  have h2 : (μ.prod ξ).prod G = (μ.prod (ξ.prod G)).map (MeasurableEquiv.prodAssoc (α := U) (β := N) (γ := W)).symm := by
    rw [← MeasurableEquiv.map_apply_eq_iff_map_symm_apply_eq]
    exact (measurePreserving_prodAssoc μ ξ G).map_eq
  rw [h1, h2, Measure.map_map hm (MeasurableEquiv.measurable _), ← Measure.prod_swap (μ := ξ) (ν := G)]
  have h3 := Measure.map_prod_map μ (ξ.prod G) measurable_id measurable_swap
  rw [Measure.map_id] at h3
  rw [h3, Measure.map_map (MeasurableEquiv.measurable _) (measurable_id.prodMap measurable_swap)]
  rfl

section predict
variable {K : Stationary 1 d} {m : ℝ → ℝ} {z : Fin (n + 1) → ℝ} {X : Fin p → ℝ}

/-- The predictive law of a slice, from the bridge statistics of the child. -/
theorem slice_predictive (hc : Core K) (hz : Monotone z) {k : Fin p → Fin n} {cs : Fin p → CondStats d}
    (hb : Bridges (K.stateTransitions 0) K.Pinf z X k cs) (q : Measure (Fin (n + 1) × Fin (d + e) → ℝ))
    [IsProbabilityMeasure q] :
    ∃ ν, IsPredictive (slicePrior K (d + e) m z X) q ν ∧
      ν.map Prod.snd = (predLaw (K.stateTransitions 0) K.Pinf z X k cs (q.map unpad)).map
        (fun x => latentAt K (fun t _ => m t) X x.2) ∧
      ν = (q.prod (gaussLaw 0 (residCov (K.stateTransitions 0) K.Pinf z X k cs))).map
        fun x => (x.1, latentAt K (fun t _ => m t) X (projMat k cs *ᵥ unpad x.1 + x.2)) := by
  have hlat := measurable_latentAt K (fun t _ => m t) X
  have hlat2 : Measurable fun x : (Fin (n + 1) × Fin d → ℝ) × (Fin p × Fin d → ℝ) => latentAt K (fun t _ => m t) X x.2 :=
    hlat.comp measurable_snd
  have hφ : Measurable fun x : (Fin (n + 1) × Fin (d + e) → ℝ) × (Fin p × Fin d → ℝ) =>
      latentAt K (fun t _ => m t) X (projMat k cs *ᵥ unpad x.1 + x.2) :=
    hlat.comp ((measurable_mulVec' _ (measurable_unpad.comp measurable_fst)).add measurable_snd)
  obtain ⟨κ, hκ, hq⟩ := exists_kernel_of (gaussLaw 0 (residCov (K.stateTransitions 0) K.Pinf z X k cs)) hφ
  have : IsProbabilityMeasure (q.map (unpad (n := n) (d := d) (e := e))) :=
    Measure.isProbabilityMeasure_map measurable_unpad.aemeasurable
  refine ⟨q.compProd κ, ⟨κ, hκ, ?_, rfl⟩, ?_, hq q inferInstance⟩
  · have hp1 := gpLaw_isProb (fun _ => (0 : Vec d)) (stateCov (K.stateTransitions 0) K.Pinf) z
    have hpf : IsProbabilityMeasure ((slicePrior K (d + e) m z X).map Prod.fst) :=
      Measure.isProbabilityMeasure_map measurable_fst.aemeasurable
    rw [hq _ hpf, slicePrior_fst K hc]
    unfold slicePrior
    rw [priorLaw, hb.prior hc.statProc hz]
    have h1 := Measure.map_prod_map ((gpLaw (fun _ => 0) (stateCov (K.stateTransitions 0) K.Pinf) z).prod
      (gaussLaw 0 (residCov (K.stateTransitions 0) K.Pinf z X k cs))) (stdNormal (Fin (n + 1) × Fin (d + e)))
      (measurable_predLaw k cs) measurable_id
    have h2 := Measure.map_prod_map ((gpLaw (fun _ => 0) (stateCov (K.stateTransitions 0) K.Pinf) z).prod
      (stdNormal (Fin (n + 1) × Fin (d + e)))) (gaussLaw 0 (residCov (K.stateTransitions 0) K.Pinf z X k cs))
      (measurable_padStates (N := n + 1) (d := d) (D := d + e)) measurable_id
    rw [Measure.map_id] at h1 h2
    rw [h1, h2, Measure.map_map (measurable_slice K (d + e) m X) ((measurable_predLaw k cs).prodMap measurable_id),
      Measure.map_map (measurable_fst.prodMk hφ) (measurable_padStates.prodMap measurable_id), prod_swap_right,
      Measure.map_map ((measurable_slice K (d + e) m X).comp ((measurable_predLaw k cs).prodMap measurable_id)) (by fun_prop)]
    congr 1
    funext x
    simp only [Function.comp, Prod.map, id, unpad_pad]
  · rw [hq q inferInstance, Measure.map_map measurable_snd (measurable_fst.prodMk hφ)]
    unfold predLaw
    have h1 := Measure.map_prod_map q (gaussLaw 0 (residCov (K.stateTransitions 0) K.Pinf z X k cs))
      (measurable_unpad (n := n) (d := d) (e := e)) measurable_id
    rw [Measure.map_id] at h1
    rw [h1, Measure.map_map (measurable_predLaw k cs) (measurable_unpad.prodMap measurable_id),
      Measure.map_map hlat2 ((measurable_predLaw k cs).comp (measurable_unpad.prodMap measurable_id))]
    rfl

/-- The emission of a padded kernel sees only the child's part of a predicted state. -/
theorem slice_emission (K : Stationary 1 d) (t : ℝ) : (stackSlice K e 0).emission t = augmentMatrix (K.emission t) e := rfl

theorem slice_project (H : Mat 1 d) (D E T : Mat d d) (x y : Vec (d + e)) (a b c f : Mat (d + e) (d + e)) (β : Bool) :
    augmentMatrix H e *ᵥ (augmentSquareMatrix D e true *ᵥ x + augmentSquareMatrix E e true *ᵥ y) =
      H *ᵥ (D *ᵥ (x ∘ Fin.castAdd e) + E *ᵥ (y ∘ Fin.castAdd e)) ∧
    augmentMatrix H e * (augmentSquareMatrix T e β + fromCols (augmentSquareMatrix D e true) (augmentSquareMatrix E e true) *
        fromBlocks a b c f * (fromCols (augmentSquareMatrix D e true) (augmentSquareMatrix E e true))ᵀ) * (augmentMatrix H e)ᵀ =
      H * (T + fromCols D E * fromBlocks (a.submatrix (Fin.castAdd e) (Fin.castAdd e)) (b.submatrix (Fin.castAdd e) (Fin.castAdd e))
        (c.submatrix (Fin.castAdd e) (Fin.castAdd e)) (f.submatrix (Fin.castAdd e) (Fin.castAdd e)) * (fromCols D E)ᵀ) * Hᵀ := by
  constructor
  · rw [mulVec_add, mulVec_mulVec, mulVec_mulVec, augmentMatrix_mul, augmentMatrix_mul, augmentMatrix_mulVec, augmentMatrix_mulVec,
      mulVec_add, mulVec_mulVec, mulVec_mulVec]
  · have h1 : ∀ (M N : Mat d d) (Z : Mat (d + e) (d + e)), augmentMatrix H e * (augmentSquareMatrix M e true * Z *
        (augmentSquareMatrix N e true)ᵀ) * (augmentMatrix H e)ᵀ =
        H * (M * Z.submatrix (Fin.castAdd e) (Fin.castAdd e) * Nᵀ) * Hᵀ := by
      intro M N Z
      have e1 : augmentMatrix H e * (augmentSquareMatrix M e true * Z * (augmentSquareMatrix N e true)ᵀ) * (augmentMatrix H e)ᵀ =
          (augmentMatrix H e * augmentSquareMatrix M e true) * Z * (augmentMatrix H e * augmentSquareMatrix N e true)ᵀ := by
        rw [transpose_mul]; simp only [Matrix.mul_assoc]
      rw [e1, augmentMatrix_mul, augmentMatrix_mul, augmentMatrix_conj, transpose_mul]
      simp only [Matrix.mul_assoc]
    have h2 : augmentMatrix H e * augmentSquareMatrix T e β * (augmentMatrix H e)ᵀ = H * T * Hᵀ := by
      rw [augmentMatrix_mul, augmentMatrix_mul_transpose]
    simp only [transpose_fromCols, fromCols_mul_fromBlocks, fromCols_mul_fromRows, Matrix.mul_add, Matrix.add_mul, h1, h2]

/-- `predict_state` of a slice, seen through the emission: marginals of the predictive law. -/
theorem slice_predict (hc : Core K) {c : CondProcess n 1 (d + e)} (hk : c.kernel = stackSlice K e 0)
    (hq : c.q.Nondegenerate) (hn : 0 < n) (hts : Monotone c.times)
    (hinf : -approxInf < c.times 0) (hsup : c.times (Fin.last n) ≤ approxInf)
    (h0 : ∀ j, c.times 0 ≤ X j) (h1 : ∀ j, X j ≤ c.times (Fin.last n)) {r} (h : c.predictState X = .ok r) :
    ∃ ν, IsPredictive (slicePrior K (d + e) m c.times X) c.q.law ν ∧ ∀ j,
      0 ≤ (c.kernel.emission (X j) * (r j).2 * (c.kernel.emission (X j))ᵀ) 0 0 ∧
      ν.map (fun x => x.2 (j, 0)) = gaussianReal ((c.kernel.emission (X j) *ᵥ (r j).1) 0 + m (X j))
        ((c.kernel.emission (X j) * (r j).2 * (c.kernel.emission (X j))ᵀ) 0 0).toNNReal := by
  have hd : 0 < d + e := Nat.add_pos_left hc.pos e
  obtain ⟨cs', hcs', mu, C, S, rfl, rfl, rfl, hres⟩ := predictState_ok hq hn hd h
  rw [hk] at hcs' hres
  choose cs hcs hD hE hT using fun j => slice_codeStats hc (hcs' j)
  obtain ⟨k, c1, hb, hcase⟩ := interior_stats (bareChild_core hc) (bareChild_regular hc) rfl hn hts hinf hsup h0 h1 hcs
  replace hb : Bridges (K.stateTransitions 0) K.Pinf c.times X k c1 := hb
  have hpq : IsProbabilityMeasure c.q.law := by rw [SSM.law_eq_gauss]; infer_instance
  obtain ⟨ν, hν, hsnd, -⟩ := slice_predictive (m := m) hc hts hb c.q.law
  refine ⟨ν, hν, fun j => ?_⟩
  have hun : c.q.law.map (unpad (n := n) (d := d) (e := e)) =
      gaussLaw (unpad (stk c.q.mus)) (c.q.Kd.submatrix (fun i : Fin (n + 1) × Fin d => (i.1, Fin.castAdd e i.2))
        fun i => (i.1, Fin.castAdd e i.2)) := by
    rw [SSM.law_eq_gauss]
    exact gaussLaw_comp c.q.Kd_posSemidef _ _
  have hpsd := c.q.Kd_posSemidef.submatrix (fun i : Fin (n + 1) × Fin d => (i.1, Fin.castAdd e i.2))
  have hmarg := hb.marginal hc.statProc hts (μ := unpad (stk c.q.mus)) hpsd j
  rw [← hun] at hmarg
  set V : Mat d d := (c1 j).T + fromCols (c1 j).D (c1 j).E *
      fromBlocks (blk (c.q.Kd.submatrix (fun i : Fin (n + 1) × Fin d => (i.1, Fin.castAdd e i.2))
          fun i => (i.1, Fin.castAdd e i.2)) (k j).castSucc (k j).castSucc)
        (blk (c.q.Kd.submatrix (fun i : Fin (n + 1) × Fin d => (i.1, Fin.castAdd e i.2))
          fun i => (i.1, Fin.castAdd e i.2)) (k j).castSucc (k j).succ)
        (blk (c.q.Kd.submatrix (fun i : Fin (n + 1) × Fin d => (i.1, Fin.castAdd e i.2))
          fun i => (i.1, Fin.castAdd e i.2)) (k j).succ (k j).castSucc)
        (blk (c.q.Kd.submatrix (fun i : Fin (n + 1) × Fin d => (i.1, Fin.castAdd e i.2))
          fun i => (i.1, Fin.castAdd e i.2)) (k j).succ (k j).succ) * (fromCols (c1 j).D (c1 j).E)ᵀ with hV
  set M : Vec d := (c1 j).D *ᵥ unstk (unpad (stk c.q.mus)) (k j).castSucc +
    (c1 j).E *ᵥ unstk (unpad (stk c.q.mus)) (k j).succ with hM
  have hVpsd : V.PosSemidef := by
    have hR := hb.resid_psd hc.statProc hts
    have hT1 : ((c1 j).T).PosSemidef := by
      rw [← hb.resid hc.statProc hts j]
      exact hR.submatrix _
    refine hT1.add (posSemidef_conj' ?_ _)
    have := hpsd.submatrix (Sum.elim (fun a : Fin d => ((k j).castSucc, a)) fun a => ((k j).succ, a))
    convert this using 1
    ext a b
    cases a <;> cases b <;> rfl
  have hKd : (c.q.Kd)ᵀ = c.q.Kd := (SSM.Kd_isJointCov (s := c.q)).symm
  -- the code's outputs
  have hout : c.kernel.emission (X j) *ᵥ (r j).1 = K.emission (X j) *ᵥ M ∧
      c.kernel.emission (X j) * (r j).2 * (c.kernel.emission (X j))ᵀ = K.emission (X j) * V * (K.emission (X j))ᵀ := by
    rw [hk, slice_emission, hres j, hD j, hE j, hT j]
    refine ⟨((slice_project (K.emission (X j)) (cs j).D (cs j).E (cs j).T _ _ 0 0 0 0 true).1).trans ?_,
      ((slice_project (K.emission (X j)) (cs j).D (cs j).E (cs j).T 0 0 _ _ _ _ false).2).trans ?_⟩
    · rcases hcase j with ⟨hkj, hcj⟩ | ⟨-, hs, hkj, hcj, hcj'⟩
      · have e1 : (k j).castSucc.succ.castSucc = (k j).castSucc.castSucc.succ := rfl
        have e2 : (k j).castSucc.succ.succ = (k j).succ.castSucc.succ := rfl
        simp only [hkj, e1, e2, Fin.cons_succ, Fin.snoc_castSucc, hM, hcj]
        rfl
      · rw [hcj, hM, hcj', hs, hkj]
        have e2 : (Fin.succ 0 : Fin (n + 3)) = (Fin.castSucc 0 : Fin (n + 2)).succ := rfl
        simp only [e2, Fin.cons_succ, Fin.snoc_castSucc, one_mulVec, zero_mulVec, zero_add, add_zero]
        rfl
    · rcases hcase j with ⟨hkj, hcj⟩ | ⟨-, hs, hkj, hcj, hcj'⟩
      · have e1 : (k j).castSucc.succ.castSucc = (k j).castSucc.castSucc.succ := rfl
        have e2 : (k j).castSucc.succ.succ = (k j).succ.castSucc.succ := rfl
        simp only [hkj, e1, e2, Fin.cons_succ, Fin.snoc_castSucc, hV, hcj, blk_transpose_symm hKd]
        rfl
      · rw [hcj, hV, hcj', hs, hkj]
        have e2 : (Fin.succ 0 : Fin (n + 3)) = (Fin.castSucc 0 : Fin (n + 2)).succ := rfl
        simp only [e2, Fin.cons_succ, Fin.snoc_castSucc, zero_add, add_zero,
          fromCols_mul_fromBlocks, transpose_fromCols, fromCols_mul_fromRows, Matrix.one_mul, Matrix.zero_mul,
          transpose_one, transpose_zero, Matrix.mul_one, Matrix.mul_zero]
        rfl
  have hHV := posSemidef_conj' hVpsd (K.emission (X j))
  refine ⟨by rw [hout.2]; exact hHV.diag_nonneg, ?_⟩
  rw [hout.1, hout.2]
  have hev : Measurable fun f : Fin p × Fin 1 → ℝ => f (j, 0) := measurable_pi_apply _
  have hlat := measurable_latentAt K (fun t _ => m t) X
  have hlat2 : Measurable fun x : (Fin (n + 1) × Fin d → ℝ) × (Fin p × Fin d → ℝ) => latentAt K (fun t _ => m t) X x.2 :=
    hlat.comp measurable_snd
  have hA := measurable_affine (fun _ : Fin 1 => m (X j)) (K.emission (X j))
  have hMm : Measurable fun x : (Fin (n + 1) × Fin d → ℝ) × (Fin p × Fin d → ℝ) => fun a : Fin d => x.2 (j, a) := by
    fun_prop
  have e3 : ν.map (fun x => x.2 (j, 0)) = (ν.map Prod.snd).map fun f => f (j, 0) := by
    rw [Measure.map_map hev measurable_snd]; rfl
  rw [e3, hsnd, Measure.map_map hev hlat2,
    show (fun f : Fin p × Fin 1 → ℝ => f (j, 0)) ∘ (fun x : (Fin (n + 1) × Fin d → ℝ) × (Fin p × Fin d → ℝ) =>
        latentAt K (fun t _ => m t) X x.2) = (fun y : Fin 1 → ℝ => y 0) ∘
      (fun x => (fun _ : Fin 1 => m (X j)) + K.emission (X j) *ᵥ x) ∘ (fun x => fun a : Fin d => x.2 (j, a)) from
      funext fun x => add_comm _ _,
    ← Measure.map_map (measurable_pi_apply 0) (hA.comp hMm), ← Measure.map_map hA hMm, hmarg,
    gaussLaw_map_affine hVpsd, gaussLaw_eval hHV, add_comm]
  rfl

end predict

theorem slice_succeeds {K : Stationary 1 d} {k} (hB : Builds K k) (hN : NoiseTag K true) {c : CondProcess n 1 (d + e)}
    (hk : c.kernel = stackSlice K e 0) (hq : c.q.Nondegenerate) (hn : 0 < n) (hts : Monotone c.times) {X : Fin p → ℝ}
    (h0 : ∀ j, -approxInf < X j) (h1 : ∀ j, X j ≤ approxInf) : ∃ r, c.predictState X = .ok r := by
  obtain ⟨hc, -, -⟩ := Builds.good hB
  have hno := (NoiseTag.noisy hN).2
  have hb := bareChild_core hc
  have hbr := bareChild_regular hc
  have : ∀ j, ∃ cs, CodeStats approxInf c.times c.kernel.trans (X j) cs := by
    intro j
    obtain ⟨hl, hr⟩ := augmented_between hts (h0 j) (h1 j)
    have hs : ∃ cs, CodeStats approxInf c.times (bareChild K).trans (X j) cs := by
      unfold CodeStats
      rw [trans_eq hb hbr rfl _ (sub_pos.2 hl).le, trans_eq hb hbr rfl _ (sub_nonneg.2 hr)]
      have hp := hno.strict rfl _ (sub_pos.2 hl)
      have hps := hc.contr _ (sub_nonneg.2 hr)
      refine (C21_succeeds hp.posSemidef hps).1.2 ?_
      have := (Matrix.IsUnit.posDef_star_right_conjugate_iff (hc.isUnit (augmentedTimes approxInf c.times
        (searchsortedLeft c.times (X j)).succ - X j))).2 hp
      rw [star_eq_conjTranspose, conjTranspose_eq_transpose_of_trivial] at this
      exact PosDef.posSemidef_add hps this
    obtain ⟨cs, hcs⟩ := hs
    rw [hk]
    exact slice_codeStats_of hc hcs
  choose cs hcs using this
  exact predictState_of hq hn (Nat.add_pos_left hc.pos e) hcs

/-- Everything about one batch entry of a stack. -/
theorem slice_all {D : ℕ} {K : Stationary 1 d} {k} (hB : Builds K k) (hN : NoiseTag K true) (he : d + e = D) {S : Stationary 1 D}
    (hS : S = he ▸ stackSlice K e 0) {q : SSM n D} (hq : q.Nondegenerate) (hn : 0 < n) {z : Fin (n + 1) → ℝ} (hz : StrictMono z)
    (hl : -approxInf < z 0) (hu : z (Fin.last n) ≤ approxInf) {X : Fin p → ℝ} (h0 : ∀ j, z 0 ≤ X j)
    (h1 : ∀ j, X j ≤ z (Fin.last n)) (m : ℝ → ℝ) :
    (0 < D ∧ ∃ s : SSM n D, S.stateSpaceModel z = .ok s ∧ s.Nondegenerate ∧ s.law = (slicePrior K D m z X).map Prod.fst) ∧
    ∃ r ν, CondProcess.predictState ⟨q, S, z, fun t _ => m t⟩ X = .ok r ∧ IsPredictive (slicePrior K D m z X) q.law ν ∧
      ∀ j, 0 ≤ (S.emission (X j) * (r j).2 * (S.emission (X j))ᵀ) 0 0 ∧
        ν.map (fun x => x.2 (j, 0)) = gaussianReal ((S.emission (X j) *ᵥ (r j).1) 0 + m (X j))
          ((S.emission (X j) * (r j).2 * (S.emission (X j))ᵀ) 0 0).toNNReal := by
  subst he
  subst hS
  obtain ⟨hc, hr, -⟩ := Builds.good hB
  obtain ⟨s, hs, hnd⟩ := C29_stack_succeeds hB hN e le_rfl hn hz
  refine ⟨⟨Nat.add_pos_left hc.pos e, s, hs, hnd, ?_⟩, ?_⟩
  · rw [slicePrior_fst K hc, slice_ssm_law hc hr hz hs]
  · have hX0 : ∀ j, -approxInf < X j := fun j => lt_of_lt_of_le hl (h0 j)
    have hX1 : ∀ j, X j ≤ approxInf := fun j => (h1 j).trans hu
    obtain ⟨r, hr⟩ := slice_succeeds (c := ⟨q, stackSlice K e 0, z, fun t _ => m t⟩) hB hN rfl hq hn hz.monotone hX0 hX1
    obtain ⟨ν, hν, hmarg⟩ := slice_predict (m := m) (c := ⟨q, stackSlice K e 0, z, fun t _ => m t⟩) hc rfl hq hn hz.monotone hl hu
      h0 h1 hr
    exact ⟨r, ν, hr, hν, hmarg⟩

end MF
