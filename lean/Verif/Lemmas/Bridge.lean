import Verif.Model.Conditionals
import Verif.Spec.Bridge
import Verif.Lemmas.KernelLaw
import Mathlib.LinearAlgebra.Matrix.SchurComplement
import Mathlib.MeasureTheory.Constructions.Pi
import Mathlib.MeasureTheory.Measure.Prod

/-! # Gaussian conditioning and bridges -/

namespace MF
open Matrix Spec MeasureTheory ProbabilityTheory

section gauss
variable {ι κ : Type*} [Fintype ι] [Fintype κ] [DecidableEq ι] [DecidableEq κ]

/-- Split a vector indexed by a sum type. -/
def splitV (x : ι ⊕ κ → ℝ) : (ι → ℝ) × (κ → ℝ) := (fun i => x (.inl i), fun k => x (.inr k))

omit [Fintype ι] [Fintype κ] [DecidableEq ι] [DecidableEq κ] in
theorem measurable_splitV : Measurable (splitV : (ι ⊕ κ → ℝ) → _) := by
  unfold splitV; fun_prop

instance gaussLaw_isProb (m : ι → ℝ) (K : Matrix ι ι ℝ) : IsProbabilityMeasure (gaussLaw m K) := by
  unfold gaussLaw
  exact Measure.isProbabilityMeasure_map (by fun_prop)

instance stdNormal_isProb : IsProbabilityMeasure (stdNormal ι) := by
  unfold stdNormal; infer_instance

theorem stdNormal_split :
    (stdNormal (ι ⊕ κ)).map splitV = (stdNormal ι).prod (stdNormal κ) :=
  (measurePreserving_sumPiEquivProdPi (fun _ : ι ⊕ κ => gaussianReal 0 1)).map_eq

theorem isSymm_of_psd {K : Matrix ι ι ℝ} (h : K.PosSemidef) : Kᵀ = K := by
  have := h.isHermitian
  rwa [IsHermitian, conjTranspose_eq_transpose_of_trivial] at this

/-- Independent Gaussians are jointly Gaussian with block diagonal covariance. -/
theorem gaussLaw_prod {K₁ : Matrix ι ι ℝ} {K₂ : Matrix κ κ ℝ} (h₁ : K₁.PosSemidef)
    (h₂ : K₂.PosSemidef) (m₁ : ι → ℝ) (m₂ : κ → ℝ) :
    (gaussLaw m₁ K₁).prod (gaussLaw m₂ K₂) =
      (gaussLaw (Sum.elim m₁ m₂) (fromBlocks K₁ 0 0 K₂)).map splitV := by
  obtain ⟨C₁, hC₁, e₁⟩ := gaussLaw_eq_map h₁
  obtain ⟨C₂, hC₂, e₂⟩ := gaussLaw_eq_map h₂
  have hC : fromBlocks K₁ 0 0 K₂ = fromBlocks C₁ 0 0 C₂ * (fromBlocks C₁ 0 0 C₂)ᵀ := by
    rw [fromBlocks_transpose, fromBlocks_multiply, hC₁.symm, hC₂.symm]
    simp
  rw [hC, ← stdNormal_map_affine, e₁, e₂,
    Measure.map_prod_map _ _ (measurable_affine _ _) (measurable_affine _ _), ← stdNormal_split,
    Measure.map_map _ measurable_splitV, Measure.map_map measurable_splitV (measurable_affine _ _)]
  · congr 1
    funext e
    have he : e = Sum.elim (fun i => e (.inl i)) (fun k => e (.inr k)) := by
      funext x; cases x <;> rfl
    conv_rhs => rw [he]
    simp only [Function.comp, splitV, Prod.map, Pi.add_apply, fromBlocks_mulVec, Sum.elim_inl,
      Sum.elim_inr, zero_mulVec, add_zero, zero_add, Sum.elim_comp_inl, Sum.elim_comp_inr]
    rfl
  · exact (measurable_affine _ _).prodMap (measurable_affine _ _)

theorem posSemidef_blockdiag {K₁ : Matrix ι ι ℝ} {K₂ : Matrix κ κ ℝ} (h₁ : K₁.PosSemidef)
    (h₂ : K₂.PosSemidef) : (fromBlocks K₁ 0 0 K₂).PosSemidef := by
  obtain ⟨C₁, hC₁, -⟩ := gaussLaw_eq_map h₁
  obtain ⟨C₂, hC₂, -⟩ := gaussLaw_eq_map h₂
  have hC : fromBlocks K₁ 0 0 K₂ = fromBlocks C₁ 0 0 C₂ * (fromBlocks C₁ 0 0 C₂)ᵀ := by
    rw [fromBlocks_transpose, fromBlocks_multiply, hC₁.symm, hC₂.symm]
    simp
  rw [hC]; exact posSemidef_mul_transpose _

/-- Residual covariance. -/
theorem residual_psd {Kuu : Matrix ι ι ℝ} {Kss : Matrix κ κ ℝ} {P : Matrix κ ι ℝ}
    (hJ : (fromBlocks Kuu (P * Kuu)ᵀ (P * Kuu) Kss).PosSemidef) (hu : Kuuᵀ = Kuu) :
    (Kss - P * Kuu * Pᵀ).PosSemidef := by
  have h := hJ.mul_mul_conjTranspose_same (fromCols (-P) (1 : Matrix κ κ ℝ))
  rw [conjTranspose_eq_transpose_of_trivial] at h
  convert h using 1
  rw [transpose_fromCols, fromCols_mul_fromBlocks, fromCols_mul_fromRows, transpose_mul, hu]
  simp only [transpose_neg, transpose_one, Matrix.neg_mul, Matrix.mul_neg, Matrix.one_mul,
    Matrix.mul_one, neg_add_cancel, Matrix.zero_mul, neg_zero, zero_add, Matrix.mul_assoc,
    sub_eq_add_neg]
  abel

/-- Gaussian conditioning, as a statement about joint laws: if `Cov(s, u) = P Cov(u, u)`, then
`(u, s)` has the law of `(u, m₂ + P (u - m₁) + w)` with `w` independent of `u`. -/
theorem gauss_disintegrate {Kuu : Matrix ι ι ℝ} {Kss : Matrix κ κ ℝ} {P : Matrix κ ι ℝ}
    (hJ : (fromBlocks Kuu (P * Kuu)ᵀ (P * Kuu) Kss).PosSemidef) (hu : Kuu.PosSemidef)
    (m₁ : ι → ℝ) (m₂ : κ → ℝ) :
    (gaussLaw (Sum.elim m₁ m₂) (fromBlocks Kuu (P * Kuu)ᵀ (P * Kuu) Kss)).map splitV =
      ((gaussLaw m₁ Kuu).prod (gaussLaw 0 (Kss - P * Kuu * Pᵀ))).map
        fun x => (x.1, m₂ + P *ᵥ (x.1 - m₁) + x.2) := by
  have hr := residual_psd hJ (isSymm_of_psd hu)
  have hus := isSymm_of_psd hu
  rw [gaussLaw_prod hu hr, Measure.map_map _ measurable_splitV]
  swap
  · refine measurable_fst.prodMk ?_
    exact (((measurable_mulVec P).comp (measurable_fst.sub_const m₁)).const_add m₂).add measurable_snd
  have hf : (fun x : (ι → ℝ) × (κ → ℝ) => (x.1, m₂ + P *ᵥ (x.1 - m₁) + x.2)) ∘ splitV =
      splitV ∘ fun x : ι ⊕ κ → ℝ => Sum.elim (0 : ι → ℝ) (m₂ - P *ᵥ m₁) + fromBlocks 1 0 P 1 *ᵥ x := by
    funext e
    have he : e = Sum.elim (fun i => e (.inl i)) (fun k => e (.inr k)) := by
      funext x; cases x <;> rfl
    conv_rhs => rw [he]
    simp only [Function.comp, splitV, fromBlocks_mulVec, Pi.add_apply, Sum.elim_inl, Sum.elim_inr,
      zero_mulVec, add_zero, one_mulVec, Sum.elim_comp_inl, Sum.elim_comp_inr]
    refine Prod.ext ?_ ?_
    · funext i; simp
    · funext k
      have : (P *ᵥ ((fun i => e (.inl i)) - m₁)) = P *ᵥ (fun i => e (.inl i)) - P *ᵥ m₁ := mulVec_sub _ _ _
      simp only [Pi.add_apply, this, Pi.sub_apply]
      ring
  rw [hf, ← Measure.map_map measurable_splitV (measurable_affine _ _),
    gaussLaw_map_affine (posSemidef_blockdiag hu hr)]
  congr 2
  · rw [fromBlocks_mulVec]
    funext x
    cases x with
    | inl i => simp
    | inr k => simp
  · rw [fromBlocks_transpose, fromBlocks_multiply, fromBlocks_multiply, transpose_mul, hus]
    congr 1
    · simp
    · simp
    · simp
    · simp only [transpose_one, Matrix.mul_one, Matrix.one_mul, Matrix.mul_zero, Matrix.zero_mul, add_zero, zero_add]
      abel

end gauss

/-! ### the statistics -/
variable {d : ℕ}

theorem innovation_eq {A_tp Q_mt Q_tp : Mat d d} (h : Q_mtᵀ = Q_mt) :
    Q_tp + A_tp * (A_tp * Q_mt)ᵀ = Q_tp + A_tp * Q_mt * A_tpᵀ := by
  rw [transpose_mul, h, Matrix.mul_assoc]

theorem innovation_symm {A_tp Q_mt Q_tp : Mat d d} (h : Q_mtᵀ = Q_mt) (h' : Q_tpᵀ = Q_tp) :
    (Q_tp + A_tp * Q_mt * A_tpᵀ)ᵀ = Q_tp + A_tp * Q_mt * A_tpᵀ := by
  rw [transpose_add, transpose_mul, transpose_mul, transpose_transpose, h, h', Matrix.mul_assoc]

theorem tril_of_lower {L : Mat d d} (h : LowerTri L) : tril L = L := by
  ext i j
  simp only [tril, of_apply]
  split_ifs with hij
  · rfl
  · exact (h i j (not_le.1 hij)).symm

theorem IsCholesky.inv_eq {S L : Mat d d} (h : IsCholesky S L) : L⁻¹ᵀ * L⁻¹ = S⁻¹ := by
  rw [← h.mul_transpose, Matrix.mul_inv_rev, transpose_nonsing_inv]

theorem gain_eq {S L B : Mat d d} (h : IsCholesky S L) :
    (triSolve L (triSolve L B) true)ᵀ = Bᵀ * S⁻¹ ∧
      (triSolve L B)ᵀ * triSolve L B = Bᵀ * S⁻¹ * B := by
  unfold triSolve
  simp only [if_true, Bool.false_eq_true, if_false, tril_of_lower h.lower]
  constructor
  · rw [transpose_mul, transpose_mul, ← h.inv_eq, transpose_nonsing_inv Lᵀ, transpose_transpose,
      Matrix.mul_assoc]
  · rw [transpose_mul, ← h.inv_eq]
    simp only [Matrix.mul_assoc]

theorem condStats_ok {A_mt Q_mt A_tp Q_tp : Mat d d} (hm : Q_mtᵀ = Q_mt) (hp : Q_tpᵀ = Q_tp)
    {c : CondStats d} (h : condStatsFromTransitions A_mt Q_mt A_tp Q_tp = .ok c) :
    (Q_tp + A_tp * Q_mt * A_tpᵀ).PosDef ∧
    c.E = Q_mt * A_tpᵀ * (Q_tp + A_tp * Q_mt * A_tpᵀ)⁻¹ ∧
    c.D = A_mt - c.E * A_tp * A_mt ∧ c.T = Q_mt - c.E * A_tp * Q_mt := by
  unfold condStatsFromTransitions at h
  simp only [innovation_eq hm, bind, Except.bind, pure, Except.pure] at h
  split at h
  · cases h
  rename_i L hL
  cases h
  rw [tfCholesky_eq_ok_iff, symLower_eq (innovation_symm hm hp)] at hL
  obtain ⟨hE, hT⟩ := gain_eq (B := A_tp * Q_mt) hL
  rw [transpose_mul, hm] at hE hT
  refine ⟨?_, hE, rfl, ?_⟩
  · exact hL.posDef
  · simp only [hE, hT, Matrix.mul_assoc]

theorem condStats_succeeds {A_mt Q_mt A_tp Q_tp : Mat d d} (hm : Q_mtᵀ = Q_mt)
    (hS : (Q_tp + A_tp * Q_mt * A_tpᵀ).PosDef) :
    ∃ c, condStatsFromTransitions A_mt Q_mt A_tp Q_tp = .ok c := by
  unfold condStatsFromTransitions
  simp only [innovation_eq hm, bind, Except.bind, pure, Except.pure]
  obtain ⟨L, hL⟩ := tfCholesky_posDef hS
  exact ⟨_, by rw [hL.1]⟩

theorem gain_mul {Q_mt A_tp Q_tp E : Mat d d} (hS : (Q_tp + A_tp * Q_mt * A_tpᵀ).PosDef)
    (hE : E = Q_mt * A_tpᵀ * (Q_tp + A_tp * Q_mt * A_tpᵀ)⁻¹) :
    E * (Q_tp + A_tp * Q_mt * A_tpᵀ) = Q_mt * A_tpᵀ := by
  rw [hE, Matrix.mul_assoc, nonsing_inv_mul _ ((isUnit_iff_isUnit_det _).1 hS.isUnit), Matrix.mul_one]

theorem measurable_mulVec' {ι κ α : Type*} [Fintype ι] [Fintype κ] [DecidableEq ι] [DecidableEq κ]
    [MeasurableSpace α] (M : Matrix ι κ ℝ) {f : α → κ → ℝ} (hf : Measurable f) :
    Measurable fun a => M *ᵥ f a := (measurable_mulVec M).comp hf

/-- The law of `(A₂ w₁ + w₂, w₁)`. -/
theorem innovation_law {Q₁ A₂ Q₂ E T : Mat d d} (h₁ : Q₁.PosSemidef) (h₂ : Q₂.PosSemidef)
    (hS : (Q₂ + A₂ * Q₁ * A₂ᵀ).PosDef)
    (hE : E = Q₁ * A₂ᵀ * (Q₂ + A₂ * Q₁ * A₂ᵀ)⁻¹) (hT : T = Q₁ - E * A₂ * Q₁) :
    T.PosSemidef ∧ ((gaussLaw 0 Q₁).prod (gaussLaw 0 Q₂)).map
        (fun w => (A₂ *ᵥ w.1 + w.2, w.1)) =
      ((gaussLaw 0 (Q₂ + A₂ * Q₁ * A₂ᵀ)).prod (gaussLaw 0 T)).map fun w => (w.1, E *ᵥ w.1 + w.2) := by
  set S := Q₂ + A₂ * Q₁ * A₂ᵀ with hSdef
  have hs₁ := isSymm_of_psd h₁
  have hSs : Sᵀ = S := isSymm_of_psd hS.posSemidef
  have hES : E * S = Q₁ * A₂ᵀ := gain_mul hS hE
  have hSE : S * Eᵀ = A₂ * Q₁ := by
    have := congrArg transpose hES
    rwa [transpose_mul, transpose_mul, transpose_transpose, hSs, hs₁] at this
  have hG : (fromBlocks A₂ 1 1 0 : Matrix (Fin d ⊕ Fin d) (Fin d ⊕ Fin d) ℝ) *
      fromBlocks Q₁ 0 0 Q₂ * (fromBlocks A₂ 1 1 0)ᵀ = fromBlocks S (E * S)ᵀ (E * S) Q₁ := by
    rw [fromBlocks_transpose, fromBlocks_multiply, fromBlocks_multiply, hES, transpose_mul,
      transpose_transpose, hs₁]
    congr 1
    · simp only [Matrix.mul_zero, add_zero, Matrix.one_mul, zero_add, transpose_one, Matrix.mul_one]
      rw [hSdef, add_comm]
    · simp
    · simp
    · simp
  have hJ : (fromBlocks S (E * S)ᵀ (E * S) Q₁).PosSemidef := by
    rw [← hG]
    have := (posSemidef_blockdiag h₁ h₂).mul_mul_conjTranspose_same
      (fromBlocks A₂ 1 1 0 : Matrix (Fin d ⊕ Fin d) (Fin d ⊕ Fin d) ℝ)
    rwa [conjTranspose_eq_transpose_of_trivial] at this
  have hT' : T = Q₁ - E * S * Eᵀ := by rw [Matrix.mul_assoc, hSE, hT, Matrix.mul_assoc]
  refine ⟨?_, ?_⟩
  · rw [hT']; exact residual_psd hJ hSs
  have hdis := gauss_disintegrate hJ hS.posSemidef (0 : Fin d → ℝ) (0 : Fin d → ℝ)
  rw [← hT'] at hdis
  simp only [sub_zero, zero_add] at hdis
  rw [← hdis, ← hG, gaussLaw_prod h₁ h₂, Measure.map_map _ measurable_splitV]
  swap
  · exact ((measurable_mulVec' A₂ measurable_fst).add measurable_snd).prodMk measurable_fst
  have h0 : (Sum.elim (0 : Fin d → ℝ) (0 : Fin d → ℝ)) = 0 := by funext x; cases x <;> rfl
  have hmap := gaussLaw_map_affine (posSemidef_blockdiag h₁ h₂) (0 : Fin d ⊕ Fin d → ℝ)
    (0 : Fin d ⊕ Fin d → ℝ) (fromBlocks A₂ 1 1 0)
  rw [mulVec_zero, add_zero] at hmap
  rw [h0, ← hmap, Measure.map_map measurable_splitV (measurable_affine _ _)]
  congr 1
  funext e
  have he : e = Sum.elim (fun i => e (.inl i)) (fun k => e (.inr k)) := by
    funext x; cases x <;> rfl
  conv_rhs => rw [he]
  simp only [Function.comp, splitV, fromBlocks_mulVec, zero_add, Sum.elim_inl, Sum.elim_inr,
      zero_mulVec, add_zero, one_mulVec, Sum.elim_comp_inl, Sum.elim_comp_inr]

theorem isBridge_of {A₁ Q₁ A₂ Q₂ D E T : Mat d d} (h₁ : Q₁.PosSemidef) (h₂ : Q₂.PosSemidef)
    (hS : (Q₂ + A₂ * Q₁ * A₂ᵀ).PosDef)
    (hE : E = Q₁ * A₂ᵀ * (Q₂ + A₂ * Q₁ * A₂ᵀ)⁻¹) (hD : D = A₁ - E * A₂ * A₁)
    (hT : T = Q₁ - E * A₂ * Q₁) : IsBridge D E T A₁ Q₁ A₂ Q₂ := by
  obtain ⟨hTp, hlaw⟩ := innovation_law h₁ h₂ hS hE hT
  refine ⟨hTp, fun μ _ => ?_⟩
  set S := Q₂ + A₂ * Q₁ * A₂ᵀ
  -- the chain, as a function of `x₋` and the pair `(z, w₁)`
  have hm2 : Measurable fun w : Vec d × Vec d => (A₂ *ᵥ w.1 + w.2, w.1) :=
    ((measurable_mulVec' A₂ measurable_fst).add measurable_snd).prodMk measurable_fst
  have hmE : Measurable fun w : Vec d × Vec d => (w.1, E *ᵥ w.1 + w.2) :=
    measurable_fst.prodMk ((measurable_mulVec' E measurable_fst).add measurable_snd)
  let g : Vec d × (Vec d × Vec d) → (Vec d × Vec d) × Vec d := fun w =>
    ((w.1, A₂ *ᵥ (A₁ *ᵥ w.1) + w.2.1), A₁ *ᵥ w.1 + w.2.2)
  have hg : Measurable g := by
    refine Measurable.prodMk (measurable_fst.prodMk ?_) ?_
    · exact (measurable_mulVec' A₂ (measurable_mulVec' A₁ measurable_fst)).add
        (measurable_fst.comp measurable_snd)
    · exact (measurable_mulVec' A₁ measurable_fst).add (measurable_snd.comp measurable_snd)
  have hchain : chainLaw μ A₁ Q₁ A₂ Q₂ =
      (μ.prod (((gaussLaw 0 S).prod (gaussLaw 0 T)).map fun w => (w.1, E *ᵥ w.1 + w.2))).map g := by
    rw [← hlaw, ← Measure.map_id (μ := μ), Measure.map_prod_map _ _ measurable_id hm2,
      Measure.map_map hg (measurable_id.prodMap hm2), Measure.map_id]
    unfold chainLaw
    congr 1
    funext w
    simp only [g, Function.comp, Prod.map, id, mulVec_add]
    rw [add_assoc]
  have hchain2 : chainLaw μ A₁ Q₁ A₂ Q₂ = (μ.prod ((gaussLaw 0 S).prod (gaussLaw 0 T))).map
      fun w => ((w.1, A₂ *ᵥ (A₁ *ᵥ w.1) + w.2.1), A₁ *ᵥ w.1 + (E *ᵥ w.2.1 + w.2.2)) := by
    rw [hchain, ← Measure.map_id (μ := μ), Measure.map_prod_map _ _ measurable_id hmE,
      Measure.map_map hg (measurable_id.prodMap hmE), Measure.map_id]
    rfl
  have hpair : (chainLaw μ A₁ Q₁ A₂ Q₂).map Prod.fst = (μ.prod (gaussLaw 0 S)).map
      fun w => (w.1, A₂ *ᵥ (A₁ *ᵥ w.1) + w.2) := by
    rw [hchain2, Measure.map_map measurable_fst]
    · have hS1 : gaussLaw 0 S = ((gaussLaw 0 S).prod (gaussLaw 0 T)).map Prod.fst :=
        measurePreserving_fst.map_eq.symm
      conv_rhs => rw [hS1, ← Measure.map_id (μ := μ)]
      rw [Measure.map_prod_map _ _ measurable_id measurable_fst, Measure.map_map _
        (measurable_id.prodMap measurable_fst)]
      · rfl
      · exact measurable_fst.prodMk ((measurable_mulVec' A₂ (measurable_mulVec' A₁ measurable_fst)).add
          measurable_snd)
    · refine Measurable.prodMk (measurable_fst.prodMk ?_) ?_
      · exact (measurable_mulVec' A₂ (measurable_mulVec' A₁ measurable_fst)).add
          (measurable_fst.comp measurable_snd)
      · exact (measurable_mulVec' A₁ measurable_fst).add ((measurable_mulVec' E
          (measurable_fst.comp measurable_snd)).add (measurable_snd.comp measurable_snd))
  have hmp : Measurable fun w : Vec d × Vec d => (w.1, A₂ *ᵥ (A₁ *ᵥ w.1) + w.2) :=
    measurable_fst.prodMk ((measurable_mulVec' A₂ (measurable_mulVec' A₁ measurable_fst)).add
          measurable_snd)
  have hmd : Measurable fun w : (Vec d × Vec d) × Vec d => (w.1, D *ᵥ w.1.1 + E *ᵥ w.1.2 + w.2) :=
    measurable_fst.prodMk (((measurable_mulVec' D (measurable_fst.comp measurable_fst)).add
      (measurable_mulVec' E (measurable_snd.comp measurable_fst))).add measurable_snd)
  unfold drawBetween
  rw [hpair, ← Measure.map_id (μ := gaussLaw 0 T), Measure.map_prod_map _ _ hmp measurable_id,
    Measure.map_map hmd (hmp.prodMap measurable_id), hchain2,
    ← Measure.prodAssoc_prod, Measure.map_map _ MeasurableEquiv.prodAssoc.measurable]
  · congr 1
    funext w
    obtain ⟨⟨x, z⟩, w⟩ := w
    simp only [Function.comp, Prod.map, id, MeasurableEquiv.prodAssoc, MeasurableEquiv.coe_mk,
      Equiv.prodAssoc_apply]
    refine Prod.ext rfl ?_
    simp only
    rw [hD, sub_mulVec, mulVec_add, mulVec_mulVec, mulVec_mulVec, Matrix.mul_assoc]
    abel
  · refine Measurable.prodMk (measurable_fst.prodMk ?_) ?_
    · exact (measurable_mulVec' A₂ (measurable_mulVec' A₁ measurable_fst)).add
        (measurable_fst.comp measurable_snd)
    · exact (measurable_mulVec' A₁ measurable_fst).add ((measurable_mulVec' E
        (measurable_fst.comp measurable_snd)).add (measurable_snd.comp measurable_snd))

end MF
