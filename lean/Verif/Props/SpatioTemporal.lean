import Verif.Lemmas.SpatioTemporal

/-!
# C43: spatio-temporal models

Specification vocabulary: `pairPrior`, `IsCovariance`, `stLaw` (`Spec/SpatioTemporal`), `IsPredictive` (`Spec/Bridge`):
`ν(du, dg) = q(du) p(dg | u)`, `IsBayesPosterior`, `evidence` (`Spec/LinearGaussian`), Mathlib's `klDiv`.
-/

namespace MF
open Matrix Spec MeasureTheory ProbabilityTheory InformationTheory
variable {n d p M N : ℕ} {S : Type}

/-! ### `batch_base_conditional` -/

/-- The covariance of `q(g₂)` that the argument `q_sqrt` stands for (utils.py docstring: `q_sqrt q_sqrtᵀ`, given as a
lower triangle or a diagonal; absent: no uncertainty). -/
def QSqrt.cov (qs : QSqrt M N) (j : Fin N) : Mat M M :=
  match qs with
  | .none => 0
  | .diag q => Matrix.diagonal fun m => q m j ^ 2
  | .full q => tril (q j) * (tril (q j))ᵀ

/-- `q(g₂)`: `N(f, q_sqrt q_sqrtᵀ)`; in the whitened case `g₂ = Lm v` with `v ~ N(f, q_sqrt q_sqrtᵀ)`. -/
noncomputable def QSqrt.law (qs : QSqrt M N) (Lm : Mat M M) (white : Bool) (f : Mat M N) (j : Fin N) :
    Measure (Fin M → ℝ) :=
  if white then (gaussLaw (f.col j) (qs.cov j)).map fun v => Lm *ᵥ v else gaussLaw (f.col j) (qs.cov j)

theorem QSqrt.cov_psd (qs : QSqrt M N) (j : Fin N) : (qs.cov j).PosSemidef := by
  cases qs with
  | none => exact PosSemidef.zero
  | diag q => exact PosSemidef.diagonal fun m => sq_nonneg _
  | full q => exact posSemidef_mul_transpose _

/-- The law `∫ q(g₂) p(g₁ | g₂)`, and what the code returns. -/
theorem base_law {Kmm : Mat M M} (hK : Kmm.PosDef) {Kmn : Mat M N} {Knn : Vec N} (f : Mat M N) (qs : QSqrt M N)
    (white : Bool) (hjoint : ∀ j, (fromBlocks Kmm (Matrix.of fun m (_ : Fin 1) => Kmn m j)
      (Matrix.of fun (_ : Fin 1) m => Kmn m j) (Matrix.of fun _ _ => Knn j)).PosSemidef) :
    ∃ Lm mean var, IsCholesky Kmm Lm ∧ batchBaseConditional Kmn Kmm Knn f qs white = .ok (mean, var) ∧
      ∀ j, ∃ v, 0 ≤ v ∧
        (∃ ν, IsPredictive (pairPrior Kmm (Kmn.col j) (Knn j)) (qs.law Lm white f j) ν ∧
          ν.map (fun x => x.2 0) = gaussianReal (mean j) v.toNNReal) ∧
        var j = v + (codeExtra qs (baseWeights Kmm Lm white (Kmn.col j)) j -
          baseWeights Kmm Lm white (Kmn.col j) ⬝ᵥ (qs.cov j *ᵥ baseWeights Kmm Lm white (Kmn.col j))) := by
  obtain ⟨Lm, hLm, hL⟩ := tfCholesky_posDef hK
  obtain ⟨hu, hinv⟩ := chol_inverse hL
  refine ⟨Lm, _, _, hL, batch_value hLm hL Kmn Knn f qs white, fun j => ?_⟩
  set k := Kmn.col j with hk
  set B : Matrix (Fin M) (Fin 1) ℝ := Matrix.of fun m _ => Kmn m j with hB
  set C : Matrix (Fin 1) (Fin 1) ℝ := Matrix.of fun _ _ => Knn j with hC
  have hBt : Bᵀ = Matrix.of fun (_ : Fin 1) m => Kmn m j := rfl
  obtain ⟨hR, hpred⟩ := gauss_predictive hK (B := B) (C := C) (hjoint j)
  have hKs : Kmmᵀ = Kmm := posDef_transpose hK
  -- the law of `g₂` is Gaussian
  set m₀ : Vec M := if white then Lm *ᵥ f.col j else f.col j with hm₀
  set S₀ : Mat M M := if white then Lm * qs.cov j * Lmᵀ else qs.cov j with hS₀
  have hS : S₀.PosSemidef := by
    rw [hS₀]; cases white
    · exact qs.cov_psd j
    · exact posSemidef_conj' (qs.cov_psd j) _
  have hq : qs.law Lm white f j = gaussLaw m₀ S₀ := by
    rw [hm₀, hS₀]; unfold QSqrt.law; cases white
    · rfl
    · simp only [if_true]
      have := gaussLaw_map_affine (qs.cov_psd j) (f.col j) 0 Lm
      simpa using this
  have hkK : ∀ x : Vec M, ((Bᵀ * Kmm⁻¹) *ᵥ x) 0 = (Kmm⁻¹ *ᵥ k) ⬝ᵥ x := by
    intro x
    rw [← mulVec_mulVec, show (Bᵀ *ᵥ (Kmm⁻¹ *ᵥ x)) 0 = k ⬝ᵥ (Kmm⁻¹ *ᵥ x) from rfl, dotProduct_mulVec,
      ← mulVec_transpose, transpose_nonsing_inv, hKs]
  have hw : (Lm⁻¹)ᵀ *ᵥ (Lm⁻¹ *ᵥ k) = Kmm⁻¹ *ᵥ k := by
    rw [hinv, mulVec_mulVec, transpose_nonsing_inv]
  have hw' : Lmᵀ *ᵥ (Kmm⁻¹ *ᵥ k) = Lm⁻¹ *ᵥ k := by
    rw [hinv, mulVec_mulVec, ← Matrix.mul_assoc, mul_nonsing_inv _ (by rwa [det_transpose]), Matrix.one_mul]
  have hmean : (Kmm⁻¹ *ᵥ k) ⬝ᵥ m₀ = baseWeights Kmm Lm white k ⬝ᵥ f.col j := by
    rw [hm₀]; unfold baseWeights; cases white
    · rfl
    · simp only [if_true]
      rw [dotProduct_mulVec, ← mulVec_transpose, hw']
  have hquad : (Kmm⁻¹ *ᵥ k) ⬝ᵥ (S₀ *ᵥ (Kmm⁻¹ *ᵥ k)) =
      baseWeights Kmm Lm white k ⬝ᵥ (qs.cov j *ᵥ baseWeights Kmm Lm white k) := by
    rw [hS₀]; unfold baseWeights; cases white
    · rfl
    · simp only [if_true]
      rw [← mulVec_mulVec, ← mulVec_mulVec, dotProduct_mulVec, ← mulVec_transpose, hw']
  have hschur : (C - Bᵀ * Kmm⁻¹ * B) 0 0 = Knn j - k ⬝ᵥ (Kmm⁻¹ *ᵥ k) := by
    rw [Matrix.sub_apply, Matrix.mul_assoc, Matrix.mul_apply]
    rfl
  have hvar : ((Bᵀ * Kmm⁻¹) * S₀ * (Bᵀ * Kmm⁻¹)ᵀ + (C - Bᵀ * Kmm⁻¹ * B)) 0 0 =
      Knn j - k ⬝ᵥ (Kmm⁻¹ *ᵥ k) + (Kmm⁻¹ *ᵥ k) ⬝ᵥ (S₀ *ᵥ (Kmm⁻¹ *ᵥ k)) := by
    rw [Matrix.add_apply, hschur, add_comm]
    congr 1
    rw [← hkK, mulVec_mulVec, Matrix.mul_apply]
    simp only [transpose_apply]
    have : ∀ m, (Bᵀ * Kmm⁻¹) 0 m = (Kmm⁻¹ *ᵥ k) m := fun m => by
      have := hkK (Pi.single m 1)
      simpa using this
    simp only [this]
    rfl
  have hpsd := (posSemidef_conj' hS (Bᵀ * Kmm⁻¹)).add hR
  refine ⟨_, hpsd.diag_nonneg (i := 0), ⟨_, hpred _ (by rw [hq]; infer_instance), ?_⟩, ?_⟩
  · have hm : Measurable fun x : (Fin M → ℝ) × (Fin 1 → ℝ) => (x.1, (Bᵀ * Kmm⁻¹) *ᵥ x.1 + x.2) :=
      measurable_fst.prodMk ((measurable_mulVec' _ measurable_fst).add measurable_snd)
    have hm' : Measurable fun x : (Fin M → ℝ) × (Fin 1 → ℝ) => (Bᵀ * Kmm⁻¹) *ᵥ x.1 + x.2 :=
      (measurable_mulVec' _ measurable_fst).add measurable_snd
    rw [Measure.map_map (by fun_prop) hm, hq,
      show ((fun x : (Fin M → ℝ) × (Fin 1 → ℝ) => x.2 0) ∘ fun x : (Fin M → ℝ) × (Fin 1 → ℝ) =>
        (x.1, (Bᵀ * Kmm⁻¹) *ᵥ x.1 + x.2)) =
        (fun y : Fin 1 → ℝ => y 0) ∘ (fun x : (Fin M → ℝ) × (Fin 1 → ℝ) => (Bᵀ * Kmm⁻¹) *ᵥ x.1 + x.2) from rfl,
      ← Measure.map_map (measurable_pi_apply 0) hm', gauss_push hS hR, gaussLaw_eval hpsd, hkK, hmean]
  · rw [hvar, hquad]; ring

/-- C43: without `q_sqrt` or with a diagonal one, whitened or not, `batch_base_conditional` returns the mean and the
variance of `∫ q(g₂) p(g₁ | g₂)`, where `(g₂, g₁)` are jointly Gaussian a priori. -/
theorem C43_base_conditional {Kmm : Mat M M} (hK : Kmm.PosDef) {Kmn : Mat M N} {Knn : Vec N} (f : Mat M N)
    (qs : QSqrt M N) (white : Bool) (hqs : ∀ q, qs ≠ .full q)
    (hjoint : ∀ j, (fromBlocks Kmm (Matrix.of fun m (_ : Fin 1) => Kmn m j)
      (Matrix.of fun (_ : Fin 1) m => Kmn m j) (Matrix.of fun _ _ => Knn j)).PosSemidef) :
    ∃ Lm mean var, IsCholesky Kmm Lm ∧ batchBaseConditional Kmn Kmm Knn f qs white = .ok (mean, var) ∧
      ∀ j, 0 ≤ var j ∧ ∃ ν, IsPredictive (pairPrior Kmm (Kmn.col j) (Knn j)) (qs.law Lm white f j) ν ∧
        ν.map (fun x => x.2 0) = gaussianReal (mean j) (var j).toNNReal := by
  obtain ⟨Lm, mean, var, hL, hb, h⟩ := base_law hK f qs white hjoint
  refine ⟨Lm, mean, var, hL, hb, fun j => ?_⟩
  obtain ⟨v, hv, hν, hvar⟩ := h j
  have : var j = v := by
    rw [hvar]
    cases qs with
    | none => simp [codeExtra, QSqrt.cov]
    | full q => exact absurd rfl (hqs q)
    | diag q =>
      simp only [codeExtra, QSqrt.cov, dotProduct, mulVec_diagonal]
      rw [← Finset.sum_sub_distrib, Finset.sum_eq_zero fun m _ => ?_, add_zero]
      ring
  rw [this]
  exact ⟨hv, hν⟩

/-- C43: with a full `q_sqrt = L` the mean is right, but the variance adds `|L w|²` where the law has `|Lᵀ w|²`, with `w`
the projection weights: it is right exactly when the two agree. -/
theorem C43_base_conditional_full {Kmm : Mat M M} (hK : Kmm.PosDef) {Kmn : Mat M N} {Knn : Vec N} (f : Mat M N)
    (q : Fin N → Mat M M) (white : Bool)
    (hjoint : ∀ j, (fromBlocks Kmm (Matrix.of fun m (_ : Fin 1) => Kmn m j)
      (Matrix.of fun (_ : Fin 1) m => Kmn m j) (Matrix.of fun _ _ => Knn j)).PosSemidef) :
    ∃ Lm mean var, IsCholesky Kmm Lm ∧ batchBaseConditional Kmn Kmm Knn f (.full q) white = .ok (mean, var) ∧
      ∀ j, ∃ ν v, 0 ≤ v ∧ IsPredictive (pairPrior Kmm (Kmn.col j) (Knn j)) ((QSqrt.full q).law Lm white f j) ν ∧
        ν.map (fun x => x.2 0) = gaussianReal (mean j) v.toNNReal ∧
        ∀ w : Vec M, w = (if white then Lm⁻¹ *ᵥ Kmn.col j else Kmm⁻¹ *ᵥ Kmn.col j) →
          (var j = v ↔ ∑ a, ((tril (q j) *ᵥ w) a) ^ 2 = ∑ a, (((tril (q j))ᵀ *ᵥ w) a) ^ 2) := by
  obtain ⟨Lm, mean, var, hL, hb, h⟩ := base_law hK f (.full q) white hjoint
  refine ⟨Lm, mean, var, hL, hb, fun j => ?_⟩
  obtain ⟨v, hv, ⟨ν, hν, hν'⟩, hvar⟩ := h j
  refine ⟨ν, v, hv, hν, hν', fun w hw => ?_⟩
  rw [show baseWeights Kmm Lm white (Kmn.col j) = w from hw.symm] at hvar
  simp only [codeExtra, QSqrt.cov, ← mulVec_mulVec] at hvar
  have e : w ⬝ᵥ (tril (q j) *ᵥ ((tril (q j))ᵀ *ᵥ w)) = ((tril (q j))ᵀ *ᵥ w) ⬝ᵥ ((tril (q j))ᵀ *ᵥ w) := by
    rw [dotProduct_mulVec, ← mulVec_transpose]
  rw [e] at hvar
  simp only [sq]
  rw [hvar]
  constructor
  · intro h
    have : (tril (q j) *ᵥ w) ⬝ᵥ (tril (q j) *ᵥ w) = ((tril (q j))ᵀ *ᵥ w) ⬝ᵥ ((tril (q j))ᵀ *ᵥ w) := by linarith
    exact this
  · intro h
    have : (tril (q j) *ᵥ w) ⬝ᵥ (tril (q j) *ᵥ w) = ((tril (q j))ᵀ *ᵥ w) ⬝ᵥ ((tril (q j))ᵀ *ᵥ w) := h
    linarith

/-- Finding: they need not agree. Two independent inducing variables of variance one, the data point equal to the first,
`q_sqrt = [[1, 0], [1, 1]]`: under `q` the first inducing variable has variance one, the code returns two. -/
theorem C43_base_conditional_full_wrong : ∃ (q : Mat 2 2) (mean var : Vec 1),
    LowerTri q ∧ (q * qᵀ) 0 0 = 1 ∧
    batchBaseConditional (N := 1) !![1; 0] 1 ![1] 0 (.full fun _ => q) = .ok (mean, var) ∧ var 0 = 2 ∧
    ∃ ν, IsPredictive (pairPrior 1 ![1, 0] 1) (gaussLaw 0 (q * qᵀ)) ν ∧
      ν.map (fun x => x.2 0) = gaussianReal 0 1 := by
  have hjoint : ∀ j : Fin 1, (fromBlocks (1 : Mat 2 2) (Matrix.of fun m (_ : Fin 1) => (!![1; 0] : Mat 2 1) m j)
      (Matrix.of fun (_ : Fin 1) m => (!![1; 0] : Mat 2 1) m j) (Matrix.of fun _ _ => (![1] : Vec 1) j)).PosSemidef := by
    intro j
    have := posSemidef_mul_transpose (fromRows (1 : Mat 2 2) (!![1, 0] : Mat 1 2))
    rw [transpose_fromRows, fromRows_mul_fromCols] at this
    convert this using 2
    · simp
    · ext a b; fin_cases j; fin_cases a <;> fin_cases b <;> simp
    · ext a b; fin_cases j; fin_cases a; fin_cases b <;> simp
    · ext a b; fin_cases j; fin_cases a; fin_cases b; simp [Matrix.mul_apply, Fin.sum_univ_two]
  have hlow : LowerTri (!![1, 0; 1, 1] : Mat 2 2) := by
    intro i j hij
    fin_cases i <;> fin_cases j <;> simp_all
  obtain ⟨Lm, hLm, hL⟩ := tfCholesky_posDef (PosDef.one (n := Fin 2) (R := ℝ))
  have hv := batch_value hLm hL (!![1; 0] : Mat 2 1) ![1] 0 (.full fun _ => !![1, 0; 1, 1]) false
  obtain ⟨Lm', mean, var, hL', hb, h⟩ := base_law (N := 1) (PosDef.one (n := Fin 2) (R := ℝ)) (Kmn := !![1; 0]) (Knn := ![1]) 0
    (.full fun _ => !![1, 0; 1, 1]) false hjoint
  have hmv := Except.ok.inj (hb.symm.trans hv)
  have hcol : (!![1; 0] : Mat 2 1).col 0 = ![1, 0] := by funext i; fin_cases i <;> rfl
  have hm0 : mean 0 = 0 := by
    rw [show mean = _ from congrArg Prod.fst hmv]
    show _ ⬝ᵥ (0 : Vec 2) = 0
    exact dotProduct_zero _
  have hv0 : var 0 = 2 := by
    rw [show var = _ from congrArg Prod.snd hmv]
    simp only [codeExtra, baseWeights, hlow.tril_eq, hcol, inv_one, one_mulVec, Bool.false_eq_true, if_false]
    simp [dotProduct, mulVec, Fin.sum_univ_two]
    norm_num
  obtain ⟨v, -, ⟨ν, hν, hν'⟩, hvar⟩ := h 0
  have h1 : v = 1 := by
    rw [hv0] at hvar
    simp only [codeExtra, QSqrt.cov, baseWeights, hlow.tril_eq, hcol, inv_one, one_mulVec, Bool.false_eq_true,
      if_false] at hvar
    simp [dotProduct, mulVec, Matrix.mul_apply, Fin.sum_univ_two] at hvar
    linarith
  refine ⟨!![1, 0; 1, 1], mean, var, hlow, ?_, hb, hv0, ν, ?_, ?_⟩
  · simp [Matrix.mul_apply, Fin.sum_univ_two]
  · have e : (QSqrt.full fun _ : Fin 1 => !![1, 0; 1, 1]).law Lm' false (0 : Mat 2 1) 0 =
        gaussLaw 0 (!![1, 0; 1, 1] * (!![1, 0; 1, 1] : Mat 2 2)ᵀ) := by
      simp only [QSqrt.law, QSqrt.cov, hlow.tril_eq, Bool.false_eq_true, if_false]
      rfl
    rw [e, hcol] at hν
    exact hν
  · rw [hν', hm0, h1, Real.toNNReal_one]

end MF
