import Verif.Lemmas.Predict
import Verif.Lemmas.Refine
import Mathlib.Analysis.Calculus.Deriv.Mul
import Mathlib.Analysis.Calculus.Deriv.Add
import Mathlib.Analysis.Calculus.Deriv.Comp
import Mathlib.Topology.Instances.Matrix

/-! # Predictions as functions of the query time

A closed form of `predict_state` in which the query time enters through the prior covariance function only, and
what follows about continuity and derivatives in the query time. -/

namespace MF
open Matrix Spec MeasureTheory ProbabilityTheory
variable {n d o p : ℕ}

/-! ### transitions are continuous -/

theorem continuous_blockDiag {ks : List (Σ d, Stationary o d)}
    (h : ∀ k ∈ ks, ∀ i j, Continuous fun δ => k.2.stateTransitions 0 δ i j) (i j : Fin (sumDim ks)) :
    Continuous fun δ => blockDiag (fun _ (k : Stationary o _) => k.stateTransitions 0 δ) ks i j := by
  induction ks with
  | nil => exact i.elim0
  | cons k ks ih =>
    simp only [blockDiag, submatrix_apply]
    have ih' := ih fun k' hk => h k' (List.mem_cons_of_mem _ hk)
    rcases splitSum k ks i with a | a <;> rcases splitSum k ks j with b | b
    · exact h k (by simp) a b
    · exact continuous_const
    · exact continuous_const
    · exact ih' a b

theorem continuous_kron {ks : List (Σ d, Stationary 1 d)}
    (h : ∀ k ∈ ks, ∀ i j, Continuous fun δ => k.2.stateTransitions 0 δ i j) (i j : Fin (prodDim ks)) :
    Continuous fun δ => kron (fun _ (k : Stationary 1 _) => k.stateTransitions 0 δ) ks i j := by
  induction ks with
  | nil => exact continuous_const
  | cons k ks ih =>
    simp only [kron, submatrix_apply, kroneckerMap_apply]
    have ih' := ih fun k' hk => h k' (List.mem_cons_of_mem _ hk)
    exact (h k (by simp) _ _).mul (ih' _ _)

theorem Builds.continuous {K : Stationary o d} {k} (h : Builds K k) (i j : Fin d) :
    Continuous fun δ => K.stateTransitions 0 δ i j := by
  induction h with
  | leaf h => exact continuous_iff_continuousAt.2 fun t => ((Leaf.good h).2.2.2.deriv t i j).continuousAt
  | sum hc h ih =>
    obtain ⟨hne, hj, rfl⟩ := combineInit_ok h
    exact continuous_blockDiag (forall_get (p := fun k => ∀ i j, Continuous fun δ => k.2.stateTransitions 0 δ i j) ih) i j
  | multi hc h ih =>
    obtain ⟨hne, hj, rfl⟩ := combineInit_ok h
    exact continuous_blockDiag (forall_get (p := fun k => ∀ i j, Continuous fun δ => k.2.stateTransitions 0 δ i j) ih) i j
  | factor hc h ih =>
    obtain ⟨hne, hj, rfl⟩ := combineInit_ok h
    exact continuous_blockDiag (forall_get (p := fun k => ∀ i j, Continuous fun δ => k.2.stateTransitions 0 δ i j) ih) i j
  | prod hc h ih =>
    obtain ⟨hne, hj, rfl⟩ := combineInit_ok h
    exact continuous_kron (forall_get (p := fun k => ∀ i j, Continuous fun δ => k.2.stateTransitions 0 δ i j) ih) i j

/-! ### the prior covariance as a function of its first argument -/

theorem StatProc.continuous_cov {A : ℝ → Mat d d} {P : Mat d d} (h : StatProc A P)
    (hA : ∀ i j, Continuous fun δ => A δ i j) (s : ℝ) (a b : Fin d) :
    Continuous fun t => stateCov A P t s a b := by
  have e : (fun t => stateCov A P t s a b) = fun t => if s ≤ t then (A (t - s) * P) a b else (A (s - t) * P) b a := by
    funext t
    unfold stateCov
    split <;> rfl
  rw [e]
  have hc : ∀ a b : Fin d, Continuous fun δ => (A δ * P) a b := fun a b => by
    simp only [Matrix.mul_apply]
    exact continuous_finsetSum _ fun i _ => (hA a i).mul continuous_const
  refine Continuous.if_le ((hc a b).comp (continuous_id.sub continuous_const))
    ((hc b a).comp (continuous_const.sub continuous_id)) continuous_const continuous_id fun t ht => ?_
  subst ht
  simp only [sub_self, h.zero, Matrix.one_mul]
  exact (congrFun (congrFun h.symm b) a)

/-- The prior covariance in a direction `u` in which the driving noise does not enter. -/
theorem hasDerivAt_stateCov {A : ℝ → Mat d d} {F P : Mat d d} (h : StatProc A P) (hF : SolvesSDE F A)
    {u : Vec d} (hu : u ᵥ* (F * P + P * Fᵀ) = 0) (s t : ℝ) (b : Fin d) :
    HasDerivAt (fun t => (u ᵥ* stateCov A P t s) b) (((u ᵥ* F) ᵥ* stateCov A P t s) b) t := by
  have hfwd : ∀ t, HasDerivAt (fun t => (u ᵥ* (A (t - s) * P)) b) ((u ᵥ* F ᵥ* (A (t - s) * P)) b) t := fun t => by
    have h1 : HasDerivAt (fun δ => (u ᵥ* (A δ * P)) b) ((u ᵥ* (F * A (t - s) * P)) b) (t - s) := by
      simp only [vecMul, dotProduct, Matrix.mul_apply (N := P)]
      exact HasDerivAt.fun_sum fun a _ => (HasDerivAt.fun_sum fun c _ => (hF.deriv _ a c).mul_const _).const_mul _
    rw [Matrix.mul_assoc, ← vecMul_vecMul] at h1
    simpa using h1.comp_sub_const t s
  have hcomm : ∀ δ, F * A δ = A δ * F := fun δ => by
    ext a c
    have h1 : HasDerivAt (fun ε => A (δ + ε) a c) ((F * A δ) a c) 0 := by
      have := (hF.deriv (δ + 0) a c).comp_const_add δ 0
      simpa using this
    have h2 : HasDerivAt (fun ε => A (δ + ε) a c) ((A δ * F) a c) 0 := by
      simp only [hF.add, Matrix.mul_apply]
      refine HasDerivAt.fun_sum fun e _ => ?_
      have := (hF.deriv 0 e c).const_mul (A δ a e)
      rwa [hF.zero, Matrix.mul_one] at this
    exact h1.unique h2
  have hPF : u ᵥ* (P * Fᵀ) = -(u ᵥ* F ᵥ* P) := by
    rw [vecMul_add, ← vecMul_vecMul u F P] at hu
    exact eq_neg_of_add_eq_zero_right hu
  have hbwd : ∀ t, HasDerivAt (fun t => (u ᵥ* (A (s - t) * P)ᵀ) b) ((u ᵥ* F ᵥ* (A (s - t) * P)ᵀ) b) t := fun t => by
    have h1 : HasDerivAt (fun δ => (u ᵥ* (A δ * P)ᵀ) b) ((u ᵥ* (A (s - t) * F * P)ᵀ) b) (s - t) := by
      rw [← hcomm]
      simp only [vecMul, dotProduct, transpose_apply, Matrix.mul_apply (N := P)]
      exact HasDerivAt.fun_sum fun a _ => (HasDerivAt.fun_sum fun c _ => (hF.deriv _ b c).mul_const _).const_mul _
    have h2 := h1.comp_const_sub s t
    have e : -(u ᵥ* (A (s - t) * F * P)ᵀ) b = (u ᵥ* F ᵥ* (A (s - t) * P)ᵀ) b := by
      rw [transpose_mul, transpose_mul, transpose_mul, h.symm, ← Matrix.mul_assoc, ← vecMul_vecMul, hPF,
        ← vecMul_vecMul, neg_vecMul]
      exact neg_neg _
    rwa [e] at h2
  have hle : ∀ t, t ≤ s → stateCov A P t s = (A (s - t) * P)ᵀ := fun t ht => by
    rcases ht.lt_or_eq with hlt | rfl
    · unfold stateCov; rw [if_neg (not_le.2 hlt)]
    · rw [h.cov_self, sub_self, h.zero, Matrix.one_mul, h.symm]
  have hge : ∀ t, s ≤ t → stateCov A P t s = A (t - s) * P := fun t ht => by
    unfold stateCov; rw [if_pos ht]
  rcases lt_trichotomy t s with hlt | rfl | hgt
  · rw [hle t hlt.le]
    refine (hbwd t).congr_of_eventuallyEq ?_
    filter_upwards [Iio_mem_nhds hlt] with x hx
    rw [hle x (le_of_lt hx)]
  · rw [← hasDerivWithinAt_univ, ← Set.Iic_union_Ici (a := t)]
    refine HasDerivWithinAt.union ?_ ?_
    · rw [hle t le_rfl]
      refine (hbwd t).hasDerivWithinAt.congr (fun x hx => ?_) ?_
      · rw [hle x hx]
      · rw [hle t le_rfl]
    · rw [hge t le_rfl]
      refine (hfwd t).hasDerivWithinAt.congr (fun x hx => ?_) ?_
      · rw [hge x hx]
      · rw [hge t le_rfl]
  · rw [hge t hgt.le]
    refine (hfwd t).congr_of_eventuallyEq ?_
    filter_upwards [Ioi_mem_nhds hgt] with x hx
    rw [hge x (le_of_lt hx)]

/-! ### the closed form -/

section grid
variable {S : Type} [Fintype S] [DecidableEq S] {m : ℕ} {A : ℝ → Mat d d} {P : Mat d d} {g : Fin (m + 1) → ℝ}
  {new : S → ℝ} {k : S → Fin m} {c : S → CondStats d}

theorem Bridges.cov_closed (h : StatProc A P) (hg : Monotone g) (hb : Bridges A P g new k c)
    {K : Matrix (Fin (m + 1) × Fin d) (Fin (m + 1) × Fin d) ℝ} (j : S) :
    (c j).T + fromCols (c j).D (c j).E *
          fromBlocks (blk K (k j).castSucc (k j).castSucc) (blk K (k j).castSucc (k j).succ)
            (blk K (k j).succ (k j).castSucc) (blk K (k j).succ (k j).succ) *
          (fromCols (c j).D (c j).E)ᵀ =
      (projMat k c * K * (projMat k c)ᵀ + residCov A P g new k c).submatrix
          (fun a : Fin d => (j, a)) (fun a : Fin d => (j, a)) := by
  rw [Matrix.submatrix_add, Pi.add_apply, Pi.add_apply, hb.resid h hg j, add_comm]
  congr 1
  ext a b
  rw [submatrix_apply, Matrix.mul_apply (N := (projMat k c)ᵀ)]
  have hs : ∑ i, (projMat k c * K) (j, a) i * (projMat k c)ᵀ i (j, b) =
      ∑ i, projMat k c (j, b) i * (projMat k c * K) (j, a) i :=
    Finset.sum_congr rfl fun i _ => by rw [transpose_apply, mul_comm]
  rw [hs, projMat_sum]
  have hPK : ∀ i b', (projMat k c * K) (j, a) (i, b') =
      ((c j).D * blk K (k j).castSucc i) a b' + ((c j).E * blk K (k j).succ i) a b' := by
    intro i b'
    rw [Matrix.mul_apply, projMat_sum]; rfl
  simp only [hPK]
  rw [fromCols_mul_fromBlocks, transpose_fromCols, fromCols_mul_fromRows, Matrix.add_apply,
    Matrix.mul_apply, Matrix.mul_apply]
  simp only [mulVec, dotProduct, Matrix.add_apply, transpose_apply]
  congr 1 <;> exact Finset.sum_congr rfl fun i _ => mul_comm _ _

end grid

/-- The prior covariance of the state at time `t` with the states at the times `g`. -/
noncomputable def crossAt (A : ℝ → Mat d d) (P : Mat d d) {T : Type} (g : T → ℝ) (t : ℝ) :
    Matrix (Fin d) (T × Fin d) ℝ :=
  Matrix.of fun a i => stateCov A P t (g i.1) a i.2

/-- `predict_state` at one time `t`: a function of the prior covariance with the times `g`. -/
noncomputable def predAt (A : ℝ → Mat d d) (P : Mat d d) {m : ℕ} (g : Fin (m + 1) → ℝ)
    (w : Fin (m + 1) × Fin d → ℝ) (W : Matrix (Fin (m + 1) × Fin d) (Fin (m + 1) × Fin d) ℝ) (t : ℝ) :
    Vec d × Mat d d :=
  (crossAt A P g t *ᵥ w, crossAt A P g t * W * (crossAt A P g t)ᵀ + P)

theorem predict_closed {c : CondProcess n o d} {new : Fin p → ℝ} {r : Fin p → Vec d × Mat d d}
    (hK : Core c.kernel) (hr : Regular c.kernel) (hj : c.kernel.jitter = 0)
    (hq : c.q.Nondegenerate) (hn : 0 < n) (hts : Monotone c.times)
    (ht0 : -approxInf ≤ c.times 0) (ht1 : c.times (Fin.last n) ≤ approxInf)
    (hM : (covMat (c.kernel.stateTransitions 0) c.kernel.Pinf (augmentedTimes approxInf c.times)).PosDef)
    (h0 : ∀ j, -approxInf < new j) (h1 : ∀ j, new j ≤ approxInf)
    (h : c.predictState new = .ok r) (j : Fin p) :
    r j = predAt (c.kernel.stateTransitions 0) c.kernel.Pinf (augmentedTimes approxInf c.times)
      ((covMat (c.kernel.stateTransitions 0) c.kernel.Pinf (augmentedTimes approxInf c.times))⁻¹ *ᵥ
        (Sum.elim (0 : Fin 2 × Fin d → ℝ) (stk c.q.mus) ∘ endIdx))
      ((covMat (c.kernel.stateTransitions 0) c.kernel.Pinf (augmentedTimes approxInf c.times))⁻¹ *
        (augCov (covMat (c.kernel.stateTransitions 0) c.kernel.Pinf (endTimes approxInf)) c.q.Kd -
          covMat (c.kernel.stateTransitions 0) c.kernel.Pinf (augmentedTimes approxInf c.times)) *
        (covMat (c.kernel.stateTransitions 0) c.kernel.Pinf (augmentedTimes approxInf c.times))⁻¹)
      (new j) := by
  obtain ⟨cs, hcs, mu, C, S, rfl, rfl, rfl, hres⟩ := predictState_ok hq hn hK.pos h
  have hb := codeStats_bridges hK hr hj hts h0 h1 hcs
  have hends := hK.statProc.psd_any (endTimes approxInf)
  rw [hres j]
  have hP : c.kernel.initialCovariance = c.kernel.Pinf := by
    rw [Stationary.initialCovariance, hj, jitterMatrix_zero, add_zero]
  have hKd : (c.q.Kd)ᵀ = c.q.Kd := (SSM.Kd_isJointCov (s := c.q)).symm
  rw [hr.mean, hP]
  have hsym : (augCov (covMat (c.kernel.stateTransitions 0) c.kernel.Pinf (endTimes approxInf))
      c.q.Kd)ᵀ = augCov (covMat (c.kernel.stateTransitions 0) c.kernel.Pinf (endTimes approxInf)) c.q.Kd :=
    augCov_symm (isSymm_of_psd hends) hKd
  have hsub := augCov_sub (K₁ := covMat (c.kernel.stateTransitions 0) c.kernel.Pinf
    (endTimes approxInf)) (K₂ := c.q.Kd)
  have hdiag := augCov_diag (K₁ := covMat (c.kernel.stateTransitions 0) c.kernel.Pinf
    (endTimes approxInf)) (K₂ := c.q.Kd) (P := c.kernel.Pinf) (hK.statProc.cov_self _)
    (hK.statProc.cov_self _)
  have hmean := augMean c.q.mus
  generalize augCov (covMat (c.kernel.stateTransitions 0) c.kernel.Pinf (endTimes approxInf)) c.q.Kd = K
    at hsym hsub hdiag ⊢
  generalize (Sum.elim (0 : Fin 2 × Fin d → ℝ) (stk c.q.mus) ∘ endIdx) = m at hmean ⊢
  have hg := augmentedTimes_mono hts ht0 ht1
  have hcr := hb.cross hK.statProc hg
  have hpc := hb.cov_closed hK.statProc hg (K := K) j
  rw [hsub, hdiag, hdiag, hmean, hmean, blk_transpose_symm hsym, hpc]
  set A := c.kernel.stateTransitions 0
  set P := c.kernel.Pinf
  set g := augmentedTimes approxInf c.times
  set M := covMat A P g with hMd
  set k := fun j => searchsortedLeft c.times (new j) with hkd
  have hMs : Mᵀ = M := isSymm_of_psd hM.posSemidef
  have hX : projMat k cs = crossMat A P new g * M⁻¹ := by
    rw [← hcr, Matrix.mul_assoc, Matrix.mul_nonsing_inv _ ((Matrix.isUnit_iff_isUnit_det _).1 hM.isUnit), Matrix.mul_one]
  have hMi : (M⁻¹)ᵀ = M⁻¹ := by rw [Matrix.transpose_nonsing_inv, hMs]
  unfold predAt
  refine Prod.ext ?_ ?_
  · show _ = crossAt A P g (new j) *ᵥ (M⁻¹ *ᵥ m)
    have : (fun a => (projMat k cs *ᵥ m) (j, a)) = crossAt A P g (new j) *ᵥ (M⁻¹ *ᵥ m) := by
      rw [hX, ← mulVec_mulVec]; rfl
    rw [← this, projMat_mulVec]
  · show _ = crossAt A P g (new j) * (M⁻¹ * (K - M) * M⁻¹) * (crossAt A P g (new j))ᵀ + P
    have e : projMat k cs * K * (projMat k cs)ᵀ + residCov A P g new k cs =
        crossMat A P new g * (M⁻¹ * (K - M) * M⁻¹) * (crossMat A P new g)ᵀ + covMat A P new := by
      unfold residCov
      rw [hX, transpose_mul, hMi]
      simp only [Matrix.mul_sub, Matrix.sub_mul, Matrix.mul_assoc]
      abel
    rw [e, Matrix.submatrix_add, Pi.add_apply, Pi.add_apply]
    dsimp only
    congr 1
    ext a b
    show stateCov A P (new j) (new j) a b = P a b
    rw [hK.statProc.cov_self]

/-! ### continuity and derivatives of the closed form -/

section deriv
variable {m : ℕ} {A : ℝ → Mat d d} {F P : Mat d d} {g : Fin (m + 1) → ℝ} {w : Fin (m + 1) × Fin d → ℝ}
  {W : Matrix (Fin (m + 1) × Fin d) (Fin (m + 1) × Fin d) ℝ}

theorem continuous_predAt (h : StatProc A P) (hA : ∀ i j, Continuous fun δ => A δ i j) :
    Continuous (predAt A P g w W) := by
  have hc : Continuous (crossAt A P g) :=
    continuous_matrix fun a i => h.continuous_cov hA (g i.1) a i.2
  unfold predAt
  exact (hc.matrix_mulVec continuous_const).prodMk
    (((hc.matrix_mul continuous_const).matrix_mul hc.matrix_transpose).add continuous_const)

theorem hasDerivAt_predAt_mean (h : StatProc A P) (hF : SolvesSDE F A) {u : Vec d}
    (hu : u ᵥ* (F * P + P * Fᵀ) = 0) (t : ℝ) :
    HasDerivAt (fun t => u ⬝ᵥ (predAt A P g w W t).1) ((u ᵥ* F) ⬝ᵥ (predAt A P g w W t).1) t := by
  show HasDerivAt (fun t => u ⬝ᵥ (crossAt A P g t *ᵥ w)) ((u ᵥ* F) ⬝ᵥ (crossAt A P g t *ᵥ w)) t
  simp only [dotProduct_mulVec]
  exact HasDerivAt.fun_sum fun x _ => (hasDerivAt_stateCov h hF hu (g x.1) t x.2).mul_const _

theorem hasDerivAt_predAt_cov (h : StatProc A P) (hF : SolvesSDE F A) {u v : Vec d}
    (hu : u ᵥ* (F * P + P * Fᵀ) = 0) (hv : v ᵥ* (F * P + P * Fᵀ) = 0) (t : ℝ) :
    HasDerivAt (fun t => u ⬝ᵥ (predAt A P g w W t).2 *ᵥ v)
      ((u ᵥ* F) ⬝ᵥ (predAt A P g w W t).2 *ᵥ v + u ⬝ᵥ (predAt A P g w W t).2 *ᵥ (v ᵥ* F)) t := by
  have hd : ∀ u : Vec d, u ᵥ* (F * P + P * Fᵀ) = 0 → ∀ x,
      HasDerivAt (fun t => (u ᵥ* crossAt A P g t) x) ((u ᵥ* F ᵥ* crossAt A P g t) x) t :=
    fun u h1 x => hasDerivAt_stateCov h hF h1 (g x.1) t x.2
  have e1 : ∀ u v t, u ⬝ᵥ (predAt A P g w W t).2 *ᵥ v =
      ∑ y, (∑ x, (u ᵥ* crossAt A P g t) x * W x y) * (v ᵥ* crossAt A P g t) y + u ⬝ᵥ P *ᵥ v := fun u v t => by
    show u ⬝ᵥ (crossAt A P g t * W * (crossAt A P g t)ᵀ + P) *ᵥ v = _
    rw [add_mulVec, dotProduct_add, ← mulVec_mulVec, mulVec_transpose, dotProduct_mulVec, ← vecMul_vecMul]
    rfl
  have h1 : HasDerivAt (fun t => ∑ y, (∑ x, (u ᵥ* crossAt A P g t) x * W x y) * (v ᵥ* crossAt A P g t) y + u ⬝ᵥ P *ᵥ v)
      (∑ y, ((∑ x, (u ᵥ* F ᵥ* crossAt A P g t) x * W x y) * (v ᵥ* crossAt A P g t) y +
        (∑ x, (u ᵥ* crossAt A P g t) x * W x y) * (v ᵥ* F ᵥ* crossAt A P g t) y)) t := by
    refine HasDerivAt.add_const _ (HasDerivAt.fun_sum fun y _ => ?_)
    exact (HasDerivAt.fun_sum fun x _ => (hd u hu x).mul_const _).mul (hd v hv y)
  simp only [e1]
  convert h1 using 1
  have hz : (u ᵥ* F) ⬝ᵥ P *ᵥ v + u ⬝ᵥ P *ᵥ (v ᵥ* F) = 0 := by
    have := congrArg (· ⬝ᵥ v) hu
    simp only [zero_dotProduct] at this
    rw [vecMul_add, add_dotProduct, ← vecMul_vecMul u F P, ← dotProduct_mulVec (u ᵥ* F), ← vecMul_vecMul u P Fᵀ,
      ← dotProduct_mulVec (u ᵥ* P), mulVec_transpose, ← dotProduct_mulVec u P] at this
    exact this
  rw [Finset.sum_add_distrib]
  linarith

end deriv

end MF
