import Verif.Spec.CyclicReduction
import Verif.Props.Conditionals

/-!
# C49: cyclic reduction statistics
-/

namespace MF
open Matrix Spec MeasureTheory

variable {o d e c : ℕ}

theorem toDeltaTime_error {n : ℕ} {ts : Fin (n + 1) → ℝ} (h : ¬ Monotone ts) :
    toDeltaTime ts = .error .invalidArgument := by
  unfold toDeltaTime
  rw [if_neg]
  intro hk
  exact h (Fin.monotone_iff_le_succ.2 fun k => sub_nonneg.1 (hk k))

/-- C49: unsorted time points and wrong numbers of time points raise, whatever the kernel. -/
theorem C49_raises (inf : ℝ) {x : Fin (e + 1) → ℝ} {z : Fin (c + 1) → ℝ}
    (h : ¬ Monotone x ∨ ¬ Monotone z ∨ e < c ∨ c + 1 < e) (kernel : TransFn (d + 1)) :
    cyclicReductionConditionalStatistics inf x z kernel = .error .invalidArgument := by
  unfold cyclicReductionConditionalStatistics cyclicReduction
  by_cases hx : Monotone x
  · rw [toDeltaTime_of_mono hx]
    by_cases hz : Monotone z
    · rw [toDeltaTime_of_mono hz]
      have : ¬ (c + 1 ≤ e + 1 ∧ (e + 1) - (c + 1) ≤ 1) := by
        have := (h.resolve_left (not_not.2 hx)).resolve_left (not_not.2 hz)
        omega
      simp only [bind, Except.bind, dif_neg this]
    · rw [toDeltaTime_error hz]; rfl
  · rw [toDeltaTime_error hx]; rfl

section facts
variable {x : Fin (e + 1) → ℝ} {z : Fin (c + 1) → ℝ}

theorem Spec.Interlaced.cond_mono (h : Interlaced x z) : StrictMono z := by
  refine Fin.strictMono_iff_lt_succ.2 fun r => ?_
  have := h.enough
  have hr := r.2
  exact (h.after ⟨r + 1, by omega⟩ r.castSucc (by simp)).trans (h.before ⟨r + 1, by omega⟩ r.succ (by simp))

theorem Spec.Interlaced.expl_mono (h : Interlaced x z) : StrictMono x := by
  refine Fin.strictMono_iff_lt_succ.2 fun q => ?_
  have := h.most
  have hq := q.2
  exact (h.before q.castSucc ⟨q, by omega⟩ (by simp)).trans (h.after q.succ ⟨q, by omega⟩ (by simp))

theorem Spec.Interlaced.search (h : Interlaced x z) (q : Fin (e + 1)) :
    searchsortedLeft z (x q) = ⟨q, by have := h.most; omega⟩ := by
  have hs := lt_searchsortedLeft h.cond_mono.monotone (x q)
  have h1 := h.most
  have hlt := (searchsortedLeft z (x q)).2
  apply Fin.ext
  show (searchsortedLeft z (x q) : ℕ) = q
  apply le_antisymm
  · by_contra hc
    rw [not_le] at hc
    have := (hs ⟨q, by omega⟩).1 hc
    exact absurd this (not_lt.2 (h.before q ⟨q, by omega⟩ le_rfl).le)
  · by_contra hc
    rw [not_le] at hc
    have hq := q.2
    have := (hs ⟨searchsortedLeft z (x q), by omega⟩).2 (h.after q _ hc)
    exact absurd this (lt_irrefl _)

theorem Spec.Interlaced.between (h : Interlaced x z) (q : Fin (e + 1)) :
    augmentedTimes approxInf z ⟨q, by have := h.most; omega⟩ < x q ∧
      x q < augmentedTimes approxInf z ⟨q + 1, by have := h.most; omega⟩ := by
  have h1 := h.most
  have hq := q.2
  have hb := augmented_between (inf := approxInf) h.cond_mono.monotone (h.lower q) (h.upper q).le
  rw [h.search] at hb
  refine ⟨hb.1, ?_⟩
  by_cases hc : (q : ℕ) = c + 1
  · have e1 : (⟨q + 1, by omega⟩ : Fin (c + 3)) = Fin.last (c + 2) := Fin.ext (by simp [hc])
    rw [e1, augmentedTimes_last]
    exact h.upper q
  · have e1 : (⟨q + 1, by omega⟩ : Fin (c + 3)) = (⟨q, by omega⟩ : Fin (c + 1)).castSucc.succ := Fin.ext (by simp)
    rw [e1, augmentedTimes_mid]
    exact h.before q _ le_rfl

/-- What the code computes, before it is sliced. -/
theorem cyclic_core (h : Interlaced x z) {kernel : TransFn d} (hQ : ∀ t δ, 0 < δ → (kernel t δ).2.PosDef) :
    ∃ (cs : Fin (e + 1) → CondStats d) (L : Fin (e + 1) → Mat d d),
      (∀ q, CodeStats approxInf z kernel (x q) (cs q)) ∧ (∀ q, (cs q).T.PosDef) ∧
      (∀ q, IsCholesky ((cs q).T⁻¹) (L q)) ∧
      cyclicReduction approxInf x z kernel =
        .ok (fun q => -((cs q).Eᵀ * L q), fun q => -((cs q).Dᵀ * L q), L) := by
  have h1 := h.most
  have h2 := h.enough
  have hb := fun q => h.between q
  have hstat : ∀ q : Fin (e + 1), ∃ s s' : CondStats d,
      condStatsFromTransitions
        (kernel (augmentedTimes approxInf z ⟨q, by omega⟩) (x q - augmentedTimes approxInf z ⟨q, by omega⟩)).1
        (kernel (augmentedTimes approxInf z ⟨q, by omega⟩) (x q - augmentedTimes approxInf z ⟨q, by omega⟩)).2
        (kernel (x q) (augmentedTimes approxInf z ⟨q + 1, by omega⟩ - x q)).1
        (kernel (x q) (augmentedTimes approxInf z ⟨q + 1, by omega⟩ - x q)).2 = .ok s ∧
      condPrecisionFromTransitions
        (kernel (augmentedTimes approxInf z ⟨q, by omega⟩) (x q - augmentedTimes approxInf z ⟨q, by omega⟩)).1
        (kernel (augmentedTimes approxInf z ⟨q, by omega⟩) (x q - augmentedTimes approxInf z ⟨q, by omega⟩)).2
        (kernel (x q) (augmentedTimes approxInf z ⟨q + 1, by omega⟩ - x q)).1
        (kernel (x q) (augmentedTimes approxInf z ⟨q + 1, by omega⟩ - x q)).2 = .ok s' ∧
      s.T.PosSemidef ∧ s'.D = s.D ∧ s'.E = s.E ∧ s'.T * s.T = 1 := fun q => by
    obtain ⟨s, s', e1, e2, e3, e4⟩ := C21_all
      (A₁ := (kernel (augmentedTimes approxInf z ⟨q, by omega⟩) (x q - augmentedTimes approxInf z ⟨q, by omega⟩)).1)
      (A₂ := (kernel (x q) (augmentedTimes approxInf z ⟨q + 1, by omega⟩ - x q)).1)
      (hQ (augmentedTimes approxInf z ⟨q, by omega⟩) _ (sub_pos.2 (hb q).1)) (hQ (x q) _ (sub_pos.2 (hb q).2))
    exact ⟨s, s', e1, e2, e3.1, e4⟩
  choose cs cs' hcs hcs' hbr hD hE hT using hstat
  have hpd : ∀ q, (cs q).T.PosDef := fun q => (hbr q).posDef_iff_isUnit.2
    (isUnit_iff_isUnit_det _ |>.2 (IsUnit.of_mul_eq_one _ (by
      rw [mul_comm, ← det_mul, hT q, det_one])))
  have hinv : ∀ q, (cs' q).T = (cs q).T⁻¹ := fun q => (inv_eq_left_inv (hT q)).symm
  choose L hL hLc using fun q => tfCholesky_posDef (hpd q).inv
  refine ⟨cs, L, fun q => ?_, hpd, hLc, ?_⟩
  · unfold CodeStats
    rw [h.search]
    exact hcs q
  · unfold cyclicReduction
    rw [toDeltaTime_of_mono h.expl_mono.monotone, toDeltaTime_of_mono h.cond_mono.monotone]
    have hs : c + 1 ≤ e + 1 ∧ (e + 1) - (c + 1) ≤ 1 := by omega
    simp only [bind, Except.bind, dif_pos hs]
    rw [seqFin_ok hcs']
    dsimp only
    rw [seqFin_ok (fun q => by rw [hinv]; exact hL q)]
    simp only [hD, hE, pure, Except.pure]

end facts

/-- The code's outputs determine the projections and the covariance. -/
theorem cyclic_recover {c : CondStats d} {L : Mat d d} (hT : c.T.PosDef) (hL : IsCholesky c.T⁻¹ L) :
    -(Lᵀ)⁻¹ * (-(c.Dᵀ * L))ᵀ = c.D ∧ -(Lᵀ)⁻¹ * (-(c.Eᵀ * L))ᵀ = c.E ∧ (L * Lᵀ)⁻¹ = c.T := by
  have hu : IsUnit Lᵀ.det := by rw [det_transpose]; exact (isUnit_iff_isUnit_det _).1 hL.isUnit
  refine ⟨?_, ?_, ?_⟩
  · rw [transpose_neg, transpose_mul, transpose_transpose, Matrix.neg_mul, Matrix.mul_neg, neg_neg, ← Matrix.mul_assoc, nonsing_inv_mul _ hu,
      Matrix.one_mul]
  · rw [transpose_neg, transpose_mul, transpose_transpose, Matrix.neg_mul, Matrix.mul_neg, neg_neg, ← Matrix.mul_assoc, nonsing_inv_mul _ hu,
      Matrix.one_mul]
  · rw [hL.mul_transpose, nonsing_inv_nonsing_inv _ ((isUnit_iff_isUnit_det _).1 hT.isUnit)]

/-- C49, any kernel whose process noise is positive definite over every positive time step: the call succeeds, and for
each explained point, given the states at its two neighbours among the conditioning times (extended by `∓1e10`), the
state is Gaussian with mean `-L⁻ᵀ (Gᵀ x₋ + Fᵀ x₊)` and covariance `(L Lᵀ)⁻¹`, with `L` lower triangular with positive
diagonal. -/
theorem C49_bridge {x : Fin (e + 1) → ℝ} {z : Fin (c + 1) → ℝ} (h : Interlaced x z) {kernel : TransFn d}
    (hQ : ∀ t δ, 0 < δ → (kernel t δ).2.PosDef) :
    ∃ F G L : Fin (e + 1) → Mat d d, cyclicReduction 10000000000 x z kernel = .ok (F, G, L) ∧
      ∀ q, (∀ i j, i < j → L q i j = 0) ∧ (∀ i, 0 < L q i i) ∧
        ∀ l r : Fin (c + 3), (l : ℕ) = q → (r : ℕ) = q + 1 →
        ∀ zl zr, zl = augmentedTimes 10000000000 z l → zr = augmentedTimes 10000000000 z r →
        zl < x q ∧ x q < zr ∧
        IsBridge (-((L q)ᵀ)⁻¹ * (G q)ᵀ) (-((L q)ᵀ)⁻¹ * (F q)ᵀ) (L q * (L q)ᵀ)⁻¹
          (kernel zl (x q - zl)).1 (kernel zl (x q - zl)).2 (kernel (x q) (zr - x q)).1 (kernel (x q) (zr - x q)).2 := by
  obtain ⟨cs, L, hcs, hT, hL, hr⟩ := cyclic_core h hQ
  refine ⟨_, _, _, hr, fun q => ⟨(hL q).lower, (hL q).diag_pos, ?_⟩⟩
  rintro ⟨l, hl⟩ ⟨r, hr⟩ rfl rfl zl zr rfl rfl
  have hb := h.between q
  refine ⟨hb.1, hb.2, ?_⟩
  obtain ⟨e1, e2, e3⟩ := cyclic_recover (hT q) (hL q)
  rw [e1, e2, e3]
  have := hcs q
  unfold CodeStats at this
  rw [h.search] at this
  exact C21_bridge (hQ _ _ (sub_pos.2 hb.1)).posSemidef (hQ _ _ (sub_pos.2 hb.2)).posSemidef this

/-- C49: the same projections and covariances as `conditional_statistics` at the same points. -/
theorem C49_conditional_statistics {x : Fin (e + 1) → ℝ} {z : Fin (c + 1) → ℝ} (h : Interlaced x z) {kernel : TransFn d}
    (hQ : ∀ t δ, 0 < δ → (kernel t δ).2.PosDef) :
    ∃ F G L : Fin (e + 1) → Mat d d, cyclicReduction 10000000000 x z kernel = .ok (F, G, L) ∧
      conditionalStatistics 10000000000 x z kernel =
        .ok (fun q => fromCols (-((L q)ᵀ)⁻¹ * (G q)ᵀ) (-((L q)ᵀ)⁻¹ * (F q)ᵀ), fun q => (L q * (L q)ᵀ)⁻¹) := by
  obtain ⟨cs, L, hcs, hT, hL, hr⟩ := cyclic_core h hQ
  refine ⟨_, _, _, hr, ?_⟩
  have hrec := fun q => cyclic_recover (hT q) (hL q)
  have := conditionalStatisticsAux_of hcs
  unfold approxInf at this
  unfold conditionalStatistics
  simp only [this, bind, Except.bind, pure, Except.pure, fun q => (hrec q).1, fun q => (hrec q).2.1,
    fun q => (hrec q).2.2]

section resid
variable {m : ℕ} {S : Type} [Fintype S] [DecidableEq S]
variable {A : ℝ → Mat d d} {P : Mat d d} {g : Fin (m + 1) → ℝ} {new : S → ℝ} {k : S → Fin m} {cs : S → CondStats d}

omit [Fintype S] [DecidableEq S] in
/-- Residuals in different intervals are uncorrelated. -/
theorem Bridges.resid_off (h : StatProc A P) (hg : Monotone g) (hb : Bridges A P g new k cs) {i j : S} (hij : k i ≠ k j)
    (a b : Fin d) : residCov A P g new k cs (i, a) (j, b) = 0 := by
  have hi : new i ≤ g (k j).castSucc ∨ g (k j).succ ≤ new i := by
    rcases lt_or_gt_of_ne hij with hlt | hlt
    · exact Or.inl ((hb.right i).trans (hg (Fin.le_def.2 (by
        have := Fin.lt_def.1 hlt
        rw [Fin.val_succ, Fin.val_castSucc]; omega))))
    · exact Or.inr ((hg (Fin.le_def.2 (by
        have := Fin.lt_def.1 hlt
        rw [Fin.val_succ, Fin.val_castSucc]; omega))).trans (hb.left i))
  have e := h.bridge_cov (hb.left j) (hb.right j) (hb.gain j) (hb.D j) hi
  have e' := congrFun (congrFun e b) a
  rw [residCov, hb.cross h hg, Matrix.sub_apply, Matrix.mul_apply]
  have hs : ∑ l, crossMat A P new g (i, a) l * (projMat k cs)ᵀ l (j, b) =
      ∑ l, projMat k cs (j, b) l * crossMat A P new g (i, a) l :=
    Finset.sum_congr rfl fun l _ => by rw [transpose_apply, mul_comm]
  rw [hs, projMat_sum]
  simp only [covMat, crossMat, of_apply]
  have e1 : ∀ t s : ℝ, ∀ a b, stateCov A P t s a b = stateCov A P s t b a := fun t s a b => by
    rw [← h.cov_symm, transpose_apply]
  rw [e1, e', Matrix.add_apply, Matrix.mul_apply, Matrix.mul_apply]
  simp only [mulVec, dotProduct, e1 (new i)]
  ring

end resid

/-- Blocks on the diagonal. -/
def diagBlocks {p : ℕ} (B : Fin p → Mat d d) : Matrix (Fin p × Fin d) (Fin p × Fin d) ℝ :=
  Matrix.of fun i j => if i.1 = j.1 then B i.1 i.2 j.2 else 0

theorem diagBlocks_mulVec {p : ℕ} (B : Fin p → Mat d d) (v : Fin p × Fin d → ℝ) (q : Fin p) (a : Fin d) :
    (diagBlocks B *ᵥ v) (q, a) = (B q *ᵥ unstk v q) a := by
  simp only [mulVec, dotProduct, diagBlocks, of_apply, Fintype.sum_prod_type, ite_mul, zero_mul]
  rw [Finset.sum_eq_single q]
  · simp [unstk]
  · intro b _ hb; simp [Ne.symm hb]
  · simp

theorem diagBlocks_conj {p : ℕ} (B : Fin p → Mat d d) :
    diagBlocks B * 1 * (diagBlocks B)ᵀ = diagBlocks fun q => B q * (B q)ᵀ := by
  rw [Matrix.mul_one]
  ext ⟨i, a⟩ ⟨j, b⟩
  have := diagBlocks_mulVec B (fun l => (diagBlocks B)ᵀ l (j, b)) i a
  rw [Matrix.mul_apply]
  refine this.trans ?_
  simp only [diagBlocks, of_apply, mulVec, dotProduct, unstk, transpose_apply, Matrix.mul_apply]
  by_cases hij : i = j
  · subst hij; simp
  · simp [hij, Ne.symm hij]

/-- C49, the library's kernels: jointly, the states at the conditioning times (extended by `∓1e10`) and at all explained
times follow the prior exactly when the explained states are drawn, independently given the conditioning ones, with the
statistics the code computes. -/
theorem C49_law {K : Stationary o d} {k} (hK : Builds K k) (hn : NoiseTag K true) (hj : K.jitter = 0)
    {x : Fin (e + 1) → ℝ} {z : Fin (c + 1) → ℝ} (h : Interlaced x z) :
    ∃ F G L : Fin (e + 1) → Mat d d, cyclicReduction 10000000000 x z K.trans = .ok (F, G, L) ∧
      ∀ left right : Fin (e + 1) → Fin (c + 3), (∀ q, (left q : ℕ) = q) → (∀ q, (right q : ℕ) = q + 1) →
        priorLaw K (Fin.cons (-10000000000) (Fin.snoc (α := fun _ => ℝ) z 10000000000)) x =
          drawExplained left right F G L (gpLaw (fun _ => 0) (stateCov (K.stateTransitions 0) K.Pinf)
            (Fin.cons (-10000000000) (Fin.snoc (α := fun _ => ℝ) z 10000000000))) := by
  obtain ⟨hc, hr, -⟩ := Builds.good hK
  have hQ : ∀ t δ, 0 < δ → (K.trans t δ).2.PosDef := fun t δ hδ => (C27_process_covariance_pd hK hn t hδ).2
  obtain ⟨cs, L, hcs, hT, hL, hres⟩ := cyclic_core h hQ
  refine ⟨_, _, _, hres, fun left right hl hr' => ?_⟩
  have hb := codeStats_bridges hc hr hj h.cond_mono.monotone h.lower (fun q => (h.upper q).le) hcs
  have hz0 : -approxInf ≤ z 0 := ((h.lower 0).trans (h.before 0 0 (by simp))).le
  have hg := augmentedTimes_mono (inf := approxInf) h.cond_mono.monotone hz0 (h.upper' _)
  have hres : residCov (K.stateTransitions 0) K.Pinf (augmentedTimes approxInf z) x
      (fun j => searchsortedLeft z (x j)) cs =
      diagBlocks (fun q => ((L q)ᵀ)⁻¹) * 1 * (diagBlocks fun q => ((L q)ᵀ)⁻¹)ᵀ := by
    rw [diagBlocks_conj]
    ext ⟨i, a⟩ ⟨j, b⟩
    by_cases hij : i = j
    · subst hij
      have e1 := congrFun (congrFun (hb.resid hc.statProc hg i) a) b
      rw [submatrix_apply] at e1
      rw [e1]
      simp only [diagBlocks, of_apply, if_true]
      rw [← (cyclic_recover (hT i) (hL i)).2.2, Matrix.mul_inv_rev, transpose_nonsing_inv, transpose_transpose]
    · rw [hb.resid_off hc.statProc hg (by
        rw [h.search, h.search]
        intro hc'
        exact hij (Fin.ext (Fin.mk.inj_iff.1 hc')))]
      simp [diagBlocks, hij]
  refine (hb.prior hc.statProc hg).trans ?_
  have hone : (1 : Matrix (Fin (e + 1) × Fin d) (Fin (e + 1) × Fin d) ℝ).PosSemidef := PosSemidef.one
  have hmap := gaussLaw_map_affine hone (0 : Fin (e + 1) × Fin d → ℝ) (0 : Fin (e + 1) × Fin d → ℝ)
    (diagBlocks fun q => ((L q)ᵀ)⁻¹)
  rw [mulVec_zero, add_zero] at hmap
  rw [hres, ← hmap]
  have hid : gpLaw (fun _ => 0) (stateCov (K.stateTransitions 0) K.Pinf) (augmentedTimes approxInf z) =
      (gpLaw (fun _ => 0) (stateCov (K.stateTransitions 0) K.Pinf) (augmentedTimes approxInf z)).map id :=
    Measure.map_id.symm
  have hp := gpLaw_isProb (fun _ => (0 : Vec d)) (stateCov (K.stateTransitions 0) K.Pinf) (augmentedTimes approxInf z)
  rw [hid, Measure.map_prod_map _ _ measurable_id (measurable_affine _ _),
    Measure.map_map (measurable_predLaw _ _) (measurable_id.prodMap (measurable_affine _ _))]
  unfold drawExplained
  refine congrArg₂ Measure.map (funext fun w => Prod.ext rfl (funext fun i => ?_)) rfl
  obtain ⟨q, a⟩ := i
  obtain ⟨e1, e2, -⟩ := cyclic_recover (hT q) (hL q)
  have hkl : (searchsortedLeft z (x q)).castSucc = left q := Fin.ext (by rw [h.search, hl]; rfl)
  have hkr : (searchsortedLeft z (x q)).succ = right q := Fin.ext (by rw [h.search, hr']; rfl)
  show ((projMat (fun j => searchsortedLeft z (x j)) cs *ᵥ w.1) (q, a)) +
    (0 + diagBlocks (fun q => ((L q)ᵀ)⁻¹) *ᵥ w.2) (q, a) = _
  rw [zero_add, diagBlocks_mulVec]
  have hpm : (projMat (fun j => searchsortedLeft z (x j)) cs *ᵥ w.1) (q, a) =
      ((cs q).D *ᵥ unstk w.1 (left q) + (cs q).E *ᵥ unstk w.1 (right q)) a := by
    rw [← hkl, ← hkr]
    exact projMat_sum _ cs q a w.1
  rw [hpm]
  show _ = (((L q)ᵀ)⁻¹ *ᵥ _) a
  rw [mulVec_sub, mulVec_sub, mulVec_mulVec, mulVec_mulVec]
  conv_lhs => rw [← e1, ← e2]
  simp only [Matrix.neg_mul, neg_mulVec, Pi.add_apply, Pi.sub_apply, Pi.neg_apply]
  ring

/-- C49, what is returned (state dimension `d + 1`): `L` as above; but one `F` and one `G` for *every* explained time
point, including the `G` of the first point, which multiplies the state at `-1e10`; every `F` without its first column
(so an empty matrix if the state has one dimension) and every `G` without its columns from `num_conditioning` on. The
documentation says `num_conditioning` square matrices `F` and `num_explained - 1` square matrices `G`. -/
theorem C49_returned {x : Fin (e + 1) → ℝ} {z : Fin (c + 1) → ℝ} (h : Interlaced x z) {kernel : TransFn (d + 1)}
    (hQ : ∀ t δ, 0 < δ → (kernel t δ).2.PosDef) :
    ∃ (F G L : Fin (e + 1) → Mat (d + 1) (d + 1)) (F' : Fin (e + 1) → Mat (d + 1) d)
      (G' : Fin (e + 1) → Mat (d + 1) (min (c + 1) (d + 1))),
      cyclicReduction 10000000000 x z kernel = .ok (F, G, L) ∧
      cyclicReductionConditionalStatistics 10000000000 x z kernel = .ok (F', G', L) ∧
      (∀ q i (j : Fin d), F' q i j = F q i j.succ) ∧
      ∀ q i (j : Fin (min (c + 1) (d + 1))) (j' : Fin (d + 1)), (j' : ℕ) = j → G' q i j = G q i j' := by
  obtain ⟨cs, L, -, -, -, hr⟩ := cyclic_core h hQ
  refine ⟨_, _, _, cyclicSliceF fun q => -((cs q).Eᵀ * L q),
    cyclicSliceG (c + 1) fun q => -((cs q).Dᵀ * L q), hr, ?_, fun q i j => rfl, fun q i j j' hj => ?_⟩
  · unfold cyclicReductionConditionalStatistics
    have : cyclicReduction 10000000000 x z kernel = _ := hr
    rw [this]
    rfl
  · rw [show j' = ⟨j, lt_of_lt_of_le j.2 (min_le_right _ _)⟩ from Fin.ext hj]
    rfl

/-- A case: Matern-3/2, three explained and two conditioning times. -/
example : ∃ (K : Stationary 1 2) (k : ℝ → ℝ → Mat 1 1), Builds K k ∧ NoiseTag K true ∧ K.jitter = 0 ∧
    (∀ t δ, 0 < δ → (K.trans t δ).2.PosDef) ∧
    Interlaced (![-1, 1, 4] : Fin 3 → ℝ) (![0, 2] : Fin 2 → ℝ) ∧ Interlaced (![-1, 1] : Fin 2 → ℝ) (![0, 2] : Fin 2 → ℝ) := by
  obtain ⟨K, hK⟩ := (C28_constructors (o := 1) 2 3 1 1 1 0).2.1.2 (by norm_num)
  have hb : Builds K _ := .leaf (.matern32 hK)
  have hN : NoiseTag K true := .matern32 hK
  refine ⟨K, _, hb, hN, by rw [(kernelInit_ok hK).2.2]; rfl, fun t δ hδ => (C27_process_covariance_pd hb hN t hδ).2,
    ⟨by norm_num, by norm_num, ?_, ?_, ?_, ?_, ?_⟩, ⟨by norm_num, by norm_num, ?_, ?_, ?_, ?_, ?_⟩⟩
  · intro q r h; fin_cases q <;> fin_cases r <;> first | (simp at h; done) | norm_num
  · intro q r h; fin_cases q <;> fin_cases r <;> first | (simp at h; done) | norm_num
  · intro q; fin_cases q <;> norm_num
  · intro q; fin_cases q <;> norm_num
  · intro q; fin_cases q <;> norm_num
  · intro q r h; fin_cases q <;> fin_cases r <;> first | (simp at h; done) | norm_num
  · intro q r h; fin_cases q <;> fin_cases r <;> first | (simp at h; done) | norm_num
  · intro q; fin_cases q <;> norm_num
  · intro q; fin_cases q <;> norm_num
  · intro q; fin_cases q <;> norm_num

end MF
