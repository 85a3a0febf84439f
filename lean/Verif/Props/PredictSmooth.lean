import Verif.Spec.PredictSmooth
import Verif.Lemmas.PredictSmooth
import Verif.Lemmas.GPR
import Verif.Props.GPR
import Verif.Props.Conditionals
import Verif.Props.Kernels

/-! # C58: predictions are continuous in the query time, and derivatives of the state are predicted as derivatives -/

namespace MF
open Matrix Spec Set
variable {n d o p : ℕ}

theorem augmented_strict {ts : Fin (n + 1) → ℝ} (hts : StrictMono ts) {inf : ℝ} (h0 : -inf < ts 0)
    (h1 : ts (Fin.last n) < inf) : StrictMono (augmentedTimes inf ts) := by
  refine Fin.strictMono_iff_lt_succ.2 fun i => ?_
  refine Fin.cases ?_ (fun i => ?_) i
  · have e : (Fin.succ 0 : Fin (n + 3)) = (0 : Fin (n + 1)).castSucc.succ := rfl
    rw [e, augmentedTimes_mid]
    exact h0
  · rw [← Fin.succ_castSucc]
    refine Fin.lastCases ?_ (fun i => ?_) i
    · rw [augmentedTimes_mid]
      have e : (Fin.last n).succ.succ = (Fin.last (n + 2)) := rfl
      rw [e]
      have : augmentedTimes inf ts (Fin.last (n + 2)) = inf := by
        unfold augmentedTimes
        show (Fin.cons (-inf) (Fin.snoc (α := fun _ => ℝ) ts inf) : Fin (n + 3) → ℝ) (Fin.last (n + 1)).succ = inf
        rw [Fin.cons_succ, Fin.snoc_last]
      rw [this]
      exact h1
    · rw [Fin.succ_castSucc i, augmentedTimes_mid, augmentedTimes_mid]
      exact hts (Fin.castSucc_lt_succ)

theorem predict_fun {c : CondProcess n o d} {k} (hK : Builds c.kernel k) (hN : NoiseTag c.kernel true)
    (hj : c.kernel.jitter = 0) (hq : c.q.Nondegenerate) (hn : 0 < n) (hts : StrictMono c.times)
    (ht0 : -10000000000 < c.times 0) (ht1 : c.times (Fin.last n) < 10000000000) :
    ∃ (w : Fin (n + 2 + 1) × Fin d → ℝ) (W : Matrix (Fin (n + 2 + 1) × Fin d) (Fin (n + 2 + 1) × Fin d) ℝ),
      PredictsAs c (predAt (c.kernel.stateTransitions 0) c.kernel.Pinf (augmentedTimes approxInf c.times) w W) := by
  obtain ⟨hc, hr, -⟩ := Builds.good hK
  have hg := augmented_strict hts ht0 ht1
  obtain ⟨s, hs, hnd⟩ := kernel_ssm_nondegenerate hK hN (by omega : 0 < n + 2) hg
  obtain ⟨-, hKs⟩ := kernel_moments hK hj hs
  have hM : (covMat (c.kernel.stateTransitions 0) c.kernel.Pinf (augmentedTimes approxInf c.times)).PosDef := by
    have hKs : s.Kd = covMat (c.kernel.stateTransitions 0) c.kernel.Pinf (augmentedTimes 10000000000 c.times) := hKs
    have := SSM.Kd_posDef hnd
    rw [hKs] at this
    exact this
  refine ⟨(covMat (c.kernel.stateTransitions 0) c.kernel.Pinf (augmentedTimes approxInf c.times))⁻¹ *ᵥ
        (Sum.elim (0 : Fin 2 × Fin d → ℝ) (stk c.q.mus) ∘ endIdx),
      (covMat (c.kernel.stateTransitions 0) c.kernel.Pinf (augmentedTimes approxInf c.times))⁻¹ *
        (augCov (covMat (c.kernel.stateTransitions 0) c.kernel.Pinf (endTimes approxInf)) c.q.Kd -
          covMat (c.kernel.stateTransitions 0) c.kernel.Pinf (augmentedTimes approxInf c.times)) *
        (covMat (c.kernel.stateTransitions 0) c.kernel.Pinf (augmentedTimes approxInf c.times))⁻¹, fun p new hb => ?_⟩
  obtain ⟨r, hr'⟩ := C22_succeeds hK hN hq hn hts.monotone (fun j => (hb j).1) fun j => (hb j).2.le
  rw [hr']
  congr 1
  funext j
  exact predict_closed hc hr hj hq hn hts.monotone ht0.le ht1.le hM (fun j => (hb j).1) (fun j => (hb j).2.le) hr' j

theorem Spec.PredictsAs.eqOn {c : CondProcess n o d} {r r' : ℝ → Vec d × Mat d d} (h : PredictsAs c r)
    (h' : PredictsAs c r') : EqOn r r' (Ioo (-10000000000) 10000000000) := fun t ht => by
  have e := h 1 (fun _ => t) fun _ => ⟨ht.1, ht.2⟩
  rw [h' 1 (fun _ => t) fun _ => ⟨ht.1, ht.2⟩] at e
  exact (congrFun (Except.ok.inj e) 0).symm

/-- C58: prediction at several times is prediction at each of them: `predict_state` evaluates one function of the
query time (determined on the whole range). -/
theorem C58_pointwise {c : CondProcess n o d} {k} (hK : Builds c.kernel k) (hN : NoiseTag c.kernel true)
    (hj : c.kernel.jitter = 0) (hq : c.q.Nondegenerate) (hn : 0 < n) (hts : StrictMono c.times)
    (ht0 : -10000000000 < c.times 0) (ht1 : c.times (Fin.last n) < 10000000000) :
    (∃ r, PredictsAs c r) ∧
      ∀ r r', PredictsAs c r → PredictsAs c r' → EqOn r r' (Ioo (-10000000000) 10000000000) := by
  obtain ⟨w, W, h⟩ := predict_fun hK hN hj hq hn hts ht0 ht1
  exact ⟨⟨_, h⟩, fun r r' h h' => h.eqOn h'⟩

/-- C58: the predicted means and covariances of the state are continuous functions of the query time, across the
conditioning times and the ends of their range. -/
theorem C58_continuous {c : CondProcess n o d} {k} (hK : Builds c.kernel k) (hN : NoiseTag c.kernel true)
    (hj : c.kernel.jitter = 0) (hq : c.q.Nondegenerate) (hn : 0 < n) (hts : StrictMono c.times)
    (ht0 : -10000000000 < c.times 0) (ht1 : c.times (Fin.last n) < 10000000000) {r} (h : PredictsAs c r) :
    ContinuousOn r (Ioo (-10000000000) 10000000000) := by
  obtain ⟨w, W, h'⟩ := predict_fun hK hN hj hq hn hts ht0 ht1
  exact (continuous_predAt (Builds.good hK).1.statProc (Builds.continuous hK)).continuousOn.congr (h.eqOn h')

/-- C58: where the driving noise does not enter `u ⬝ x` and `v ⬝ x`, their predicted means and covariance have, at every
query time (conditioning times included), the derivatives that the differential equation gives: `(u ⬝ x)' = (u F) ⬝ x`. -/
theorem C58_derivative {c : CondProcess n o d} {k} (hK : Builds c.kernel k) (hN : NoiseTag c.kernel true)
    (hj : c.kernel.jitter = 0) (hq : c.q.Nondegenerate) (hn : 0 < n) (hts : StrictMono c.times)
    (ht0 : -10000000000 < c.times 0) (ht1 : c.times (Fin.last n) < 10000000000) {r} (h : PredictsAs c r)
    (hF : SolvesSDE c.kernel.feedback (c.kernel.stateTransitions 0)) {u : Vec d}
    (hu : u ᵥ* (c.kernel.feedback * c.kernel.Pinf + c.kernel.Pinf * c.kernel.feedbackᵀ) = 0) {t : ℝ}
    (ht : -10000000000 < t ∧ t < 10000000000) :
    HasDerivAt (fun t => u ⬝ᵥ (r t).1) ((u ᵥ* c.kernel.feedback) ⬝ᵥ (r t).1) t ∧
    ∀ v : Vec d, v ᵥ* (c.kernel.feedback * c.kernel.Pinf + c.kernel.Pinf * c.kernel.feedbackᵀ) = 0 →
      HasDerivAt (fun t => u ⬝ᵥ (r t).2 *ᵥ v)
        ((u ᵥ* c.kernel.feedback) ⬝ᵥ (r t).2 *ᵥ v + u ⬝ᵥ (r t).2 *ᵥ (v ᵥ* c.kernel.feedback)) t := by
  obtain ⟨w, W, h'⟩ := predict_fun hK hN hj hq hn hts ht0 ht1
  have he := h.eqOn h'
  have hst := (Builds.good hK).1.statProc
  have hnb : Ioo (-10000000000 : ℝ) 10000000000 ∈ nhds t := Ioo_mem_nhds ht.1 ht.2
  refine ⟨?_, fun v hv => ?_⟩
  · rw [he ht]
    refine (hasDerivAt_predAt_mean hst hF hu t).congr_of_eventuallyEq ?_
    filter_upwards [hnb] with x hx
    rw [he hx]
  · rw [he ht]
    refine (hasDerivAt_predAt_cov hst hF hu hv t).congr_of_eventuallyEq ?_
    filter_upwards [hnb] with x hx
    rw [he hx]

/-! ## Outputs -/

theorem predictF_of_state {c : CondProcess n o d} {r} (h : PredictsAs c r) :
    PredictsFAs c fun t => (c.kernel.emission t *ᵥ (r t).1 + c.meanFunction t,
      c.kernel.emission t * (r t).2 * (c.kernel.emission t)ᵀ) := by
  intro p new hb
  unfold CondProcess.predictF
  rw [h p new hb]
  simp only [Bind.bind, Except.bind, Pure.pure, Except.pure]
  congr 1
  funext j
  refine Prod.ext rfl ?_
  ext i l
  simp only [projectStateCovarianceToFFull, of_apply]
  rw [Matrix.mul_apply, Finset.sum_comm]
  simp only [Matrix.mul_apply, transpose_apply, Finset.sum_mul]

theorem Spec.PredictsFAs.eqOn {c : CondProcess n o d} {r r' : ℝ → Vec o × Mat o o} (h : PredictsFAs c r)
    (h' : PredictsFAs c r') : EqOn r r' (Ioo (-10000000000) 10000000000) := fun t ht => by
  have e := h 1 (fun _ => t) fun _ => ⟨ht.1, ht.2⟩
  rw [h' 1 (fun _ => t) fun _ => ⟨ht.1, ht.2⟩] at e
  exact (congrFun (Except.ok.inj e) 0).symm

/-- C58: with a continuous mean function (and continuous factor weights, if there are any) `predict_f` is continuous in
the query time. -/
theorem C58_predict_f {c : CondProcess n o d} {k} (hK : Builds c.kernel k) (hN : NoiseTag c.kernel true)
    (hj : c.kernel.jitter = 0) (hq : c.q.Nondegenerate) (hn : 0 < n) (hts : StrictMono c.times)
    (ht0 : -10000000000 < c.times 0) (ht1 : c.times (Fin.last n) < 10000000000)
    (hH : ∀ i a, Continuous fun t => c.kernel.emission t i a) (hm : Continuous c.meanFunction) :
    ∃ f, PredictsFAs c f ∧ ContinuousOn f (Ioo (-10000000000) 10000000000) := by
  obtain ⟨⟨r, h⟩, -⟩ := C58_pointwise hK hN hj hq hn hts ht0 ht1
  have hr := C58_continuous hK hN hj hq hn hts ht0 ht1 h
  have hH' : Continuous c.kernel.emission := continuous_matrix hH
  refine ⟨_, predictF_of_state h, ?_⟩
  have h1 : ContinuousOn (fun t => (r t).1) (Ioo (-10000000000) 10000000000) := continuous_fst.comp_continuousOn hr
  have h2 : ContinuousOn (fun t => (r t).2) (Ioo (-10000000000) 10000000000) := continuous_snd.comp_continuousOn hr
  rw [continuousOn_iff_continuous_domRestrict] at *
  have hHr : Continuous fun t : Ioo (-10000000000 : ℝ) 10000000000 => c.kernel.emission t :=
    hH'.comp continuous_subtype_val
  exact ((hHr.matrix_mulVec h1).add (hm.comp continuous_subtype_val)).prodMk
    ((hHr.matrix_mul h2).matrix_mul hHr.matrix_transpose)

theorem dot_row (H : Mat o d) (x : Vec d) (i : Fin o) : (H *ᵥ x) i = H i ⬝ᵥ x := rfl

/-- C58: a kernel with differentiable outputs: the mean of `predict_f` is differentiable in the query time, and its
derivative is `H F` applied to the mean of `predict_state` (plus the derivative of the mean function); likewise for the
covariance. -/
theorem C58_predict_f_derivative {c : CondProcess n o d} {k} (hK : Builds c.kernel k) (hN : NoiseTag c.kernel true)
    (hj : c.kernel.jitter = 0) (hq : c.q.Nondegenerate) (hn : 0 < n) (hts : StrictMono c.times)
    (ht0 : -10000000000 < c.times 0) (ht1 : c.times (Fin.last n) < 10000000000)
    {r f} (h : PredictsAs c r) (hf : PredictsFAs c f)
    (hF : SolvesSDE c.kernel.feedback (c.kernel.stateTransitions 0)) (hS : SmoothOutputs c.kernel) {t : ℝ}
    (ht : -10000000000 < t ∧ t < 10000000000) {m' : Vec o} (i : Fin o)
    (hm : HasDerivAt (fun t => c.meanFunction t i) (m' i) t) :
    HasDerivAt (fun t => (f t).1 i) (((c.kernel.emission 0 * c.kernel.feedback) *ᵥ (r t).1 + m') i) t ∧
    ∀ j, HasDerivAt (fun t => (f t).2 i j)
      ((c.kernel.emission 0 * c.kernel.feedback * (r t).2 * (c.kernel.emission 0)ᵀ +
        c.kernel.emission 0 * (r t).2 * (c.kernel.emission 0 * c.kernel.feedback)ᵀ) i j) t := by
  have he := hf.eqOn (predictF_of_state h)
  have hnb : Ioo (-10000000000 : ℝ) 10000000000 ∈ nhds t := Ioo_mem_nhds ht.1 ht.2
  have hrow : ∀ i, c.kernel.emission 0 i ᵥ*
      (c.kernel.feedback * c.kernel.Pinf + c.kernel.Pinf * c.kernel.feedbackᵀ) = 0 := fun i => by
    have := congrFun hS.2 i
    rwa [Matrix.mul_apply_eq_vecMul] at this
  have hd := C58_derivative hK hN hj hq hn hts ht0 ht1 h hF (hrow i) ht
  refine ⟨?_, fun j => ?_⟩
  · refine HasDerivAt.congr_of_eventuallyEq (f := fun t => c.kernel.emission 0 i ⬝ᵥ (r t).1 + c.meanFunction t i) ?_ ?_
    · have e : ((c.kernel.emission 0 * c.kernel.feedback) *ᵥ (r t).1 + m') i =
          (c.kernel.emission 0 i ᵥ* c.kernel.feedback) ⬝ᵥ (r t).1 + m' i := by
        rw [Pi.add_apply, dot_row, Matrix.mul_apply_eq_vecMul]
      rw [e]
      exact hd.1.add hm
    · filter_upwards [hnb] with x hx
      rw [he hx]
      show (c.kernel.emission x *ᵥ (r x).1 + c.meanFunction x) i = _
      rw [hS.1 x]
      rfl
  · have e1 : ∀ (X Y : Mat o d) (C : Mat d d), (X * C * Yᵀ) i j = X i ⬝ᵥ C *ᵥ Y j := fun X Y C => by
      rw [dotProduct_mulVec, Matrix.mul_apply, dotProduct]
      refine Finset.sum_congr rfl fun a _ => ?_
      rw [Matrix.mul_apply_eq_vecMul, transpose_apply]
    refine HasDerivAt.congr_of_eventuallyEq
      (f := fun t => c.kernel.emission 0 i ⬝ᵥ (r t).2 *ᵥ c.kernel.emission 0 j) ?_ ?_
    · rw [Matrix.add_apply, e1, e1, Matrix.mul_apply_eq_vecMul, Matrix.mul_apply_eq_vecMul]
      exact hd.2 _ (hrow j)
    · filter_upwards [hnb] with x hx
      rw [he hx]
      show (c.kernel.emission x * (r x).2 * (c.kernel.emission x)ᵀ) i j = _
      rw [hS.1 x, e1]

theorem concatCols_congr {α : ℕ → Type*} {ks : List (Σ d, α d)} {f g : (d : ℕ) → α d → Mat o d}
    (h : ∀ k ∈ ks, f k.1 k.2 = g k.1 k.2) : concatCols f ks = concatCols g ks := by
  induction ks with
  | nil => rfl
  | cons k ks ih =>
    rw [concatCols, concatCols, ih fun k' hk => h k' (List.mem_cons_of_mem _ hk), h k (by simp)]

theorem drift32 (lam v : ℝ) : feedback32 lam * (v • !![1, 0; 0, lam ^ 2]) +
    (v • !![1, 0; 0, lam ^ 2]) * (feedback32 lam)ᵀ = !![0, 0; 0, -4 * lam ^ 3 * v] := by
  ext a b
  rw [Matrix.add_apply, Matrix.mul_apply, Matrix.mul_apply, Fin.sum_univ_two, Fin.sum_univ_two]
  simp only [transpose_apply, feedback32, Matrix.smul_apply]
  fin_cases a <;> fin_cases b <;> simp <;> ring

theorem drift52 (lam v : ℝ) : feedback52 lam * (v • !![1, 0, -(lam ^ 2 / 3); 0, lam ^ 2 / 3, 0; -(lam ^ 2 / 3), 0, lam ^ 4]) +
    (v • !![1, 0, -(lam ^ 2 / 3); 0, lam ^ 2 / 3, 0; -(lam ^ 2 / 3), 0, lam ^ 4]) * (feedback52 lam)ᵀ =
      !![0, 0, 0; 0, 0, 0; 0, 0, -16 / 3 * lam ^ 5 * v] := by
  ext a b
  rw [Matrix.add_apply, Matrix.mul_apply, Matrix.mul_apply, Fin.sum_univ_three, Fin.sum_univ_three]
  simp only [transpose_apply, feedback52, Matrix.smul_apply]
  fin_cases a <;> fin_cases b <;> simp <;> ring

/-- C58: `Matern32`, `Matern52`, periodic and constant kernels have differentiable outputs, and so have their sums. -/
theorem C58_smooth_kernels (l v j : ℝ) :
    (∀ K, matern32 o l v j = .ok K → SmoothOutputs K) ∧ (∀ K, matern52 o l v j = .ok K → SmoothOutputs K) ∧
    (∀ K, harmonicOscillator o v l j = .ok K → SmoothOutputs K) ∧ (∀ K, constant o v j = .ok K → SmoothOutputs K) ∧
    ∀ (ks : List (Σ d, Stationary o d)) K, (∀ k ∈ ks, SmoothOutputs k.2) → sumKernel ks j = .ok K → SmoothOutputs K := by
  refine ⟨fun K hK => ?_, fun K hK => ?_, fun K hK => ?_, fun K hK => ?_, fun ks K hk hK => ?_⟩
  · obtain ⟨-, -, rfl⟩ := kernelInit_ok hK
    refine ⟨fun _ => rfl, ?_⟩
    have := drift32 (Real.sqrt 3 / l) v
    refine (congrArg (sdeEmission o 2 * ·) this).trans ?_
    ext a b
    fin_cases b <;> simp [sdeEmission, Matrix.mul_apply, Fin.sum_univ_two]
  · obtain ⟨-, -, rfl⟩ := kernelInit_ok hK
    refine ⟨fun _ => rfl, ?_⟩
    have := drift52 (Real.sqrt 5 / l) v
    refine (congrArg (sdeEmission o 3 * ·) this).trans ?_
    ext a b
    fin_cases b <;> simp [sdeEmission, Matrix.mul_apply, Fin.sum_univ_three]
  · obtain ⟨-, -, rfl⟩ := kernelInit_ok hK
    refine ⟨fun _ => rfl, ?_⟩
    have : !![0, -(2 * Real.pi / l); 2 * Real.pi / l, 0] * (v • (1 : Mat 2 2)) +
      (v • (1 : Mat 2 2)) * (!![0, -(2 * Real.pi / l); 2 * Real.pi / l, 0])ᵀ = 0 := by
      rw [Matrix.mul_smul, Matrix.smul_mul, Matrix.mul_one, Matrix.one_mul]
      ext a b
      fin_cases a <;> fin_cases b <;> simp
    refine (congrArg (sdeEmission o 2 * ·) this).trans (Matrix.mul_zero _)
  · obtain ⟨-, -, rfl⟩ := kernelInit_ok hK
    refine ⟨fun _ => rfl, ?_⟩
    show sdeEmission o 1 * ((0 : Mat 1 1) * !![1 * v] + !![1 * v] * (0 : Mat 1 1)ᵀ) = 0
    simp
  · obtain ⟨-, -, rfl⟩ := combineInit_ok hK
    refine ⟨fun t => concatCols_congr fun k hkm => (hk k hkm).1 t, ?_⟩
    show concatCols (fun _ k => k.emission 0) ks * (blockDiag (fun _ k => k.feedback) ks * blockDiag (fun _ k => k.Pinf) ks +
      blockDiag (fun _ k => k.Pinf) ks * (blockDiag (fun _ k => k.feedback) ks)ᵀ) = 0
    rw [blockDiag_transpose, blockDiag_mul, blockDiag_mul, Matrix.mul_add, concatCols_mul_blockDiag,
      concatCols_mul_blockDiag]
    clear hK
    induction ks with
    | nil => ext a b; exact b.elim0
    | cons k ks ih =>
      have ih' := ih fun k' hk' => hk k' (List.mem_cons_of_mem _ hk')
      have h0 := (hk k (by simp)).2
      rw [Matrix.mul_add] at h0
      ext a b
      have e1 := fun b => congrFun (congrFun ih' a) b
      have e2 := fun b => congrFun (congrFun h0 a) b
      simp only [concatCols, Matrix.add_apply, submatrix_apply, Matrix.zero_apply, id_eq] at e1 e2 ⊢
      rcases splitSum k ks b with b | b
      · exact e2 b
      · exact e1 b

/-- C58, `Matern32`: the second state component is predicted as the derivative of the first one, which is the output. -/
theorem C58_matern32 {c : CondProcess n o 2} {l v : ℝ} (hK : matern32 o l v 0 = .ok c.kernel)
    (hq : c.q.Nondegenerate) (hn : 0 < n) (hts : StrictMono c.times)
    (ht0 : -10000000000 < c.times 0) (ht1 : c.times (Fin.last n) < 10000000000) {r} (h : PredictsAs c r) {t : ℝ}
    (ht : -10000000000 < t ∧ t < 10000000000) :
    HasDerivAt (fun t => (r t).1 0) ((r t).1 1) t ∧
    HasDerivAt (fun t => (r t).2 0 0) ((r t).2 1 0 + (r t).2 0 1) t ∧
    (c.meanFunction = 0 → ∀ f, PredictsFAs c f → ∀ i, HasDerivAt (fun t => (f t).1 i) ((r t).1 1) t) := by
  have hb : Builds c.kernel _ := .leaf (.matern32 hK)
  have hN : NoiseTag c.kernel true := .matern32 hK
  have hj : c.kernel.jitter = 0 := by rw [(kernelInit_ok hK).2.2]; rfl
  have hF := (leaf_matern32 hK).2.2.2.2
  have hfb : c.kernel.feedback = feedback32 (Real.sqrt 3 / l) := by rw [(kernelInit_ok hK).2.2]; rfl
  have hPi : c.kernel.Pinf = v • !![1, 0; 0, (Real.sqrt 3 / l) ^ 2] := by rw [(kernelInit_ok hK).2.2]; rfl
  have hem : ∀ t, c.kernel.emission t = sdeEmission o 2 := fun t => by rw [(kernelInit_ok hK).2.2]; rfl
  have hu : (Pi.single 0 1 : Vec 2) ᵥ* (c.kernel.feedback * c.kernel.Pinf + c.kernel.Pinf * c.kernel.feedbackᵀ) = 0 := by
    rw [hfb, hPi, drift32]
    funext a
    rw [single_one_vecMul]
    fin_cases a <;> rfl
  have hrow : (Pi.single 0 1 : Vec 2) ᵥ* c.kernel.feedback = Pi.single 1 1 := by
    rw [hfb, single_one_vecMul]
    funext a
    fin_cases a <;> simp [feedback32]
  have hd := C58_derivative hb hN hj hq hn hts ht0 ht1 h hF hu ht
  have h2 := hd.2 _ hu
  have h1 := hd.1
  simp only [hrow, single_one_dotProduct, mulVec_single_one, col_apply] at h1 h2
  refine ⟨h1, h2, fun hm f hf i => ?_⟩
  have he := hf.eqOn (predictF_of_state h)
  refine h1.congr_of_eventuallyEq ?_
  filter_upwards [Ioo_mem_nhds ht.1 ht.2] with x hx
  rw [he hx]
  show (c.kernel.emission x *ᵥ (r x).1 + c.meanFunction x) i = _
  rw [hem, hm]
  simp [sdeEmission, mulVec, dotProduct, Fin.sum_univ_two]

/-- C58, `Matern52`: the second state component is predicted as the derivative of the first one, which is the output, and
the third one as the derivative of the second. -/
theorem C58_matern52 {c : CondProcess n o 3} {l v : ℝ} (hK : matern52 o l v 0 = .ok c.kernel)
    (hq : c.q.Nondegenerate) (hn : 0 < n) (hts : StrictMono c.times)
    (ht0 : -10000000000 < c.times 0) (ht1 : c.times (Fin.last n) < 10000000000) {r} (h : PredictsAs c r) {t : ℝ}
    (ht : -10000000000 < t ∧ t < 10000000000) :
    HasDerivAt (fun t => (r t).1 0) ((r t).1 1) t ∧ HasDerivAt (fun t => (r t).1 1) ((r t).1 2) t ∧
    HasDerivAt (fun t => (r t).2 0 0) ((r t).2 1 0 + (r t).2 0 1) t ∧
    HasDerivAt (fun t => (r t).2 0 1) ((r t).2 1 1 + (r t).2 0 2) t ∧
    HasDerivAt (fun t => (r t).2 1 1) ((r t).2 2 1 + (r t).2 1 2) t ∧
    (c.meanFunction = 0 → ∀ f, PredictsFAs c f → ∀ i, HasDerivAt (fun t => (f t).1 i) ((r t).1 1) t) := by
  have hb : Builds c.kernel _ := .leaf (.matern52 hK)
  have hN : NoiseTag c.kernel true := .matern52 hK
  have hj : c.kernel.jitter = 0 := by rw [(kernelInit_ok hK).2.2]; rfl
  have hF := (leaf_matern52 hK).2.2.2.2
  have hfb : c.kernel.feedback = feedback52 (Real.sqrt 5 / l) := by rw [(kernelInit_ok hK).2.2]; rfl
  have hPi : c.kernel.Pinf = v • !![1, 0, -((Real.sqrt 5 / l) ^ 2 / 3); 0, (Real.sqrt 5 / l) ^ 2 / 3, 0;
      -((Real.sqrt 5 / l) ^ 2 / 3), 0, (Real.sqrt 5 / l) ^ 4] := by rw [(kernelInit_ok hK).2.2]; rfl
  have hem : ∀ t, c.kernel.emission t = sdeEmission o 3 := fun t => by rw [(kernelInit_ok hK).2.2]; rfl
  have hu : ∀ i : Fin 2, (Pi.single i.castSucc 1 : Vec 3) ᵥ*
      (c.kernel.feedback * c.kernel.Pinf + c.kernel.Pinf * c.kernel.feedbackᵀ) = 0 := fun i => by
    rw [hfb, hPi, drift52]
    funext a
    rw [single_one_vecMul]
    fin_cases i <;> fin_cases a <;> rfl
  have hrow : ∀ i : Fin 2, (Pi.single i.castSucc 1 : Vec 3) ᵥ* c.kernel.feedback = Pi.single i.succ 1 := fun i => by
    rw [hfb, single_one_vecMul]
    funext a
    fin_cases i <;> fin_cases a <;> simp [feedback52]
  have hd := fun i => C58_derivative hb hN hj hq hn hts ht0 ht1 h hF (hu i) ht
  have h1 := fun i => (hd i).1
  have h2 := fun i j => (hd i).2 _ (hu j)
  simp only [hrow, single_one_dotProduct, mulVec_single_one, col_apply] at h1 h2
  refine ⟨h1 0, h1 1, h2 0 0, h2 0 1, h2 1 1, fun hm f hf i => ?_⟩
  have he := hf.eqOn (predictF_of_state h)
  refine (h1 0).congr_of_eventuallyEq ?_
  filter_upwards [Ioo_mem_nhds ht.1 ht.2] with x hx
  rw [he hx]
  show (c.kernel.emission x *ᵥ (r x).1 + c.meanFunction x) i = _
  rw [hem, hm]
  simp [sdeEmission, mulVec, dotProduct, Fin.sum_univ_three]

/-! ## Non-vacuity -/

/-- A posterior process over `Matern32` with a sloped mean function, three conditioning times: the hypotheses hold, for
instance at the second conditioning time, and so does the conclusion. -/
example : ∃ (c : CondProcess 2 1 2) (k : ℝ → ℝ → Mat 1 1), Builds c.kernel k ∧ NoiseTag c.kernel true ∧
    c.kernel.jitter = 0 ∧ c.q.Nondegenerate ∧ StrictMono c.times ∧ SmoothOutputs c.kernel ∧
    SolvesSDE c.kernel.feedback (c.kernel.stateTransitions 0) ∧ c.times 1 = 1 ∧
    ∃ r f, PredictsAs c r ∧ PredictsFAs c f ∧ HasDerivAt (fun t => (r t).1 0) ((r 1).1 1) 1 ∧
      HasDerivAt (fun t => (f t).1 0)
        (((c.kernel.emission 0 * c.kernel.feedback) *ᵥ (r 1).1 + (fun _ => 1 : Vec 1)) 0) 1 := by
  obtain ⟨K, hK⟩ := (C28_constructors (o := 1) 2 3 1 1 1 0).2.1.2 (by norm_num)
  have hb : Builds K _ := .leaf (.matern32 hK)
  have hN : NoiseTag K true := .matern32 hK
  have hj : K.jitter = 0 := by rw [(kernelInit_ok hK).2.2]; rfl
  have hmono : StrictMono (![0, 1, 3] : Fin 3 → ℝ) := by
    refine Fin.strictMono_iff_lt_succ.2 fun i => ?_
    fin_cases i <;> simp
  let c : CondProcess 2 1 2 := ⟨exSSM, K, ![0, 1, 3], fun t => ![t]⟩
  have hS : SmoothOutputs K := (C58_smooth_kernels 2 3 0).1 _ hK
  have hF := (leaf_matern32 hK).2.2.2.2
  have a0 : -10000000000 < c.times 0 := by show (-10000000000 : ℝ) < 0; norm_num
  have a1 : c.times (Fin.last 2) < 10000000000 := by show (3 : ℝ) < 10000000000; norm_num
  have a2 : (-10000000000 : ℝ) < 1 ∧ (1 : ℝ) < 10000000000 := by norm_num
  obtain ⟨⟨r, hr⟩, -⟩ := C58_pointwise (c := c) hb hN hj exSSM_nondegenerate (by norm_num) hmono a0 a1
  refine ⟨c, _, hb, hN, hj, exSSM_nondegenerate, hmono, hS, hF, rfl, r, _, hr, predictF_of_state hr,
    (C58_matern32 (c := c) hK exSSM_nondegenerate (by norm_num) hmono a0 a1 hr a2).1,
    (C58_predict_f_derivative (c := c) hb hN hj exSSM_nondegenerate (by norm_num) hmono a0 a1 hr (predictF_of_state hr)
      hF hS a2 0 ?_).1⟩
  exact hasDerivAt_id 1

end MF
