import Verif.Lemmas.Euler
import Verif.Lemmas.PEP
import Verif.Props.StateSpaceModel
import Mathlib.InformationTheory.KullbackLeibler.DataProcessing

/-!
# C41: stochastic differential equations
-/

namespace MF
open Matrix Spec MeasureTheory ProbabilityTheory
variable {n d : ℕ}

/-! ### Euler–Maruyama -/

theorem emScan_zero (s : SDE d) (x0 : Vec d) (grid : Fin (n + 1) → ℝ) (eps : Fin (n + 1) → Vec d) :
    tfScan (emStep s) (x0, 0) (fun k => (grid k, eps k)) 0 = emStep s (x0, 0) (grid 0, eps 0) := tfScan_zero _ _ _

theorem emScan_time (s : SDE d) (x0 : Vec d) (grid : Fin (n + 1) → ℝ) (eps : Fin (n + 1) → Vec d) (k : Fin (n + 1)) :
    (tfScan (emStep s) (x0, 0) (fun k => (grid k, eps k)) k).2 = grid k := by
  induction k using Fin.cases with
  | zero => rw [tfScan_zero]; rfl
  | succ k => rw [tfScan_succ]; rfl

/-- C41: `euler_maruyama(sde, x0, time_grid)` starts at `x0` at time zero and its entry `k + 1` is the Euler–Maruyama approximation at
time `time_grid[k]`; the last grid time is not simulated. -/
theorem C41_euler_maruyama (s : SDE d) (x0 : Vec d) (grid : Fin (n + 1) → ℝ) (eps : Fin (n + 1) → Vec d) :
    IsEulerMaruyama s.drift s.diffusion (Fin.cons 0 fun k : Fin n => grid k.castSucc) x0 (fun k => eps k.castSucc)
      (eulerMaruyama s x0 grid eps) := by
  refine ⟨rfl, fun k => ?_⟩
  have hs : ∀ k : Fin n, eulerMaruyama s x0 grid eps k.succ = (tfScan (emStep s) (x0, 0) (fun k => (grid k, eps k)) k.castSucc).1 :=
    fun k => rfl
  rw [hs]
  rcases n with _ | n
  · exact k.elim0
  induction k using Fin.cases with
  | zero =>
    rw [Fin.castSucc_zero, tfScan_zero]
    simp only [emStep, smul_mulVec, Fin.cons_succ, Fin.cons_zero, Fin.castSucc_zero]
    rfl
  | succ k =>
    rw [← Fin.succ_castSucc, tfScan_succ]
    have ht := emScan_time s x0 grid eps k.castSucc.castSucc
    simp only [emStep, smul_mulVec, Fin.cons_succ, ht]
    rfl

/-- C41, negative result: on a grid that starts at time zero the entries are shifted against the grid: the second entry is still `x0`,
and no entry depends on the last grid time or the last draw. -/
theorem C41_euler_maruyama_shifted (s : SDE d) (x0 : Vec d) (grid grid' : Fin (n + 2) → ℝ) (eps eps' : Fin (n + 2) → Vec d) :
    (grid 0 = 0 → eulerMaruyama s x0 grid eps 1 = x0) ∧
    ((∀ k : Fin (n + 1), grid k.castSucc = grid' k.castSucc ∧ eps k.castSucc = eps' k.castSucc) →
      eulerMaruyama s x0 grid eps = eulerMaruyama s x0 grid' eps') := by
  constructor
  · intro h
    have := (C41_euler_maruyama s x0 grid eps).succ 0
    simp only [Fin.succ_zero_eq_one, Fin.castSucc_zero, Fin.cons_zero] at this
    rw [this]
    have e0 : (Fin.cons 0 fun k : Fin (n + 1) => grid k.castSucc : Fin (n + 2) → ℝ) 1 = grid 0 := rfl
    rw [e0, h]
    simp [eulerMaruyama]
  · intro h
    have h1 := C41_euler_maruyama s x0 grid eps
    have h2 := C41_euler_maruyama s x0 grid' eps'
    have eg : (fun k : Fin (n + 1) => grid k.castSucc) = fun k => grid' k.castSucc := funext fun k => (h k).1
    funext k
    induction k using Fin.induction with
    | zero => rw [h1.zero, h2.zero]
    | succ k ih => rw [h1.succ, h2.succ, ih, eg, (h k).2]

theorem stdNormal_eq {ι : Type*} [Fintype ι] [DecidableEq ι] : stdNormal ι = gaussLaw (0 : ι → ℝ) (1 : Matrix ι ι ℝ) := by
  have := stdNormal_map_affine (0 : ι → ℝ) (1 : Matrix ι ι ℝ)
  simpa using this

theorem stdNormal_comp {ι κ : Type*} [Fintype ι] [DecidableEq ι] [Fintype κ] [DecidableEq κ] {f : κ → ι} (hf : Function.Injective f) :
    (stdNormal ι).map (fun e => e ∘ f) = stdNormal κ := by
  rw [stdNormal_eq, stdNormal_eq, gaussLaw_comp PosSemidef.one, submatrix_one _ hf]
  rfl

/-- C41: for a linear SDE `dx = (A(t) x + b(t)) dt + L(t) dB`, the values that `euler_maruyama` returns, driven by independent standard
normal draws, are distributed exactly as the trajectory of the state space model `LinearDrift.to_ssm` builds on the simulated times from
the deterministic initial state. -/
theorem C41_euler_maruyama_linear_law (A : ℝ → Mat d d) (b : ℝ → Vec d) (L : ℝ → Mat d d) (x0 : Vec d) (grid : Fin (n + 1) → ℝ) :
    let τ : Fin (n + 1) → ℝ := Fin.cons 0 fun k : Fin n => grid k.castSucc
    let drift : LinearDrift n d := ⟨fun k => A (τ k.castSucc), fun k => b (τ k.castSucc)⟩
    let ssm := drift.toSSM (fun k => L (τ k.castSucc)) τ x0 0
    (stdNormal (Ix n d)).map (fun e => stk (eulerMaruyama ⟨fun x t => A t *ᵥ x + b t, fun _ t => L t⟩ x0 grid (unstk e))) =
      trajLaw ssm.mu0 ssm.cholP0 ssm.A ssm.b ssm.cholQ := by
  intro τ drift ssm
  set rot : Ix n d → Ix n d := fun i => (finRotate (n + 1) i.1, i.2) with hrot
  have hinj : Function.Injective rot := fun i j h => by
    have h1 := congrArg Prod.fst h
    have h2 := congrArg Prod.snd h
    exact Prod.ext ((finRotate (n + 1)).injective h1) h2
  unfold trajLaw
  conv_lhs => rw [← stdNormal_comp hinj]
  have key : ∀ e : Ix n d → ℝ, eulerMaruyama ⟨fun x t => A t *ᵥ x + b t, fun _ t => L t⟩ x0 grid (unstk (e ∘ rot)) =
      simulate ssm.mu0 ssm.A ssm.b (Fin.cons (ssm.cholP0 *ᵥ unstk e 0) fun k => ssm.cholQ k *ᵥ unstk e k.succ) := fun e => by
    have h1 := C41_euler_maruyama ⟨fun x t => A t *ᵥ x + b t, fun _ t => L t⟩ x0 grid (unstk (e ∘ rot))
    have h2 := simulate_isTrajectory ssm.mu0 ssm.A ssm.b (Fin.cons (ssm.cholP0 *ᵥ unstk e 0) fun k => ssm.cholQ k *ᵥ unstk e k.succ)
    have hr : ∀ k : Fin n, unstk (e ∘ rot) k.castSucc = unstk e k.succ := fun k => by
      funext i
      simp only [unstk, Function.comp, hrot]
      rw [show finRotate (n + 1) k.castSucc = k.succ from by
        rw [finRotate_succ_apply]; exact Fin.coeSucc_eq_succ]
    funext k
    induction k using Fin.induction with
    | zero =>
      rw [h1.zero, h2.zero]
      simp [ssm, LinearDrift.toSSM]
    | succ k ih =>
      rw [h1.succ, h2.succ, ih, hr, Fin.cons_succ]
      simp only [ssm, LinearDrift.toSSM, drift, add_mulVec, smul_mulVec, one_mulVec, smul_add]
      abel
  have mT : Measurable fun e : Ix n d → ℝ => e ∘ rot := by
    refine measurable_pi_lambda _ fun i => ?_
    exact measurable_pi_apply _
  have mE : Measurable fun e : Ix n d → ℝ => stk (eulerMaruyama ⟨fun x t => A t *ᵥ x + b t, fun _ t => L t⟩ x0 grid (unstk e)) := by
    have hm : ∀ k : Fin (n + 1), Measurable fun e : Ix n d → ℝ =>
        eulerMaruyama ⟨fun x t => A t *ᵥ x + b t, fun _ t => L t⟩ x0 grid (unstk e) k := fun k => by
      induction k using Fin.induction with
      | zero => exact measurable_const
      | succ k ih =>
        have hs := fun e : Ix n d → ℝ => (C41_euler_maruyama ⟨fun x t => A t *ᵥ x + b t, fun _ t => L t⟩ x0 grid (unstk e)).succ k
        simp only [hs]
        have hu : Measurable fun e : Ix n d → ℝ => unstk e k.castSucc := measurable_pi_lambda _ fun i => measurable_pi_apply _
        have hmv : ∀ (M : Mat d d) {g : (Ix n d → ℝ) → Vec d}, Measurable g → Measurable fun e => M *ᵥ g e := fun M g hg => by
          have := measurable_affine (0 : Vec d) M
          simp only [zero_add] at this
          exact this.comp hg
        exact (ih.add (((hmv _ ih).add_const _).const_smul (_ : ℝ))).add ((hmv _ hu).const_smul (_ : ℝ))
    refine measurable_pi_lambda _ fun i => ?_
    exact (measurable_pi_apply i.2).comp (hm i.1)
  rw [Measure.map_map mE mT]
  congr 1
  funext e
  simp only [Function.comp_apply]
  exact congrArg stk (key e)

/-! ### linear drifts -/

/-- C41: `set_from_ssm` followed by `to_ssm` on a grid with the same step gives back transitions and offsets, and the whole model when the
diffusion is the scaled process factor; and `to_ssm` followed by `set_from_ssm` gives back the drift. -/
theorem C41_drift_roundtrip (s : SSM n d) (l : LinearDrift n d) {dt : ℝ} (hdt : 0 < dt) {times : Fin (n + 1) → ℝ}
    (ht : ∀ k : Fin n, times k.succ - times k.castSucc = dt) (q : Fin n → Mat d d) (m : Vec d) (c : Mat d d) :
    ((LinearDrift.setFromSSM s dt).toSSM q times m c).A = s.A ∧ ((LinearDrift.setFromSSM s dt).toSSM q times m c).b = s.b ∧
    (LinearDrift.setFromSSM s dt).toSSM (fun k => (Real.sqrt dt)⁻¹ • s.cholQ k) times s.mu0 s.cholP0 = s ∧
    LinearDrift.setFromSSM (l.toSSM q times m c) dt = l := by
  have hs : Real.sqrt dt ≠ 0 := (Real.sqrt_pos.2 hdt).ne'
  have hA : ((LinearDrift.setFromSSM s dt).toSSM q times m c).A = s.A := by
    funext k
    simp only [LinearDrift.toSSM, LinearDrift.setFromSSM, ht, smul_smul, mul_inv_cancel₀ hdt.ne', one_smul, sub_add_cancel]
  have hb : ((LinearDrift.setFromSSM s dt).toSSM q times m c).b = s.b := by
    funext k
    simp only [LinearDrift.toSSM, LinearDrift.setFromSSM, ht, smul_smul, mul_inv_cancel₀ hdt.ne', one_smul]
  refine ⟨hA, hb, ?_, ?_⟩
  · obtain ⟨mu0, P0, A, b, Q⟩ := s
    simp only [LinearDrift.toSSM, LinearDrift.setFromSSM, ht, smul_smul, mul_inv_cancel₀ hdt.ne', one_smul, sub_add_cancel,
      mul_inv_cancel₀ hs]
  · obtain ⟨A, b⟩ := l
    simp only [LinearDrift.toSSM, LinearDrift.setFromSSM, ht, add_sub_cancel_right, smul_smul, inv_mul_cancel₀ hdt.ne', one_smul]

/-- C41: on any other grid the transition is recovered exactly at the steps of length `dt` and where it is the identity. -/
theorem C41_drift_roundtrip_general (s : SSM n d) {dt : ℝ} (hdt : dt ≠ 0) (times : Fin (n + 1) → ℝ) (q : Fin n → Mat d d) (m : Vec d)
    (c : Mat d d) (k : Fin n) :
    ((LinearDrift.setFromSSM s dt).toSSM q times m c).A k = s.A k ↔ times k.succ - times k.castSucc = dt ∨ s.A k = 1 := by
  have e : ((LinearDrift.setFromSSM s dt).toSSM q times m c).A k - s.A k =
      ((times k.succ - times k.castSucc) / dt - 1) • (s.A k - 1) := by
    simp only [LinearDrift.toSSM, LinearDrift.setFromSSM, smul_smul, sub_smul, one_smul, div_eq_mul_inv]
    abel
  rw [← sub_eq_zero, e, smul_eq_zero, sub_eq_zero, div_eq_one_iff_eq hdt, sub_eq_zero]

/-- C41, negative result: `to_ssm` raises when the drift is unset; on parameters without batch axis it stores them with one, so that a later
`squared_drift_difference_along_Gaussian_path` with the same object fails its assertions, for every number of steps and dimension. -/
theorem C41_to_ssm_changes_drift (N D : ℕ) :
    (∀ s, (LinearDriftObj.mk none s).toSSM = .error .exception) ∧ (∀ s, (LinearDriftObj.mk s none).toSSM = .error .exception) ∧
    (LinearDriftObj.mk (some [N, D, D]) (some [N, D])).squaredDriftAccepts N ∧
    ∃ l', (LinearDriftObj.mk (some [N, D, D]) (some [N, D])).toSSM = .ok l' ∧ ∀ M, ¬ l'.squaredDriftAccepts M := by
  refine ⟨fun s => rfl, fun s => by cases s <;> rfl, ⟨_, _, rfl, rfl, rfl, rfl, rfl, rfl⟩, ⟨some [1, N, D, D], some [1, N, D]⟩, rfl, ?_⟩
  rintro M ⟨a, b, ha, hb, -, -, -, h⟩
  simp only [Option.some.injEq] at ha
  subst ha
  simp at h

/-- C41: `handle_tensor_shape` returns a tensor with the desired number of axes: the given one if it has as many, with a leading axis of size one
dropped if it has one more, with one added if it has one less; it raises on everything else, in particular on a proper batch. -/
theorem C41_handle_shape (shape r : List ℕ) (desired : ℕ) :
    (handleTensorShape shape desired = .ok r ↔ r.length = desired ∧ (r = shape ∨ shape = 1 :: r ∨ r = 1 :: shape)) ∧
    ((∃ r, handleTensorShape shape desired = .ok r) ∨ handleTensorShape shape desired = .error .exception) := by
  unfold handleTensorShape
  constructor
  · split_ifs with h1 h2 h3
    · simp only [Except.ok.injEq]
      constructor
      · rintro rfl; exact ⟨h1, .inl rfl⟩
      · rintro ⟨h, rfl | rfl | rfl⟩
        · rfl
        · simp at h1; omega
        · simp at h; omega
    · obtain ⟨h2, h4⟩ := h2
      simp only [Except.ok.injEq]
      obtain ⟨a, l, rfl⟩ : ∃ a l, shape = a :: l := by cases shape <;> simp_all
      obtain rfl : a = 1 := by simpa using h4
      simp only [List.length_cons, List.tail_cons] at h1 h2 ⊢
      constructor
      · rintro rfl; exact ⟨by omega, .inr (.inl rfl)⟩
      · rintro ⟨h, rfl | h' | rfl⟩
        · simp at h; omega
        · exact (List.cons.inj h').2
        · simp at h; omega
    · simp only [Except.ok.injEq]
      constructor
      · rintro rfl; exact ⟨by simpa using h3, .inr (.inr rfl)⟩
      · rintro ⟨h, rfl | rfl | rfl⟩
        · omega
        · simp at h3; omega
        · rfl
    · constructor
      · intro h; cases h
      · rintro ⟨h, rfl | rfl | rfl⟩
        · exact absurd h h1
        · exact absurd ⟨by simp [h], rfl⟩ h2
        · exact absurd (by simpa using h) h3
  · split_ifs
    · exact .inl ⟨_, rfl⟩
    · exact .inl ⟨_, rfl⟩
    · exact .inl ⟨_, rfl⟩
    · exact .inr rfl

/-- C41: `set_from_ssm` accepts a model without batch axis and a batch of one, and nothing else with one batch axis; the parameters it stores have no
batch axis. With matching arguments `to_ssm` then passes its checks and stores the parameters with a batch axis of size one; calling it again
passes and changes nothing; wrong arguments fail the assertions. -/
theorem C41_drift_shapes (N D : ℕ) :
    LinearDriftObj.setFromSSM [N, D, D] [N, D] = .ok ⟨some [N, D, D], some [N, D]⟩ ∧
    (∀ B, LinearDriftObj.setFromSSM [B, N, D, D] [B, N, D] =
      if B = 1 then .ok ⟨some [N, D, D], some [N, D]⟩ else .error .exception) ∧
    ((LinearDriftObj.mk (some [N, D, D]) (some [N, D])).toSSMChecked [N + 1] [N, D, D] [D] [D, D] =
      .ok ⟨some [1, N, D, D], some [1, N, D]⟩) ∧
    (∀ B, (LinearDriftObj.mk (some [B, N, D, D]) (some [B, N, D])).toSSMChecked [N + 1] [B, N, D, D] [B, D] [B, D, D] =
      .ok ⟨some [B, N, D, D], some [B, N, D]⟩) ∧
    ((LinearDriftObj.mk (some [1, N, D, D]) (some [1, N, D])).toSSMChecked [N + 1] [N, D, D] [D] [D, D] =
      .ok ⟨some [1, N, D, D], some [1, N, D]⟩) ∧
    (∀ M q m c, M ≠ N + 1 → ∃ e, (LinearDriftObj.mk (some [N, D, D]) (some [N, D])).toSSMChecked [M] q m c = .error e) := by
  refine ⟨rfl, fun B => ?_, ?_, fun B => ?_, ?_, fun M q m c hM => ?_⟩
  · by_cases hB : B = 1
    · subst hB; rfl
    · rw [if_neg hB]
      simp [LinearDriftObj.setFromSSM, handleTensorShape, hB, bind, Except.bind]
  · simp [LinearDriftObj.toSSMChecked, LinearDriftObj.toSSM, handleTensorShape, bind, Except.bind, pure, Except.pure]
  · simp [LinearDriftObj.toSSMChecked, LinearDriftObj.toSSM, handleTensorShape, bind, Except.bind, pure, Except.pure]
  · simp [LinearDriftObj.toSSMChecked, LinearDriftObj.toSSM, handleTensorShape, bind, Except.bind, pure, Except.pure]
  · have h1 : (LinearDriftObj.mk (some [N, D, D]) (some [N, D])).toSSM = .ok ⟨some [1, N, D, D], some [1, N, D]⟩ := rfl
    have h2 : handleTensorShape [M] 1 = .ok [M] := rfl
    unfold LinearDriftObj.toSSMChecked
    simp only [h1, h2, bind, Except.bind]
    split
    · exact ⟨_, rfl⟩
    split
    · exact ⟨_, rfl⟩
    split
    · exact ⟨_, rfl⟩
    rw [if_neg (by simp [hM])]
    exact ⟨_, rfl⟩

/-! ### linearisation -/

/-- A quadrature rule is exact on `f`. -/
def ExactOn (quad : Quadrature) (f : ℝ → ℝ) : Prop := ∀ m v : ℝ, quad f m v = ∫ x, f x ∂gaussianReal m v.toNNReal

theorem tfCholesky_scalar {q : ℝ} (hq : 0 < q) : tfCholesky (!![q] : Mat 1 1) = .ok !![Real.sqrt q] := by
  refine tfCholesky_of_isCholesky ?_ ⟨?_, ?_, ?_⟩
  · ext i j; fin_cases i; fin_cases j; rfl
  · intro i j h; fin_cases i; fin_cases j; simp at h
  · intro i; fin_cases i; simpa using hq
  · ext i j; fin_cases i; fin_cases j; simp [Matrix.mul_apply, Real.mul_self_sqrt hq.le]

theorem var_gaussianReal_integral (m : ℝ) (v : NNReal) (a b : ℝ) :
    ∫ x, (a * x + b) ^ 2 ∂gaussianReal m v = a ^ 2 * v + (a * m + b) ^ 2 := by
  have h2 := memLp_id_gaussianReal' (μ := m) (v := v) 2 (by simp)
  have i1 : Integrable (fun x : ℝ => x) (gaussianReal m v) := h2.integrable one_le_two
  have i2 : Integrable (fun x : ℝ => x ^ 2) (gaussianReal m v) := h2.integrable_sq
  have e2 : ∫ x, x ^ 2 ∂gaussianReal m v = v + m ^ 2 := by
    have := variance_eq_sub h2
    rw [variance_id_gaussianReal] at this
    simp only [id, Pi.pow_apply, integral_id_gaussianReal] at this
    linarith
  have : (fun x : ℝ => (a * x + b) ^ 2) = fun x => a ^ 2 * x ^ 2 + (2 * a * b * x + b ^ 2) := by funext x; ring
  have j : Integrable (fun x : ℝ => 2 * a * b * x + b ^ 2) (gaussianReal m v) := (i1.const_mul _).add (integrable_const _)
  rw [this, integral_add (i2.const_mul _) j, integral_const_mul,
    integral_add (i1.const_mul _) (integrable_const _), integral_const_mul, e2, integral_id_gaussianReal]
  simp
  ring

/-- Pythagoras for linear approximation under a normal law. -/
theorem drift_pythagoras {m : ℝ} {v : NNReal} (hv : v ≠ 0) {f f' : ℝ → ℝ} (hf : ∀ x, HasDerivAt f (f' x) x)
    (h2 : MemLp f 2 (gaussianReal m v)) (h' : Integrable f' (gaussianReal m v)) (a b : ℝ) :
    ∫ x, (x * a + b - f x) ^ 2 ∂gaussianReal m v =
      ∫ x, (x * (∫ z, f' z ∂gaussianReal m v) + (∫ z, f z ∂gaussianReal m v - (∫ z, f' z ∂gaussianReal m v) * m) - f x) ^ 2
        ∂gaussianReal m v +
      ((a - ∫ z, f' z ∂gaussianReal m v) ^ 2 * v +
        ((a - ∫ z, f' z ∂gaussianReal m v) * m + (b - (∫ z, f z ∂gaussianReal m v - (∫ z, f' z ∂gaussianReal m v) * m))) ^ 2) := by
  have hx2 := memLp_id_gaussianReal' (μ := m) (v := v) 2 (by simp)
  have hx : MemLp (fun x : ℝ => x) 2 (gaussianReal m v) := hx2
  have ifx : Integrable f (gaussianReal m v) := h2.integrable one_le_two
  have ixf : Integrable (fun x => (x - m) * f x) (gaussianReal m v) := (hx.sub (memLp_const m)).integrable_mul h2
  have st := stein hv hf ifx h' ixf
  set A := ∫ z, f' z ∂gaussianReal m v with hA
  set E := ∫ z, f z ∂gaussianReal m v with hE
  set B := E - A * m with hB
  have iv : Integrable (fun x : ℝ => x) (gaussianReal m v) := hx.integrable one_le_two
  have hg : MemLp (fun x => x * A + B - f x) 2 (gaussianReal m v) := ((hx.mul_const A).add (memLp_const B)).sub h2
  have hl : MemLp (fun x => (a - A) * x + (b - B)) 2 (gaussianReal m v) := (hx.const_mul (a - A)).add (memLp_const _)
  have i1 := hg.integrable_sq
  have i2 := hl.integrable_sq
  have i3 : Integrable (fun x => (x * A + B - f x) * ((a - A) * x + (b - B))) (gaussianReal m v) := hg.integrable_mul hl
  have hsplit : (fun x => (x * a + b - f x) ^ 2) = fun x =>
      (x * A + B - f x) ^ 2 + (2 * ((x * A + B - f x) * ((a - A) * x + (b - B))) + ((a - A) * x + (b - B)) ^ 2) := by
    funext x; ring
  have cross : ∫ x, (x * A + B - f x) * ((a - A) * x + (b - B)) ∂gaussianReal m v = 0 := by
    have ev : ∫ x : ℝ, (x - m) ^ 2 ∂gaussianReal m v = v := by
      have := var_gaussianReal_integral m v 1 (-m)
      simp only [one_mul, one_pow, ← sub_eq_add_neg, sub_self] at this
      rw [this]; ring
    have em : ∫ x : ℝ, (x - m) ∂gaussianReal m v = 0 := by
      rw [integral_sub iv (integrable_const _), integral_id_gaussianReal]; simp
    have j1 : Integrable (fun x : ℝ => (x - m) ^ 2) (gaussianReal m v) := (hx.sub (memLp_const m)).integrable_sq
    have j2 : Integrable (fun x : ℝ => x - m) (gaussianReal m v) := iv.sub (integrable_const _)
    have e : (fun x => (x * A + B - f x) * ((a - A) * x + (b - B))) = fun x =>
        (a - A) * A * (x - m) ^ 2 + (((a - A) * E + A * ((a - A) * m + (b - B))) * (x - m) + ((((a - A) * m + (b - B)) * E) +
          (-(a - A) * ((x - m) * f x) + -((a - A) * m + (b - B)) * f x))) := by
      funext x
      rw [hB]; ring
    rw [e, integral_add (j1.const_mul _), integral_add (j2.const_mul _), integral_add (integrable_const _),
      integral_add (ixf.const_mul _) (ifx.const_mul _), integral_const_mul, integral_const_mul, integral_const_mul,
      ev, em, integral_const_mul, integral_const_mul, st, ← hE]
    · simp; ring
    · exact (ixf.const_mul _).add (ifx.const_mul _)
    · exact (integrable_const _).add ((ixf.const_mul _).add (ifx.const_mul _))
    · exact (j2.const_mul _).add ((integrable_const _).add ((ixf.const_mul _).add (ifx.const_mul _)))
  have j3 : Integrable (fun x => 2 * ((x * A + B - f x) * ((a - A) * x + (b - B))) + ((a - A) * x + (b - B)) ^ 2) (gaussianReal m v) :=
    (i3.const_mul 2).add i2
  rw [hsplit, integral_add i1 j3, integral_add (i3.const_mul _) i2, integral_const_mul, cross,
    var_gaussianReal_integral]
  ring

/-- C41: among all linear drifts, the one that `linearize_sde` builds at the Gaussian marginals `q` is the unique one with the least
`squared_drift_difference_along_Gaussian_path` along `q`, for every scalar SDE with a differentiable drift that is square integrable under
the marginals, and quadrature exact for the drift, its derivative and the squared differences. -/
theorem C41_linearize_optimal (s : ScalarSDE) (quad : Quadrature) (mean var : Fin n → ℝ) (hvar : ∀ k, 0 < var k)
    (hgrad : ∀ x, HasDerivAt (fun x => s.drift x 0) (s.gradient x 0) x)
    (hL2 : ∀ k, MemLp (fun x => s.drift x 0) 2 (gaussianReal (mean k) (var k).toNNReal))
    (hI : ∀ k, Integrable (fun x => s.gradient x 0) (gaussianReal (mean k) (var k).toNNReal))
    (hq1 : ExactOn quad fun x => s.drift x 0) (hq2 : ExactOn quad fun x => s.gradient x 0)
    (hq3 : ∀ a b, ExactOn quad fun x => (x * a + b - s.drift x 0) * (x * a + b - s.drift x 0) * (1 / s.q)) (hq : 0 < s.q) {dt : ℝ} (hdt : 0 < dt)
    (l : LinearDrift n 1) :
    s.squaredDriftDifference quad (s.linearDrift quad mean var) mean var dt ≤ s.squaredDriftDifference quad l mean var dt ∧
    (s.squaredDriftDifference quad l mean var dt = s.squaredDriftDifference quad (s.linearDrift quad mean var) mean var dt →
      l = s.linearDrift quad mean var) := by
  set r := s.linearDrift quad mean var with hr
  have hA : ∀ k, r.A k 0 0 = ∫ z, s.gradient z 0 ∂gaussianReal (mean k) (var k).toNNReal := fun k => hq2 _ _
  have hB : ∀ k, r.b k 0 = ∫ z, s.drift z 0 ∂gaussianReal (mean k) (var k).toNNReal -
      (∫ z, s.gradient z 0 ∂gaussianReal (mean k) (var k).toNNReal) * mean k := fun k => by
    rw [← hq1, ← hq2]; rfl
  have hval : ∀ l : LinearDrift n 1, s.squaredDriftDifference quad l mean var dt =
      ∑ k, (1 / 2) * dt * (1 / s.q) * ∫ x, (x * l.A k 0 0 + l.b k 0 - s.drift x 0) ^ 2 ∂gaussianReal (mean k) (var k).toNNReal := fun l => by
    show (1 / 2) * (∑ k, quad (fun x => (x * l.A k 0 0 + l.b k 0 - s.drift x 0) * (x * l.A k 0 0 + l.b k 0 - s.drift x 0) * (1 / s.q))
      (mean k) (var k)) * dt = _
    rw [Finset.mul_sum, Finset.sum_mul]
    refine Finset.sum_congr rfl fun k _ => ?_
    have := hq3 (l.A k 0 0) (l.b k 0) (mean k) (var k)
    rw [this, integral_mul_const]
    simp only [pow_two]
    ring
  have hdiff : s.squaredDriftDifference quad l mean var dt = s.squaredDriftDifference quad r mean var dt +
      ∑ k, (1 / 2) * dt * (1 / s.q) * ((l.A k 0 0 - r.A k 0 0) ^ 2 * var k + ((l.A k 0 0 - r.A k 0 0) * mean k + (l.b k 0 - r.b k 0)) ^ 2) := by
    rw [hval l, hval r, ← Finset.sum_add_distrib]
    refine Finset.sum_congr rfl fun k _ => ?_
    have hv : (var k).toNNReal ≠ 0 := by simpa using hvar k
    rw [drift_pythagoras hv hgrad (hL2 k) (hI k) (l.A k 0 0) (l.b k 0), hA k, hB k, Real.coe_toNNReal _ (hvar k).le]
    ring
  have hc : 0 < (1 / 2) * dt * (1 / s.q) := by positivity
  have hnn : ∀ k ∈ (Finset.univ : Finset (Fin n)), 0 ≤ (1 / 2) * dt * (1 / s.q) *
      ((l.A k 0 0 - r.A k 0 0) ^ 2 * var k + ((l.A k 0 0 - r.A k 0 0) * mean k + (l.b k 0 - r.b k 0)) ^ 2) := fun k _ => by
    have := hvar k
    positivity
  refine ⟨by rw [hdiff]; linarith [Finset.sum_nonneg hnn], fun he => ?_⟩
  rw [hdiff] at he
  have h0 := (Finset.sum_eq_zero_iff_of_nonneg hnn).1 (by linarith)
  have hk : ∀ k, l.A k 0 0 = r.A k 0 0 ∧ l.b k 0 = r.b k 0 := fun k => by
    have h1 := h0 k (Finset.mem_univ k)
    have h2 := (mul_eq_zero.1 h1).resolve_left hc.ne'
    have p1 : 0 ≤ (l.A k 0 0 - r.A k 0 0) ^ 2 * var k := by have := hvar k; positivity
    have p2 : 0 ≤ ((l.A k 0 0 - r.A k 0 0) * mean k + (l.b k 0 - r.b k 0)) ^ 2 := sq_nonneg _
    have z1 : (l.A k 0 0 - r.A k 0 0) ^ 2 * var k = 0 := by linarith
    have z2 : ((l.A k 0 0 - r.A k 0 0) * mean k + (l.b k 0 - r.b k 0)) ^ 2 = 0 := by linarith
    have y1 : l.A k 0 0 - r.A k 0 0 = 0 := by
      have := (mul_eq_zero.1 z1).resolve_right (hvar k).ne'
      exact pow_eq_zero_iff two_ne_zero |>.1 this
    have y2 := pow_eq_zero_iff two_ne_zero |>.1 z2
    rw [y1, zero_mul, zero_add] at y2
    exact ⟨sub_eq_zero.1 y1, sub_eq_zero.1 y2⟩
  obtain ⟨lA, lb⟩ := l
  have e1 : lA = r.A := funext fun k => by ext i j; fin_cases i; fin_cases j; exact (hk k).1
  have e2 : lb = r.b := funext fun k => by funext i; fin_cases i; exact (hk k).2
  subst e1 e2
  rfl

/-- `OrnsteinUhlenbeckSDE(decay, q)` with `state_dim = 1`. -/
def ouScalar (decay q : ℝ) : ScalarSDE := ⟨fun x _ => -decay * x, fun _ _ => -decay, q⟩

/-- `DoubleWellSDE(q)` with `state_dim = 1`. -/
def doubleWellScalar (q : ℝ) : ScalarSDE := ⟨fun x _ => 4 * x * (1 - x ^ 2), fun x _ => 4 - 12 * x ^ 2, q⟩

/-- The scalar views are the SDE objects of `sde.py` for one state dimension; their gradients are derivatives. -/
theorem C41_scalar_views (decay : ℝ) {q : ℝ} (hq : 0 < q) :
    (∃ s, ornsteinUhlenbeckSDE decay (!![q] : Mat 1 1) = .ok s ∧ ∀ x t, s.drift x t = ![(ouScalar decay q).drift (x 0) t] ∧
      s.diffusion x t = !![Real.sqrt q]) ∧
    (∃ s, doubleWellSDE (!![q] : Mat 1 1) = .ok s ∧ ∀ x t, s.drift x t = ![(doubleWellScalar q).drift (x 0) t] ∧
      s.diffusion x t = !![Real.sqrt q]) ∧
    (∀ x t, HasDerivAt (fun x => (ouScalar decay q).drift x t) ((ouScalar decay q).gradient x t) x) ∧
    (∀ x t, HasDerivAt (fun x => (doubleWellScalar q).drift x t) ((doubleWellScalar q).gradient x t) x) := by
  refine ⟨⟨_, by unfold ornsteinUhlenbeckSDE; rw [tfCholesky_scalar hq]; rfl, fun x t => ⟨?_, rfl⟩⟩,
    ⟨_, by unfold doubleWellSDE; rw [tfCholesky_scalar hq]; rfl, fun x t => ⟨?_, rfl⟩⟩, fun x t => ?_, fun x t => ?_⟩
  · funext i; fin_cases i; simp [ouScalar]
  · funext i; fin_cases i; simp [doubleWellScalar]
  · have := (hasDerivAt_id x).const_mul (-decay)
    rw [mul_one] at this
    exact this
  · have := ((hasDerivAt_id x).const_mul 4).mul ((hasDerivAt_const x (1 : ℝ)).sub ((hasDerivAt_id x).pow 2))
    refine this.congr_deriv ?_
    simp [doubleWellScalar]; ring

/-- C41: linearising an Ornstein–Uhlenbeck SDE around any Gaussian path gives the same state space model: transitions `1 - λ Δ`, no
offsets, process factors `√(Δ q)`. -/
theorem C41_linearize_ou (decay : ℝ) {q : ℝ} (hq : 0 < q) (quad : Quadrature) (hq1 : ExactOn quad fun x => -decay * x)
    (hq2 : ExactOn quad fun _ => -decay) (times : Fin (n + 1) → ℝ) (mean var : Fin n → ℝ) (m0 : ℝ) {v0 : ℝ} (hv0 : 0 < v0) :
    ∃ r, (ouScalar decay q).linearize quad times mean var m0 v0 = .ok r ∧ r.mu0 = ![m0] ∧ r.cholP0 = !![Real.sqrt v0] ∧ ∀ k : Fin n,
      r.A k = !![1 - decay * (times k.succ - times k.castSucc)] ∧ r.b k = ![0] ∧
      r.cholQ k = !![Real.sqrt (times k.succ - times k.castSucc) * Real.sqrt q] := by
  have hE : ∀ m v, (ouScalar decay q).expectedDrift quad m v = -decay * m := fun m v => by
    refine (hq1 m v).trans ?_
    rw [integral_const_mul, integral_id_gaussianReal]
  have hG : ∀ m v, (ouScalar decay q).expectedGradientDrift quad m v = -decay := fun m v => by
    refine (hq2 m v).trans ?_
    simp
  refine ⟨_, by unfold ScalarSDE.linearize; rw [tfCholesky_scalar hv0]; simp only [bind, Except.bind];
                rw [show (ouScalar decay q).q = q from rfl, tfCholesky_scalar hq]; rfl, rfl, rfl, fun k => ⟨?_, ?_, ?_⟩⟩
  · ext i j; fin_cases i; fin_cases j
    simp [LinearDrift.toSSM, ScalarSDE.linearDrift, hG]; ring
  · funext i; fin_cases i
    simp [LinearDrift.toSSM, ScalarSDE.linearDrift, hG, hE]
  · ext i j; fin_cases i; fin_cases j
    simp [LinearDrift.toSSM]

theorem third_moment (m : ℝ) {v : NNReal} (hv : v ≠ 0) : ∫ x, x ^ 3 ∂gaussianReal m v = m ^ 3 + 3 * m * v ∧
    (∀ k : ℕ, Integrable (fun x : ℝ => x ^ k) (gaussianReal m v)) := by
  have hi : ∀ k : ℕ, Integrable (fun x : ℝ => x ^ k) (gaussianReal m v) := fun k => by
    have := (memLp_id_gaussianReal' (μ := m) (v := v) k (by simp)).integrable_norm_pow'
    refine (integrable_norm_iff (by fun_prop)).1 (this.congr (Filter.Eventually.of_forall fun x => ?_))
    simp [norm_pow]
  refine ⟨?_, hi⟩
  have h := stein (m := m) hv (f := fun x => x ^ 2) (f' := fun x => 2 * x) (fun x => by simpa using hasDerivAt_pow 2 x) (hi 2)
    (by simpa using (hi 1).const_mul 2) ?_
  · have e2 := var_gaussianReal_integral m v 1 0
    simp only [one_mul, add_zero, one_pow] at e2
    have e : (fun x : ℝ => (x - m) * x ^ 2) = fun x => x ^ 3 - m * x ^ 2 := by funext x; ring
    rw [e, integral_sub (hi 3) ((hi 2).const_mul m), integral_const_mul, integral_const_mul, integral_id_gaussianReal, e2] at h
    linarith
  · have e : (fun x : ℝ => (x - m) * x ^ 2) = fun x => x ^ 3 - m * x ^ 2 := by funext x; ring
    rw [e]; exact (hi 3).sub ((hi 2).const_mul m)

/-- C41: the linearisation of the double-well SDE at `N(m, v)` has slope `4 - 12 (m² + v)` and value `4m - 4(m³ + 3mv)` at `m`. -/
theorem C41_linearize_double_well {q : ℝ} (hq : 0 < q) (quad : Quadrature) (hq1 : ExactOn quad fun x => 4 * x * (1 - x ^ 2))
    (hq2 : ExactOn quad fun x => 4 - 12 * x ^ 2) (times : Fin (n + 1) → ℝ) (mean var : Fin n → ℝ) (hvar : ∀ k, 0 < var k) (m0 : ℝ)
    {v0 : ℝ} (hv0 : 0 < v0) :
    ∃ r, (doubleWellScalar q).linearize quad times mean var m0 v0 = .ok r ∧ ∀ k : Fin n,
      r.A k = !![1 + (times k.succ - times k.castSucc) * (4 - 12 * (mean k ^ 2 + var k))] ∧
      r.A k *ᵥ ![mean k] + r.b k = ![mean k + (times k.succ - times k.castSucc) * (4 * mean k - 4 * (mean k ^ 3 + 3 * mean k * var k))] := by
  have hE : ∀ k, (doubleWellScalar q).expectedDrift quad (mean k) (var k) = 4 * mean k - 4 * (mean k ^ 3 + 3 * mean k * var k) := fun k => by
    refine (hq1 _ _).trans ?_
    obtain ⟨h3, hi⟩ := third_moment (mean k) (v := (var k).toNNReal) (by simpa using hvar k)
    have e : (fun x : ℝ => 4 * x * (1 - x ^ 2)) = fun x => 4 * x - 4 * x ^ 3 := by funext x; ring
    rw [e, integral_sub (by simpa using (hi 1).const_mul 4) ((hi 3).const_mul 4), integral_const_mul, integral_const_mul, h3,
      integral_id_gaussianReal, Real.coe_toNNReal _ (hvar k).le]
  have hG : ∀ k, (doubleWellScalar q).expectedGradientDrift quad (mean k) (var k) = 4 - 12 * (mean k ^ 2 + var k) := fun k => by
    refine (hq2 _ _).trans ?_
    obtain ⟨-, hi⟩ := third_moment (mean k) (v := (var k).toNNReal) (by simpa using hvar k)
    have e2 := var_gaussianReal_integral (mean k) (var k).toNNReal 1 0
    simp only [one_mul, add_zero, one_pow] at e2
    rw [integral_sub (integrable_const _) ((hi 2).const_mul 12), integral_const_mul, e2, Real.coe_toNNReal _ (hvar k).le]
    simp; ring
  refine ⟨_, by unfold ScalarSDE.linearize; rw [tfCholesky_scalar hv0]; simp only [bind, Except.bind];
                rw [show (doubleWellScalar q).q = q from rfl, tfCholesky_scalar hq]; rfl, fun k => ⟨?_, ?_⟩⟩
  · ext i j; fin_cases i; fin_cases j
    simp [LinearDrift.toSSM, ScalarSDE.linearDrift, hG]; ring
  · funext i; fin_cases i
    simp [LinearDrift.toSSM, ScalarSDE.linearDrift, hG, hE, mulVec, dotProduct]
    ring

/-! ### the divergence between path laws -/

/-- The trajectory of a scalar state space model as a chain. -/
theorem traj_steps (s : SSM n 1) : s.law.map (fun x k => x (k, 0)) =
    stepsLaw (s.mu0 0) (s.cholP0 0 0) (fun k x => s.A k 0 0 * x + s.b k 0) fun k => s.cholQ k 0 0 := by
  have hinj : Function.Injective fun k : Fin (n + 1) => ((k, 0) : Ix n 1) := fun i j h => congrArg Prod.fst h
  have mF : ∀ k : Fin n, Measurable fun x => s.A k 0 0 * x + s.b k 0 := fun k => by fun_prop
  unfold stepsLaw
  rw [← stdNormal_comp hinj]
  have m1 : Measurable fun e : Ix n 1 → ℝ => e ∘ fun k : Fin (n + 1) => ((k, 0) : Ix n 1) :=
    measurable_pi_lambda _ fun k => measurable_pi_apply _
  rw [Measure.map_map (measurable_steps _ _ mF _) m1]
  unfold SSM.law trajLaw
  have key : ∀ (e : Ix n 1 → ℝ) (k : Fin (n + 1)),
      simulate s.mu0 s.A s.b (Fin.cons (s.cholP0 *ᵥ unstk e 0) fun k => s.cholQ k *ᵥ unstk e k.succ) k 0 =
        steps (s.mu0 0) (s.cholP0 0 0) (fun k x => s.A k 0 0 * x + s.b k 0) (fun k => s.cholQ k 0 0)
          (e ∘ fun k : Fin (n + 1) => ((k, 0) : Ix n 1)) k := fun e k => by
    have h2 := simulate_isTrajectory s.mu0 s.A s.b (Fin.cons (s.cholP0 *ᵥ unstk e 0) fun k => s.cholQ k *ᵥ unstk e k.succ)
    induction k using Fin.induction with
    | zero =>
      rw [h2.zero, steps_zero]
      simp [mulVec, dotProduct, unstk]
    | succ k ih =>
      rw [h2.succ, steps_succ, ← ih]
      simp [mulVec, dotProduct, unstk]
  have m2 : Measurable fun e : Ix n 1 → ℝ =>
      stk (simulate s.mu0 s.A s.b (Fin.cons (s.cholP0 *ᵥ unstk e 0) fun k => s.cholQ k *ᵥ unstk e k.succ)) := by
    refine measurable_pi_lambda _ fun i => ?_
    obtain ⟨k, j⟩ := i
    have hj : j = 0 := Subsingleton.elim _ _
    subst hj
    simp only [stk]
    simp only [key]
    exact (measurable_pi_apply k).comp ((measurable_steps _ _ mF _).comp m1)
  rw [Measure.map_map (by fun_prop) m2]
  congr 1
  funext e k
  simp only [Function.comp_apply]
  exact key e k

theorem steps_marginal (s : SSM n 1) (k : Fin (n + 1)) :
    (stepsLaw (s.mu0 0) (s.cholP0 0 0) (fun k x => s.A k 0 0 * x + s.b k 0) fun k => s.cholQ k 0 0).map (fun x => x k) =
      gaussianReal (s.mus k 0) (s.Kd (k, 0) (k, 0)).toNNReal := by
  rw [← traj_steps, Measure.map_map (by fun_prop) (by fun_prop), SSM.law_eq_gauss]
  exact gaussLaw_eval s.Kd_posSemidef _ (k, 0)

/-- C41: `squared_drift_difference_along_Gaussian_path` is exactly the Kullback–Leibler divergence between the Euler–Maruyama path laws of
the linear drift and of the SDE `p`, when it is given the marginals of the linear drift's own state space model, which has the first path law
as its law: every scalar SDE with a drift that is square integrable under these marginals, every linear drift, every number of steps, every
step length and spectral density; quadrature exact on the squared differences. -/
theorem C41_drift_difference_is_kl (s : ScalarSDE) (quad : Quadrature) (l : LinearDrift n 1) (hn : 0 < n) {dt : ℝ} (hdt : 0 < dt)
    (hq : 0 < s.q) {times : Fin (n + 1) → ℝ} (ht : ∀ k : Fin n, times k.succ - times k.castSucc = dt) (m0 : ℝ) {s0 : ℝ} (hs0 : s0 ≠ 0)
    (hf : Measurable fun x => s.drift x 0)
    (hq3 : ∀ a b, ExactOn quad fun x => (x * a + b - s.drift x 0) * (x * a + b - s.drift x 0) * (1 / s.q)) :
    let ssm := l.toSSM (fun _ => !![Real.sqrt s.q]) times ![m0] !![s0]
    let pathL := stepsLaw m0 s0 (fun k x => x + dt * (l.A k 0 0 * x + l.b k 0)) fun _ : Fin n => Real.sqrt dt * Real.sqrt s.q
    let pathP := stepsLaw m0 s0 (fun _ x => x + dt * s.drift x 0) fun _ : Fin n => Real.sqrt dt * Real.sqrt s.q
    ∃ μ S, ssm.marginals = .ok (μ, S) ∧
      (trajLaw ssm.mu0 ssm.cholP0 ssm.A ssm.b ssm.cholQ).map (fun x k => x (k, 0)) = pathL ∧
      (∀ k, pathL.map (fun x => x k) = gaussianReal (μ k 0) (S k 0 0).toNNReal) ∧
      ((∀ k : Fin n, MemLp (fun x => s.drift x 0) 2 (gaussianReal (μ k.castSucc 0) (S k.castSucc 0 0).toNNReal)) →
        InformationTheory.klDiv pathL pathP = ENNReal.ofReal
          (s.squaredDriftDifference quad l (fun k => μ k.castSucc 0) (fun k => S k.castSucc 0 0) dt) ∧
        0 ≤ s.squaredDriftDifference quad l (fun k => μ k.castSucc 0) (fun k => S k.castSucc 0 0) dt) := by
  intro ssm pathL pathP
  have hsd : Real.sqrt dt * Real.sqrt s.q ≠ 0 := mul_ne_zero (Real.sqrt_pos.2 hdt).ne' (Real.sqrt_pos.2 hq).ne'
  have hnd : ssm.Nondegenerate := by
    intro b
    refine ⟨fun i j h => ?_, fun i => ?_⟩
    · fin_cases i; fin_cases j; simp at h
    · fin_cases i
      refine Fin.cases ?_ (fun k => ?_) b
      · simpa [SSM.concatChol, ssm, LinearDrift.toSSM] using hs0
      · simpa [SSM.concatChol, ssm, LinearDrift.toSSM, ht] using hsd
  have hpath : stepsLaw (ssm.mu0 0) (ssm.cholP0 0 0) (fun k x => ssm.A k 0 0 * x + ssm.b k 0) (fun k => ssm.cholQ k 0 0) = pathL := by
    show stepsLaw _ _ _ _ = stepsLaw _ _ _ _
    congr 1
    · funext k x
      simp [ssm, LinearDrift.toSSM, ht]; ring
    · funext k
      simp [ssm, LinearDrift.toSSM, ht]
  have hmarg : ∀ k, pathL.map (fun x => x k) = gaussianReal (ssm.mus k 0) (ssm.Kd (k, 0) (k, 0)).toNNReal := fun k => by
    rw [← hpath]; exact steps_marginal ssm k
  refine ⟨_, _, SSM.marginals_eq hnd hn one_pos, by rw [← hpath]; exact traj_steps ssm, hmarg, fun hL2 => ?_⟩
  have mF : ∀ k : Fin n, Measurable fun x : ℝ => x + dt * (l.A k 0 0 * x + l.b k 0) := fun k => by fun_prop
  have mG : ∀ _ : Fin n, Measurable fun x : ℝ => x + dt * s.drift x 0 := fun k => by fun_prop
  have mD : ∀ k : Fin n, Measurable fun x : ℝ => x * l.A k 0 0 + l.b k 0 - s.drift x 0 := fun k => by fun_prop
  have hD : ∀ k : Fin n, MemLp (fun x : ℝ => x * l.A k 0 0 + l.b k 0 - s.drift x 0) 2
      (gaussianReal (ssm.mus k.castSucc 0) (ssm.Kd (k.castSucc, 0) (k.castSucc, 0)).toNNReal) := fun k => by
    have hx : MemLp (fun x : ℝ => x) 2 (gaussianReal (ssm.mus k.castSucc 0) (ssm.Kd (k.castSucc, 0) (k.castSucc, 0)).toNNReal) :=
      memLp_id_gaussianReal' 2 (by simp)
    exact ((hx.mul_const _).add (memLp_const _)).sub (hL2 k)
  have hev : ∀ k : Fin (n + 1), Measurable fun x : Fin (n + 1) → ℝ => x k := fun k => measurable_pi_apply k
  have hde : ∀ (k : Fin n) (x : ℝ), x + dt * (l.A k 0 0 * x + l.b k 0) - (x + dt * s.drift x 0) =
      dt * (x * l.A k 0 0 + l.b k 0 - s.drift x 0) := fun k x => by ring
  have hint : ∀ k : Fin n, Integrable (fun x : Fin (n + 1) → ℝ => (x k.castSucc + dt * (l.A k 0 0 * x k.castSucc + l.b k 0) -
      (x k.castSucc + dt * s.drift (x k.castSucc) 0)) ^ 2) pathL := fun k => by
    have h1 := ((hD k).integrable_sq).const_mul (dt ^ 2)
    rw [← hmarg k.castSucc, integrable_map_measure (by have := mD k; fun_prop) (hev k.castSucc).aemeasurable] at h1
    refine h1.congr (Filter.Eventually.of_forall fun x => ?_)
    simp only [Function.comp, hde, mul_pow]
  have hkl := klDiv_steps m0 s0 mF mG (σ := fun _ => Real.sqrt dt * Real.sqrt s.q) (fun _ => hsd) hint
  have hval : (∑ k : Fin n, ∫ x, ((x k.castSucc + dt * (l.A k 0 0 * x k.castSucc + l.b k 0)) -
      (x k.castSucc + dt * s.drift (x k.castSucc) 0)) ^ 2 / (2 * (Real.sqrt dt * Real.sqrt s.q) ^ 2) ∂pathL) =
      s.squaredDriftDifference quad l (fun k => ssm.mus k.castSucc 0) (fun k => ssm.Kd (k.castSucc, 0) (k.castSucc, 0)) dt := by
    show _ = (1 / 2) * (∑ k, quad (fun x => (x * l.A k 0 0 + l.b k 0 - s.drift x 0) * (x * l.A k 0 0 + l.b k 0 - s.drift x 0) * (1 / s.q))
      (ssm.mus k.castSucc 0) (ssm.Kd (k.castSucc, 0) (k.castSucc, 0))) * dt
    rw [Finset.mul_sum, Finset.sum_mul]
    refine Finset.sum_congr rfl fun k _ => ?_
    rw [hq3 (l.A k 0 0) (l.b k 0), ← hmarg k.castSucc, integral_map (hev k.castSucc).aemeasurable (by have := mD k; fun_prop),
      mul_right_comm, ← integral_const_mul]
    congr 1
    funext x
    rw [hde, mul_pow, mul_pow, Real.sq_sqrt hdt.le, Real.sq_sqrt hq.le]
    field_simp
  refine ⟨?_, ?_⟩
  · exact hkl.trans (congrArg ENNReal.ofReal hval)
  · have : 0 ≤ ∑ k : Fin n, ∫ x, ((x k.castSucc + dt * (l.A k 0 0 * x k.castSucc + l.b k 0)) -
        (x k.castSucc + dt * s.drift (x k.castSucc) 0)) ^ 2 / (2 * (Real.sqrt dt * Real.sqrt s.q) ^ 2) ∂pathL :=
      Finset.sum_nonneg fun k _ => integral_nonneg fun x => by positivity
    rw [hval] at this
    exact this

theorem klDiv_map_inj {Y Z : Type*} [MeasurableSpace Y] [MeasurableSpace Z] (μ ν : Measure Y) [IsFiniteMeasure μ] [IsFiniteMeasure ν]
    {f : Y → Z} {g : Z → Y} (hf : Measurable f) (hg : Measurable g) (hgf : ∀ y, g (f y) = y) :
    InformationTheory.klDiv (μ.map f) (ν.map f) = InformationTheory.klDiv μ ν := by
  refine le_antisymm (InformationTheory.klDiv_map_le _ _ hf) ?_
  have h := InformationTheory.klDiv_map_le (μ.map f) (ν.map f) hg
  have e : g ∘ f = id := funext hgf
  rwa [Measure.map_map hg hf, Measure.map_map hg hf, e, Measure.map_id, Measure.map_id] at h

/-- C41: for a linear `p` (for instance Ornstein–Uhlenbeck, `α = -λ`, `β = 0`) the value is exactly what
`q_ssm.kl_divergence(p_ssm)` returns for the two state space models of the drifts. -/
theorem C41_drift_difference_linear (α β : ℝ) {q : ℝ} (hq : 0 < q) (quad : Quadrature) (l : LinearDrift n 1) (hn : 0 < n) {dt : ℝ}
    (hdt : 0 < dt) {times : Fin (n + 1) → ℝ} (ht : ∀ k : Fin n, times k.succ - times k.castSucc = dt) (m0 : ℝ) {s0 : ℝ} (hs0 : s0 ≠ 0)
    (hq3 : ∀ a b, ExactOn quad fun x => (x * a + b - (α * x + β)) * (x * a + b - (α * x + β)) * (1 / q)) :
    let p : ScalarSDE := ⟨fun x _ => α * x + β, fun _ _ => α, q⟩
    let pDrift : LinearDrift n 1 := ⟨fun _ => !![α], fun _ => ![β]⟩
    let qSSM := l.toSSM (fun _ => !![Real.sqrt q]) times ![m0] !![s0]
    let pSSM := pDrift.toSSM (fun _ => !![Real.sqrt q]) times ![m0] !![s0]
    ∃ μ S, qSSM.marginals = .ok (μ, S) ∧
      qSSM.klDivergence pSSM = .ok (p.squaredDriftDifference quad l (fun k => μ k.castSucc 0) (fun k => S k.castSucc 0 0) dt) := by
  intro p pDrift qSSM pSSM
  obtain ⟨μ, S, hm, h1, -, h2⟩ := C41_drift_difference_is_kl p quad l hn hdt hq ht m0 hs0 (by show Measurable fun x => α * x + β; fun_prop) hq3
  refine ⟨μ, S, hm, ?_⟩
  obtain ⟨hkl, hnn⟩ := h2 fun k => by
    have hx : MemLp (fun x : ℝ => x) 2 (gaussianReal (μ k.castSucc 0) (S k.castSucc 0 0).toNNReal) := memLp_id_gaussianReal' 2 (by simp)
    exact (hx.const_mul α).add (memLp_const β)
  have hsd : Real.sqrt dt * Real.sqrt q ≠ 0 := mul_ne_zero (Real.sqrt_pos.2 hdt).ne' (Real.sqrt_pos.2 hq).ne'
  have hnd : ∀ d : LinearDrift n 1, (d.toSSM (fun _ => !![Real.sqrt q]) times ![m0] !![s0]).Nondegenerate := fun d b => by
    refine ⟨fun i j h => ?_, fun i => ?_⟩
    · fin_cases i; fin_cases j; simp at h
    · fin_cases i
      refine Fin.cases ?_ (fun k => ?_) b
      · simpa [SSM.concatChol, LinearDrift.toSSM] using hs0
      · simpa [SSM.concatChol, LinearDrift.toSSM, ht] using hsd
  obtain ⟨r, hr, hr2, hr0, -⟩ := C13_kl_divergence qSSM pSSM (hnd l) (hnd pDrift) hn one_pos
  have hp : (trajLaw pSSM.mu0 pSSM.cholP0 pSSM.A pSSM.b pSSM.cholQ).map (fun x k => x (k, 0)) =
      stepsLaw m0 s0 (fun _ x => x + dt * p.drift x 0) fun _ : Fin n => Real.sqrt dt * Real.sqrt q := by
    refine (traj_steps pSSM).trans ?_
    congr 1
    · funext k x
      simp [pSSM, pDrift, LinearDrift.toSSM, ht, p]; ring
    · funext k
      simp [pSSM, LinearDrift.toSSM, ht]
  have e : InformationTheory.klDiv (trajLaw qSSM.mu0 qSSM.cholP0 qSSM.A qSSM.b qSSM.cholQ)
      (trajLaw pSSM.mu0 pSSM.cholP0 pSSM.A pSSM.b pSSM.cholQ) = InformationTheory.klDiv
      ((trajLaw qSSM.mu0 qSSM.cholP0 qSSM.A qSSM.b qSSM.cholQ).map fun (x : Ix n 1 → ℝ) (k : Fin (n + 1)) => x (k, 0))
      ((trajLaw pSSM.mu0 pSSM.cholP0 pSSM.A pSSM.b pSSM.cholQ).map fun (x : Ix n 1 → ℝ) (k : Fin (n + 1)) => x (k, 0)) := by
    haveI : IsFiniteMeasure (trajLaw qSSM.mu0 qSSM.cholP0 qSSM.A qSSM.b qSSM.cholQ) := by
      have : qSSM.law = gaussLaw (stk qSSM.mus) qSSM.Kd := SSM.law_eq_gauss
      unfold SSM.law at this; rw [this]; infer_instance
    haveI : IsFiniteMeasure (trajLaw pSSM.mu0 pSSM.cholP0 pSSM.A pSSM.b pSSM.cholQ) := by
      have : pSSM.law = gaussLaw (stk pSSM.mus) pSSM.Kd := SSM.law_eq_gauss
      unfold SSM.law at this; rw [this]; infer_instance
    refine (klDiv_map_inj _ _ (g := fun (x : Fin (n + 1) → ℝ) (i : Ix n 1) => x i.1) (by fun_prop) (by fun_prop) fun y => ?_).symm
    funext i
    obtain ⟨k, j⟩ := i
    rw [Subsingleton.elim j 0]
  rw [e, h1, hp] at hr2
  have := hkl.symm.trans hr2
  rw [ENNReal.ofReal_eq_ofReal_iff hnn hr0] at this
  rw [hr, ← this]

/-! ### non-vacuity -/

/-- All hypotheses of the linearisation and divergence theorems hold for the double-well SDE with the exact Gaussian expectation as
quadrature rule. -/
example : ∃ (quad : Quadrature), ExactOn quad (fun x => (doubleWellScalar 2).drift x 0) ∧ ExactOn quad (fun x => (doubleWellScalar 2).gradient x 0) ∧
    (∀ a b, ExactOn quad fun x => (x * a + b - (doubleWellScalar 2).drift x 0) * (x * a + b - (doubleWellScalar 2).drift x 0) *
      (1 / (doubleWellScalar 2).q)) ∧
    (∀ x, HasDerivAt (fun x => (doubleWellScalar 2).drift x 0) ((doubleWellScalar 2).gradient x 0) x) ∧
    (∀ m v : ℝ, MemLp (fun x => (doubleWellScalar 2).drift x 0) 2 (gaussianReal m v.toNNReal)) ∧
    (∀ m v : ℝ, 0 < v → Integrable (fun x => (doubleWellScalar 2).gradient x 0) (gaussianReal m v.toNNReal)) ∧
    Measurable fun x => (doubleWellScalar 2).drift x 0 := by
  have hm : Measurable fun x => (doubleWellScalar 2).drift x 0 := by
    show Measurable fun x : ℝ => 4 * x * (1 - x ^ 2)
    fun_prop
  refine ⟨fun f m v => ∫ x, f x ∂gaussianReal m v.toNNReal, fun _ _ => rfl, fun _ _ => rfl, fun _ _ _ _ => rfl,
    fun x => (C41_scalar_views 0 two_pos).2.2.2 x 0, fun m v => ?_, fun m v hv => ?_, hm⟩
  · have hk : ∀ k : ℕ, Integrable (fun x : ℝ => x ^ k) (gaussianReal m v.toNNReal) := fun k => by
      have := (memLp_id_gaussianReal' (μ := m) (v := v.toNNReal) k (by simp)).integrable_norm_pow'
      refine (integrable_norm_iff (by fun_prop)).1 (this.congr (Filter.Eventually.of_forall fun x => ?_))
      simp [norm_pow]
    rw [memLp_two_iff_integrable_sq hm.aestronglyMeasurable]
    have e : (fun x => (doubleWellScalar 2).drift x 0 ^ 2) = fun x => 16 * x ^ 2 - 32 * x ^ 4 + 16 * x ^ 6 := by
      funext x; simp only [doubleWellScalar]; ring
    rw [e]
    exact (((hk 2).const_mul _).sub ((hk 4).const_mul _)).add ((hk 6).const_mul _)
  · have := (third_moment m (v := v.toNNReal) (by simpa using hv)).2 2
    exact (integrable_const _).sub (this.const_mul 12)

/-- A grid and a drift that meet the hypotheses of the round-trip theorem. -/
example : ∃ (times : Fin 4 → ℝ) (l : LinearDrift 3 2), (∀ k : Fin 3, times k.succ - times k.castSucc = 1 / 2) ∧ l.A 0 ≠ 0 := by
  refine ⟨fun k => (k : ℕ) / 2, ⟨fun _ => !![-1, 2; 0, -3], fun _ => ![1, 2]⟩, fun k => ?_, fun h => ?_⟩
  · simp only [Fin.val_succ, Fin.val_castSucc]; push_cast; ring
  · have := congrFun (congrFun h 0) 0
    simp at this

end MF
