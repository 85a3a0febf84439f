import Verif.Lemmas.Refinement
import Verif.Props.SDE
import Verif.Props.Kernels

/-!
# C71: refining the Euler–Maruyama grid

Every kernel expression of the library is a linear SDE `dx = F x dt + L dB`. Simulating that SDE with `euler_maruyama` on ever finer grids
gives, in the limit and in law, the trajectory of the state space model that the kernel builds on the times of interest.
-/

namespace MF
open Matrix Spec MeasureTheory ProbabilityTheory Filter Topology
open scoped BoundedContinuousFunction
variable {o n d : ℕ}

theorem Spec.ConvergesInLaw.map {ι κ : Type*} [Finite ι] [Finite κ] {μ : ℕ → Measure (ι → ℝ)} {ν : Measure (ι → ℝ)} (h : ConvergesInLaw μ ν)
    {T : (ι → ℝ) → κ → ℝ} (hT : Continuous T) : ConvergesInLaw (fun N => (μ N).map T) (ν.map T) := by
  have := Fintype.ofFinite ι
  have := Fintype.ofFinite κ
  intro g
  have e : ∀ ρ : Measure (ι → ℝ), ∫ x, g x ∂ρ.map T = ∫ x, (g.compContinuous ⟨T, hT⟩) x ∂ρ := fun ρ => by
    rw [integral_map hT.measurable.aemeasurable g.continuous.aestronglyMeasurable]; rfl
  simp only [e]
  exact h _

/-! ### the generator of a kernel expression -/

theorem group_generator {A : ℝ → Mat d d} (hz : A 0 = 1) (hadd : ∀ s t, A (s + t) = A s * A t)
    (hd : ∀ i j, DifferentiableAt ℝ (fun s => A s i j) 0) : ∃ F, SolvesSDE F A := by
  refine ⟨Matrix.of fun i j => deriv (fun s => A s i j) 0, hz, hadd, fun t i j => ?_⟩
  have e : (fun s => A s i j) = fun s => ∑ l, A (s - t) i l * A t l j := by
    funext s
    rw [← Matrix.mul_apply, ← hadd, sub_add_cancel]
  rw [e, Matrix.mul_apply]
  refine HasDerivAt.fun_sum fun l _ => HasDerivAt.mul_const ?_ _
  have h0 : HasDerivAt (fun s => A s i l) (deriv (fun s => A s i l) 0) (t - t) := by
    rw [sub_self]; exact (hd i l).hasDerivAt
  exact HasDerivAt.comp_sub_const t t h0

theorem differentiable_blockDiag {ks : List (Σ d, Stationary o d)}
    (h : ∀ k ∈ ks, ∀ i j, DifferentiableAt ℝ (fun δ => k.2.stateTransitions 0 δ i j) 0) (i j) :
    DifferentiableAt ℝ (fun δ => blockDiag (fun _ (k : Stationary o _) => k.stateTransitions 0 δ) ks i j) 0 := by
  induction ks with
  | nil => exact i.elim0
  | cons k ks ih =>
    simp only [blockDiag, submatrix_apply]
    have ih' := ih fun k' hk => h k' (List.mem_cons_of_mem _ hk)
    rcases splitSum k ks i with a | a <;> rcases splitSum k ks j with b | b
    · exact h k (by simp) a b
    · exact differentiableAt_const 0
    · exact differentiableAt_const 0
    · exact ih' a b

theorem differentiable_kron {ks : List (Σ d, Stationary o d)}
    (h : ∀ k ∈ ks, ∀ i j, DifferentiableAt ℝ (fun δ => k.2.stateTransitions 0 δ i j) 0) (i j) :
    DifferentiableAt ℝ (fun δ => kron (fun _ (k : Stationary o _) => k.stateTransitions 0 δ) ks i j) 0 := by
  induction ks with
  | nil => exact differentiableAt_const _
  | cons k ks ih =>
    simp only [kron, submatrix_apply, kroneckerMap_apply]
    exact (h k (by simp) _ _).mul (ih (fun k' hk => h k' (List.mem_cons_of_mem _ hk)) _ _)

theorem builds_differentiable {K : Stationary o d} {k} (h : Builds K k) (i j) :
    DifferentiableAt ℝ (fun δ => K.stateTransitions 0 δ i j) 0 := by
  induction h with
  | leaf h => exact ((Leaf.good h).2.2.2.deriv 0 i j).differentiableAt
  | sum hc h ih =>
    obtain ⟨-, -, rfl⟩ := combineInit_ok h
    exact differentiable_blockDiag (forall_get (p := fun k => ∀ i j, DifferentiableAt ℝ (fun δ => k.2.stateTransitions 0 δ i j) 0) ih) i j
  | multi hc h ih =>
    obtain ⟨-, -, rfl⟩ := combineInit_ok h
    exact differentiable_blockDiag (forall_get (p := fun k => ∀ i j, DifferentiableAt ℝ (fun δ => k.2.stateTransitions 0 δ i j) 0) ih) i j
  | factor hc h ih =>
    obtain ⟨-, -, rfl⟩ := combineInit_ok h
    exact differentiable_blockDiag (forall_get (p := fun k => ∀ i j, DifferentiableAt ℝ (fun δ => k.2.stateTransitions 0 δ i j) 0) ih) i j
  | prod hc h ih =>
    obtain ⟨-, -, rfl⟩ := combineInit_ok h
    exact differentiable_kron (forall_get (p := fun k => ∀ i j, DifferentiableAt ℝ (fun δ => k.2.stateTransitions 0 δ i j) 0) ih) i j

theorem exists_noiseFactor {F P : Mat d d} {A : ℝ → Mat d d} (hS : SolvesSDE F A) (hP : Pᵀ = P)
    (hc : ∀ δ, 0 ≤ δ → (P - A δ * P * (A δ)ᵀ).PosSemidef) : ∃ L, IsNoiseFactor F P L := by
  have hW : (-(F * P + P * Fᵀ)).PosSemidef := by
    refine PosSemidef.of_dotProduct_mulVec_nonneg ?_ fun v => ?_
    · rw [IsHermitian, conjTranspose_eq_transpose_of_trivial, transpose_neg, transpose_add, transpose_mul, transpose_mul, transpose_transpose,
        hP, add_comm]
    · have hd := hS.deriv_quad P v 0
      rw [hS.zero] at hd
      simp only [Matrix.one_mul, transpose_one, Matrix.mul_one] at hd
      have h0 := hS.quad_zero P v
      rw [star_trivial]
      have hsl : Tendsto (slope (fun s => v ⬝ᵥ ((P - A s * P * (A s)ᵀ) *ᵥ v)) 0) (𝓝[>] (0 : ℝ)) (𝓝 (v ⬝ᵥ (-(F * P + P * Fᵀ)) *ᵥ v)) :=
        (hasDerivAt_iff_tendsto_slope.1 hd).mono_left (nhdsWithin_mono 0 fun x hx => ne_of_gt hx)
      refine ge_of_tendsto hsl ?_
      filter_upwards [self_mem_nhdsWithin] with r hr
      have hr' : 0 < r := hr
      rw [slope_def_field, h0, sub_zero, sub_zero]
      have := (hc r hr'.le).dotProduct_mulVec_nonneg v
      rw [star_trivial] at this
      positivity
  obtain ⟨L, hL⟩ := exists_mul_transpose hW
  refine ⟨L, ?_⟩
  unfold IsNoiseFactor
  rw [hL]; abel

/-- C71: every kernel expression of the library is a linear SDE: there are a drift matrix `F` generating its transitions and a noise factor
`L` keeping its stationary covariance stationary. For the basic kernels the drift is the kernel's own feedback matrix. -/
theorem C71_kernel_sde {K : Stationary o d} {k} (hK : Builds K k) :
    (∃ F L, SolvesSDE F (K.stateTransitions 0) ∧ IsNoiseFactor F K.Pinf L) ∧
    ∀ k', Leaf K k' → ∃ L, SolvesSDE K.feedback (K.stateTransitions 0) ∧ IsNoiseFactor K.feedback K.Pinf L := by
  obtain ⟨hc, -, -⟩ := Builds.good hK
  have hP : K.Pinfᵀ = K.Pinf := by
    have := hc.psd.isHermitian
    rwa [IsHermitian, conjTranspose_eq_transpose_of_trivial] at this
  constructor
  · obtain ⟨F, hF⟩ := group_generator hc.zero hc.add (builds_differentiable hK)
    obtain ⟨L, hL⟩ := exists_noiseFactor hF hP hc.contr
    exact ⟨F, L, hF, hL⟩
  · intro k' hl
    have hF := (Leaf.good hl).2.2.2
    obtain ⟨L, hL⟩ := exists_noiseFactor hF hP hc.contr
    exact ⟨L, hF, hL⟩

/-! ### simulation -/

theorem measurable_eulerMaruyama {Ω : Type*} [MeasurableSpace Ω] (A : ℝ → Mat d d) (b : ℝ → Vec d) (L : ℝ → Mat d d) {x0 : Ω → Vec d}
    {grid : Fin (n + 1) → ℝ} {eps : Ω → Fin (n + 1) → Vec d} (hx : Measurable x0) (he : ∀ k, Measurable fun ω => eps ω k) (k : Fin (n + 1)) :
    Measurable fun ω => eulerMaruyama ⟨fun x t => A t *ᵥ x + b t, fun _ t => L t⟩ (x0 ω) grid (eps ω) k := by
  induction k using Fin.induction with
  | zero =>
    have := fun ω => (C41_euler_maruyama ⟨fun x t => A t *ᵥ x + b t, fun _ t => L t⟩ (x0 ω) grid (eps ω)).zero
    simp only [this]
    exact hx
  | succ k ih =>
    have hs := fun ω => (C41_euler_maruyama ⟨fun x t => A t *ᵥ x + b t, fun _ t => L t⟩ (x0 ω) grid (eps ω)).succ k
    simp only [hs]
    have hmv : ∀ (M : Mat d d) {g : Ω → Vec d}, Measurable g → Measurable fun e => M *ᵥ g e := fun M g hg => by
      have := measurable_affine (0 : Vec d) M
      simp only [zero_add] at this
      exact this.comp hg
    exact (ih.add (((hmv _ ih).add_const _).const_smul (_ : ℝ))).add ((hmv _ (he _)).const_smul (_ : ℝ))

/-- C71: `euler_maruyama` from a random start `m + C e`, with independent standard normal draws, is distributed as the chain that
`LinearDrift.to_ssm` builds with that initial distribution. -/
theorem C71_random_start_law (A : ℝ → Mat d d) (b : ℝ → Vec d) (L : ℝ → Mat d d) (m : Vec d) (C : Mat d d) (grid : Fin (n + 1) → ℝ) :
    let τ : Fin (n + 1) → ℝ := Fin.cons 0 fun k : Fin n => grid k.castSucc
    let drift : LinearDrift n d := ⟨fun k => A (τ k.castSucc), fun k => b (τ k.castSucc)⟩
    (stdNormal (Ix (n + 1) d)).map (fun e => stk (eulerMaruyama ⟨fun x t => A t *ᵥ x + b t, fun _ t => L t⟩ (m + C *ᵥ unstk e 0) grid
        fun k => unstk e k.succ)) =
      (drift.toSSM (fun k => L (τ k.castSucc)) τ m C).law := by
  intro τ drift
  set s := drift.toSSM (fun k => L (τ k.castSucc)) τ m C with hs
  let rot : Ix n d → Ix (n + 1) d := fun i => (i.1.castSucc, i.2)
  have hinj : Function.Injective rot := fun i j h => by
    have h1 := Fin.castSucc_injective _ (congrArg Prod.fst h)
    have h2 := congrArg Prod.snd h
    exact Prod.ext h1 h2
  have key : ∀ e : Ix (n + 1) d → ℝ, eulerMaruyama ⟨fun x t => A t *ᵥ x + b t, fun _ t => L t⟩ (m + C *ᵥ unstk e 0) grid
        (fun k => unstk e k.succ) =
      simulate s.mu0 s.A s.b fun k => s.concatChol k *ᵥ unstk (e ∘ rot) k := fun e => by
    have h1 := C41_euler_maruyama ⟨fun x t => A t *ᵥ x + b t, fun _ t => L t⟩ (m + C *ᵥ unstk e 0) grid (fun k => unstk e k.succ)
    have h2 := simulate_isTrajectory s.mu0 s.A s.b fun k => s.concatChol k *ᵥ unstk (e ∘ rot) k
    funext k
    induction k using Fin.induction with
    | zero => rw [h1.zero, h2.zero]; rfl
    | succ k ih =>
      rw [h1.succ, h2.succ, ih]
      have hr : unstk (e ∘ rot) k.succ = unstk e k.castSucc.succ := rfl
      have hc : s.concatChol k.succ = Real.sqrt (τ k.succ - τ k.castSucc) • L (τ k.castSucc) := rfl
      rw [hr, hc]
      simp only [hs, LinearDrift.toSSM, drift, add_mulVec, smul_mulVec, one_mulVec, smul_add]
      abel
  have e1 : (fun e : Ix (n + 1) d → ℝ => stk (eulerMaruyama ⟨fun x t => A t *ᵥ x + b t, fun _ t => L t⟩ (m + C *ᵥ unstk e 0) grid
      fun k => unstk e k.succ)) = (fun e : Ix n d → ℝ => stk s.mus + (s.Ai⁻¹ * denseDiag s.concatChol) *ᵥ e) ∘ fun e => e ∘ rot := by
    funext e
    rw [key e, SSM.simulate_eq]; rfl
  rw [e1, ← Measure.map_map (measurable_affine _ _) (by fun_prop), stdNormal_comp hinj, stdNormal_map_affine, SSM.law_eq_gauss,
    SSM.Kd_eq_mul_transpose]

/-- The linear SDE `dx = F x dt + L dB`. -/
def linearSDE (F L : Mat d d) : SDE d := ⟨fun x _ => F *ᵥ x, fun _ _ => L⟩

theorem stepGrid_gap (M : ℕ) (h : ℝ) (k : Fin M) :
    (Fin.cons 0 fun k : Fin M => stepGrid M h k.castSucc : Fin (M + 1) → ℝ) k.succ -
      (Fin.cons 0 fun k : Fin M => stepGrid M h k.castSucc : Fin (M + 1) → ℝ) k.castSucc = h := by
  have e : ∀ k : Fin (M + 1), (Fin.cons 0 fun k : Fin M => stepGrid M h k.castSucc : Fin (M + 1) → ℝ) k = (k : ℕ) * h := fun k => by
    refine Fin.cases ?_ (fun k => ?_) k
    · simp
    · simp [stepGrid]
  rw [e, e]; simp; ring

/-- The chain of Euler steps with step `h`. -/
noncomputable def eulerChain (M : ℕ) (h : ℝ) (F L : Mat d d) (m : Vec d) (C : Mat d d) : SSM M d :=
  (⟨fun _ => F, fun _ => 0⟩ : LinearDrift M d).toSSM (fun _ => L) (Fin.cons 0 fun k : Fin M => stepGrid M h k.castSucc) m C

theorem eulerChain_spec {M : ℕ} {h : ℝ} (h0 : 0 ≤ h) (F L : Mat d d) (m : Vec d) (C : Mat d d) :
    (∀ k, (eulerChain M h F L m C).A k = 1 + h • F) ∧ (∀ k, (eulerChain M h F L m C).b k = 0) ∧
    (∀ k, (eulerChain M h F L m C).Q k = h • (L * Lᵀ)) ∧ (eulerChain M h F L m C).initialCovariance = C * Cᵀ ∧
    (eulerChain M h F L m C).mu0 = m := by
  refine ⟨fun k => ?_, fun k => ?_, fun k => ?_, rfl, rfl⟩
  · show _ • F + 1 = _
    dsimp only
    rw [stepGrid_gap, add_comm]
  · show _ • (0 : Vec d) = 0
    rw [smul_zero]
  · show (Real.sqrt _ • L) * (Real.sqrt _ • L)ᵀ = _
    dsimp only
    rw [stepGrid_gap, transpose_smul, Matrix.smul_mul, Matrix.mul_smul, smul_smul, Real.mul_self_sqrt h0]

/-- The model of the kernel on `ts`, from another start. -/
noncomputable def SSM.restart (s : SSM n d) (m : Vec d) (C : Mat d d) : SSM n d := ⟨m, C, s.A, s.b, s.cholQ⟩

/-- The chain of Euler steps for the kernel's SDE converges in law. -/
theorem eulerChain_limit {K : Stationary o d} {k} (hK : Builds K k) (hj : K.jitter = 0) {F L : Mat d d}
    (hF : SolvesSDE F (K.stateTransitions 0)) (hL : IsNoiseFactor F K.Pinf L) {ts : Fin (n + 1) → ℝ} {s : SSM n d}
    (hs : K.stateSpaceModel ts = .ok s) (ht : ts 0 = 0) {M : ℕ → ℕ} {h : ℕ → ℝ} {idx : ∀ N, Fin (n + 1) → Fin (M N + 1)}
    (hR : Refining ts M h idx) (m : Vec d) (C : Mat d d) :
    ConvergesInLaw (fun N => (eulerChain (M N) (h N) F L m C).law.map fun x => fun i : Ix n d => x (idx N i.1, i.2))
      (trajLaw m C s.A s.b s.cholQ) := by
  obtain ⟨hc, hr, -⟩ := Builds.good hK
  have hP := hc.isProcess hr hj
  obtain ⟨-, -, h2, h3, -, h4⟩ := hP.ssm hs
  have hsp := fun N => eulerChain_spec (M := M N) (hR.pos N).le F L m C
  have hLL : L * Lᵀ = -(F * K.Pinf + K.Pinf * Fᵀ) := by
    unfold IsNoiseFactor at hL
    rw [add_comm] at hL
    exact eq_neg_of_add_eq_zero_left hL
  refine chain_limit (m := 0) (P := K.Pinf) (P0 := C * Cᵀ) (x0 := m) (s := s.restart m C) hc.pos hF ht hR (fun N => (hsp N).1) (fun N k => ?_)
    (fun N k => ?_) (fun N => (hsp N).2.2.2.1) (fun N => (hsp N).2.2.2.2) h2 (fun k => ?_) h4 rfl rfl
  · rw [(hsp N).2.1]; simp
  · rw [(hsp N).2.2.1, hLL]
  · exact h3 k

/-- C71: simulate a kernel's SDE with `euler_maruyama` from the random start `m + C e` on homogeneous grids whose step tends to zero, and
read off the values at the times of interest. In law they converge to the trajectory, from the same start, of the state space model which
the kernel builds on these times. Any kernel expression, any start. -/
theorem C71_random_start {K : Stationary o d} {k} (hK : Builds K k) (hj : K.jitter = 0) {F L : Mat d d}
    (hF : SolvesSDE F (K.stateTransitions 0)) (hL : IsNoiseFactor F K.Pinf L) {ts : Fin (n + 1) → ℝ} {s : SSM n d}
    (hs : K.stateSpaceModel ts = .ok s) (ht : ts 0 = 0) {M : ℕ → ℕ} {h : ℕ → ℝ} {idx : ∀ N, Fin (n + 1) → Fin (M N + 1)}
    (hR : Refining ts M h idx) (m : Vec d) (C : Mat d d) :
    ConvergesInLaw
      (fun N => (stdNormal (Ix (M N + 1) d)).map fun e => fun i : Ix n d =>
        eulerMaruyama (linearSDE F L) (m + C *ᵥ unstk e 0) (stepGrid (M N) (h N)) (fun k => unstk e k.succ) (idx N i.1) i.2)
      (trajLaw m C s.A s.b s.cholQ) := by
  have hlim := eulerChain_limit hK hj hF hL hs ht hR m C
  have hsde : linearSDE F L = ⟨fun x t => (fun _ : ℝ => F) t *ᵥ x + (fun _ : ℝ => (0 : Vec d)) t, fun _ t => (fun _ : ℝ => L) t⟩ := by
    unfold linearSDE; simp
  intro g
  refine (hlim g).congr fun N => ?_
  have hlaw := C71_random_start_law (n := M N) (fun _ : ℝ => F) (fun _ => (0 : Vec d)) (fun _ => L) m C (stepGrid (M N) (h N))
  dsimp only at hlaw
  rw [← hsde] at hlaw
  have e : (eulerChain (M N) (h N) F L m C).law = _ := hlaw.symm
  dsimp only
  rw [e, Measure.map_map (by fun_prop)]
  · rfl
  · refine measurable_pi_lambda _ fun i => (measurable_pi_apply i.2).comp ?_
    rw [hsde]
    refine measurable_eulerMaruyama _ _ _ ?_ (fun k => ?_) i.1
    · exact (measurable_affine m C).comp (measurable_pi_lambda _ fun i => measurable_pi_apply _)
    · exact measurable_pi_lambda _ fun i => measurable_pi_apply _

/-- C71: the same from a fixed start `x0`, with the draws that the routine consumes. -/
theorem C71_fixed_start {K : Stationary o d} {k} (hK : Builds K k) (hj : K.jitter = 0) {F L : Mat d d}
    (hF : SolvesSDE F (K.stateTransitions 0)) (hL : IsNoiseFactor F K.Pinf L) {ts : Fin (n + 1) → ℝ} {s : SSM n d}
    (hs : K.stateSpaceModel ts = .ok s) (ht : ts 0 = 0) {M : ℕ → ℕ} {h : ℕ → ℝ} {idx : ∀ N, Fin (n + 1) → Fin (M N + 1)}
    (hR : Refining ts M h idx) (x0 : Vec d) :
    ConvergesInLaw
      (fun N => (stdNormal (Ix (M N) d)).map fun e => fun i : Ix n d =>
        eulerMaruyama (linearSDE F L) x0 (stepGrid (M N) (h N)) (unstk e) (idx N i.1) i.2)
      (trajLaw x0 0 s.A s.b s.cholQ) := by
  have hlim := eulerChain_limit hK hj hF hL hs ht hR x0 0
  have hsde : linearSDE F L = ⟨fun x t => (fun _ : ℝ => F) t *ᵥ x + (fun _ : ℝ => (0 : Vec d)) t, fun _ t => (fun _ : ℝ => L) t⟩ := by
    unfold linearSDE; simp
  intro g
  refine (hlim g).congr fun N => ?_
  have hlaw := C41_euler_maruyama_linear_law (n := M N) (fun _ : ℝ => F) (fun _ => (0 : Vec d)) (fun _ => L) x0 (stepGrid (M N) (h N))
  dsimp only at hlaw
  rw [← hsde] at hlaw
  have e : (eulerChain (M N) (h N) F L x0 0).law = _ := hlaw.symm
  dsimp only
  rw [e, Measure.map_map (by fun_prop)]
  · rfl
  · refine measurable_pi_lambda _ fun i => (measurable_pi_apply i.2).comp ?_
    rw [hsde]
    exact measurable_eulerMaruyama _ _ _ measurable_const (fun k => measurable_pi_lambda _ fun i => measurable_pi_apply _) i.1

/-- C71: started from the kernel's initial distribution, the outputs converge in law to the Gaussian process with the textbook covariance
function of the kernel expression. -/
theorem C71_gaussian_process {K : Stationary o d} {k} (hK : Builds K k) (hj : K.jitter = 0) {F L : Mat d d}
    (hF : SolvesSDE F (K.stateTransitions 0)) (hL : IsNoiseFactor F K.Pinf L) {ts : Fin (n + 1) → ℝ} {s : SSM n d}
    (hs : K.stateSpaceModel ts = .ok s) (ht : ts 0 = 0) {M : ℕ → ℕ} {h : ℕ → ℝ} {idx : ∀ N, Fin (n + 1) → Fin (M N + 1)}
    (hR : Refining ts M h idx) :
    ConvergesInLaw
      (fun N => (stdNormal (Ix (M N + 1) d)).map fun e => fun i : Fin (n + 1) × Fin o =>
        (K.emission (ts i.1) *ᵥ eulerMaruyama (linearSDE F L) (s.mu0 + s.cholP0 *ᵥ unstk e 0) (stepGrid (M N) (h N))
          (fun k => unstk e k.succ) (idx N i.1)) i.2)
      (gpLaw (fun _ => 0) k ts) := by
  have h1 := C71_random_start hK hj hF hL hs ht hR s.mu0 s.cholP0
  have hT : Continuous fun x : Ix n d → ℝ => stk fun k => K.emission (ts k) *ᵥ unstk x k := by
    refine continuous_pi fun i => ?_
    simp only [stk, mulVec, dotProduct, unstk]
    fun_prop
  have h2 := h1.map hT
  rw [← C28_output_law hK hj hs]
  intro g
  refine (h2 g).congr fun N => ?_
  dsimp only
  rw [Measure.map_map hT.measurable]
  · rfl
  · refine measurable_pi_lambda _ fun i => (measurable_pi_apply i.2).comp ?_
    have hsde : linearSDE F L = ⟨fun x t => (fun _ : ℝ => F) t *ᵥ x + (fun _ : ℝ => (0 : Vec d)) t, fun _ t => (fun _ : ℝ => L) t⟩ := by
      unfold linearSDE; simp
    rw [hsde]
    refine measurable_eulerMaruyama _ _ _ ?_ (fun k => ?_) _
    · exact (measurable_affine s.mu0 s.cholP0).comp (measurable_pi_lambda _ fun i => measurable_pi_apply _)
    · exact measurable_pi_lambda _ fun i => measurable_pi_apply _

/-! ### Ornstein–Uhlenbeck -/

theorem ou_noiseFactor {decay q : ℝ} (hd : 0 < decay) (hq : 0 < q) {K : Stationary o 1} (hK : ornsteinUhlenbeck o decay q 0 = .ok K) :
    K.jitter = 0 ∧ K.feedback = !![-decay] ∧ IsNoiseFactor K.feedback K.Pinf !![Real.sqrt q] := by
  unfold ornsteinUhlenbeck at hK
  obtain rfl := (kernelInit_ok hK).2.2
  refine ⟨rfl, rfl, ?_⟩
  unfold IsNoiseFactor
  ext i j; fin_cases i; fin_cases j
  simp only [Stationary.base, Matrix.add_apply, Matrix.mul_apply, Fin.sum_univ_one, transpose_apply]
  show -decay * (0.5 * q / decay) + 0.5 * q / decay * -decay + Real.sqrt q * Real.sqrt q = 0
  rw [Real.mul_self_sqrt hq.le]
  field_simp
  ring

/-- C71: simulating `OrnsteinUhlenbeckSDE(decay, q)` with `euler_maruyama` from any start, on ever finer grids, converges in law to the
state space model of the `OrnsteinUhlenbeck(decay, q)` kernel from that start. -/
theorem C71_ornstein_uhlenbeck {decay q : ℝ} (hd : 0 < decay) (hq : 0 < q) {sde : SDE 1} {K : Stationary o 1} {ts : Fin (n + 1) → ℝ}
    {s : SSM n 1} (hsde : ornsteinUhlenbeckSDE decay (!![q] : Mat 1 1) = .ok sde) (hK : ornsteinUhlenbeck o decay q 0 = .ok K)
    (hs : K.stateSpaceModel ts = .ok s) (ht : ts 0 = 0) {M : ℕ → ℕ} {h : ℕ → ℝ} {idx : ∀ N, Fin (n + 1) → Fin (M N + 1)}
    (hR : Refining ts M h idx) (x0 : ℝ) :
    ConvergesInLaw
      (fun N => (stdNormal (Ix (M N) 1)).map fun e => fun i : Ix n 1 =>
        eulerMaruyama sde ![x0] (stepGrid (M N) (h N)) (unstk e) (idx N i.1) i.2)
      (trajLaw ![x0] 0 s.A s.b s.cholQ) := by
  obtain ⟨hj, hF, hL⟩ := ou_noiseFactor hd hq hK
  have h1 := C71_fixed_start (.leaf (.ou hK)) hj (C26_transitions_solve_sde (.ou hK) 0) hL hs ht hR ![x0]
  have e : sde = linearSDE K.feedback !![Real.sqrt q] := by
    unfold ornsteinUhlenbeckSDE at hsde
    rw [tfCholesky_scalar hq] at hsde
    have h2 := Except.ok.inj hsde
    rw [← h2, hF]
    unfold linearSDE
    congr 1
    funext x t i
    fin_cases i
    simp [Matrix.mulVec, dotProduct]
  rw [e]
  exact h1

/-- C71: so does `linearize_sde` of that SDE on ever finer grids: the models it builds from the initial moments `(m₀, v₀)`, restricted to
the times of interest, converge in law to the kernel's transitions from `N(m₀, v₀)`. -/
theorem C71_linearize_ou {decay q : ℝ} (hd : 0 < decay) (hq : 0 < q) (quad : Quadrature) (hq1 : ExactOn quad fun x => -decay * x)
    (hq2 : ExactOn quad fun _ => -decay) {K : Stationary o 1} {ts : Fin (n + 1) → ℝ}
    {s : SSM n 1} (hK : ornsteinUhlenbeck o decay q 0 = .ok K)
    (hs : K.stateSpaceModel ts = .ok s) (ht : ts 0 = 0) {M : ℕ → ℕ} {h : ℕ → ℝ} {idx : ∀ N, Fin (n + 1) → Fin (M N + 1)}
    (hR : Refining ts M h idx) (mean var : ∀ N, Fin (M N) → ℝ) (m0 : ℝ) {v0 : ℝ} (hv0 : 0 < v0) :
    ∃ r : ∀ N, SSM (M N) 1,
      (∀ N, (ouScalar decay q).linearize quad (fun k => (k : ℕ) * h N) (mean N) (var N) m0 v0 = .ok (r N)) ∧
      ConvergesInLaw (fun N => (trajLaw (r N).mu0 (r N).cholP0 (r N).A (r N).b (r N).cholQ).map fun x => fun i : Ix n 1 => x (idx N i.1, i.2))
        (trajLaw ![m0] !![Real.sqrt v0] s.A s.b s.cholQ) := by
  obtain ⟨hj, hF, hL⟩ := ou_noiseFactor hd hq hK
  choose r hr hmu hc hk using fun N => C41_linearize_ou decay hq quad hq1 hq2 (fun k : Fin (M N + 1) => (k : ℕ) * h N) (mean N) (var N) m0 hv0
  refine ⟨r, hr, ?_⟩
  have h1 := eulerChain_limit (.leaf (.ou hK)) hj (C26_transitions_solve_sde (.ou hK) 0) hL hs ht hR ![m0] !![Real.sqrt v0]
  intro g
  refine (h1 g).congr fun N => ?_
  have hgap : ∀ k : Fin (M N), ((k.succ : Fin (M N + 1)) : ℕ) * h N - ((k.castSucc : Fin (M N + 1)) : ℕ) * h N = h N := fun k => by
    simp only [Fin.val_succ, Fin.val_castSucc, Nat.cast_add, Nat.cast_one]; ring
  have e : eulerChain (M N) (h N) K.feedback !![Real.sqrt q] ![m0] !![Real.sqrt v0] = r N := by
    have hA : ∀ k, (r N).A k = !![1 - decay * h N] := fun k => by rw [(hk N k).1, hgap]
    have hb : ∀ k, (r N).b k = ![0] := fun k => (hk N k).2.1
    have hQ : ∀ k, (r N).cholQ k = !![Real.sqrt (h N) * Real.sqrt q] := fun k => by rw [(hk N k).2.2, hgap]
    have h2 := eulerChain_spec (M := M N) (hR.pos N).le K.feedback !![Real.sqrt q] ![m0] !![Real.sqrt v0]
    have eA : (eulerChain (M N) (h N) K.feedback !![Real.sqrt q] ![m0] !![Real.sqrt v0]).A = (r N).A := by
      funext k
      rw [h2.1, hA, hF]
      ext i j; fin_cases i; fin_cases j
      simp; ring
    have eb : (eulerChain (M N) (h N) K.feedback !![Real.sqrt q] ![m0] !![Real.sqrt v0]).b = (r N).b := by
      funext k
      rw [h2.2.1, hb]
      ext i; fin_cases i; rfl
    have eQ : (eulerChain (M N) (h N) K.feedback !![Real.sqrt q] ![m0] !![Real.sqrt v0]).cholQ = (r N).cholQ := by
      funext k
      rw [hQ]
      show Real.sqrt _ • !![Real.sqrt q] = _
      dsimp only
      rw [stepGrid_gap]
      ext i j; fin_cases i; fin_cases j
      simp
    have em : (eulerChain (M N) (h N) K.feedback !![Real.sqrt q] ![m0] !![Real.sqrt v0]).mu0 = (r N).mu0 := (hmu N).symm
    have ec : (eulerChain (M N) (h N) K.feedback !![Real.sqrt q] ![m0] !![Real.sqrt v0]).cholP0 = (r N).cholP0 := (hc N).symm
    generalize eulerChain (M N) (h N) K.feedback !![Real.sqrt q] ![m0] !![Real.sqrt v0] = z at *
    generalize r N = z' at *
    cases z; cases z'
    simp_all
  dsimp only
  rw [e]; rfl

/-! ### the hypotheses are met -/

/-- Equal division: `N + 1` steps per unit of time, read off at the last grid point before each time of interest. -/
theorem refining_floor {ts : Fin (n + 1) → ℝ} (hm : Monotone ts) (h0 : ∀ i, 0 ≤ ts i) :
    Refining ts (fun N => ⌊ts (Fin.last n) * (N + 1)⌋₊) (fun N => 1 / (N + 1 : ℝ))
      (fun N i => ⟨⌊ts i * (N + 1)⌋₊, Nat.lt_succ_of_le (Nat.floor_mono (mul_le_mul_of_nonneg_right (hm (Fin.le_last i)) (by positivity)))⟩) where
  pos N := by positivity
  step := tendsto_one_div_add_atTop_nhds_zero_nat
  mono N i j hij := by
    show ⌊_⌋₊ ≤ ⌊_⌋₊
    exact Nat.floor_mono (mul_le_mul_of_nonneg_right (hm hij) (by positivity))
  times i := by
    have h1 : Tendsto (fun x : ℝ => (⌊ts i * x⌋₊ : ℝ) / x) atTop (𝓝 (ts i)) := tendsto_nat_floor_mul_div_atTop (h0 i)
    have h2 : Tendsto (fun N : ℕ => (N : ℝ) + 1) atTop atTop := tendsto_natCast_atTop_atTop.atTop_add tendsto_const_nhds
    refine (h1.comp h2).congr fun N => ?_
    simp only [Function.comp_apply]
    ring

/-- The hypotheses of C71 are met: an Ornstein–Uhlenbeck kernel times a `Matern32` kernel, at times `0, 1, 2.5`. -/
example : ∃ (K₁ : Stationary 1 1) (K₂ : Stationary 1 2) (K : Stationary 1 _) (F L : Mat _ _) (s : SSM 2 _),
    ornsteinUhlenbeck 1 2 3 0 = .ok K₁ ∧ matern32 1 1 1 0 = .ok K₂ ∧ SDEKernel.mul K₁ K₂ = .ok K ∧
    SolvesSDE F (K.stateTransitions 0) ∧ IsNoiseFactor F K.Pinf L ∧ K.jitter = 0 ∧ K.stateSpaceModel ![0, 1, 2.5] = .ok s ∧
    (∃ k, Builds K k) ∧ ∃ M h idx, Refining (![0, 1, 2.5] : Fin 3 → ℝ) M h idx := by
  have h1 : ∃ K, ornsteinUhlenbeck 1 2 3 0 = .ok K ∧ K.jitter = 0 :=
    ⟨_, by unfold ornsteinUhlenbeck kernelInit; rw [if_neg (by simp), if_neg (by simp)], rfl⟩
  have h2 : ∃ K, matern32 1 1 1 0 = .ok K ∧ K.jitter = 0 :=
    ⟨_, by unfold matern32 kernelInit; simp only; rw [if_neg (by simp), if_neg (by simp)], rfl⟩
  obtain ⟨K₁, hK₁, -⟩ := h1
  obtain ⟨K₂, hK₂, -⟩ := h2
  have h3 : ∃ K, SDEKernel.mul K₁ K₂ = .ok K ∧ K.jitter = 0 :=
    ⟨_, by unfold SDEKernel.mul productKernel combineInit; rw [if_neg (by simp), if_neg (by simp)], rfl⟩
  obtain ⟨K, hK, hj⟩ := h3
  have hb : Builds K _ := .prod (ks := [⟨1, K₁⟩, ⟨2, K₂⟩]) (c := ![iso (ouCov 2 3), iso (matern32Cov 1 1)]) (fun a => by
    fin_cases a
    · exact .leaf (.ou hK₁)
    · exact .leaf (.matern32 hK₂)) hK
  have hn : NoiseTag K _ := .prod (ks := [⟨1, K₁⟩, ⟨2, K₂⟩]) (bs := ![true, true]) (fun a => by
    fin_cases a
    · exact .ou hK₁
    · exact .matern32 hK₂) hK
  obtain ⟨F, L, hF, hL⟩ := (C71_kernel_sde hb).1
  have hts : StrictMono (![0, 1, 2.5] : Fin 3 → ℝ) := by
    refine Fin.strictMono_iff_lt_succ.2 fun k => ?_
    fin_cases k
    · show (0 : ℝ) < 1; norm_num
    · show (1 : ℝ) < 2.5; norm_num
  obtain ⟨s, hs⟩ := (C28_succeeds hb (by norm_num)).1 _ hn hts
  exact ⟨K₁, K₂, K, F, L, s, hK₁, hK₂, hK, hF, hL, hj, hs, ⟨_, hb⟩, _, _, _, refining_floor hts.monotone fun i => by
    have : (![0, 1, 2.5] : Fin 3 → ℝ) 0 ≤ _ := hts.monotone (Fin.zero_le i)
    simpa using this⟩

end MF
