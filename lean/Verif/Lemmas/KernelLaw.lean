import Verif.Model.Kernels
import Verif.Spec.Kernel
import Verif.Lemmas.SSMLaw
import Verif.Lemmas.SSMFrom
import Verif.Lemmas.Obs

/-! # The law of the outputs of a kernel's state space model -/

namespace MF
open Matrix Spec MeasureTheory
variable {n d o : ℕ}

theorem gpLaw_fin {N : ℕ} (m : ℝ → Vec o) (k : ℝ → ℝ → Mat o o) (ts : Fin N → ℝ) :
    gpLaw m k ts = gaussLaw (stk fun i => m (ts i)) (ofBlk fun i j => k (ts i) (ts j)) := rfl

theorem toDeltaTime_ok {ts : Fin (n + 1) → ℝ} {δ : Fin n → ℝ} (h : toDeltaTime ts = .ok δ) :
    (δ = fun k => ts k.succ - ts k.castSucc) ∧ ∀ k, 0 ≤ δ k := by
  unfold toDeltaTime at h
  simp only at h
  split at h
  · rename_i h'
    cases h; exact ⟨rfl, h'⟩
  · cases h

theorem toDeltaTime_of_mono {ts : Fin (n + 1) → ℝ} (h : Monotone ts) :
    toDeltaTime ts = .ok fun k => ts k.succ - ts k.castSucc := by
  unfold toDeltaTime
  rw [if_pos]
  intro k
  exact sub_nonneg.2 (h (Fin.castSucc_lt_succ.le))

theorem choleskyOrZero_mul {c L : Mat d d} (hc : cᵀ = c) (h : choleskyOrZero c = .ok L) :
    L * Lᵀ = c := by
  by_cases h0 : c = 0
  · subst h0; rw [choleskyOrZero_eq_zero] at h; cases h; simp
  · rw [choleskyOrZero_eq_ne h0, tfCholesky_eq_ok_iff, symLower_eq hc] at h
    exact h.mul_transpose

theorem choleskyOrZeros_mul {q L : Fin n → Mat d d} (hc : ∀ k, (q k)ᵀ = q k)
    (h : choleskyOrZeros q = .ok L) (k : Fin n) : L k * (L k)ᵀ = q k := by
  induction n with
  | zero => exact k.elim0
  | succ n ih =>
    rw [choleskyOrZeros] at h
    simp only [bind, Except.bind, pure, Except.pure] at h
    split at h
    · cases h
    rename_i c hc0
    split at h
    · cases h
    rename_i cs hcs
    cases h
    refine Fin.cases ?_ (fun k => ?_) k
    · exact choleskyOrZero_mul (hc 0) hc0
    · exact ih (fun k => hc k.succ) hcs k

theorem ssmFromCovariances_ok {m0 : Vec d} {P0 : Mat d d} {A : Fin n → Mat d d} {b : Fin n → Vec d}
    {Q : Fin n → Mat d d} {s : SSM n d} (hP : P0ᵀ = P0) (hQ : ∀ k, (Q k)ᵀ = Q k)
    (h : ssmFromCovariances m0 P0 A b Q = .ok s) :
    s.mu0 = m0 ∧ s.A = A ∧ s.b = b ∧ s.initialCovariance = P0 ∧ ∀ k, s.Q k = Q k := by
  unfold ssmFromCovariances at h
  simp only [bind, Except.bind, pure, Except.pure] at h
  split_ifs at h
  split at h
  · cases h
  rename_i c0 h0
  split at h
  · cases h
  rename_i cs h1
  cases h
  exact ⟨rfl, rfl, rfl, choleskyOrZero_mul hP h0, fun k => choleskyOrZeros_mul hQ h1 k⟩

/-- The kernel describes a stationary linear process with transitions `A`, stationary covariance `P`
and mean `m`. -/
structure Stationary.IsProcess (K : Stationary o d) (A : ℝ → Mat d d) (P : Mat d d) (m : Vec d) :
    Prop where
  trans : ∀ t δ, 0 ≤ δ → K.stateTransitions t δ = A δ
  noise : ∀ t δ, 0 ≤ δ → K.transitionNoise t δ = P - A δ * P * (A δ)ᵀ
  init : K.initialCovariance = P
  symm : Pᵀ = P
  add : ∀ s t, 0 ≤ s → 0 ≤ t → A (s + t) = A s * A t
  mean : K.initialMean = m
  offs : ∀ t δ, 0 ≤ δ → K.stateOffsets t δ = m - A δ *ᵥ m
  emis : ∀ t, K.emission t * A 0 = K.emission t

/-- The covariance function of the outputs of a stationary linear process. -/
noncomputable def procCov (H : ℝ → Mat o d) (A : ℝ → Mat d d) (P : Mat d d) (t t' : ℝ) : Mat o o :=
  if t' ≤ t then H t * A (t - t') * P * (H t')ᵀ else (H t' * A (t' - t) * P * (H t)ᵀ)ᵀ

variable {K : Stationary o d} {A : ℝ → Mat d d} {P : Mat d d} {m : Vec d}

theorem Stationary.IsProcess.ssm (h : K.IsProcess A P m) {ts : Fin (n + 1) → ℝ} {s : SSM n d}
    (hs : K.stateSpaceModel ts = .ok s) :
    Monotone ts ∧ s.mu0 = m ∧ (∀ k : Fin n, s.A k = A (ts k.succ - ts k.castSucc)) ∧
      (∀ k : Fin n, s.b k = m - A (ts k.succ - ts k.castSucc) *ᵥ m) ∧ s.initialCovariance = P ∧
      ∀ k : Fin n, s.Q k = P - A (ts k.succ - ts k.castSucc) * P * (A (ts k.succ - ts k.castSucc))ᵀ := by
  unfold Stationary.stateSpaceModel at hs
  cases hδ : toDeltaTime ts with
  | error e => rw [hδ] at hs; cases hs
  | ok δ =>
    rw [hδ] at hs
    simp only [bind, Except.bind] at hs
    obtain ⟨rfl, hnn⟩ := toDeltaTime_ok hδ
    have hsym : ∀ a : ℝ, (P - A a * P * (A a)ᵀ)ᵀ = P - A a * P * (A a)ᵀ := by
      intro a
      rw [transpose_sub, transpose_mul, transpose_mul, transpose_transpose, h.symm, Matrix.mul_assoc]
    obtain ⟨h1, h2, h3, h4, h5⟩ := ssmFromCovariances_ok (by rw [h.init, h.symm])
      (fun k => by rw [h.noise _ _ (hnn k), hsym]) hs
    refine ⟨?_, by rw [h1, h.mean], fun k => ?_, fun k => ?_, by rw [h4, h.init], fun k => ?_⟩
    · exact Fin.monotone_iff_le_succ.2 fun k => sub_nonneg.1 (hnn k)
    · rw [h2]; exact h.trans _ _ (hnn k)
    · rw [h3]; exact h.offs _ _ (hnn k)
    · rw [h5, h.noise _ _ (hnn k)]

theorem Stationary.IsProcess.mus (h : K.IsProcess A P m) {ts : Fin (n + 1) → ℝ} {s : SSM n d}
    (hs : K.stateSpaceModel ts = .ok s) : s.mus = fun _ => m := by
  obtain ⟨-, h1, h2, h3, -, -⟩ := h.ssm hs
  refine SSM.IsMeans.unique s.mus_isMeans ⟨h1.symm, fun k => ?_⟩
  rw [h2, h3]; abel

theorem Stationary.IsProcess.Kd (h : K.IsProcess A P m) {ts : Fin (n + 1) → ℝ} {s : SSM n d}
    (hs : K.stateSpaceModel ts = .ok s) :
    (∀ i, blk s.Kd i i = P) ∧ ∀ i j, j < i → blk s.Kd i j = A (ts i - ts j) * P := by
  obtain ⟨hmono, h1, h2, -, h3, h4⟩ := h.ssm hs
  have hJ := s.Kd_isJointCov
  have hdiag : ∀ i, blk s.Kd i i = P := by
    intro i
    refine Fin.induction ?_ (fun k ih => ?_) i
    · rw [hJ.zero, h3]
    · rw [hJ.succ, ih, h4, h2]; abel
  refine ⟨hdiag, fun i => ?_⟩
  refine Fin.induction ?_ (fun k ih => ?_) i
  · intro j hj; exact absurd hj (Fin.not_lt_zero j)
  · intro j hj
    have hle : j ≤ k.castSucc := Fin.le_castSucc_iff.2 hj
    rw [hJ.cross k j hle, h2]
    rcases hle.lt_or_eq with hlt | rfl
    · rw [ih j hlt, ← Matrix.mul_assoc, ← h.add _ _ (sub_nonneg.2 (hmono Fin.castSucc_lt_succ.le))
        (sub_nonneg.2 (hmono hle))]
      congr 2; ring
    · rw [hdiag]

theorem blk_obsMatrix_conj {e : ℕ} (H : Fin (n + 1) → Mat e d) (M : Matrix (Ix n d) (Ix n d) ℝ) (i j) :
    blk (obsMatrix H id * M * (obsMatrix H id)ᵀ) i j = H i * blk M i j * (H j)ᵀ := by
  have h1 : ∀ (M : Matrix (Ix n d) (Ix n d) ℝ) i j, blk (obsMatrix H id * M) i j = H i * blk M i j := by
    intro M i j
    rw [blk_mul, Finset.sum_eq_single i]
    · simp [obsMatrix]
    · intro b _ hb; simp [obsMatrix, hb]
    · simp
  have h2 : ∀ j k, blk (obsMatrix H id)ᵀ k j = if k = j then (H j)ᵀ else 0 := by
    intro j k
    ext a b
    have : blk (obsMatrix H id)ᵀ k j a b = (blk (obsMatrix H id) j k) b a := rfl
    rw [this]
    by_cases hk : k = j
    · subst hk; simp [obsMatrix]
    · simp [obsMatrix, hk]
  rw [blk_mul, Finset.sum_eq_single j]
  · rw [h1, h2, if_pos rfl]
  · intro b _ hb; rw [h2, if_neg hb, Matrix.mul_zero]
  · simp

theorem outputLaw_eq (s : SSM n d) (H : Fin (n + 1) → Mat o d) :
    outputLaw s.mu0 s.cholP0 s.A s.b s.cholQ H =
      gaussLaw (stk fun k => H k *ᵥ s.mus k) (ofBlk fun i j => H i * blk s.Kd i j * (H j)ᵀ) := by
  have hlaw : trajLaw s.mu0 s.cholP0 s.A s.b s.cholQ = gaussLaw (stk s.mus) s.Kd := s.law_eq_gauss
  have hf : (fun x : Ix n d → ℝ => stk fun k => H k *ᵥ unstk x k) =
      fun x => 0 + obsMatrix H id *ᵥ x := by
    funext x
    rw [zero_add]
    refine vblk_ext fun k => ?_
    rw [vblk_obsMatrix_mulVec]
    rfl
  rw [outputLaw, hlaw, hf, gaussLaw_map_affine s.Kd_posSemidef]
  congr 1
  · rw [zero_add]
    refine vblk_ext fun k => ?_
    rw [vblk_obsMatrix_mulVec]
    rfl
  · refine blk_ext fun i j => ?_
    rw [blk_obsMatrix_conj]
    rfl

theorem Stationary.IsProcess.outputLaw (h : K.IsProcess A P m) {ts : Fin (n + 1) → ℝ} {s : SSM n d}
    (hs : K.stateSpaceModel ts = .ok s) :
    outputLaw s.mu0 s.cholP0 s.A s.b s.cholQ (fun k => K.emission (ts k)) =
      gpLaw (fun t => K.emission t *ᵥ m) (procCov K.emission A P) ts := by
  obtain ⟨hmono, -⟩ := h.ssm hs
  obtain ⟨hd, hc⟩ := h.Kd hs
  rw [outputLaw_eq, gpLaw_fin, h.mus hs]
  congr 1
  have hsame : ∀ t t', K.emission t * P * (K.emission t')ᵀ = K.emission t * A 0 * P * (K.emission t')ᵀ := by
    intro t t'; rw [h.emis]
  have hsame' : ∀ t t', (K.emission t' * A 0 * P * (K.emission t)ᵀ)ᵀ = K.emission t * P * (K.emission t')ᵀ := by
    intro t t'
    rw [h.emis, transpose_mul, transpose_mul, transpose_transpose, h.symm, Matrix.mul_assoc]
  have hlower : ∀ i j, j < i → K.emission (ts i) * blk s.Kd i j * (K.emission (ts j))ᵀ =
      procCov K.emission A P (ts i) (ts j) := by
    intro i j hji
    rw [hc i j hji, procCov, if_pos (hmono hji.le), Matrix.mul_assoc, Matrix.mul_assoc,
      Matrix.mul_assoc, Matrix.mul_assoc]
  have hsymm : ∀ t t', (procCov K.emission A P t t')ᵀ = procCov K.emission A P t' t := by
    intro t t'
    unfold procCov
    rcases lt_trichotomy t t' with h1 | h1 | h1
    · rw [if_neg (not_le.2 h1), if_pos h1.le, transpose_transpose]
    · subst h1; rw [if_pos le_rfl, sub_self, hsame', hsame]
    · rw [if_neg (not_le.2 h1), if_pos h1.le]
  refine blk_ext fun i j => ?_
  show K.emission (ts i) * blk s.Kd i j * (K.emission (ts j))ᵀ = procCov K.emission A P (ts i) (ts j)
  rcases lt_trichotomy i j with hij | rfl | hij
  · have h1 := congrArg transpose (hlower j i hij)
    rw [hsymm, transpose_mul, transpose_mul, transpose_transpose] at h1
    rw [← h1, Matrix.mul_assoc]
    congr 2
    have h2 : s.Kdᵀ = s.Kd := s.Kd_isJointCov.symm
    conv_lhs => rw [← h2]
    rfl
  · rw [hd, procCov, if_pos le_rfl, sub_self, hsame]
  · exact hlower i j hij

end MF
