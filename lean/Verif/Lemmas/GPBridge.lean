import Verif.Lemmas.Bridge
import Mathlib.Data.Fin.Tuple.Sort

/-! # Stationary Markov Gaussian processes: conditioning on a sorted grid -/

namespace MF
open Matrix Spec MeasureTheory ProbabilityTheory
variable {d : ℕ}

section comp
variable {ι κ : Type*} [Fintype ι] [Fintype κ] [DecidableEq ι] [DecidableEq κ]

/-- Marginals (and permutations) of a Gaussian. -/
theorem gaussLaw_comp {K : Matrix ι ι ℝ} (hK : K.PosSemidef) (m : ι → ℝ) (f : κ → ι) :
    (gaussLaw m K).map (fun x => x ∘ f) = gaussLaw (m ∘ f) (K.submatrix f f) := by
  have h := gaussLaw_map_affine hK m (0 : κ → ℝ) ((1 : Matrix ι ι ℝ).submatrix f id)
  have e : ∀ x : ι → ℝ, (1 : Matrix ι ι ℝ).submatrix f id *ᵥ x = x ∘ f := by
    intro x; funext i
    simp [mulVec, dotProduct, Matrix.one_apply]
  simp only [e, zero_add] at h
  rw [h]
  congr 1
  ext i j
  simp [Matrix.mul_apply, Matrix.one_apply]

/-- `u ↦ N(P u, C)` as a Markov kernel. -/
theorem exists_kernel (P : Matrix κ ι ℝ) (C : Matrix κ κ ℝ) :
    ∃ k : Kernel (ι → ℝ) (κ → ℝ), IsMarkovKernel k ∧ ∀ q : Measure (ι → ℝ), IsProbabilityMeasure q →
      q.compProd k = (q.prod (gaussLaw 0 C)).map fun x => (x.1, P *ᵥ x.1 + x.2) := by
  have hm : Measurable fun x : (ι → ℝ) × (κ → ℝ) => P *ᵥ x.1 + x.2 :=
    (measurable_mulVec' P measurable_fst).add measurable_snd
  have hm2 : Measurable fun x : (ι → ℝ) × (κ → ℝ) => (x.1, P *ᵥ x.1 + x.2) := measurable_fst.prodMk hm
  let k : Kernel (ι → ℝ) (κ → ℝ) :=
    ((Kernel.id ×ₖ Kernel.const _ (gaussLaw (0 : κ → ℝ) C)) : Kernel (ι → ℝ) _).map
      fun x : (ι → ℝ) × (κ → ℝ) => P *ᵥ x.1 + x.2
  have hk : IsMarkovKernel k := Kernel.IsMarkovKernel.map _ hm
  refine ⟨k, hk, fun q _ => ?_⟩
  ext s hs
  rw [Measure.compProd_apply hs, Measure.map_apply hm2 hs, Measure.prod_apply (hm2 hs)]
  refine lintegral_congr fun u => ?_
  have hsu : MeasurableSet (Prod.mk u ⁻¹' s) := measurable_prodMk_left hs
  rw [Kernel.map_apply' _ hm _ hsu, Kernel.prod_apply, Kernel.id_apply, Kernel.const_apply,
    Measure.prod_apply (hm hsu), lintegral_dirac' _ (measurable_measure_prodMk_left (hm hsu))]
  rfl

end comp

/-- A stationary linear process. -/
structure StatProc (A : ℝ → Mat d d) (P : Mat d d) : Prop where
  zero : A 0 = 1
  add : ∀ s t, 0 ≤ s → 0 ≤ t → A (s + t) = A s * A t
  psd : P.PosSemidef
  contr : ∀ δ, 0 ≤ δ → (P - A δ * P * (A δ)ᵀ).PosSemidef

namespace StatProc
variable {A : ℝ → Mat d d} {P : Mat d d} (h : StatProc A P)
include h

theorem symm : Pᵀ = P := isSymm_of_psd h.psd

theorem cov_self (t : ℝ) : stateCov A P t t = P := by
  rw [stateCov, if_pos le_rfl, sub_self, h.zero, Matrix.one_mul]

theorem cov_symm (t t' : ℝ) : (stateCov A P t t')ᵀ = stateCov A P t' t := by
  unfold stateCov
  rcases lt_trichotomy t t' with h1 | h1 | h1
  · rw [if_neg (not_le.2 h1), if_pos h1.le, transpose_transpose]
  · subst h1; rw [if_pos le_rfl, sub_self, h.zero, Matrix.one_mul, h.symm]
  · rw [if_neg (not_le.2 h1), if_pos h1.le]

omit h in
theorem cov_ge {t t' : ℝ} (ht : t' ≤ t) : stateCov A P t t' = A (t - t') * P := if_pos ht

theorem cov_le {t t' : ℝ} (ht : t ≤ t') : stateCov A P t t' = (A (t' - t) * P)ᵀ := by
  rw [← h.cov_symm, cov_ge ht]

/-- An SSM with the given transitions and noise covariances has the process's covariances. -/
theorem ssm_blocks {n : ℕ} {ts : Fin (n + 1) → ℝ} (hts : Monotone ts) {s : SSM n d}
    (hA : ∀ k : Fin n, s.A k = A (ts k.succ - ts k.castSucc)) (h0 : s.initialCovariance = P)
    (hQ : ∀ k : Fin n, s.Q k = P - A (ts k.succ - ts k.castSucc) * P * (A (ts k.succ - ts k.castSucc))ᵀ)
    (i j : Fin (n + 1)) : blk s.Kd i j = stateCov A P (ts i) (ts j) := by
  have hJ := s.Kd_isJointCov
  have hdiag : ∀ i, blk s.Kd i i = P := by
    intro i
    refine Fin.induction ?_ (fun k ih => ?_) i
    · rw [hJ.zero]; exact h0
    · have := hQ k
      unfold SSM.Q at this
      rw [hJ.succ, ih]
      change _ + s.Q k = P
      rw [hQ, hA]; abel
  have hlow : ∀ i j, j ≤ i → blk s.Kd i j = A (ts i - ts j) * P := by
    intro i
    refine Fin.induction ?_ (fun k ih => ?_) i
    · intro j hj
      obtain rfl : j = 0 := Fin.le_zero_iff.1 hj
      rw [hdiag, sub_self, h.zero, Matrix.one_mul]
    · intro j hj
      rcases hj.lt_or_eq with hlt | rfl
      · have hle : j ≤ k.castSucc := Fin.le_castSucc_iff.2 hlt
        rw [hJ.cross k j hle, hA, ih j hle, ← Matrix.mul_assoc,
          ← h.add _ _ (sub_nonneg.2 (hts Fin.castSucc_lt_succ.le)) (sub_nonneg.2 (hts hle))]
        congr 2; ring
      · rw [hdiag, sub_self, h.zero, Matrix.one_mul]
  rcases le_total j i with hji | hij
  · rw [hlow i j hji, cov_ge (hts hji)]
  · rw [h.cov_le (hts hij), ← hlow j i hij]
    have h2 : s.Kdᵀ = s.Kd := hJ.symm
    conv_lhs => rw [← h2]
    rfl

theorem psd_sorted {n : ℕ} {ts : Fin (n + 1) → ℝ} (hts : Monotone ts) :
    (Matrix.of fun i j : Fin (n + 1) × Fin d => stateCov A P (ts i.1) (ts j.1) i.2 j.2).PosSemidef := by
  obtain ⟨L0, hL0⟩ := exists_mul_transpose h.psd
  choose L hL using fun k : Fin n => exists_mul_transpose
    (h.contr (ts k.succ - ts k.castSucc) (sub_nonneg.2 (hts Fin.castSucc_lt_succ.le)))
  let s : SSM n d := ⟨0, L0, fun k => A (ts k.succ - ts k.castSucc), 0, L⟩
  have hb := h.ssm_blocks hts (s := s) (fun _ => rfl) hL0 hL
  have : s.Kd = Matrix.of fun i j : Fin (n + 1) × Fin d => stateCov A P (ts i.1) (ts j.1) i.2 j.2 := by
    ext i j
    exact congrFun (congrFun (hb i.1 j.1) i.2) j.2
  rw [← this]
  exact s.Kd_posSemidef

/-- The covariance matrix of the process at any finite collection of times is positive semidefinite. -/
theorem psd_any {T : Type} [Fintype T] [DecidableEq T] (ts : T → ℝ) :
    (Matrix.of fun i j : T × Fin d => stateCov A P (ts i.1) (ts j.1) i.2 j.2).PosSemidef := by
  classical
  rcases hc : Fintype.card T with _ | n
  · have : IsEmpty T := Fintype.card_eq_zero_iff.1 hc
    have : (Matrix.of fun i j : T × Fin d => stateCov A P (ts i.1) (ts j.1) i.2 j.2) = 0 := by
      ext i; exact (this.false i.1).elim
    rw [this]; exact PosSemidef.zero
  · let e : T ≃ Fin (n + 1) := (Fintype.equivFinOfCardEq hc)
    let σ := Tuple.sort (ts ∘ e.symm)
    have hmono : Monotone ((ts ∘ e.symm) ∘ σ) := Tuple.monotone_sort _
    have := (h.psd_sorted hmono).submatrix fun i : T × Fin d => (σ.symm (e i.1), i.2)
    convert this using 1
    ext i j
    simp

/-- The bridge identity: `Cov(x_t, x_g) = D Cov(x₋, x_g) + E Cov(x₊, x_g)` for every grid time `g`
outside the open interval. -/
theorem bridge_cov {D E : Mat d d} {tm t tp g : ℝ} (h1 : tm ≤ t) (h2 : t ≤ tp)
    (hE : E * ((P - A (tp - t) * P * (A (tp - t))ᵀ) +
      A (tp - t) * (P - A (t - tm) * P * (A (t - tm))ᵀ) * (A (tp - t))ᵀ) =
      (P - A (t - tm) * P * (A (t - tm))ᵀ) * (A (tp - t))ᵀ)
    (hD : D = A (t - tm) - E * A (tp - t) * A (t - tm)) (hg : g ≤ tm ∨ tp ≤ g) :
    stateCov A P t g = D * stateCov A P tm g + E * stateCov A P tp g := by
  rcases hg with hg | hg
  · rw [cov_ge (hg.trans h1), cov_ge hg, cov_ge (hg.trans (h1.trans h2)), hD]
    have e1 : A (t - g) = A (t - tm) * A (tm - g) := by
      rw [← h.add _ _ (sub_nonneg.2 h1) (sub_nonneg.2 hg)]; congr 1; ring
    have e2 : A (tp - g) = A (tp - t) * A (t - tm) * A (tm - g) := by
      rw [Matrix.mul_assoc, ← e1, ← h.add _ _ (sub_nonneg.2 h2) (sub_nonneg.2 (hg.trans h1))]
      congr 1; ring
    rw [e1, e2, Matrix.sub_mul]
    simp only [Matrix.mul_assoc]
    abel
  · rw [h.cov_le (h2.trans hg), h.cov_le ((h1.trans h2).trans hg), h.cov_le hg, hD]
    set A2 := A (tp - t)
    set A1 := A (t - tm)
    have e1 : A (g - t) = A (g - tp) * A2 := by
      rw [← h.add _ _ (sub_nonneg.2 hg) (sub_nonneg.2 h2)]; congr 1; ring
    have e2 : A (g - tm) = A (g - tp) * A2 * A1 := by
      rw [← e1, ← h.add _ _ (sub_nonneg.2 (h2.trans hg)) (sub_nonneg.2 h1)]; congr 1; ring
    rw [e1, e2]
    simp only [transpose_mul, h.symm]
    set B := (A (g - tp))ᵀ
    have key : P * A2ᵀ = (A1 - E * A2 * A1) * (P * (A1ᵀ * A2ᵀ)) + E * P := by
      have hE' : E * P = (P - A1 * P * A1ᵀ) * A2ᵀ + E * (A2 * P * A2ᵀ) -
          E * (A2 * (P - A1 * P * A1ᵀ) * A2ᵀ) := by
        rw [← hE, Matrix.mul_add, Matrix.mul_sub]; abel
      rw [hE']
      simp only [Matrix.sub_mul, Matrix.mul_sub, Matrix.mul_assoc]
      abel
    calc P * (A2ᵀ * B) = (P * A2ᵀ) * B := (Matrix.mul_assoc _ _ _).symm
      _ = _ := by rw [key, Matrix.add_mul]; simp only [Matrix.mul_assoc]

/-- The bridge covariance is the residual covariance. -/
theorem bridge_resid {D E T : Mat d d} {tm t tp : ℝ} (h1 : tm ≤ t) (h2 : t ≤ tp)
    (hTs : Tᵀ = T) (hD : D = A (t - tm) - E * A (tp - t) * A (t - tm))
    (hT : T = (P - A (t - tm) * P * (A (t - tm))ᵀ) -
      E * A (tp - t) * (P - A (t - tm) * P * (A (t - tm))ᵀ)) :
    stateCov A P t t - (stateCov A P t tm * Dᵀ + stateCov A P t tp * Eᵀ) = T := by
  rw [h.cov_self, cov_ge h1, h.cov_le h2, ← hTs, hT, hD]
  simp only [transpose_sub, transpose_mul, transpose_transpose, h.symm, Matrix.mul_sub, Matrix.sub_mul,
    Matrix.mul_assoc]
  abel

end StatProc

/-! ### conditioning on a sorted grid -/

section grid
variable {m : ℕ} {S : Type} [Fintype S] [DecidableEq S]

/-- The projection `x_j ↦ D_j u_{k_j} + E_j u_{k_j + 1}` as one big matrix. -/
def projMat (k : S → Fin m) (c : S → CondStats d) : Matrix (S × Fin d) (Fin (m + 1) × Fin d) ℝ :=
  Matrix.of fun j i => (if i.1 = (k j.1).castSucc then (c j.1).D j.2 i.2 else 0) +
    (if i.1 = (k j.1).succ then (c j.1).E j.2 i.2 else 0)

omit [Fintype S] [DecidableEq S] in
theorem projMat_sum (k : S → Fin m) (c : S → CondStats d) (j : S) (a : Fin d)
    (f : Fin (m + 1) × Fin d → ℝ) :
    ∑ i, projMat k c (j, a) i * f i =
      ((c j).D *ᵥ fun b => f ((k j).castSucc, b)) a + ((c j).E *ᵥ fun b => f ((k j).succ, b)) a := by
  simp only [projMat, of_apply, add_mul, Finset.sum_add_distrib, Fintype.sum_prod_type, ite_mul, zero_mul]
  congr 1
  · rw [Finset.sum_eq_single (k j).castSucc]
    · simp [mulVec, dotProduct]
    · intro b _ hb; simp [hb]
    · simp
  · rw [Finset.sum_eq_single (k j).succ]
    · simp [mulVec, dotProduct]
    · intro b _ hb; simp [hb]
    · simp

omit [Fintype S] [DecidableEq S] in
theorem projMat_mulVec (k : S → Fin m) (c : S → CondStats d) (u : Fin (m + 1) × Fin d → ℝ) (j : S) :
    (fun a => (projMat k c *ᵥ u) (j, a)) =
      (c j).D *ᵥ unstk u (k j).castSucc + (c j).E *ᵥ unstk u (k j).succ := by
  funext a
  exact projMat_sum k c j a u

/-- `c j` are the bridge statistics of the process between the grid times around `new j`. -/
structure Bridges (A : ℝ → Mat d d) (P : Mat d d) (g : Fin (m + 1) → ℝ) (new : S → ℝ) (k : S → Fin m)
    (c : S → CondStats d) : Prop where
  left : ∀ j, g (k j).castSucc ≤ new j
  right : ∀ j, new j ≤ g (k j).succ
  symm : ∀ j, (c j).Tᵀ = (c j).T
  gain : ∀ j, (c j).E * ((P - A (g (k j).succ - new j) * P * (A (g (k j).succ - new j))ᵀ) +
      A (g (k j).succ - new j) * (P - A (new j - g (k j).castSucc) * P * (A (new j - g (k j).castSucc))ᵀ) *
        (A (g (k j).succ - new j))ᵀ) =
      (P - A (new j - g (k j).castSucc) * P * (A (new j - g (k j).castSucc))ᵀ) * (A (g (k j).succ - new j))ᵀ
  D : ∀ j, (c j).D = A (new j - g (k j).castSucc) -
    (c j).E * A (g (k j).succ - new j) * A (new j - g (k j).castSucc)
  T : ∀ j, (c j).T = (P - A (new j - g (k j).castSucc) * P * (A (new j - g (k j).castSucc))ᵀ) -
      (c j).E * A (g (k j).succ - new j) *
        (P - A (new j - g (k j).castSucc) * P * (A (new j - g (k j).castSucc))ᵀ)

variable {A : ℝ → Mat d d} {P : Mat d d} {g : Fin (m + 1) → ℝ} {new : S → ℝ} {k : S → Fin m}
  {c : S → CondStats d}

/-- Covariance matrix of the process. -/
noncomputable def covMat (A : ℝ → Mat d d) (P : Mat d d) {T : Type} (ts : T → ℝ) :
    Matrix (T × Fin d) (T × Fin d) ℝ :=
  Matrix.of fun i j => stateCov A P (ts i.1) (ts j.1) i.2 j.2

/-- Cross covariance matrix. -/
noncomputable def crossMat (A : ℝ → Mat d d) (P : Mat d d) {T T' : Type} (ts : T → ℝ) (ts' : T' → ℝ) :
    Matrix (T × Fin d) (T' × Fin d) ℝ :=
  Matrix.of fun i j => stateCov A P (ts i.1) (ts' j.1) i.2 j.2

omit [Fintype S] [DecidableEq S] in
theorem Bridges.cross (h : StatProc A P) (hg : Monotone g) (hb : Bridges A P g new k c) :
    projMat k c * covMat A P g = crossMat A P new g := by
  ext ⟨j, a⟩ ⟨i, b⟩
  rw [Matrix.mul_apply, projMat_sum]
  have hi : g i ≤ g (k j).castSucc ∨ g (k j).succ ≤ g i := by
    rcases le_or_gt i (k j).castSucc with hle | hlt
    · exact Or.inl (hg hle)
    · exact Or.inr (hg (Fin.castSucc_lt_iff_succ_le.1 hlt))
  have := h.bridge_cov (hb.left j) (hb.right j) (hb.gain j) (hb.D j) hi
  have := congrFun (congrFun this a) b
  simp only [crossMat, of_apply]
  rw [this, Matrix.add_apply]
  rfl

/-- The covariance of the residuals. -/
noncomputable def residCov (A : ℝ → Mat d d) (P : Mat d d) (g : Fin (m + 1) → ℝ) (new : S → ℝ)
    (k : S → Fin m) (c : S → CondStats d) : Matrix (S × Fin d) (S × Fin d) ℝ :=
  covMat A P new - projMat k c * covMat A P g * (projMat k c)ᵀ

omit [Fintype S] [DecidableEq S] in
theorem Bridges.resid (h : StatProc A P) (hg : Monotone g) (hb : Bridges A P g new k c) (j : S) :
    (residCov A P g new k c).submatrix (fun a : Fin d => (j, a)) (fun a => (j, a)) = (c j).T := by
  ext a b
  rw [submatrix_apply, residCov, hb.cross h hg, Matrix.sub_apply, Matrix.mul_apply]
  have hs : ∑ i, crossMat A P new g (j, a) i * (projMat k c)ᵀ i (j, b) =
      ∑ i, projMat k c (j, b) i * crossMat A P new g (j, a) i :=
    Finset.sum_congr rfl fun i _ => by rw [transpose_apply, mul_comm]
  rw [hs, projMat_sum, ← h.bridge_resid (hb.left j) (hb.right j) (hb.symm j) (hb.D j) (hb.T j),
    Matrix.sub_apply, Matrix.add_apply, Matrix.mul_apply, Matrix.mul_apply]
  simp only [covMat, crossMat, of_apply, mulVec, dotProduct, transpose_apply]
  congr 2 <;> exact Finset.sum_congr rfl fun i _ => mul_comm _ _

/-- Reindexing `(T ⊕ S) × Fin d`. -/
def sumIdx {T S : Type} : (T × Fin d) ⊕ (S × Fin d) → (T ⊕ S) × Fin d :=
  Sum.elim (fun i => (.inl i.1, i.2)) fun j => (.inr j.1, j.2)

theorem atTimes_eq {T S : Type} : (atTimes : ((T ⊕ S) × Fin d → ℝ) → _) = fun x => splitV (x ∘ sumIdx) := rfl

theorem measurable_atTimes {T S : Type} : Measurable (atTimes : ((T ⊕ S) × Fin d → ℝ) → _) := by
  unfold atTimes; fun_prop

theorem measurable_comp_idx {ι κ : Type*} (f : κ → ι) : Measurable fun x : ι → ℝ => x ∘ f := by
  unfold Function.comp; fun_prop

theorem Bridges.psd (h : StatProc A P) (hg : Monotone g) (hb : Bridges A P g new k c) :
    (fromBlocks (covMat A P g) (projMat k c * covMat A P g)ᵀ (projMat k c * covMat A P g)
      (covMat A P new)).PosSemidef := by
  have := (h.psd_any (Sum.elim g new)).submatrix (sumIdx (d := d))
  convert this using 1
  rw [hb.cross h hg]
  ext i j
  cases i <;> cases j <;> simp [covMat, crossMat, sumIdx]
  rw [← h.cov_symm, transpose_apply]

/-- The joint law of the process at the grid and at the new times. -/
theorem Bridges.prior (h : StatProc A P) (hg : Monotone g) (hb : Bridges A P g new k c) :
    (gpLaw (fun _ => 0) (stateCov A P) (Sum.elim g new)).map atTimes =
      ((gpLaw (fun _ => 0) (stateCov A P) g).prod (gaussLaw 0 (residCov A P g new k c))).map
        fun x => (x.1, projMat k c *ᵥ x.1 + x.2) := by
  have hJ := hb.psd h hg
  have hd := gauss_disintegrate hJ (h.psd_any g) (0 : Fin (m + 1) × Fin d → ℝ) (0 : S × Fin d → ℝ)
  simp only [sub_zero, zero_add] at hd
  have e1 : gpLaw (fun _ => 0) (stateCov A P) g = gaussLaw 0 (covMat A P g) := rfl
  rw [e1]
  refine Eq.trans ?_ hd
  rw [atTimes_eq, ← Function.comp_def splitV, ← Measure.map_map measurable_splitV (measurable_comp_idx _)]
  congr 1
  unfold gpLaw
  rw [gaussLaw_comp (h.psd_any (Sum.elim g new))]
  congr 1
  · funext i; cases i <;> rfl
  · rw [hb.cross h hg]
    ext i j
    cases i <;> cases j <;> simp [covMat, crossMat, sumIdx]
    rw [← h.cov_symm, transpose_apply]

theorem Bridges.resid_psd (h : StatProc A P) (hg : Monotone g) (hb : Bridges A P g new k c) :
    (residCov A P g new k c).PosSemidef :=
  residual_psd (hb.psd h hg) (isSymm_of_psd (h.psd_any g))

/-- The predictive law: draw `u ~ q`, then `P u + w`. -/
noncomputable def predLaw (A : ℝ → Mat d d) (P : Mat d d) (g : Fin (m + 1) → ℝ) (new : S → ℝ)
    (k : S → Fin m) (c : S → CondStats d) (q : Measure (Fin (m + 1) × Fin d → ℝ)) :
    Measure ((Fin (m + 1) × Fin d → ℝ) × (S × Fin d → ℝ)) :=
  (q.prod (gaussLaw 0 (residCov A P g new k c))).map fun x => (x.1, projMat k c *ᵥ x.1 + x.2)

theorem measurable_predLaw (k : S → Fin m) (c : S → CondStats d) :
    Measurable fun x : (Fin (m + 1) × Fin d → ℝ) × (S × Fin d → ℝ) => (x.1, projMat k c *ᵥ x.1 + x.2) :=
  measurable_fst.prodMk ((measurable_mulVec' _ measurable_fst).add measurable_snd)

theorem gpLaw_isProb {T : Type} [Fintype T] [DecidableEq T] (mf : ℝ → Vec d) (kf : ℝ → ℝ → Mat d d)
    (ts : T → ℝ) : IsProbabilityMeasure (gpLaw mf kf ts) := by unfold gpLaw; infer_instance

theorem Bridges.predictive (h : StatProc A P) (hg : Monotone g) (hb : Bridges A P g new k c)
    (q : Measure (Fin (m + 1) × Fin d → ℝ)) [IsProbabilityMeasure q] :
    IsPredictive ((gpLaw (fun _ => 0) (stateCov A P) (Sum.elim g new)).map atTimes) q
      (predLaw A P g new k c q) := by
  obtain ⟨κ, hκ, hq⟩ := exists_kernel (projMat k c) (residCov A P g new k c)
  refine ⟨κ, hκ, ?_, (hq q inferInstance).symm⟩
  have hp := gpLaw_isProb (fun _ => (0 : Vec d)) (stateCov A P) g
  have hpr := hb.prior h hg
  have hfst : ((gpLaw (fun _ => 0) (stateCov A P) (Sum.elim g new)).map atTimes).map Prod.fst =
      gpLaw (fun _ => 0) (stateCov A P) g := by
    rw [hpr, Measure.map_map measurable_fst (measurable_predLaw k c)]
    exact measurePreserving_fst.map_eq
  rw [hfst, hq _ inferInstance, hpr]

/-- Marginal of the predictive law at one new time, for a Gaussian `q`. -/
theorem Bridges.marginal (h : StatProc A P) (hg : Monotone g) (hb : Bridges A P g new k c)
    {μ : Fin (m + 1) × Fin d → ℝ} {K : Matrix (Fin (m + 1) × Fin d) (Fin (m + 1) × Fin d) ℝ}
    (hK : K.PosSemidef) (j : S) :
    (predLaw A P g new k c (gaussLaw μ K)).map (fun x => fun a : Fin d => x.2 (j, a)) =
      gaussLaw ((c j).D *ᵥ unstk μ (k j).castSucc + (c j).E *ᵥ unstk μ (k j).succ)
        ((c j).T + fromCols (c j).D (c j).E *
          fromBlocks (blk K (k j).castSucc (k j).castSucc) (blk K (k j).castSucc (k j).succ)
            (blk K (k j).succ (k j).castSucc) (blk K (k j).succ (k j).succ) *
          (fromCols (c j).D (c j).E)ᵀ) := by
  have hR := hb.resid_psd h hg
  unfold predLaw
  rw [gaussLaw_prod hK hR, Measure.map_map _ (measurable_predLaw k c),
    Measure.map_map _ measurable_splitV]
  rotate_left
  · exact Measurable.comp (by fun_prop) (measurable_predLaw k c)
  · fun_prop
  have hf : ((fun x : (Fin (m + 1) × Fin d → ℝ) × (S × Fin d → ℝ) => fun a : Fin d => x.2 (j, a)) ∘
      fun x => (x.1, projMat k c *ᵥ x.1 + x.2)) ∘ splitV =
      fun x => (0 : Fin d → ℝ) +
        (fromCols (projMat k c) (1 : Matrix (S × Fin d) (S × Fin d) ℝ)).submatrix
          (fun a : Fin d => (j, a)) id *ᵥ x := by
    funext x a
    rw [zero_add]
    show _ = (fromCols (projMat k c) (1 : Matrix (S × Fin d) (S × Fin d) ℝ) *ᵥ x) (j, a)
    have hx : x = Sum.elim (fun i => x (.inl i)) (fun i => x (.inr i)) := by
      funext i; cases i <;> rfl
    conv_rhs => rw [hx]
    rw [fromCols_mulVec]
    simp only [Sum.elim_comp_inl, Sum.elim_comp_inr, one_mulVec]
    rfl
  rw [hf, gaussLaw_map_affine (posSemidef_blockdiag hK hR)]
  congr 1
  · rw [zero_add]
    have : (fromCols (projMat k c) (1 : Matrix (S × Fin d) (S × Fin d) ℝ)).submatrix
          (fun a : Fin d => (j, a)) id *ᵥ (Sum.elim μ 0) = fun a => (projMat k c *ᵥ μ) (j, a) := by
      funext a
      show (fromCols (projMat k c) (1 : Matrix (S × Fin d) (S × Fin d) ℝ) *ᵥ (Sum.elim μ 0)) (j, a) = _
      rw [fromCols_mulVec]
      simp
    rw [this, projMat_mulVec]
  · have hrow : (fromCols (projMat k c) (1 : Matrix (S × Fin d) (S × Fin d) ℝ)).submatrix
          (fun a : Fin d => (j, a)) id * fromBlocks K 0 0 (residCov A P g new k c) *
        ((fromCols (projMat k c) (1 : Matrix (S × Fin d) (S × Fin d) ℝ)).submatrix
          (fun a : Fin d => (j, a)) id)ᵀ =
        (projMat k c * K * (projMat k c)ᵀ + residCov A P g new k c).submatrix
          (fun a : Fin d => (j, a)) (fun a : Fin d => (j, a)) := by
      have := congrArg (fun M => Matrix.submatrix M (fun a : Fin d => (j, a)) (fun a : Fin d => (j, a)))
        (show fromCols (projMat k c) (1 : Matrix (S × Fin d) (S × Fin d) ℝ) *
          fromBlocks K 0 0 (residCov A P g new k c) *
          (fromCols (projMat k c) (1 : Matrix (S × Fin d) (S × Fin d) ℝ))ᵀ =
            projMat k c * K * (projMat k c)ᵀ + residCov A P g new k c by
          rw [fromCols_mul_fromBlocks, transpose_fromCols, fromCols_mul_fromRows]
          simp)
      exact this
    rw [hrow, Matrix.submatrix_add, Pi.add_apply, Pi.add_apply, hb.resid h hg j, add_comm]
    congr 1
    ext a b
    rw [submatrix_apply, Matrix.mul_apply]
    have hs : ∑ i, (projMat k c * K) (j, a) i * (projMat k c)ᵀ i (j, b) =
        ∑ i, projMat k c (j, b) i * (projMat k c * K) (j, a) i :=
      Finset.sum_congr rfl fun i _ => by rw [transpose_apply, mul_comm]
    rw [hs, projMat_sum]
    have hPK : ∀ i b', (projMat k c * K) (j, a) (i, b') =
        ((c j).D * blk K (k j).castSucc i) a b' + ((c j).E * blk K (k j).succ i) a b' := by
      intro i b'
      rw [Matrix.mul_apply, projMat_sum]; rfl
    simp only [hPK]
    rw [fromCols_mul_fromBlocks, transpose_fromCols, fromCols_mul_fromRows, Matrix.add_apply,
      Matrix.mul_apply, Matrix.mul_apply]
    simp only [mulVec, dotProduct, Matrix.add_apply, transpose_apply]
    congr 1 <;> exact Finset.sum_congr rfl fun i _ => mul_comm _ _

end grid

end MF
