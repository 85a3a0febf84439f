import Verif.Lemmas.GPBridge
import Verif.Spec.PiecewiseProcess

/-! # Markov Gaussian processes on `[t₀, ∞)`, not necessarily stationary: conditioning on a sorted grid -/

namespace MF
open Matrix Spec MeasureTheory ProbabilityTheory
variable {d : ℕ}

/-- A linear Gaussian Markov process on `[t₀, ∞)`. -/
structure MarkovProc (t₀ : ℝ) (Φ : ℝ → ℝ → Mat d d) (P : ℝ → Mat d d) : Prop where
  refl : ∀ t, Φ t t = 1
  trans : ∀ r s t, r ≤ s → s ≤ t → Φ t r = Φ t s * Φ s r
  psd : ∀ t, t₀ ≤ t → (P t).PosSemidef
  contr : ∀ s t, t₀ ≤ s → s ≤ t → (P t - Φ t s * P s * (Φ t s)ᵀ).PosSemidef

namespace MarkovProc
variable {t₀ : ℝ} {Φ : ℝ → ℝ → Mat d d} {P : ℝ → Mat d d} (h : MarkovProc t₀ Φ P)
include h

theorem symm {t : ℝ} (ht : t₀ ≤ t) : (P t)ᵀ = P t := isSymm_of_psd (h.psd t ht)

theorem cov_self (t : ℝ) : markovCov Φ P t t = P t := by
  rw [markovCov, if_pos le_rfl, h.refl, Matrix.one_mul]

theorem cov_symm {t t' : ℝ} (ht : t₀ ≤ t) : (markovCov Φ P t t')ᵀ = markovCov Φ P t' t := by
  unfold markovCov
  rcases lt_trichotomy t t' with h1 | h1 | h1
  · rw [if_neg (not_le.2 h1), if_pos h1.le, transpose_transpose]
  · subst h1; rw [if_pos le_rfl, h.refl, Matrix.one_mul, h.symm ht]
  · rw [if_neg (not_le.2 h1), if_pos h1.le]

omit h in
theorem cov_ge {t t' : ℝ} (ht : t' ≤ t) : markovCov Φ P t t' = Φ t t' * P t' := if_pos ht

theorem cov_le {t t' : ℝ} (h0 : t₀ ≤ t) (ht : t ≤ t') : markovCov Φ P t t' = (Φ t' t * P t)ᵀ := by
  rw [← h.cov_symm (h0.trans ht), cov_ge ht]

/-- An SSM with the given transitions and noise covariances has the process's covariances. -/
theorem ssm_blocks {n : ℕ} {ts : Fin (n + 1) → ℝ} (hts : Monotone ts) (ht0 : t₀ ≤ ts 0) {s : SSM n d}
    (hA : ∀ k : Fin n, s.A k = Φ (ts k.succ) (ts k.castSucc)) (h0 : s.initialCovariance = P (ts 0))
    (hQ : ∀ k : Fin n, s.Q k = P (ts k.succ) -
      Φ (ts k.succ) (ts k.castSucc) * P (ts k.castSucc) * (Φ (ts k.succ) (ts k.castSucc))ᵀ)
    (i j : Fin (n + 1)) : blk s.Kd i j = markovCov Φ P (ts i) (ts j) := by
  have hJ := s.Kd_isJointCov
  have hdiag : ∀ i, blk s.Kd i i = P (ts i) := by
    intro i
    refine Fin.induction ?_ (fun k ih => ?_) i
    · rw [hJ.zero]; exact h0
    · have := hQ k
      unfold SSM.Q at this
      rw [hJ.succ, ih]
      change _ + s.Q k = P (ts k.succ)
      rw [hQ, hA]; abel
  have hlow : ∀ i j, j ≤ i → blk s.Kd i j = Φ (ts i) (ts j) * P (ts j) := by
    intro i
    refine Fin.induction ?_ (fun k ih => ?_) i
    · intro j hj
      obtain rfl : j = 0 := Fin.le_zero_iff.1 hj
      rw [hdiag, h.refl, Matrix.one_mul]
    · intro j hj
      rcases hj.lt_or_eq with hlt | rfl
      · have hle : j ≤ k.castSucc := Fin.le_castSucc_iff.2 hlt
        rw [hJ.cross k j hle, hA, ih j hle, ← Matrix.mul_assoc,
          ← h.trans _ _ _ (hts hle) (hts Fin.castSucc_lt_succ.le)]
      · rw [hdiag, h.refl, Matrix.one_mul]
  rcases le_total j i with hji | hij
  · rw [hlow i j hji, cov_ge (hts hji)]
  · rw [h.cov_le (ht0.trans (hts (Fin.zero_le i))) (hts hij), ← hlow j i hij]
    have h2 : s.Kdᵀ = s.Kd := hJ.symm
    conv_lhs => rw [← h2]
    rfl

theorem psd_sorted {n : ℕ} {ts : Fin (n + 1) → ℝ} (hts : Monotone ts) (ht0 : t₀ ≤ ts 0) :
    (Matrix.of fun i j : Fin (n + 1) × Fin d => markovCov Φ P (ts i.1) (ts j.1) i.2 j.2).PosSemidef := by
  obtain ⟨L0, hL0⟩ := exists_mul_transpose (h.psd _ ht0)
  choose L hL using fun k : Fin n => exists_mul_transpose
    (h.contr (ts k.castSucc) (ts k.succ) (ht0.trans (hts (Fin.zero_le _))) (hts Fin.castSucc_lt_succ.le))
  let s : SSM n d := ⟨0, L0, fun k => Φ (ts k.succ) (ts k.castSucc), 0, L⟩
  have hb := h.ssm_blocks hts ht0 (s := s) (fun _ => rfl) hL0 hL
  have : s.Kd = Matrix.of fun i j : Fin (n + 1) × Fin d => markovCov Φ P (ts i.1) (ts j.1) i.2 j.2 := by
    ext i j
    exact congrFun (congrFun (hb i.1 j.1) i.2) j.2
  rw [← this]
  exact s.Kd_posSemidef

/-- The covariance matrix of the process at any finite collection of times is positive semidefinite. -/
theorem psd_any {T : Type} [Fintype T] [DecidableEq T] (ts : T → ℝ) (ht0 : ∀ i, t₀ ≤ ts i) :
    (Matrix.of fun i j : T × Fin d => markovCov Φ P (ts i.1) (ts j.1) i.2 j.2).PosSemidef := by
  classical
  rcases hc : Fintype.card T with _ | n
  · have : IsEmpty T := Fintype.card_eq_zero_iff.1 hc
    have : (Matrix.of fun i j : T × Fin d => markovCov Φ P (ts i.1) (ts j.1) i.2 j.2) = 0 := by
      ext i; exact (this.false i.1).elim
    rw [this]; exact PosSemidef.zero
  · let e : T ≃ Fin (n + 1) := (Fintype.equivFinOfCardEq hc)
    let σ := Tuple.sort (ts ∘ e.symm)
    have hmono : Monotone ((ts ∘ e.symm) ∘ σ) := Tuple.monotone_sort _
    have := (h.psd_sorted hmono (ht0 _)).submatrix fun i : T × Fin d => (σ.symm (e i.1), i.2)
    convert this using 1
    ext i j
    simp

/-- The bridge identity: `Cov(x_t, x_g) = D Cov(x₋, x_g) + E Cov(x₊, x_g)` for every grid time `g`
outside the open interval. -/
theorem bridge_cov {D E : Mat d d} {tm t tp g : ℝ} (h0 : t₀ ≤ tm) (h1 : tm ≤ t) (h2 : t ≤ tp)
    (hE : E * ((P tp - Φ tp t * P t * (Φ tp t)ᵀ) +
      Φ tp t * (P t - Φ t tm * P tm * (Φ t tm)ᵀ) * (Φ tp t)ᵀ) =
      (P t - Φ t tm * P tm * (Φ t tm)ᵀ) * (Φ tp t)ᵀ)
    (hD : D = Φ t tm - E * Φ tp t * Φ t tm) (hg : g ≤ tm ∨ tp ≤ g) :
    markovCov Φ P t g = D * markovCov Φ P tm g + E * markovCov Φ P tp g := by
  rcases hg with hg | hg
  · rw [cov_ge (hg.trans h1), cov_ge hg, cov_ge (hg.trans (h1.trans h2)), hD]
    have e1 : Φ t g = Φ t tm * Φ tm g := h.trans _ _ _ hg h1
    have e2 : Φ tp g = Φ tp t * Φ t tm * Φ tm g := by
      rw [Matrix.mul_assoc, ← e1, ← h.trans _ _ _ (hg.trans h1) h2]
    rw [e1, e2, Matrix.sub_mul]
    simp only [Matrix.mul_assoc]
    abel
  · rw [h.cov_le (h0.trans h1) (h2.trans hg), h.cov_le h0 ((h1.trans h2).trans hg),
      h.cov_le (h0.trans (h1.trans h2)) hg, hD]
    have e1 : Φ g t = Φ g tp * Φ tp t := h.trans _ _ _ h2 hg
    have e2 : Φ g tm = Φ g tp * Φ tp t * Φ t tm := by
      rw [← e1, ← h.trans _ _ _ h1 (h2.trans hg)]
    rw [e1, e2]
    simp only [transpose_mul, h.symm h0, h.symm (h0.trans h1), h.symm (h0.trans (h1.trans h2))]
    set A2 := Φ tp t
    set A1 := Φ t tm
    set B := (Φ g tp)ᵀ
    have key : P t * A2ᵀ = (A1 - E * A2 * A1) * (P tm * (A1ᵀ * A2ᵀ)) + E * P tp := by
      have hE' : E * P tp = (P t - A1 * P tm * A1ᵀ) * A2ᵀ + E * (A2 * P t * A2ᵀ) -
          E * (A2 * (P t - A1 * P tm * A1ᵀ) * A2ᵀ) := by
        rw [← hE, Matrix.mul_add, Matrix.mul_sub]; abel
      rw [hE']
      simp only [Matrix.sub_mul, Matrix.mul_sub, Matrix.mul_assoc]
      abel
    calc P t * (A2ᵀ * B) = (P t * A2ᵀ) * B := (Matrix.mul_assoc _ _ _).symm
      _ = _ := by rw [key, Matrix.add_mul]; simp only [Matrix.mul_assoc]

/-- The bridge covariance is the residual covariance. -/
theorem bridge_resid {D E T : Mat d d} {tm t tp : ℝ} (h0 : t₀ ≤ tm) (h1 : tm ≤ t) (h2 : t ≤ tp)
    (hTs : Tᵀ = T) (hD : D = Φ t tm - E * Φ tp t * Φ t tm)
    (hT : T = (P t - Φ t tm * P tm * (Φ t tm)ᵀ) -
      E * Φ tp t * (P t - Φ t tm * P tm * (Φ t tm)ᵀ)) :
    markovCov Φ P t t - (markovCov Φ P t tm * Dᵀ + markovCov Φ P t tp * Eᵀ) = T := by
  rw [h.cov_self, cov_ge h1, h.cov_le (h0.trans h1) h2, ← hTs, hT, hD]
  simp only [transpose_sub, transpose_mul, transpose_transpose, h.symm h0, h.symm (h0.trans h1), Matrix.mul_sub,
    Matrix.sub_mul, Matrix.mul_assoc]
  abel

end MarkovProc

section grid
variable {m : ℕ} {S : Type} [Fintype S] [DecidableEq S]

/-- `c j` are the bridge statistics of the process between the grid times around `new j`. -/
structure MBridges (Φ : ℝ → ℝ → Mat d d) (P : ℝ → Mat d d) (g : Fin (m + 1) → ℝ) (new : S → ℝ) (k : S → Fin m)
    (c : S → CondStats d) : Prop where
  left : ∀ j, g (k j).castSucc ≤ new j
  right : ∀ j, new j ≤ g (k j).succ
  symm : ∀ j, (c j).Tᵀ = (c j).T
  gain : ∀ j, (c j).E * ((P (g (k j).succ) - Φ (g (k j).succ) (new j) * P (new j) * (Φ (g (k j).succ) (new j))ᵀ) +
      Φ (g (k j).succ) (new j) * (P (new j) -
        Φ (new j) (g (k j).castSucc) * P (g (k j).castSucc) * (Φ (new j) (g (k j).castSucc))ᵀ) *
        (Φ (g (k j).succ) (new j))ᵀ) =
      (P (new j) - Φ (new j) (g (k j).castSucc) * P (g (k j).castSucc) * (Φ (new j) (g (k j).castSucc))ᵀ) *
        (Φ (g (k j).succ) (new j))ᵀ
  D : ∀ j, (c j).D = Φ (new j) (g (k j).castSucc) -
    (c j).E * Φ (g (k j).succ) (new j) * Φ (new j) (g (k j).castSucc)
  T : ∀ j, (c j).T = (P (new j) -
      Φ (new j) (g (k j).castSucc) * P (g (k j).castSucc) * (Φ (new j) (g (k j).castSucc))ᵀ) -
      (c j).E * Φ (g (k j).succ) (new j) *
        (P (new j) - Φ (new j) (g (k j).castSucc) * P (g (k j).castSucc) * (Φ (new j) (g (k j).castSucc))ᵀ)

variable {t₀ : ℝ} {Φ : ℝ → ℝ → Mat d d} {P : ℝ → Mat d d} {g : Fin (m + 1) → ℝ} {new : S → ℝ} {k : S → Fin m}
  {c : S → CondStats d}

/-- Covariance matrix of the process. -/
noncomputable def mcovMat (Φ : ℝ → ℝ → Mat d d) (P : ℝ → Mat d d) {T : Type} (ts : T → ℝ) :
    Matrix (T × Fin d) (T × Fin d) ℝ :=
  Matrix.of fun i j => markovCov Φ P (ts i.1) (ts j.1) i.2 j.2

/-- Cross covariance matrix. -/
noncomputable def mcrossMat (Φ : ℝ → ℝ → Mat d d) (P : ℝ → Mat d d) {T T' : Type} (ts : T → ℝ) (ts' : T' → ℝ) :
    Matrix (T × Fin d) (T' × Fin d) ℝ :=
  Matrix.of fun i j => markovCov Φ P (ts i.1) (ts' j.1) i.2 j.2

omit [Fintype S] [DecidableEq S] in
theorem MBridges.new_ge (hg : Monotone g) (h0 : t₀ ≤ g 0) (hb : MBridges Φ P g new k c) (j : S) : t₀ ≤ new j :=
  (h0.trans (hg (Fin.zero_le _))).trans (hb.left j)

omit [Fintype S] [DecidableEq S] in
theorem MBridges.all_ge (hg : Monotone g) (h0 : t₀ ≤ g 0) (hb : MBridges Φ P g new k c) :
    ∀ i, t₀ ≤ Sum.elim g new i
  | .inl i => h0.trans (hg (Fin.zero_le i))
  | .inr j => hb.new_ge hg h0 j

omit [Fintype S] [DecidableEq S] in
theorem MBridges.cross (h : MarkovProc t₀ Φ P) (hg : Monotone g) (h0 : t₀ ≤ g 0) (hb : MBridges Φ P g new k c) :
    projMat k c * mcovMat Φ P g = mcrossMat Φ P new g := by
  ext ⟨j, a⟩ ⟨i, b⟩
  rw [Matrix.mul_apply, projMat_sum]
  have hi : g i ≤ g (k j).castSucc ∨ g (k j).succ ≤ g i := by
    rcases le_or_gt i (k j).castSucc with hle | hlt
    · exact Or.inl (hg hle)
    · exact Or.inr (hg (Fin.castSucc_lt_iff_succ_le.1 hlt))
  have := h.bridge_cov (h0.trans (hg (Fin.zero_le _))) (hb.left j) (hb.right j) (hb.gain j) (hb.D j) hi
  have := congrFun (congrFun this a) b
  simp only [mcrossMat, of_apply]
  rw [this, Matrix.add_apply]
  rfl

/-- The covariance of the residuals. -/
noncomputable def mresidCov (Φ : ℝ → ℝ → Mat d d) (P : ℝ → Mat d d) (g : Fin (m + 1) → ℝ) (new : S → ℝ)
    (k : S → Fin m) (c : S → CondStats d) : Matrix (S × Fin d) (S × Fin d) ℝ :=
  mcovMat Φ P new - projMat k c * mcovMat Φ P g * (projMat k c)ᵀ

omit [Fintype S] [DecidableEq S] in
theorem MBridges.resid (h : MarkovProc t₀ Φ P) (hg : Monotone g) (h0 : t₀ ≤ g 0) (hb : MBridges Φ P g new k c) (j : S) :
    (mresidCov Φ P g new k c).submatrix (fun a : Fin d => (j, a)) (fun a => (j, a)) = (c j).T := by
  ext a b
  rw [submatrix_apply, mresidCov, hb.cross h hg h0, Matrix.sub_apply, Matrix.mul_apply]
  have hs : ∑ i, mcrossMat Φ P new g (j, a) i * (projMat k c)ᵀ i (j, b) =
      ∑ i, projMat k c (j, b) i * mcrossMat Φ P new g (j, a) i :=
    Finset.sum_congr rfl fun i _ => by rw [transpose_apply, mul_comm]
  rw [hs, projMat_sum, ← h.bridge_resid (h0.trans (hg (Fin.zero_le _))) (hb.left j) (hb.right j) (hb.symm j) (hb.D j) (hb.T j),
    Matrix.sub_apply, Matrix.add_apply, Matrix.mul_apply, Matrix.mul_apply]
  simp only [mcovMat, mcrossMat, of_apply, mulVec, dotProduct, transpose_apply]
  congr 2 <;> exact Finset.sum_congr rfl fun i _ => mul_comm _ _

theorem MBridges.psd (h : MarkovProc t₀ Φ P) (hg : Monotone g) (h0 : t₀ ≤ g 0) (hb : MBridges Φ P g new k c) :
    (fromBlocks (mcovMat Φ P g) (projMat k c * mcovMat Φ P g)ᵀ (projMat k c * mcovMat Φ P g)
      (mcovMat Φ P new)).PosSemidef := by
  have := (h.psd_any (Sum.elim g new) (hb.all_ge hg h0)).submatrix (sumIdx (d := d))
  convert this using 1
  rw [hb.cross h hg h0]
  ext i j
  cases i <;> cases j <;> simp [mcovMat, mcrossMat, sumIdx]
  rw [← h.cov_symm (hb.new_ge hg h0 _), transpose_apply]

/-- The joint law of the process at the grid and at the new times. -/
theorem MBridges.prior (h : MarkovProc t₀ Φ P) (hg : Monotone g) (h0 : t₀ ≤ g 0) (hb : MBridges Φ P g new k c) :
    (gpLaw (fun _ => 0) (markovCov Φ P) (Sum.elim g new)).map atTimes =
      ((gpLaw (fun _ => 0) (markovCov Φ P) g).prod (gaussLaw 0 (mresidCov Φ P g new k c))).map
        fun x => (x.1, projMat k c *ᵥ x.1 + x.2) := by
  have hJ := hb.psd h hg h0
  have hd := gauss_disintegrate hJ (h.psd_any g fun i => h0.trans (hg (Fin.zero_le i))) (0 : Fin (m + 1) × Fin d → ℝ) (0 : S × Fin d → ℝ)
  simp only [sub_zero, zero_add] at hd
  have e1 : gpLaw (fun _ => 0) (markovCov Φ P) g = gaussLaw 0 (mcovMat Φ P g) := rfl
  rw [e1]
  refine Eq.trans ?_ hd
  rw [atTimes_eq, ← Function.comp_def splitV, ← Measure.map_map measurable_splitV (measurable_comp_idx _)]
  congr 1
  unfold gpLaw
  rw [gaussLaw_comp (h.psd_any (Sum.elim g new) (hb.all_ge hg h0))]
  congr 1
  · funext i; cases i <;> rfl
  · rw [hb.cross h hg h0]
    ext i j
    cases i <;> cases j <;> simp [mcovMat, mcrossMat, sumIdx]
    rw [← h.cov_symm (hb.new_ge hg h0 _), transpose_apply]

theorem MBridges.resid_psd (h : MarkovProc t₀ Φ P) (hg : Monotone g) (h0 : t₀ ≤ g 0) (hb : MBridges Φ P g new k c) :
    (mresidCov Φ P g new k c).PosSemidef :=
  residual_psd (hb.psd h hg h0) (isSymm_of_psd (h.psd_any g fun i => h0.trans (hg (Fin.zero_le i))))

/-- The predictive law: draw `u ~ q`, then `P u + w`. -/
noncomputable def mpredLaw (Φ : ℝ → ℝ → Mat d d) (P : ℝ → Mat d d) (g : Fin (m + 1) → ℝ) (new : S → ℝ)
    (k : S → Fin m) (c : S → CondStats d) (q : Measure (Fin (m + 1) × Fin d → ℝ)) :
    Measure ((Fin (m + 1) × Fin d → ℝ) × (S × Fin d → ℝ)) :=
  (q.prod (gaussLaw 0 (mresidCov Φ P g new k c))).map fun x => (x.1, projMat k c *ᵥ x.1 + x.2)

theorem MBridges.predictive (h : MarkovProc t₀ Φ P) (hg : Monotone g) (h0 : t₀ ≤ g 0) (hb : MBridges Φ P g new k c)
    (q : Measure (Fin (m + 1) × Fin d → ℝ)) [IsProbabilityMeasure q] :
    IsPredictive ((gpLaw (fun _ => 0) (markovCov Φ P) (Sum.elim g new)).map atTimes) q
      (mpredLaw Φ P g new k c q) := by
  obtain ⟨κ, hκ, hq⟩ := exists_kernel (projMat k c) (mresidCov Φ P g new k c)
  refine ⟨κ, hκ, ?_, (hq q inferInstance).symm⟩
  have hp := gpLaw_isProb (fun _ => (0 : Vec d)) (markovCov Φ P) g
  have hpr := hb.prior h hg h0
  have hfst : ((gpLaw (fun _ => 0) (markovCov Φ P) (Sum.elim g new)).map atTimes).map Prod.fst =
      gpLaw (fun _ => 0) (markovCov Φ P) g := by
    rw [hpr, Measure.map_map measurable_fst (measurable_predLaw k c)]
    exact measurePreserving_fst.map_eq
  rw [hfst, hq _ inferInstance, hpr]

/-- Marginal of the predictive law at one new time, for a Gaussian `q`. -/
theorem MBridges.marginal (h : MarkovProc t₀ Φ P) (hg : Monotone g) (h0 : t₀ ≤ g 0) (hb : MBridges Φ P g new k c)
    {μ : Fin (m + 1) × Fin d → ℝ} {K : Matrix (Fin (m + 1) × Fin d) (Fin (m + 1) × Fin d) ℝ}
    (hK : K.PosSemidef) (j : S) :
    (mpredLaw Φ P g new k c (gaussLaw μ K)).map (fun x => fun a : Fin d => x.2 (j, a)) =
      gaussLaw ((c j).D *ᵥ unstk μ (k j).castSucc + (c j).E *ᵥ unstk μ (k j).succ)
        ((c j).T + fromCols (c j).D (c j).E *
          fromBlocks (blk K (k j).castSucc (k j).castSucc) (blk K (k j).castSucc (k j).succ)
            (blk K (k j).succ (k j).castSucc) (blk K (k j).succ (k j).succ) *
          (fromCols (c j).D (c j).E)ᵀ) := by
  have hR := hb.resid_psd h hg h0
  unfold mpredLaw
  rw [gaussLaw_prod hK hR, Measure.map_map _ (measurable_predLaw k c),
    Measure.map_map _ measurable_splitV]
  rotate_left
  · exact Measurable.comp (by fun_prop) (measurable_predLaw k c)
  · fun_prop
  have hf : ((fun x : (Fin (m + 1) × Fin d → ℝ) × (S × Fin d → ℝ) => fun a : Fin d => x.2 (j, a)) ∘
      fun x => (x.1, projMat k c *ᵥ x.1 + x.2)) ∘ splitV =
      fun x => (0 : Fin d → ℝ) +
        (fromCols (projMat k c) (1 : Matrix (S × Fin d) (S × Fin d) ℝ)).submatrix
          (fun a : Fin d => (j, a)) id *ᵥ x := by
    funext x a
    rw [zero_add]
    show _ = (fromCols (projMat k c) (1 : Matrix (S × Fin d) (S × Fin d) ℝ) *ᵥ x) (j, a)
    have hx : x = Sum.elim (fun i => x (.inl i)) (fun i => x (.inr i)) := by
      funext i; cases i <;> rfl
    conv_rhs => rw [hx]
    rw [fromCols_mulVec]
    simp only [Sum.elim_comp_inl, Sum.elim_comp_inr, one_mulVec]
    rfl
  rw [hf, gaussLaw_map_affine (posSemidef_blockdiag hK hR)]
  congr 1
  · rw [zero_add]
    have : (fromCols (projMat k c) (1 : Matrix (S × Fin d) (S × Fin d) ℝ)).submatrix
          (fun a : Fin d => (j, a)) id *ᵥ (Sum.elim μ 0) = fun a => (projMat k c *ᵥ μ) (j, a) := by
      funext a
      show (fromCols (projMat k c) (1 : Matrix (S × Fin d) (S × Fin d) ℝ) *ᵥ (Sum.elim μ 0)) (j, a) = _
      rw [fromCols_mulVec]
      simp
    rw [this, projMat_mulVec]
  · have hrow : (fromCols (projMat k c) (1 : Matrix (S × Fin d) (S × Fin d) ℝ)).submatrix
          (fun a : Fin d => (j, a)) id * fromBlocks K 0 0 (mresidCov Φ P g new k c) *
        ((fromCols (projMat k c) (1 : Matrix (S × Fin d) (S × Fin d) ℝ)).submatrix
          (fun a : Fin d => (j, a)) id)ᵀ =
        (projMat k c * K * (projMat k c)ᵀ + mresidCov Φ P g new k c).submatrix
          (fun a : Fin d => (j, a)) (fun a : Fin d => (j, a)) := by
      have := congrArg (fun M => Matrix.submatrix M (fun a : Fin d => (j, a)) (fun a : Fin d => (j, a)))
        (show fromCols (projMat k c) (1 : Matrix (S × Fin d) (S × Fin d) ℝ) *
          fromBlocks K 0 0 (mresidCov Φ P g new k c) *
          (fromCols (projMat k c) (1 : Matrix (S × Fin d) (S × Fin d) ℝ))ᵀ =
            projMat k c * K * (projMat k c)ᵀ + mresidCov Φ P g new k c by
          rw [fromCols_mul_fromBlocks, transpose_fromCols, fromCols_mul_fromRows]
          simp)
      exact this
    rw [hrow, Matrix.submatrix_add, Pi.add_apply, Pi.add_apply, hb.resid h hg h0 j, add_comm]
    congr 1
    ext a b
    rw [submatrix_apply, Matrix.mul_apply]
    have hs : ∑ i, (projMat k c * K) (j, a) i * (projMat k c)ᵀ i (j, b) =
        ∑ i, projMat k c (j, b) i * (projMat k c * K) (j, a) i :=
      Finset.sum_congr rfl fun i _ => by rw [transpose_apply, mul_comm]
    rw [hs, projMat_sum]
    have hPK : ∀ i b', (projMat k c * K) (j, a) (i, b') =
        ((c j).D * blk K (k j).castSucc i) a b' + ((c j).E * blk K (k j).succ i) a b' := by
      intro i b'
      rw [Matrix.mul_apply, projMat_sum]; rfl
    simp only [hPK]
    rw [fromCols_mul_fromBlocks, transpose_fromCols, fromCols_mul_fromRows, Matrix.add_apply,
      Matrix.mul_apply, Matrix.mul_apply]
    simp only [mulVec, dotProduct, Matrix.add_apply, transpose_apply]
    congr 1 <;> exact Finset.sum_congr rfl fun i _ => mul_comm _ _

end grid

end MF
