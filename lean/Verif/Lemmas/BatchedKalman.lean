import Verif.Lemmas.BatchedEinsum

/-!
# Kalman filters and emission models on tensors of any batch shape
-/

namespace MF
open Matrix Spec Tensor

variable {n d m : ℕ} {bs : List ℕ}

/-! ### `state_space_model_from_covariances` -/

theorem onlyInvalid_bind {α β : Type} {X : Except Err α} {g : α → Except Err β} (h : OnlyInvalid X) (h' : ∀ a, OnlyInvalid (g a)) :
    OnlyInvalid (X >>= g) := by
  intro e he
  cases X with
  | ok a => exact h' a e he
  | error e' => exact (Except.error.inj he) ▸ h e' rfl

theorem onlyInvalid_ok {α : Type} (a : α) : OnlyInvalid (Except.ok a : Except Err α) := fun e he => by cases he

theorem onlyInvalid_choleskyOrZero {d : ℕ} (M : Mat d d) : OnlyInvalid (choleskyOrZero M) :=
  onlyInvalid_bind (onlyInvalid_cholesky _) fun c => onlyInvalid_ok _

open Classical in
theorem cholOrZero_mat {u x} {A : List ℕ → Mat d d} (hx : HoldsMat u x A) (h0 : x.shape.prod ≠ 0) :
    Elementwise u (HoldsMat u) (tensorCholeskyOrZero x) fun b => choleskyOrZero (A b) := by
  have hd : x.dim 0 = d := by simp [dim, hx.1]
  have hs : x.shape.drop 2 = u := by simp [hx.1]
  have hm : ∀ b, InRange b u → ((x.matAt d d b = 0) ↔ ∀ i j, A b i j = 0) := fun b hb => by
    rw [hx.matAt hb]
    exact ⟨fun h i j => by rw [h]; rfl, fun h => by ext i j; exact h i j⟩
  have hf : HoldsMat u (ofMats (r := d) (c := d) u fun b => if x.matAt d d b = 0 then 1 else 0) fun b =>
      if ∀ i j, A b i j = 0 then (1 : Mat d d) else 0 := (holds_ofMats _ _).congr fun b hb => by simp only [hm b hb]
  obtain ⟨z, hz, hzh⟩ := plus_mat hx hf.b2
  have e : tensorCholeskyOrZero x = choleskyT z >>= fun c =>
      .ok (ofMats (r := d) (c := d) u fun b => if x.matAt d d b = 0 then 0 else c.matAt d d b) := by
    unfold tensorCholeskyOrZero
    rw [if_neg h0, hs]
    subst hd
    show (x.plus (ofMats u fun b => if x.matAt _ _ b = 0 then (1 : Mat _ _) else 0) >>= _) = _
    rw [hz]
    rfl
  rw [e]
  refine ((cholesky_mat hzh).bind (R' := HoldsMat u) (g := fun b c => Except.ok (if ∀ i j, A b i j = 0 then 0 else c)) fun c C hC => ?_).congr
    fun b _ => ?_
  · refine .pure ((holds_ofMats _ _).congr fun b hb => ?_)
    simp only [hm b hb, hC.matAt hb]
  · rfl

theorem choleskyOrZeros_eq {k : ℕ} (A : Fin k → Mat d d) : choleskyOrZeros A = seqFin fun t => choleskyOrZero (A t) := by
  induction k with
  | zero => rfl
  | succ k ih =>
    simp only [choleskyOrZeros, seqFin, ih]
    rfl

theorem cholOrZero_mats {k u x} {A : List ℕ → Fin k → Mat d d} (hx : HoldsMats u x A) (h0 : x.shape.prod ≠ 0) :
    Elementwise u (HoldsMats u) (tensorCholeskyOrZero x) fun b => choleskyOrZeros (A b) := by
  have h := (cholOrZero_mat (holdsMats_iff.1 hx) h0).seq (Y := fun b t => choleskyOrZero (A b t)) (fun b _ t => by rw [lift_fin])
    (fun b t => onlyInvalid_choleskyOrZero _) fun x y y' h e => h.congr e
  rcases h with ⟨x, y, hx, hr, hy⟩ | ⟨e, hx, b, hb, hy⟩
  · exact .inl ⟨x, y, hx, holdsMats_iff.2 hr, fun b hb => (choleskyOrZeros_eq _).trans (hy b hb)⟩
  · exact .inr ⟨e, hx, b, hb, (choleskyOrZeros_eq _).trans hy⟩

theorem prod_pos_of {bs : List ℕ} (hbs : ∀ k ∈ bs, 0 < k) : bs.prod ≠ 0 := by
  intro h
  have := List.prod_eq_zero_iff.1 h
  exact absurd (hbs 0 this) (lt_irrefl 0)

/-- `state_space_model_from_covariances` per batch element. -/
theorem fromCovariances_holds (hbs : ∀ k ∈ bs, 0 < k) {m0 P0 A b Q : Tensor} {m0' : List ℕ → Vec d} {P0' : List ℕ → Mat d d}
    {A' : List ℕ → Fin n → Mat d d} {b' : List ℕ → Fin n → Vec d} {Q' : List ℕ → Fin n → Mat d d} (hm : HoldsVec bs m0 m0')
    (hP : HoldsMat bs P0 P0') (hA : HoldsMats bs A A') (hb : HoldsVecs bs b b') (hQ : HoldsMats bs Q Q') :
    Elementwise bs (HoldsSSM bs) (tensorSSMFromCovariances m0 P0 A b Q) fun i => ssmFromCovariances (m0' i) (P0' i) (A' i) (b' i) (Q' i) := by
  have hprod := prod_pos_of hbs
  have hPs : P0.shape.prod = d * (d * bs.prod) := by rw [hP.1]; simp
  have hQs : Q.shape.prod = d * (d * (n * bs.prod)) := by rw [hQ.1]; simp
  by_cases h0 : n = 0 ∨ d = 0
  · have e : tensorSSMFromCovariances m0 P0 A b Q = .error .invalidArgument ∨
        ∃ c, tensorCholeskyOrZero P0 = .ok c ∧ n = 0 ∨ ∃ i, InRange i bs ∧ n = 0 := by
      rcases h0 with rfl | rfl
      · obtain ⟨i, hi⟩ := inRange_exists hbs
        exact .inr ⟨P0, .inr ⟨i, hi, rfl⟩⟩
      · left
        unfold tensorSSMFromCovariances tensorCholeskyOrZero
        rw [if_pos (by rw [hPs]; simp)]
        rfl
    have hy : ∀ i, ssmFromCovariances (m0' i) (P0' i) (A' i) (b' i) (Q' i) = .error .invalidArgument := fun i => by
      unfold ssmFromCovariances
      rw [if_pos h0]
      rfl
    have hX : tensorSSMFromCovariances m0 P0 A b Q = .error .invalidArgument := by
      have hQe : n = 0 → tensorCholeskyOrZero Q = .error .invalidArgument := fun hn => by
        unfold tensorCholeskyOrZero
        rw [if_pos (by rw [hQs, hn]; simp)]
        rfl
      by_cases hd : d = 0
      · unfold tensorSSMFromCovariances tensorCholeskyOrZero
        rw [if_pos (by rw [hPs, hd]; simp)]
        rfl
      · have hn : n = 0 := h0.resolve_right hd
        unfold tensorSSMFromCovariances
        rw [hQe hn]
        rcases cholOrZero_mat hP (by rw [hPs]; simp [hd, hprod]) with ⟨c, C, hc, -, -⟩ | ⟨e', hc, i, hi, hci⟩
        · rw [hc]
          rfl
        · rw [hc, onlyInvalid_choleskyOrZero _ _ hci]
          rfl
    rw [hX]
    exact .error hbs fun i _ => hy i
  · push Not at h0
    have hPn : P0.shape.prod ≠ 0 := by rw [hPs]; simp [h0.2, hprod]
    have hQn : Q.shape.prod ≠ 0 := by rw [hQs]; simp [h0.1, h0.2, hprod]
    have e : ∀ i, ssmFromCovariances (m0' i) (P0' i) (A' i) (b' i) (Q' i) = choleskyOrZero (P0' i) >>= fun c0 =>
        choleskyOrZeros (Q' i) >>= fun cq => .ok ⟨m0' i, c0, A' i, b' i, cq⟩ := fun i => by
      unfold ssmFromCovariances
      rw [if_neg (by tauto)]
      rfl
    simp only [e]
    unfold tensorSSMFromCovariances
    refine (cholOrZero_mat hP hPn).bind (R' := HoldsSSM bs)
      (g := fun i c0 => choleskyOrZeros (Q' i) >>= fun cq => Except.ok (⟨m0' i, c0, A' i, b' i, cq⟩ : SSM n d))
      fun c C hC => ?_
    refine (cholOrZero_mats hQ hQn).bind (R' := HoldsSSM bs) (g := fun i cq => Except.ok (⟨m0' i, C i, A' i, b' i, cq⟩ : SSM n d)) fun q Qf hq => ?_
    have hS : HoldsSSM bs ⟨m0, c, A, b, q⟩ fun i => (⟨m0' i, C i, A' i, b' i, Qf i⟩ : SSM n d) := ⟨hm, hC, hA, hb, hq⟩
    rw [ssm_init hS]
    exact .pure hS

/-! ### Emission models -/

/-- `project_state_to_f` per batch element; the state may have further (sample) axes. -/
theorem projectState_holds {k : ℕ} {H x : Tensor} {H' : List ℕ → Fin k → Mat m d} {f : List ℕ → Fin k → Vec d} (ss : List ℕ)
    (hH : HoldsMats bs H H') (hx : HoldsVecs (bs ++ ss) x f) :
    ∃ z, tensorProjectState H x = .ok z ∧ HoldsVecs (bs ++ ss) z fun b => projectStateToF (H' (b.take bs.length)) (f b) := by
  have hc : Shapes.projectStateCheck H.tfShape x.tfShape = .ok () := by
    rw [tfShape3 hH.1, tfShape2 hx.1]
    exact (C42_project_state ..).2 ⟨_, rfl⟩
  have hcol := expand_col (holdsVecs_iff.1 hx)
  obtain ⟨a, ha, hah⟩ := matmul_one (hH.extend ss) hcol.b2 (.inr hcol.1)
  refine ⟨index 0 0 a, by simp only [tensorProjectState, hc, ha, Bind.bind, Except.bind]; rfl, ?_⟩
  refine holdsVecs_iff.2 ((index_col hah 0).congr (forall_inRange_cons.2 fun b _ t => ?_))
  simp only [lift_fin, projectStateToF]
  funext i
  simp only [Matrix.col_apply, Matrix.mul_apply, Matrix.of_apply, Matrix.replicateCol_apply]

theorem assertLast3 {x : Tensor} {a b c : ℕ} {s : List ℕ} (h : x.shape = c :: b :: a :: s) :
    Shapes.takeLast 3 x.tfShape = [a, b, c] := by
  rw [tfShape3 h]
  exact Shapes.takeLast_append rfl

/-- `project_state_covariance_to_f(full_output_cov=True)` per batch element. -/
theorem projectCovFull_holds {k : ℕ} {H x : Tensor} {H' : List ℕ → Fin k → Mat m d} {f : List ℕ → Fin k → Mat d d} (ss : List ℕ)
    (hH : HoldsMats bs H H') (hx : HoldsMats (bs ++ ss) x f) :
    ∃ z, tensorProjectCovariance H x true = .ok z ∧
      HoldsMats (bs ++ ss) z fun b => projectStateCovarianceToFFull (H' (b.take bs.length)) (f b) := by
  have hc : Shapes.assertEqual (Shapes.takeLast 3 x.tfShape) [H.dim 2, H.dim 0, H.dim 0] = .ok () := by
    rw [assertLast3 hx.1]
    simp only [dim, hH.1]
    exact assertEqual_self _
  obtain ⟨z, hz, hzh⟩ := einsum_full (hH.extend ss) (holdsMats_iff.1 hx)
  refine ⟨z, by simp only [tensorProjectCovariance, hc, Bind.bind, Except.bind, if_true]; exact hz, ?_⟩
  exact holdsMats_iff.2 (hzh.congr (forall_inRange_cons.2 fun b _ t => by simp only [lift_fin]; rfl))

/-- `project_state_covariance_to_f(full_output_cov=False)` per batch element. -/
theorem projectCovDiag_holds {k : ℕ} {H x : Tensor} {H' : List ℕ → Fin k → Mat m d} {f : List ℕ → Fin k → Mat d d} (ss : List ℕ)
    (hH : HoldsMats bs H H') (hx : HoldsMats (bs ++ ss) x f) :
    ∃ z, tensorProjectCovariance H x false = .ok z ∧
      HoldsVecs (bs ++ ss) z fun b => projectStateCovarianceToFDiag (H' (b.take bs.length)) (f b) := by
  have hc : Shapes.assertEqual (Shapes.takeLast 3 x.tfShape) [H.dim 2, H.dim 0, H.dim 0] = .ok () := by
    rw [assertLast3 hx.1]
    simp only [dim, hH.1]
    exact assertEqual_self _
  obtain ⟨y, hy, hyh⟩ := einsum_mul (hH.extend ss) (holdsMats_iff.1 hx)
  obtain ⟨z, hz, hzh⟩ := einsum_dot (hH.extend ss) hyh
  refine ⟨z, by simp only [tensorProjectCovariance, hc, hy, Bind.bind, Except.bind, Bool.false_eq_true, if_false]; exact hz, ?_⟩
  refine holdsVecs_iff.2 (hzh.congr (forall_inRange_cons.2 fun b _ t => ?_))
  simp only [lift_fin]
  rfl

/-! ### Kalman filters -/

/-- A batched Kalman filter holds the filter `f b` at batch index `b`; the observation precision may be shared. -/
structure HoldsKF (bs : List ℕ) (F : TKF) (f : List ℕ → KF n d m) : Prop where
  prior : HoldsSSM bs F.prior fun b => (f b).prior
  H : HoldsMats bs F.H fun b => (f b).H
  rInv : B2 ((n + 1) :: bs) F.rInv (lift fun b => (f b).rInv)
  obs : HoldsVecs bs F.obs fun b => (f b).obs
  logDetR : Elementwise bs (B0 bs) F.logDetR fun b => (f b).logDetR

variable {F : TKF} {f : List ℕ → KF n d m}

theorem kInvPost_holds (hbs : ∀ k ∈ bs, 0 < k) (h : HoldsKF bs F f) :
    Elementwise bs (HoldsBTD bs) F.kInvPost fun b => (f b).kInvPost := by
  obtain ⟨w, hw, hwh⟩ := einsum_hRh (holdsMats_iff.1 h.H) h.rInv (holdsMats_iff.1 h.H)
  have hwm : HoldsMats bs w fun b t => ((f b).H t)ᵀ * (f b).rInv t * (f b).H t :=
    holdsMats_iff.2 (hwh.congr (forall_inRange_cons.2 fun b _ t => by simp only [lift_fin]))
  unfold TKF.kInvPost
  rw [hw]
  have hl : Elementwise bs (HoldsBTD bs) (TBTD.init true w none) fun b =>
      BTD.init true (n := n) (fun t => ((f b).H t)ᵀ * (f b).rInv t * (f b).H t) none :=
    init_holds hbs true hwm (.inl ⟨rfl, fun _ _ => rfl⟩)
  rcases hl with ⟨L, l, hL, hLh, hl⟩ | ⟨e, hL, b, hb, hl⟩
  · show Elementwise bs (HoldsBTD bs) (TBTD.init true w none >>= _) _
    rw [hL]
    refine ((precision_holds hbs h.prior).bind (g := fun b p => p.add (l b)) fun P p hP => add_holds hbs hP hLh).congr fun b hb => ?_
    have := hl b hb
    beta_reduce at this
    unfold KF.kInvPost
    simp only [this]
    rfl
  · simp [BTD.init] at hl

theorem backProject_holds (h : HoldsKF bs F f) {y : Tensor} {v : List ℕ → Fin (n + 1) → Vec m} (hy : HoldsVecs bs y v) :
    ∃ z, F.backProject y = .ok z ∧ HoldsVecs bs z fun b => (f b).backProject (v b) := by
  obtain ⟨p, hp, hph⟩ := einsum_back (holdsMats_iff.1 h.H) h.rInv
  obtain ⟨z, hz, hzh⟩ := einsum_vec hph (holdsVecs_iff.1 hy)
  refine ⟨z, by simp only [TKF.backProject, hp, hz, Bind.bind, Except.bind], ?_⟩
  exact holdsVecs_iff.2 (hzh.congr (forall_inRange_cons.2 fun b _ t => by simp only [lift_fin]; rfl))

theorem exBind_ok {α β : Type} {X : Except Err α} {g : α → Except Err β} {y : β} (h : X >>= g = .ok y) : ∃ a, X = .ok a ∧ g a = .ok y := by
  cases X with
  | ok a => exact ⟨a, rfl, h⟩
  | error e => cases h

theorem udl_sub {M : SymBTD n d} {p : LowerBTD n d × LowerBTD n d} (h : M.upperDiagonalLower = .ok p) : ∃ q, p.1.sub = some q := by
  unfold BTD.upperDiagonalLower at h
  cases hs : M.sub with
  | none => simp only [hs] at h; cases h
  | some sub =>
    simp only [hs] at h
    obtain ⟨cs, -, h⟩ := exBind_ok h
    obtain ⟨U, hU, h⟩ := exBind_ok h
    obtain ⟨D, -, h⟩ := exBind_ok h
    rw [← Except.ok.inj h]
    unfold BTD.init at hU
    split at hU
    · cases hU
    · rw [← Except.ok.inj hU]
      exact ⟨_, rfl⟩

/-- `posterior_state_space_model` per batch element. -/
theorem posteriorSSM_holds (hbs : ∀ k ∈ bs, 0 < k) (h : HoldsKF bs F f) :
    Elementwise bs (HoldsSSM bs) F.posteriorSSM fun b => (f b).posteriorSSM := by
  obtain ⟨hb1, hb2, hb3⟩ := ssm_dims h.prior
  rcases kInvPost_holds hbs h with ⟨P, p, hP, hPh, hp⟩ | ⟨e, hP, b, hb, hp⟩
  swap
  · refine .inr ⟨e, ?_, b, hb, ?_⟩
    · simp only [TKF.posteriorSSM, hP, Bind.bind, Except.bind]
    · beta_reduce at hp
      simp only [KF.posteriorSSM, hp, Bind.bind, Except.bind]
  beta_reduce at hp
  rcases upperDiagonalLower_holds hbs hPh with ⟨U, u, hU, hUh, hu⟩ | ⟨e, hU, b, hb, hu⟩
  swap
  · refine .inr ⟨e, ?_, b, hb, ?_⟩
    · simp only [TKF.posteriorSSM, hP, hU, Bind.bind, Except.bind]
    · beta_reduce at hu
      simp only [KF.posteriorSSM, hp b hb, hu, Bind.bind, Except.bind]
  beta_reduce at hu
  obtain ⟨b₀, hb₀⟩ := inRange_exists hbs
  obtain ⟨q, hq⟩ := udl_sub (hu b₀ hb₀)
  obtain ⟨Q, q', hQ, hQh, hq'⟩ : ∃ (t : Tensor) (Q : List ℕ → Fin n → Mat d d), U.1.sub = some t ∧ HoldsMats bs t Q ∧
      ∀ b, InRange b bs → (u b).1.sub = some (Q b) := by
    rcases hUh.1.2 with ⟨-, h2⟩ | h2
    · rw [h2 b₀ hb₀] at hq
      cases hq
    · exact h2
  obtain ⟨o, ho, hoh⟩ := backProject_holds h h.obs
  rcases precision_holds hbs h.prior with ⟨K, k, hK, hKh, hk⟩ | ⟨e, hK, b, hb, hk⟩
  swap
  · refine .inr ⟨e, ?_, b, hb, ?_⟩
    · simp only [TKF.posteriorSSM, hP, hU, hQ, ho, hK, Bind.bind, Except.bind]
    · beta_reduce at hk
      simp only [KF.posteriorSSM, hp b hb, hu b hb, hq' b hb, hk, Bind.bind, Except.bind]
  beta_reduce at hk
  rcases marginalMeans_holds hbs h.prior with ⟨M, μ, hM, hMh, hμ⟩ | ⟨e, hM, b, hb, hμ⟩
  swap
  · refine .inr ⟨e, ?_, b, hb, ?_⟩
    · simp only [TKF.posteriorSSM, hP, hU, hQ, ho, hK, hM, Bind.bind, Except.bind]
    · beta_reduce at hμ
      simp only [KF.posteriorSSM, hp b hb, hu b hb, hq' b hb, hk b hb, hμ, Bind.bind, Except.bind]
  beta_reduce at hμ
  obtain ⟨km, hkm, hkmh⟩ := denseMult_holds' hKh hMh false
  obtain ⟨r, hr, hrh⟩ := plus_vecs hoh hkmh
  obtain ⟨x1, hx1, hx1h⟩ := solve_holds' hUh.1 hrh true
  obtain ⟨x2, hx2, hx2h⟩ := solve_holds' hUh.2 hx1h false
  obtain ⟨x3, hx3, hx3h⟩ := solve_holds' hUh.2 hx2h true
  obtain ⟨c, hc, hch⟩ := cholSolve_mats hUh.2.1 (eye_mats d (n + 1) bs)
  rcases cholesky_mats hch with ⟨G, g, hG, hGh, hg⟩ | ⟨e, hG, b, hb, hg⟩
  swap
  · refine .inr ⟨e, ?_, b, hb, ?_⟩
    · simp only [TKF.posteriorSSM, hP, hU, hQ, ho, hK, hM, hkm, hr, hx1, hx2, hx3, hb1, hb2, hb3, hc, hG, Bind.bind, Except.bind]
    · beta_reduce at hg
      simp only [KF.posteriorSSM, hp b hb, hu b hb, hq' b hb, hk b hb, hμ b hb, hg, Bind.bind, Except.bind]
  beta_reduce at hg
  have hS : HoldsSSM bs ⟨index 1 0 x3, index 2 0 G, Q.map (-·), sliceFrom 1 1 x3, sliceFrom 2 1 G⟩ fun b =>
      let mPost := (u b).2.solve ((u b).2.solve ((u b).1.solve (fun t => (f b).backProject (f b).obs t + (k b).denseMult (μ b) false t) true)
        false) true
      (⟨mPost 0, g b 0, fun k => -q' b k, fun k => mPost k.succ, fun k => g b k.succ⟩ : SSM n d) :=
    ⟨index_vecs hx3h 0, index_mats hGh 0, neg_mats hQh, sliceFrom_vecs hx3h, sliceFrom_mats hGh⟩
  refine .inl ⟨_, _, ?_, hS, fun b hb => ?_⟩
  · simp only [TKF.posteriorSSM, hP, hU, hQ, ho, hK, hM, hkm, hr, hx1, hx2, hx3, hb1, hb2, hb3, hc, hG, Bind.bind, Except.bind, ssm_init hS]
  · simp only [KF.posteriorSSM, hp b hb, hu b hb, hq' b hb, hk b hb, hμ b hb, hg b hb, Bind.bind, Except.bind, Pure.pure, Except.pure]

theorem sumShape_congr {u : List ℕ} {f g : List ℕ → ℝ} (h : ∀ b, InRange b u → f b = g b) : sumShape u f = sumShape u g := by
  induction u generalizing f g with
  | nil => exact h [] trivial
  | cons k u ih => exact Finset.sum_congr rfl fun i _ => ih fun b hb => h _ ⟨i.2, hb⟩

/-- `log_likelihood`: the sum over the batch of the log likelihoods of the elements. -/
theorem logLikelihood_holds (hbs : ∀ k ∈ bs, 0 < k) (h : HoldsKF bs F f) :
    Elementwise bs (fun v L => v = sumShape bs L) F.logLikelihood fun b => (f b).logLikelihood := by
  obtain ⟨hb1, hb2, hb3⟩ := ssm_dims h.prior
  have hHd : F.H.dim 1 = m := by simp [dim, h.H.1]
  rcases kInvPost_holds hbs h with ⟨P, p, hP, hPh, hp⟩ | ⟨e, hP, b, hb, hp⟩
  swap
  · refine .inr ⟨e, ?_, b, hb, ?_⟩
    · simp only [TKF.logLikelihood, hP, Bind.bind, Except.bind]
    · beta_reduce at hp
      simp only [KF.logLikelihood, hp, Bind.bind, Except.bind]
  beta_reduce at hp
  rcases btd_cholesky_holds hbs hPh with ⟨C, c, hC, hCh, hc⟩ | ⟨e, hC, b, hb, hc⟩
  swap
  · refine .inr ⟨e, ?_, b, hb, ?_⟩
    · simp only [TKF.logLikelihood, hP, hC, Bind.bind, Except.bind]
    · beta_reduce at hc
      simp only [KF.logLikelihood, hp b hb, hc, Bind.bind, Except.bind]
  beta_reduce at hc
  rcases marginalMeans_holds hbs h.prior with ⟨M, μ, hM, hMh, hμ⟩ | ⟨e, hM, b, hb, hμ⟩
  swap
  · refine .inr ⟨e, ?_, b, hb, ?_⟩
    · simp only [TKF.logLikelihood, hP, hC, hM, Bind.bind, Except.bind]
    · beta_reduce at hμ
      simp only [KF.logLikelihood, hp b hb, hc b hb, hμ, Bind.bind, Except.bind]
  beta_reduce at hμ
  obtain ⟨pr, hpr, hprh⟩ := projectState_holds [] h.H (by rw [List.append_nil]; exact hMh)
  rw [List.append_nil] at hprh
  obtain ⟨Δ, hΔ, hΔh⟩ := minus_vecs h.obs hprh
  have hΔv : HoldsVecs bs Δ fun b t => (f b).obs t - projectStateToF (f b).H (μ b) t := hΔh.congr fun b hb => by
    funext t
    rw [take_self hb]
  obtain ⟨q, hq, hqh⟩ := einsum_quad h.rInv (holdsVecs_iff.1 hΔv)
  have hqv : HoldsVecs bs q fun b t o => ∑ p, (f b).rInv t o p * ((f b).obs t - projectStateToF (f b).H (μ b) t) p *
      ((f b).obs t - projectStateToF (f b).H (μ b) t) o :=
    holdsVecs_iff.2 (hqh.congr (forall_inRange_cons.2 fun b _ t => by simp only [lift_fin]))
  have ht1 := map_real (-(1 / 2 : ℝ) * ·) (sum1_vec (sum1_vecs hqv))
  obtain ⟨o, ho, hoh⟩ := backProject_holds h hΔv
  obtain ⟨sol, hsol, hsolh⟩ := solve_holds' hCh hoh false
  have ht2 := map_real ((1 / 2 : ℝ) * ·) (sum1_vec (sum1_vecs (map_vecs (· ^ 2) hsolh)))
  obtain ⟨l1, hl1, hl1h⟩ := logDetPrecision_holds h.prior
  obtain ⟨l2, hl2, hl2h⟩ := absLogDet_holds hCh
  rcases h.logDetR with ⟨l3, w3, hl3, hl3h, hw3⟩ | ⟨e, hl3, b, hb, hw3⟩
  swap
  · refine .inr ⟨e, ?_, b, hb, ?_⟩
    · simp only [TKF.logLikelihood, hP, hC, hM, hpr, hΔ, hq, ho, hsol, hl1, hl2, hl3, Bind.bind, Except.bind]
    · beta_reduce at hw3
      simp only [KF.logLikelihood, hp b hb, hc b hb, hμ b hb, hw3, Bind.bind, Except.bind]
  beta_reduce at hw3
  obtain ⟨u1, hu1, hu1h⟩ := minus_real (map_real ((1 / 2 : ℝ) * ·) hl1h) hl2h.b0
  obtain ⟨t3, ht3, ht3h⟩ := plus_real hu1h (map_b0 ((1 / 2 : ℝ) * ·) hl3h)
  obtain ⟨v1, hv1, hv1h⟩ := plus_real (map_real ((-(1 / 2) * Real.log (2 * Real.pi) * (m * (n + 1) : ℕ) : ℝ) + ·) ht1) ht2.b0
  obtain ⟨v, hv, hvh⟩ := plus_real hv1h ht3h.b0
  have hsum : v.sumAll = sumShape bs v.val := by
    unfold sumAll
    rw [hvh.1]
  rw [sumShape_congr hvh.2] at hsum
  refine .inl ⟨_, _, ?_, hsum, fun b hb => ?_⟩
  · simp only [TKF.logLikelihood, hP, hC, hM, hpr, hΔ, hq, ho, hsol, hl1, hl2, hl3, hu1, ht3, hb3, hHd, hv1, hv, Bind.bind, Except.bind,
      Pure.pure, Except.pure]
  · simp only [KF.logLikelihood, hp b hb, hc b hb, hμ b hb, hw3 b hb, Bind.bind, Except.bind, Pure.pure, Except.pure]

/-! ### The constructors -/

theorem onlyInvalid_logdet {k : ℕ} (M : Mat k k) : OnlyInvalid (tfLogdet M) := by
  intro e h
  unfold tfLogdet at h
  cases hc : tfCholesky M with
  | ok L => rw [hc] at h; cases h
  | error e' =>
    rw [hc] at h
    rw [← Except.error.inj h]
    exact onlyInvalid_cholesky _ _ hc

theorem logdet_mat {u x} {A : List ℕ → Mat d d} (hx : HoldsMat u x A) :
    Elementwise u (HoldsReal u) (logdet x) fun b => tfLogdet (A b) := by
  have hX : logdet x = batched (r := 1) (c := 1) u (fun b => do
      let l ← tfLogdet (x.matAt d d b)
      return fun _ _ => l) >>= fun t => .ok (index 0 0 (index 0 0 t)) := by
    simp only [logdet, hx.1, if_true]
    rfl
  have hB' := batched_mat (r := 1) (c := 1) u (op := fun b => do
      let l ← tfLogdet (x.matAt d d b)
      return fun _ _ => l) fun b hb e he => by
    cases hc : tfLogdet (x.matAt d d b) with
    | ok l => rw [hc] at he; cases he
    | error e' =>
      rw [hc] at he
      rw [← Except.error.inj he]
      exact onlyInvalid_logdet _ _ hc
  rw [hX]
  rcases hB' with ⟨z, y, hz, hr, hy⟩ | ⟨e, hz, b, hb, hy⟩
  · rw [hz]
    refine .inl ⟨_, fun b => y b 0 0, rfl, index_vec (index_col hr 0) 0, fun b hb => ?_⟩
    have := hy b hb
    beta_reduce at this
    rw [hx.matAt hb] at this
    cases hc : tfLogdet (A b) with
    | ok l =>
      rw [hc] at this
      beta_reduce
      rw [hc, ← Except.ok.inj this]
    | error e' => rw [hc] at this; cases this
  · rw [hz]
    refine .inr ⟨e, rfl, b, hb, ?_⟩
    beta_reduce at hy ⊢
    rw [hx.matAt hb] at hy
    cases hc : tfLogdet (A b) with
    | ok l => rw [hc] at hy; cases hy
    | error e' => rw [hc] at hy; rw [← Except.error.inj hy]

/-- `KalmanFilter`: the observation covariance is shared by the batch. -/
theorem kalmanFilter_holds {S : TSSM} {s : List ℕ → SSM n d} (hS : HoldsSSM bs S s) {H y R : Tensor}
    {H' : List ℕ → Fin (n + 1) → Mat m d} {y' : List ℕ → Fin (n + 1) → Vec m} {R' : Mat m m} (hH : HoldsMats bs H H')
    (hy : HoldsVecs bs y y') (hR : HoldsMat [] R fun _ => R') (hbs : ∀ k ∈ bs, 0 < k) :
    ∃ F, tensorKalmanFilter S H y R = .ok F ∧ HoldsKF bs F fun b => kalmanFilter (s b) (H' b) (y' b) R' := by
  have hc : Shapes.kalmanInit S.A.tfShape H.tfShape y.tfShape R.tfShape = .ok () := by
    rw [tfShape3 hS.A.1, tfShape3 hH.1, tfShape2 hy.1, tfShape2 hR.1]
    exact (C42_kalman_filter_exact ..).2 ⟨.inl rfl, .inl rfl⟩
  obtain ⟨-, -, hn⟩ := ssm_dims hS
  have hHd : H.dim 1 = m := by simp [dim, hH.1]
  obtain ⟨r, hr, hrh⟩ := cholSolve_mat hR (eye_mat m [])
  refine ⟨_, by simp only [tensorKalmanFilter, hc, hHd, hr, Bind.bind, Except.bind, Pure.pure, Except.pure]; rfl, hS, hH, ?_, hy, ?_⟩
  · exact (hrh.extend ((n + 1) :: bs)).congr (forall_inRange_cons.2 fun b _ t => by simp only [lift_fin]; rfl)
  · obtain ⟨b₀, hb₀⟩ := inRange_exists hbs
    dsimp only
    rcases logdet_mat hrh with ⟨z, l, hz, hzh, hl⟩ | ⟨e, hz, b, hb, hl⟩
    · simp only [hz, hn]
      refine .ok (map_b0 _ (hzh.extend bs)) fun b _ => ?_
      have := hl [] trivial
      beta_reduce at this
      simp only [kalmanFilter, this]
      rfl
    · simp only [hz]
      refine .inr ⟨e, rfl, b₀, hb₀, ?_⟩
      beta_reduce at hl
      simp only [kalmanFilter, hl]
      rfl

theorem sumLogdet_eq {k N : ℕ} (M : Fin N → Mat k k) : sumLogdet M = do
    let l ← seqFin fun t => tfLogdet (M t)
    return ∑ t, l t := by
  induction N with
  | zero => simp [sumLogdet, seqFin, Bind.bind, Except.bind, Pure.pure, Except.pure]
  | succ N ih =>
    simp only [sumLogdet, seqFin, ih]
    cases tfLogdet (M 0) with
    | error e => rfl
    | ok l0 =>
      show (seqFin (fun t => tfLogdet (Fin.tail M t)) >>= _ >>= _) = (seqFin (Fin.tail fun t => tfLogdet (M t)) >>= _) >>= _
      have : (Fin.tail fun t => tfLogdet (M t)) = fun t => tfLogdet (Fin.tail M t) := rfl
      rw [this]
      cases seqFin fun t => tfLogdet (Fin.tail M t) with
      | error e => rfl
      | ok l =>
        show Except.ok _ = Except.ok _
        rw [Fin.sum_univ_succ]
        simp

/-- `KalmanFilterWithSites`: batched sites. -/
theorem kalmanSites_holds {S : TSSM} {s : List ℕ → SSM n d} (hS : HoldsSSM bs S s) {H y R : Tensor}
    {H' : List ℕ → Fin (n + 1) → Mat m d} {y' : List ℕ → Fin (n + 1) → Vec m} {R' : List ℕ → Fin (n + 1) → Mat m m} (hH : HoldsMats bs H H')
    (hy : HoldsVecs bs y y') (hR : HoldsMats bs R R') :
    ∃ F, tensorKalmanFilterWithSites S H y R m = .ok F ∧ HoldsKF bs F fun b => kalmanFilterWithSites (s b) (H' b) (y' b) (R' b) := by
  have hHd : H.dim 1 = m := by simp [dim, hH.1]
  refine ⟨_, by simp only [tensorKalmanFilterWithSites, hHd, ne_eq, not_true_eq_false, if_false]; rfl, hS, hH, (holdsMats_iff.1 hR).b2, hy, ?_⟩
  dsimp only
  have h := (logdet_mat (holdsMats_iff.1 hR)).seq (Y := fun b t => tfLogdet (R' b t)) (fun b _ t => by rw [lift_fin])
    (fun b t => onlyInvalid_logdet _) fun x y y' h e => h.congr e
  refine Elementwise.congr (h.bind (R' := B0 bs) (g := fun b l => Except.ok (∑ t, l t)) fun x l hx => ?_) fun b _ => ?_
  · exact .pure (sum1_vec (holdsVec_iff.2 hx)).b0
  · simp only [kalmanFilterWithSites, sumLogdet_eq]
    rfl

end MF
