import Verif.Lemmas.BatchedBTD2

/-!
# State space models on tensors of any batch shape
-/

namespace MF
open Matrix Spec Tensor

variable {n d : ℕ} {bs : List ℕ}

/-! ### Operations on sequences of vectors -/

theorem minus_vecs {k u x y} {f g : List ℕ → Fin k → Vec d} (hx : HoldsVecs u x f) (hy : HoldsVecs u y g) :
    ∃ z, minus x y = .ok z ∧ HoldsVecs u z fun b t => f b t - g b t := by
  obtain ⟨z, hz, h⟩ := minus_vec (holdsVecs_iff.1 hx) (holdsVecs_iff.1 hy).b1
  exact ⟨z, hz, holdsVecs_iff.2 (h.congr (forall_inRange_cons.2 fun b _ t => by simp only [lift_fin]))⟩

theorem plus_vecs {k u x y} {f g : List ℕ → Fin k → Vec d} (hx : HoldsVecs u x f) (hy : HoldsVecs u y g) :
    ∃ z, plus x y = .ok z ∧ HoldsVecs u z fun b t => f b t + g b t := by
  obtain ⟨z, hz, h⟩ := plus_vec (holdsVecs_iff.1 hx) (holdsVecs_iff.1 hy).b1
  exact ⟨z, hz, holdsVecs_iff.2 (h.congr (forall_inRange_cons.2 fun b _ t => by simp only [lift_fin]))⟩

theorem times_vecs {k u x y} {f g : List ℕ → Fin k → Vec d} (hx : HoldsVecs u x f) (hy : HoldsVecs u y g) :
    ∃ z, times x y = .ok z ∧ HoldsVecs u z fun b t i => f b t i * g b t i := by
  obtain ⟨z, hz, h⟩ := times_vec (holdsVecs_iff.1 hx) (holdsVecs_iff.1 hy).b1
  exact ⟨z, hz, holdsVecs_iff.2 (h.congr (forall_inRange_cons.2 fun b _ t => by simp only [lift_fin]))⟩

theorem map_vecs {k u x} {f : List ℕ → Fin k → Vec d} (op : ℝ → ℝ) (hx : HoldsVecs u x f) :
    HoldsVecs u (x.map op) fun b t i => op (f b t i) :=
  ⟨hx.1, fun b hb t i => congrArg op (hx.2 b hb t i)⟩

theorem diagPart_mats {k u x} {A : List ℕ → Fin k → Mat d d} (hx : HoldsMats u x A) : HoldsVecs u x.diagPart fun b t i => A b t i i :=
  holdsVecs_iff.2 ((diagPart_mat (holdsMats_iff.1 hx)).congr (forall_inRange_cons.2 fun b _ t => by simp only [lift_fin]))

/-- Broadcasting along further outer (sample) axes. -/
theorem Spec.HoldsVecs.extend {k u x} {f : List ℕ → Fin k → Vec d} (h : HoldsVecs u x f) (v : List ℕ) :
    B1 (k :: (u ++ v)) x (lift fun b t => f (b.take u.length) t) :=
  ((holdsVecs_iff.1 h).extend v).congr (forall_inRange_cons.2 fun b _ t => by
    simp only [List.length_cons, List.take_succ_cons, lift_fin])

theorem Spec.HoldsMats.extend {k r c u x} {A : List ℕ → Fin k → Mat r c} (h : HoldsMats u x A) (v : List ℕ) :
    B2 (k :: (u ++ v)) x (lift fun b t => A (b.take u.length) t) :=
  ((holdsMats_iff.1 h).extend v).congr (forall_inRange_cons.2 fun b _ t => by
    simp only [List.length_cons, List.take_succ_cons, lift_fin])

/-! ### State space models -/

variable {S : TSSM} {s : List ℕ → SSM n d}

theorem ssm_dims (h : HoldsSSM bs S s) : S.batch = bs ∧ S.stateDim = d ∧ S.numTransitions = n := by
  simp [TSSM.batch, TSSM.stateDim, TSSM.numTransitions, dim, h.A.1]

theorem ssm_shapes {mu0 cholP0 A b cholQ : Tensor} {s : List ℕ → SSM n d} (h : HoldsSSM bs ⟨mu0, cholP0, A, b, cholQ⟩ s) :
    SSMShapes bs.reverse n d mu0.tfShape cholP0.tfShape A.tfShape b.tfShape cholQ.tfShape :=
  ⟨tfShape1 h.mu0.1, tfShape2 h.cholP0.1, tfShape3 h.A.1, tfShape2 h.b.1, tfShape3 h.cholQ.1⟩

/-- The constructor accepts tensors that hold one model per batch index. -/
theorem ssm_init {mu0 cholP0 A b cholQ : Tensor} {s : List ℕ → SSM n d} (h : HoldsSSM bs ⟨mu0, cholP0, A, b, cholQ⟩ s) :
    TSSM.init mu0 cholP0 A b cholQ = .ok ⟨mu0, cholP0, A, b, cholQ⟩ := by
  simp only [TSSM.init, (C42_state_space_model_documented (ssm_shapes h)).1]
  rfl

theorem initialCovariance_holds (h : HoldsSSM bs S s) :
    ∃ z, S.initialCovariance = .ok z ∧ HoldsMat bs z fun b => (s b).initialCovariance :=
  matmul_mat h.cholP0 (matT_mat h.cholP0)

theorem concatChol_holds (h : HoldsSSM bs S s) : ∃ z, S.concatChol = .ok z ∧ HoldsMats bs z fun b => (s b).concatChol :=
  cons_mats (expand_mat h.cholP0) h.cholQ

theorem concatOffsets_holds (h : HoldsSSM bs S s) : ∃ z, S.concatOffsets = .ok z ∧ HoldsVecs bs z fun b => (s b).concatOffsets :=
  cons_vecs (expand_vec h.mu0) h.b

theorem eventShape_holds (h : HoldsSSM bs S s) : S.eventShape = .ok [d, n + 1] := by
  obtain ⟨z, hz, hzh⟩ := concatOffsets_holds h
  simp only [TSSM.eventShape, hz, Bind.bind, Except.bind, Pure.pure, Except.pure, hzh.1, List.take]

theorem identities_holds (h : HoldsSSM bs S s) :
    ∃ z, S.identities = .ok z ∧ HoldsMats bs z fun _ (_ : Fin (n + 1)) => (1 : Mat d d) := by
  obtain ⟨h1, h2, -⟩ := ssm_dims h
  refine ⟨_, by simp only [TSSM.identities, eventShape_holds h, h1, h2, Bind.bind, Except.bind, Pure.pure, Except.pure, List.drop]; rfl, ?_⟩
  exact eye_mats d (n + 1) bs

theorem aInvBlock_holds (hbs : ∀ k ∈ bs, 0 < k) (h : HoldsSSM bs S s) :
    Elementwise bs (HoldsBTD bs) S.aInvBlock fun b => (s b).aInvBlock := by
  obtain ⟨z, hz, hzh⟩ := identities_holds h
  have e : S.aInvBlock = TBTD.init false z (some (S.A.map (-·))) := by simp only [TSSM.aInvBlock, hz]; rfl
  rw [e]
  exact init_holds hbs false hzh (.inr ⟨_, _, rfl, neg_mats h.A, fun b _ => rfl⟩)

theorem marginalMeans_holds (hbs : ∀ k ∈ bs, 0 < k) (h : HoldsSSM bs S s) :
    Elementwise bs (HoldsVecs bs) S.marginalMeans fun b => (s b).marginalMeans := by
  obtain ⟨z, hz, hzh⟩ := concatOffsets_holds h
  refine (aInvBlock_holds hbs h).bind (g := fun b a => Except.ok (a.solve (s b).concatOffsets)) fun M m hM => ?_
  simp only [hz]
  exact .of_ok (solve_holds' hM hzh false)

theorem precision_holds (hbs : ∀ k ∈ bs, 0 < k) (h : HoldsSSM bs S s) :
    Elementwise bs (HoldsBTD bs) S.precision fun b => (s b).precision := by
  obtain ⟨a, ha, hah⟩ := cholSolve_mats h.cholQ h.A
  obtain ⟨q, hq, hqh⟩ := matmul_mats (matT_mats h.A) hah
  obtain ⟨i, hi, hih⟩ := identities_holds h
  obtain ⟨c, hc, hch⟩ := concatChol_holds h
  obtain ⟨v, hv, hvh⟩ := cholSolve_mats hch hih
  have hp : HoldsMats bs (expand 2 (zeros S.cholP0.shape)) fun _ (_ : Fin 1) => (0 : Mat d d) := by
    refine expand_mat (A := fun _ => (0 : Mat d d)) ⟨by simp only [zeros]; exact h.cholP0.1, fun _ _ _ _ => rfl⟩
  obtain ⟨p, hpe, hph⟩ := snoc_mats hqh hp
  obtain ⟨D, hD, hDh⟩ := plus_mats hvh hph
  have e : S.precision = TBTD.init true D (some (a.map (-·))) := by
    have : Shapes.assertEqual D.tfShape c.tfShape = .ok () := by
      rw [tfShape3 hDh.1, tfShape3 hch.1]
      exact assertEqual_self _
    simp only [TSSM.precision, ha, hq, hi, hc, hv, hpe, hD, this, Bind.bind, Except.bind]
  rw [e]
  exact init_holds hbs true hDh (.inr ⟨_, _, rfl, neg_mats hah, fun b _ => rfl⟩)

theorem marginalCovariances_holds (hbs : ∀ k ∈ bs, 0 < k) (h : HoldsSSM bs S s) :
    Elementwise bs (HoldsMats bs) S.marginalCovariances fun b => (s b).marginalCovariances := by
  refine (precision_holds hbs h).bind (g := fun b p => do
    let c ← p.cholesky
    return c.blockDiagonalOfInverse) fun P p hP => ?_
  refine (btd_cholesky_holds hbs hP).bind (g := fun b c => Except.ok c.blockDiagonalOfInverse) fun C c hC => ?_
  exact .of_ok (blockDiagonalOfInverse_holds hC)

theorem subsequentCovariances_holds (h : HoldsSSM bs S s) {x : Tensor} {f : List ℕ → Fin (n + 1) → Mat d d} (hx : HoldsMats bs x f) :
    ∃ z, S.subsequentCovariances x = .ok z ∧ HoldsMats bs z fun b => (s b).subsequentCovariances (f b) := by
  obtain ⟨z, hz, hzh⟩ := matmul_mats h.A (sliceDrop_mats hx)
  refine ⟨z, ?_, hzh⟩
  have : Shapes.assertEqual z.tfShape S.A.tfShape = .ok () := by
    rw [tfShape3 hzh.1, tfShape3 h.A.1]
    exact assertEqual_self _
  simp only [TSSM.subsequentCovariances, hz, this, Bind.bind, Except.bind, Pure.pure, Except.pure]

theorem covarianceBlocks_holds (hbs : ∀ k ∈ bs, 0 < k) (h : HoldsSSM bs S s) :
    Elementwise bs (fun (P : Tensor × Tensor) (p : List ℕ → (Fin (n + 1) → Mat d d) × (Fin n → Mat d d)) =>
      HoldsMats bs P.1 (fun b => (p b).1) ∧ HoldsMats bs P.2 (fun b => (p b).2)) S.covarianceBlocks fun b => (s b).covarianceBlocks := by
  refine (marginalCovariances_holds hbs h).bind (g := fun b m => do
    let m' ← (s b).marginalCovariances
    return (m, (s b).subsequentCovariances m')) fun x m hx => ?_
  refine (marginalCovariances_holds hbs h).bind (g := fun b m' => Except.ok (m b, (s b).subsequentCovariances m')) fun x' m' hx' => ?_
  obtain ⟨c, hc, hch⟩ := subsequentCovariances_holds h hx'
  simp only [hc]
  exact .pure ⟨hx, hch⟩

theorem marginals_holds (hbs : ∀ k ∈ bs, 0 < k) (h : HoldsSSM bs S s) :
    Elementwise bs (fun (P : Tensor × Tensor) (p : List ℕ → (Fin (n + 1) → Vec d) × (Fin (n + 1) → Mat d d)) =>
      HoldsVecs bs P.1 (fun b => (p b).1) ∧ HoldsMats bs P.2 (fun b => (p b).2)) S.marginals fun b => (s b).marginals := by
  refine (marginalMeans_holds hbs h).bind (g := fun b m => do
    let c ← (s b).marginalCovariances
    return (m, c)) fun x m hx => ?_
  refine (marginalCovariances_holds hbs h).bind (g := fun b c => Except.ok (m b, c)) fun x' m' hx' => ?_
  exact .pure ⟨hx, hx'⟩

/-! ### Densities -/

theorem logDetPrecision_holds (h : HoldsSSM bs S s) : ∃ z, S.logDetPrecision = .ok z ∧ HoldsReal bs z fun b => (s b).logDetPrecision := by
  have h1 := sum1_vec (map_vec (fun v => Real.log (v ^ 2)) (diagPart_mat h.cholP0))
  have h2 := sum1_vec (sum1_vecs (map_vecs (fun v => Real.log (v ^ 2)) (diagPart_mats h.cholQ)))
  obtain ⟨z, hz, hzh⟩ := plus_real h1 h2.b0
  have h3 := map_real (-·) hzh
  have : Shapes.assertEqual (z.map (-·)).tfShape S.batch.reverse = .ok () := by
    rw [tfShape, h3.1, (ssm_dims h).1]
    exact assertEqual_self _
  refine ⟨_, by simp only [TSSM.logDetPrecision, hz, this, Bind.bind, Except.bind]; rfl, h3⟩

/-- `MultivariateNormalTriL.log_prob` where the evaluation point has the full batch shape. -/
theorem mvn_holds {u : List ℕ} {loc scale x : Tensor} {μ ξ : List ℕ → Vec d} {C : List ℕ → Mat d d} (hl : B1 u loc μ) (hc : B2 u scale C)
    (hx : HoldsVec u x ξ) (hw : ∃ s t w, loc.shape = d :: s ∧ scale.shape = d :: d :: t ∧ bshape s t = .ok w ∧ BT w u) :
    ∃ z, mvnLogProb loc scale x = .ok z ∧ HoldsReal u z fun b => mvnTriLLogProb (μ b) (C b) (ξ b) := by
  obtain ⟨s, t, w, h1, h2, h3, h4⟩ := hw
  obtain ⟨s', h1', -, hl⟩ := hl
  obtain rfl : s = s' := by simpa using h1.symm.trans h1'
  refine ⟨_, by simp only [mvnLogProb, h1, h2, hx.1, and_self, if_true, h3, bshape_left h4, Bind.bind, Except.bind]; rfl, rfl, fun b hb => ?_⟩
  dsimp only
  rw [hc.matAt h2 hb, bidx_self hb]
  congr 1
  · exact funext fun i => hl b hb i
  · exact funext fun i => hx.2 b hb i

/-- `_log_pdf_factors` per batch element (and per sample). -/
theorem logPdfFactors_holds (h : HoldsSSM bs S s) (ss : List ℕ) {x : Tensor} {ξ : List ℕ → Fin (n + 1) → Vec d}
    (hx : HoldsVecs (bs ++ ss) x ξ) :
    ∃ z, S.logPdfFactors x = .ok z ∧ HoldsVec (bs ++ ss) z fun b => (s (b.take bs.length)).logPdfFactors (ξ b) := by
  have hcheck : Shapes.logPdfStatesCheck S.mu0.tfShape S.b.tfShape x.tfShape = .ok () :=
    (C42_log_pdf_states (ssm_shapes h) _).2 (.inl ⟨_, tfShape2 hx.1⟩)
  obtain ⟨p, hp, hph⟩ := mvn_holds (h.mu0.extend ss) (h.cholP0.extend ss) (index_vecs hx 0)
    ⟨bs, bs, bs, h.mu0.1, h.cholP0.1, bshape_left (BT.refl _), BT.append _ _⟩
  obtain ⟨a, ha, hah⟩ := matmul_one (h.A.extend ss) (expand_col (holdsVecs_iff.1 (sliceDrop_vecs hx))).b2
    (.inr (expand_col (holdsVecs_iff.1 (sliceDrop_vecs hx))).1)
  obtain ⟨m, hm, hmh⟩ := plus_vec (index_col hah 0) (h.b.extend ss)
  obtain ⟨q, hq, hqh⟩ := mvn_holds hmh.b1 (h.cholQ.extend ss) (holdsVecs_iff.1 (sliceFrom_vecs hx))
    ⟨n :: (bs ++ ss), n :: bs, n :: (bs ++ ss), hmh.1, h.cholQ.1, bshape_right (BT.append (n :: bs) ss), BT.refl _⟩
  have hqv : HoldsVec (bs ++ ss) q fun b (k : Fin n) => mvnTriLLogProb
      ((s (b.take bs.length)).A k *ᵥ ξ b k.castSucc + (s (b.take bs.length)).b k) ((s (b.take bs.length)).cholQ k) (ξ b k.succ) := by
    refine holdsVec_iff.2 (hqh.congr (forall_inRange_cons.2 fun b _ t => ?_))
    simp only [lift_fin]
    congr 1
  obtain ⟨z, hz, hzh⟩ := cons_vec (expand_real hph) hqv
  refine ⟨z, ?_, hzh⟩
  have hp' : mvnLogProb S.mu0 S.cholP0 (index 1 0 x) = .ok p := hp
  have hm' : plus (index 0 0 a) S.b = .ok m := hm
  simp only [TSSM.logPdfFactors, hcheck, hp', ha, hm', hq, hz, Bind.bind, Except.bind]

theorem logPdf_holds (h : HoldsSSM bs S s) (ss : List ℕ) {x : Tensor} {ξ : List ℕ → Fin (n + 1) → Vec d}
    (hx : HoldsVecs (bs ++ ss) x ξ) :
    ∃ z, S.logPdf x = .ok z ∧ HoldsReal (bs ++ ss) z fun b => (s (b.take bs.length)).logPdf (ξ b) := by
  obtain ⟨z, hz, hzh⟩ := logPdfFactors_holds h ss hx
  exact ⟨_, by simp only [TSSM.logPdf, hz]; rfl, sum1_vec hzh⟩

/-! ### Samples -/

theorem aInvBlock_ok (h : HoldsSSM bs S s) (hn : 0 < n) :
    ∃ (M : TBTD false) (m : List ℕ → LowerBTD n d), S.aInvBlock = .ok M ∧ HoldsBTD bs M m ∧ ∀ b, (s b).aInvBlock = .ok (m b) := by
  obtain ⟨z, hz, hzh⟩ := identities_holds h
  have hs := neg_mats h.A
  have hc : Shapes.blockTriInit z.tfShape ((some (S.A.map (-·))).map tfShape) = .ok () :=
    (C42_block_tri_exact _ _).2 ⟨bs.reverse, n + 1, d, tfShape3 hzh.1, fun s hs' => by
      obtain rfl := Option.some.inj hs'
      exact ⟨by omega, .inl (tfShape3 hs.1)⟩⟩
  refine ⟨⟨z, some (S.A.map (-·))⟩, fun b => ⟨fun _ => 1, some fun k => -(s b).A k⟩, ?_, ⟨hzh, .inr ⟨_, _, rfl, hs, fun b _ => rfl⟩⟩, fun b => ?_⟩
  · simp only [TSSM.aInvBlock, hz, TBTD.init, hc, Bind.bind, Except.bind, Pure.pure, Except.pure]
  · simp [SSM.aInvBlock, BTD.init, hn]

theorem prod_eq_zero_not_inRange {u b : List ℕ} (hb : InRange b u) : u.prod ≠ 0 := by
  have := tflat_lt hb
  omega

/-- `sample` per batch element and per sample. -/
theorem sample_holds (hbs : ∀ k ∈ bs, 0 < k) (h : HoldsSSM bs S s) (hd : 0 < d) (ss : List ℕ) (draws : List ℕ → ℝ) :
    Elementwise (bs ++ ss) (HoldsVecs (bs ++ ss)) (S.sample ss draws) fun b =>
      (s (b.take bs.length)).sample fun t i => draws (0 :: (i : ℕ) :: (t : ℕ) :: b) := by
  obtain ⟨o, ho, hoh⟩ := concatOffsets_holds h
  obtain ⟨c, hc, hch⟩ := concatChol_holds h
  have hε : HoldsMat ((n + 1) :: (bs ++ ss)) ⟨1 :: ([d, n + 1] ++ bs ++ ss), draws⟩
      (lift fun b (t : Fin (n + 1)) => (Matrix.of fun (i : Fin d) (_ : Fin 1) => draws (0 :: (i : ℕ) :: (t : ℕ) :: b) : Mat d 1)) := by
    refine ⟨by simp, forall_inRange_cons.2 fun b hb t i j => ?_⟩
    obtain rfl : j = 0 := Subsingleton.elim _ _
    simp only [lift_fin]
    rfl
  obtain ⟨z, hz, hzh⟩ := matmul_one (hch.extend ss) hε.b2 (.inr hε.1)
  obtain ⟨v, hv, hvh⟩ := plus_vec' (hoh.extend ss) (index_col hzh 0)
  have hvv : HoldsVecs (bs ++ ss) v fun b t => (s (b.take bs.length)).concatOffsets t +
      (s (b.take bs.length)).concatChol t *ᵥ (fun i => draws (0 :: (i : ℕ) :: (t : ℕ) :: b)) := by
    refine holdsVecs_iff.2 (hvh.congr (forall_inRange_cons.2 fun b _ t => ?_))
    simp only [lift_fin]
    congr 1
  have hv' : plus o (index 0 0 z) = .ok v := hv
  have e : S.sample ss draws = if v.shape.prod = 0 then .ok v else (do
      let a ← S.aInvBlock
      a.solve v) := by
    simp only [TSSM.sample, eventShape_holds h, (ssm_dims h).1, ho, hc, hz, hv', Bind.bind, Except.bind, Pure.pure, Except.pure]
  rw [e]
  split_ifs with hp
  · -- an empty sample
    have hempty : ∀ b, ¬ InRange b (bs ++ ss) := fun b hb => by
      refine prod_eq_zero_not_inRange (b := 0 :: 0 :: b) (u := v.shape) ?_ hp
      rw [hvv.1]
      exact ⟨hd, Nat.succ_pos _, hb⟩
    exact .inl ⟨v, _, rfl, hvv, fun b hb => (hempty b hb).elim⟩
  · by_cases hn : 0 < n
    · obtain ⟨M, m, hM, hMh, hm⟩ := aInvBlock_ok h hn
      rw [hM]
      refine (Elementwise.of_ok (solve_holds hMh ss hvv false)).congr fun b hb => ?_
      simp only [SSM.sample, hm]
      rfl
    · obtain ⟨b₀, hb₀⟩ := inRange_exists hbs
      have hs : ∀ k ∈ bs ++ ss, 0 < k := by
        intro k hk
        refine Nat.pos_of_ne_zero ?_
        rintro rfl
        exact hp (List.prod_eq_zero (by rw [hvv.1]; simp [List.mem_append.1 hk]))
      have he : ∀ b, (s b).aInvBlock = .error .invalidArgument := fun b => by simp [SSM.aInvBlock, BTD.init, hn]
      rcases aInvBlock_holds hbs h with ⟨M, m, hM, hMh, hm⟩ | ⟨e', hM, b, hb, hy⟩
      · have := hm b₀ hb₀
        dsimp only at this
        rw [he] at this
        cases this
      · dsimp only at hy
        rw [he] at hy
        obtain rfl := Except.error.inj hy
        rw [hM]
        exact .error hs fun b _ => by simp only [SSM.sample, he]; rfl

/-! ### Divergences -/

theorem mahalanobis_holds {C : TBTD false} {c : List ℕ → LowerBTD n d} (hC : HoldsBTD bs C c) {x : Tensor}
    {f : List ℕ → Fin (n + 1) → Vec d} (hx : HoldsVecs bs x f) :
    ∃ y z, C.denseMult x true = .ok y ∧ times y y = .ok z ∧
      HoldsReal bs z.sum1.sum1 fun b => ∑ t, ∑ i, (c b).denseMult (f b) true t i * (c b).denseMult (f b) true t i := by
  obtain ⟨y, hy, hyh⟩ := denseMult_holds' hC hx true
  obtain ⟨z, hz, hzh⟩ := times_vecs hyh hyh
  exact ⟨y, z, hy, hz, sum1_vec (sum1_vecs hzh)⟩

theorem precision_sub {s : SSM n d} {p : SymBTD n d} (h : s.precision = .ok p) : ∃ q, p.sub = some q := by
  unfold SSM.precision BTD.init at h
  dsimp only at h
  split_ifs at h
  exact ⟨_, by rw [← Except.ok.inj h]⟩

/-- `kl_divergence` per batch element. -/
theorem klDivergence_holds (hbs : ∀ k ∈ bs, 0 < k) {S' : TSSM} {s' : List ℕ → SSM n d} (h : HoldsSSM bs S s) (h' : HoldsSSM bs S' s') :
    Elementwise bs (HoldsReal bs) (S.klDivergence S') fun b => (s b).klDivergence (s' b) := by
  have hcheck : Shapes.checkCompatible S.A.tfShape S'.A.tfShape = .ok () := by
    rw [tfShape3 h.A.1, tfShape3 h'.A.1]
    exact (C42_check_compatible ..).2 ⟨rfl, rfl, .inl rfl⟩
  obtain ⟨hb1, hb2, hb3⟩ := ssm_dims h
  rcases marginalCovariances_holds hbs h with ⟨V, v, hV, hVh, hv⟩ | ⟨e, hV, b, hb, hv⟩
  swap
  · refine .inr ⟨e, ?_, b, hb, ?_⟩
    · simp only [TSSM.klDivergence, hcheck, hV, Bind.bind, Except.bind]
    · beta_reduce at hv
      simp only [SSM.klDivergence, hv, Bind.bind, Except.bind]
  beta_reduce at hv
  rcases precision_holds hbs h' with ⟨P, p, hP, hPh, hp⟩ | ⟨e, hP, b, hb, hp⟩
  swap
  · refine .inr ⟨e, ?_, b, hb, ?_⟩
    · simp only [TSSM.klDivergence, hcheck, hV, hP, Bind.bind, Except.bind]
    · beta_reduce at hp
      simp only [SSM.klDivergence, hv b hb, hp, Bind.bind, Except.bind]
  beta_reduce at hp
  obtain ⟨W, hW, hWh⟩ := subsequentCovariances_holds h hVh
  obtain ⟨t1, ht1, ht1h⟩ := times_mats hPh.1 hVh
  obtain ⟨b₀, hb₀⟩ := inRange_exists hbs
  obtain ⟨q, hq⟩ := precision_sub (hp b₀ hb₀)
  obtain ⟨Q, q', hQ, hQh, hq'⟩ : ∃ (t : Tensor) (Q : List ℕ → Fin n → Mat d d), P.sub = some t ∧ HoldsMats bs t Q ∧
      ∀ b, InRange b bs → (p b).sub = some (Q b) := by
    rcases hPh.2 with ⟨-, h2⟩ | h2
    · rw [h2 b₀ hb₀] at hq
      cases hq
    · exact h2
  obtain ⟨t2, ht2, ht2h⟩ := times_mats hQh hWh
  obtain ⟨tr, htr, htrh⟩ := plus_real (sum1_vec (sum1_vecs (sum1_mats ht1h)))
    (map_real ((2 : ℝ) * ·) (sum1_vec (sum1_vecs (sum1_mats ht2h)))).b0
  have ha : ∀ {z : Tensor} {f : List ℕ → ℝ}, HoldsReal bs z f → Shapes.assertEqual z.tfShape S.batch.reverse = .ok () := fun hz => by
    rw [tfShape, hz.1, hb1]
    exact assertEqual_self _
  have hatr := ha htrh
  rcases marginalMeans_holds hbs h' with ⟨M2, m2, hM2, hM2h, hm2⟩ | ⟨e, hM2, b, hb, hm2⟩
  swap
  · refine .inr ⟨e, ?_, b, hb, ?_⟩
    · simp only [TSSM.klDivergence, hcheck, hV, hP, hW, ht1, hQ, ht2, htr, hatr, hM2, Bind.bind, Except.bind]
    · beta_reduce at hm2
      simp only [SSM.klDivergence, hv b hb, hp b hb, hm2, Bind.bind, Except.bind]
  beta_reduce at hm2
  rcases marginalMeans_holds hbs h with ⟨M1, m1, hM1, hM1h, hm1⟩ | ⟨e, hM1, b, hb, hm1⟩
  swap
  · refine .inr ⟨e, ?_, b, hb, ?_⟩
    · simp only [TSSM.klDivergence, hcheck, hV, hP, hW, ht1, hQ, ht2, htr, hatr, hM2, hM1, Bind.bind, Except.bind]
    · beta_reduce at hm1
      simp only [SSM.klDivergence, hv b hb, hp b hb, hm2 b hb, hm1, Bind.bind, Except.bind]
  beta_reduce at hm1
  obtain ⟨Δ, hΔ, hΔh⟩ := minus_vecs hM2h hM1h
  rcases btd_cholesky_holds hbs hPh with ⟨C, c, hC, hCh, hc⟩ | ⟨e, hC, b, hb, hc⟩
  swap
  · refine .inr ⟨e, ?_, b, hb, ?_⟩
    · simp only [TSSM.klDivergence, hcheck, hV, hP, hW, ht1, hQ, ht2, htr, hatr, hM2, hM1, hΔ, hC, Bind.bind, Except.bind]
    · beta_reduce at hc
      simp only [SSM.klDivergence, hv b hb, hp b hb, hm2 b hb, hm1 b hb, hc, Bind.bind, Except.bind]
  beta_reduce at hc
  obtain ⟨y, sq, hy, hsq, hsqh⟩ := mahalanobis_holds hCh hΔh
  obtain ⟨u1, hu1, hu1h⟩ := plus_real htrh hsqh.b0
  obtain ⟨l2, hl2, hl2h⟩ := logDetPrecision_holds h'
  obtain ⟨u2, hu2, hu2h⟩ := minus_real (map_real (· - (((n + 1) * d : ℕ) : ℝ)) hu1h) hl2h.b0
  obtain ⟨l1, hl1, hl1h⟩ := logDetPrecision_holds h
  obtain ⟨u3, hu3, hu3h⟩ := plus_real hu2h hl1h.b0
  have hu4 := map_real ((1 / 2 : ℝ) * ·) hu3h
  have hasq := ha hsqh
  have hau4 := ha hu4
  refine .inl ⟨_, _, ?_, hu4, fun b hb => ?_⟩
  · simp only [TSSM.klDivergence, hcheck, hV, hP, hW, ht1, hQ, ht2, htr, hatr, hM2, hM1, hΔ, hC, hy, hsq, hasq, hu1, hl2, hb2, hb3, hu2,
      hl1, hu3, hau4, Bind.bind, Except.bind, Pure.pure, Except.pure]
  · simp only [SSM.klDivergence, hv b hb, hp b hb, hq' b hb, hm2 b hb, hm1 b hb, hc b hb, Option.getD_some, Bind.bind, Except.bind, Pure.pure,
      Except.pure, Matrix.of_apply]

/-- `normalizer` per batch element. -/
theorem normalizer_holds (hbs : ∀ k ∈ bs, 0 < k) (h : HoldsSSM bs S s) :
    Elementwise bs (HoldsReal bs) S.normalizer fun b => (s b).normalizer := by
  obtain ⟨-, hb2, hb3⟩ := ssm_dims h
  obtain ⟨l, hl, hlh⟩ := logDetPrecision_holds h
  rcases precision_holds hbs h with ⟨P, p, hP, hPh, hp⟩ | ⟨e, hP, b, hb, hp⟩
  swap
  · refine .inr ⟨e, ?_, b, hb, ?_⟩
    · simp only [TSSM.normalizer, hl, hP, Bind.bind, Except.bind]
    · beta_reduce at hp
      simp only [SSM.normalizer, hp, Bind.bind, Except.bind]
  beta_reduce at hp
  rcases btd_cholesky_holds hbs hPh with ⟨C, c, hC, hCh, hc⟩ | ⟨e, hC, b, hb, hc⟩
  swap
  · refine .inr ⟨e, ?_, b, hb, ?_⟩
    · simp only [TSSM.normalizer, hl, hP, hC, Bind.bind, Except.bind]
    · beta_reduce at hc
      simp only [SSM.normalizer, hp b hb, hc, Bind.bind, Except.bind]
  beta_reduce at hc
  rcases marginals_holds hbs h with ⟨M, m, hM, hMh, hm⟩ | ⟨e, hM, b, hb, hm⟩
  swap
  · refine .inr ⟨e, ?_, b, hb, ?_⟩
    · simp only [TSSM.normalizer, hl, hP, hC, hM, Bind.bind, Except.bind]
    · beta_reduce at hm
      simp only [SSM.normalizer, hp b hb, hc b hb, hm, Bind.bind, Except.bind]
  beta_reduce at hm
  obtain ⟨y, sq, hy, hsq, hsqh⟩ := mahalanobis_holds hCh hMh.1
  obtain ⟨u, hu, huh⟩ := plus_real (map_real ((((n + 1) * d : ℕ) : ℝ) * Real.log (2 * Real.pi) + ·) (map_real (-·) hlh)) hsqh.b0
  refine .inl ⟨_, _, ?_, map_real ((1 / 2 : ℝ) * ·) huh, fun b hb => ?_⟩
  · simp only [TSSM.normalizer, hb2, hb3, hl, hP, hC, hM, hy, hsq, hu, Bind.bind, Except.bind, Pure.pure, Except.pure]
  · simp only [SSM.normalizer, hp b hb, hc b hb, hm b hb, Bind.bind, Except.bind, Pure.pure, Except.pure]

end MF
