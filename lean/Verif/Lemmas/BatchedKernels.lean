import Verif.Lemmas.BatchedOps

/-!
# The kernels on tensors of any batch shape
-/

namespace MF
open Matrix Spec Tensor

variable {o d : ℕ} {u : List ℕ}

/-- `"...ij,j->...i"` (sde_kernel.py:475) -/
theorem einsum_matvec {m : ℕ} {x : Tensor} {X : List ℕ → Mat m d} (hx : HoldsMat u x X)
    {y : Tensor} {Y : List ℕ → Vec d} (hy : B1 u y Y) :
    ∃ w, einsum [(['j', 'i'], x), (['j'], y)] ['i'] = .ok w ∧ HoldsVec u w fun b => X b *ᵥ Y b := by
  have hx1 := hx.1
  have hx2 := BT.refl u
  have hx3 : ∀ b, InRange b u → ∀ (i : Fin m) (j : Fin d), x.val ((j : ℕ) :: (i : ℕ) :: bidx u b) = X b i j := fun b hb i j => by
    rw [bidx_self hb]
    exact hx.2 b hb i j
  obtain ⟨sy, hy1, hy2, hy3⟩ := hy
  have hl : ∃ dims, labelDims [(['j', 'i'], x.shape), (['j'], y.shape)] = .ok dims ∧
      dims 'i' = some m ∧ dims 'j' = some d := by
    refine ⟨_, by simp [hx1, hy1, labelDims, Bind.bind, Except.bind]; rfl, ?_⟩
    simp
  obtain ⟨dims, hl, ei, ej⟩ := hl
  have he : ellipsis [(['j', 'i'], x.shape), (['j'], y.shape)] = .ok u := by
    simp only [hx1, hy1, ellipsis, Bind.bind, Except.bind, List.length_cons, List.length_nil, List.drop, bshape_nil]
    obtain ⟨w1, hw1, hb1, hf1⟩ := bshape_bt hx2 hy2
    rw [hf1 (.inl rfl)] at hw1 hb1
    simp only [hw1]
  refine ⟨_, einsum_ok hl he (con := ['j']) (by simp only [List.flatMap_cons, List.flatMap_nil]; decide), ?_⟩
  refine ⟨by simp [ei], fun b hb i => ?_⟩
  dsimp only
  rw [sumLabels_cons ej]
  simp [sumLabels, assign, einsumTerm, hx1, hy1, hx3 b hb, hy3 b hb]
  rfl

/-- `"...ij,...jk->...ik"` (emission_model.py:187) -/
theorem einsum_compose {m e : ℕ} {x : Tensor} {X : List ℕ → Mat m e} (hx : HoldsMat u x X)
    {y : Tensor} {Y : List ℕ → Mat e d} (hy : HoldsMat u y Y) :
    ∃ w, einsum [(['j', 'i'], x), (['k', 'j'], y)] ['k', 'i'] = .ok w ∧ HoldsMat u w fun b => X b * Y b := by
  have hx1 := hx.1
  have hx2 := BT.refl u
  have hx3 : ∀ b, InRange b u → ∀ (i : Fin m) (j : Fin e), x.val ((j : ℕ) :: (i : ℕ) :: bidx u b) = X b i j := fun b hb i j => by
    rw [bidx_self hb]
    exact hx.2 b hb i j
  have hy1 := hy.1
  have hy2 := BT.refl u
  have hy3 : ∀ b, InRange b u → ∀ (i : Fin e) (j : Fin d), y.val ((j : ℕ) :: (i : ℕ) :: bidx u b) = Y b i j := fun b hb i j => by
    rw [bidx_self hb]
    exact hy.2 b hb i j
  have hl : ∃ dims, labelDims [(['j', 'i'], x.shape), (['k', 'j'], y.shape)] = .ok dims ∧
      dims 'i' = some m ∧ dims 'j' = some e ∧ dims 'k' = some d := by
    refine ⟨_, by simp [hx1, hy1, labelDims, Bind.bind, Except.bind]; rfl, ?_⟩
    simp
  obtain ⟨dims, hl, ei, ej, ek⟩ := hl
  have he : ellipsis [(['j', 'i'], x.shape), (['k', 'j'], y.shape)] = .ok u := by
    simp only [hx1, hy1, ellipsis, Bind.bind, Except.bind, List.length_cons, List.length_nil, List.drop, bshape_nil]
    obtain ⟨w1, hw1, hb1, hf1⟩ := bshape_bt hx2 hy2
    rw [hf1 (.inr rfl)] at hw1 hb1
    simp only [hw1]
  refine ⟨_, einsum_ok hl he (con := ['j']) (by simp only [List.flatMap_cons, List.flatMap_nil]; decide), ?_⟩
  refine ⟨by simp [ek, ei], fun b hb i j => ?_⟩
  dsimp only
  rw [sumLabels_cons ej]
  simp [sumLabels, assign, einsumTerm, hx1, hy1, hx3 b hb, hy3 b hb]
  rw [Matrix.mul_apply]

theorem tfShape_eq {x : Tensor} {s : List ℕ} (h : x.shape = s) : x.tfShape = s.reverse := by rw [tfShape, h]

theorem emission_ok {H : Tensor} {A : List ℕ → Mat o d} (hu : u ≠ []) (hH : HoldsMat u H A) : tensorEmission H = .ok H := by
  have : ¬ H.tfShape.length < 3 := by
    rw [tfShape2 hH.1]
    have := List.length_pos_of_ne_nil hu
    simp
    omega
  simp only [tensorEmission, Shapes.emissionInit, if_neg this, Bind.bind, Except.bind]
  rfl

theorem zipWith_mod_ones : ∀ (b : List ℕ) (m : ℕ), b.length = m → List.zipWith (fun k n => k % n) b (List.replicate m 1) = List.replicate m 0
  | [], 0, _ => rfl
  | i :: b, m + 1, h => by
    rw [List.replicate_succ, List.replicate_succ, List.zipWith_cons_cons, Nat.mod_one, zipWith_mod_ones b m (by simpa using h)]

theorem flat_zeros : ∀ m : ℕ, flat (List.replicate m 1) (List.replicate m 0) = 0
  | 0 => rfl
  | m + 1 => by simp only [List.replicate_succ, flat, flat_zeros m]

theorem zipWith_one_mul : ∀ u : List ℕ, List.zipWith (· * ·) (List.replicate u.length 1) u = u
  | [] => rfl
  | a :: u => by simp [List.replicate_succ, zipWith_one_mul u]

/-- `SDEKernel.generate_emission_model` -/
theorem sdeEmission_holds (o : ℕ) (hd : 0 < d) {t : Tensor} {f : List ℕ → ℝ} (hu : u ≠ []) (ht : HoldsReal u t f) :
    ∃ H, tensorSdeEmission o d t = .ok H ∧ HoldsMat u H fun _ => sdeEmission o d := by
  obtain ⟨d, rfl⟩ : ∃ k, d = k + 1 := ⟨d - 1, by omega⟩
  have hm : concat 0 (ones [1, o]) (zeros [d + 1 - 1, o]) =
      .ok ⟨[d + 1, o], fun i => if i.getD 0 0 < 1 then 1 else 0⟩ := by
    rw [concat, if_pos (by simp [ones, zeros, removeAt])]
    simp [ones, zeros, modifyAt, dim, add_comm]
  have hlen : (t.shape.drop 1).length + 1 = u.length := by
    have := List.length_pos_of_ne_nil hu
    rw [ht.1, List.length_drop]
    omega
  have hr : reshape ([d + 1, o] ++ List.replicate u.length 1) ⟨[d + 1, o], fun i => if i.getD 0 0 < 1 then (1 : ℝ) else 0⟩ =
      .ok ⟨[d + 1, o] ++ List.replicate u.length 1, fun i =>
        if (unflat [d + 1, o] (flat ([d + 1, o] ++ List.replicate u.length 1) i)).getD 0 0 < 1 then (1 : ℝ) else 0⟩ := by
    rw [reshape, if_pos (by simp)]
  set H : Tensor := ⟨(d + 1) :: o :: u, fun i =>
    if (unflat [d + 1, o] (flat ([d + 1, o] ++ List.replicate u.length 1)
      (List.zipWith (fun k n => k % n) i ([d + 1, o] ++ List.replicate u.length 1)))).getD 0 0 < 1 then (1 : ℝ) else 0⟩ with hH
  have htile : tile (1 :: 1 :: t.shape) ⟨[d + 1, o] ++ List.replicate u.length 1, fun i =>
      if (unflat [d + 1, o] (flat ([d + 1, o] ++ List.replicate u.length 1) i)).getD 0 0 < 1 then (1 : ℝ) else 0⟩ = .ok H := by
    rw [tile, if_pos (by simp [ht.1]), hH, ht.1]
    simp [zipWith_one_mul]
  have hh : HoldsMat u H fun _ => sdeEmission o (d + 1) := by
    refine ⟨rfl, fun b hb i j => ?_⟩
    have hz : List.zipWith (fun k n => k % n) ((j : ℕ) :: (i : ℕ) :: b) ([d + 1, o] ++ List.replicate u.length 1) =
        [(j : ℕ), (i : ℕ)] ++ List.replicate u.length 0 := by
      simp [zipWith_mod_ones b u.length (inRange_length hb), Nat.mod_eq_of_lt j.2, Nat.mod_eq_of_lt i.2]
    have hin : InRange [(j : ℕ), (i : ℕ)] [d + 1, o] := ⟨j.2, i.2, trivial⟩
    have e : flat ([d + 1, o] ++ List.replicate u.length 1) ([(j : ℕ), (i : ℕ)] ++ List.replicate u.length 0) = flat [d + 1, o] [(j : ℕ), (i : ℕ)] := by
      rw [flat_append hin, flat_zeros, mul_zero, add_zero]
    rw [hH]
    dsimp only
    rw [hz, e, unflat_flat hin]
    simp [sdeEmission]
  refine ⟨H, ?_, hh⟩
  simp only [tensorSdeEmission, hm, hlen, hr, htile, Bind.bind, Except.bind]
  exact emission_ok hu hh

theorem jitterMatrix_mat (d : ℕ) (j : ℝ) : HoldsMat [] (tensorJitterMatrix d j) fun _ => jitterMatrix d j :=
  (map_mat (· * j) (eye_mat d [])).congr fun _ _ => rfl

theorem broadcastTo_vec {x : Tensor} {v : Vec d} (hx : HoldsVec [] x fun _ => v) (u : List ℕ) :
    ∃ z, broadcastTo (x.shape ++ u) x = .ok z ∧ HoldsVec u z fun _ => v := by
  have hb : bshape [d] (d :: u) = .ok (d :: u) := bshape_left (BT.append [d] u)
  refine ⟨⟨d :: u, fun i => x.val (bidx [d] i)⟩, ?_, rfl, fun b hb i => ?_⟩
  · simp only [broadcastTo, hx.1, List.cons_append, List.nil_append, hb, Bind.bind, Except.bind, if_true]
    rfl
  · dsimp only
    rw [bidx_cons_fin]
    exact hx.2 [] trivial i

/-- The hypotheses of the methods of a kernel on times of shape `u` -/
theorem transitionStatistics_holds {A : Tensor → Tensor → Except Err Tensor} {P : Except Err Tensor} {jitter : ℝ}
    {A' : ℝ → ℝ → Mat d d} {P' : Mat d d}
    (hA : ∀ (u : List ℕ) (t δ : Tensor) (f g : List ℕ → ℝ), u ≠ [] → HoldsReal u t f → HoldsReal u δ g →
      ∃ a, A t δ = .ok a ∧ HoldsMat u a fun b => A' (f b) (g b))
    (hP : ∃ p, P = .ok p ∧ HoldsMat [] p fun _ => P')
    {t δ : Tensor} {f g : List ℕ → ℝ} (hu : u ≠ []) (ht : HoldsReal u t f) (hδ : HoldsReal u δ g) :
    ∃ a Q, tensorTransitionStatistics A P d jitter t δ = .ok (a, Q) ∧ HoldsMat u a (fun b => A' (f b) (g b)) ∧
      HoldsMat u Q fun b => statTransitionNoise A' P' jitter (f b) (g b) := by
  obtain ⟨a, ha, hah⟩ := hA u t δ f g hu ht hδ
  obtain ⟨p, rfl, hp⟩ := hP
  obtain ⟨x, hx, hxh⟩ := matmul_left hah (hp.const u)
  obtain ⟨y, hy, hyh⟩ := matmul_mat hxh (matT_mat hah)
  obtain ⟨z, hz, hzh⟩ := minus_mat' (hp.const u) hyh
  obtain ⟨w, hw, hwh⟩ := plus_mat hzh ((jitterMatrix_mat d jitter).const u)
  exact ⟨a, w, by simp only [tensorTransitionStatistics, ha, hx, hy, hz, hw, Bind.bind, Except.bind]; rfl, hah, hwh⟩

theorem stateOffsets_holds {A : Tensor → Tensor → Except Err Tensor} {A' : ℝ → ℝ → Mat d d} {m : Tensor} {m' : Vec d}
    (hA : ∀ (u : List ℕ) (t δ : Tensor) (f g : List ℕ → ℝ), u ≠ [] → HoldsReal u t f → HoldsReal u δ g →
      ∃ a, A t δ = .ok a ∧ HoldsMat u a fun b => A' (f b) (g b))
    (hm : HoldsVec [] m fun _ => m')
    {t δ : Tensor} {f g : List ℕ → ℝ} (hu : u ≠ []) (ht : HoldsReal u t f) (hδ : HoldsReal u δ g) :
    ∃ a, tensorStateOffsets A m d t δ = .ok a ∧ HoldsVec u a fun b => statOffsets A' m' (f b) (g b) := by
  obtain ⟨a, ha, hah⟩ := hA u t δ f g hu ht hδ
  obtain ⟨x, hx, hxh⟩ := minus_mat hah (eye_b2 d u)
  obtain ⟨y, hy, hyh⟩ := einsum_matvec (neg_mat hxh) (hm.const u)
  exact ⟨y, by simp only [tensorStateOffsets, ha, hx, hy, Bind.bind, Except.bind], hyh⟩

/-- The methods inherited from `StationaryKernel` -/
theorem base_holds {A : Tensor → Tensor → Except Err Tensor} {F P : Except Err Tensor} {jitter : ℝ} {m : Tensor} {H : Tensor → Except Err Tensor}
    {A' : ℝ → ℝ → Mat d d} {F' P' : Mat d d} {m' : Vec d} {H' : ℝ → Mat o d}
    (hA : ∀ (u : List ℕ) (t δ : Tensor) (f g : List ℕ → ℝ), u ≠ [] → HoldsReal u t f → HoldsReal u δ g →
      ∃ a, A t δ = .ok a ∧ HoldsMat u a fun b => A' (f b) (g b))
    (hF : ∃ p, F = .ok p ∧ HoldsMat [] p fun _ => F') (hP : ∃ p, P = .ok p ∧ HoldsMat [] p fun _ => P')
    (hm : HoldsVec [] m fun _ => m')
    (hH : ∀ (u : List ℕ) (t : Tensor) (f : List ℕ → ℝ), u ≠ [] → HoldsReal u t f → ∃ h, H t = .ok h ∧ HoldsMat u h fun b => H' (f b)) :
    HoldsKernel (TKernel.base o d A F P jitter m H) (Stationary.base A' F' P' jitter m' H') where
  outputDim := rfl
  stateDim := rfl
  jitter := rfl
  numKernels := rfl
  stateMean := hm
  feedback := hF
  Pinf := hP
  initialMean := fun batch => broadcastTo_vec hm batch
  stateTransitions := hA
  transitionStatistics := fun u t δ f g hu ht hδ => transitionStatistics_holds hA hP hu ht hδ
  processCov := fun u t δ f g hu ht hδ => by
    obtain ⟨a, Q, h, -, hQ⟩ := transitionStatistics_holds (jitter := jitter) hA hP hu ht hδ
    exact ⟨Q, by simp only [TKernel.base, h, Bind.bind, Except.bind]; rfl, hQ⟩
  stateOffsets := fun u t δ f g hu ht hδ => stateOffsets_holds hA hm hu ht hδ
  emission := hH

theorem setStateMean_holds {K : TKernel} {k : Stationary o d} (h : HoldsKernel K k) {m : Tensor} {m' : Vec d} (hm : HoldsVec [] m fun _ => m') :
    HoldsKernel (K.setStateMean m) (k.setStateMean m') where
  outputDim := h.outputDim
  stateDim := h.stateDim
  jitter := h.jitter
  numKernels := h.numKernels
  stateMean := hm
  feedback := h.feedback
  Pinf := h.Pinf
  initialMean := fun batch => broadcastTo_vec hm batch
  stateTransitions := h.stateTransitions
  transitionStatistics := h.transitionStatistics
  processCov := h.processCov
  stateOffsets := fun u t δ f g hu ht hδ => by
    have := stateOffsets_holds h.stateTransitions hm hu ht hδ
    simp only [TKernel.setStateMean, h.stateDim]
    exact this
  emission := h.emission

theorem zeros_vec (d : ℕ) : HoldsVec [] (zeros [d]) fun _ => (0 : Vec d) := ⟨rfl, fun _ _ _ => rfl⟩

theorem checked_ok {δ : Tensor} {g : List ℕ → ℝ} {a : Tensor} {A : List ℕ → Mat d d} (hu : u ≠ []) (hδ : HoldsReal u δ g) (ha : HoldsMat u a A)
    {X : Except Err Tensor} (hX : X = .ok a) : checkedTransitions d δ X = .ok a := by
  have : ¬ δ.shape.length < 1 := by
    have := List.length_pos_of_ne_nil hu
    rw [hδ.1]
    omega
  subst hX
  have e : Shapes.assertEqual a.tfShape (δ.tfShape ++ [d, d]) = .ok () := by
    rw [tfShape2 ha.1, tfShape_eq hδ.1]
    exact assertEqual_self _
  simp only [checkedTransitions, if_neg this, e, Bind.bind, Except.bind]
  rfl

theorem kernelInit_same {K : TKernel} {k : Stationary o d} (jitter : ℝ) (ps : List ℝ) (h : HoldsKernel K k) :
    SameKernel (tensorKernelInit jitter ps K) (kernelInit jitter ps k) := by
  unfold tensorKernelInit kernelInit
  by_cases h1 : ¬ 0 ≤ jitter
  · exact .inr ⟨_, if_pos h1, if_pos h1⟩
  · by_cases h2 : ∃ p ∈ ps, p ≤ 0
    · exact .inr ⟨_, by rw [if_neg h1, if_pos h2], by rw [if_neg h1, if_pos h2]⟩
    · exact .inl ⟨_, _, by rw [if_neg h1, if_neg h2], by rw [if_neg h1, if_neg h2], h⟩

theorem matern12_holds (o : ℕ) (lengthscale variance jitter : ℝ) :
    SameKernel (tensorMatern12 o lengthscale variance jitter) (matern12 o lengthscale variance jitter) := by
  refine kernelInit_same _ _ (base_holds (fun u t δ f g hu ht hδ => ?_) ⟨_, rfl, ofRows_mat _⟩ ⟨_, rfl, ofRows_mat _⟩ (zeros_vec 1)
    fun u t f hu ht => sdeEmission_holds o one_pos hu ht)
  have h := expand2_mat (map_real Real.exp (map_real (fun v => -v / lengthscale) hδ))
  exact ⟨_, checked_ok hu hδ h rfl, h⟩

theorem ou_holds (o : ℕ) (decay diffusion jitter : ℝ) :
    SameKernel (tensorOrnsteinUhlenbeck o decay diffusion jitter) (ornsteinUhlenbeck o decay diffusion jitter) := by
  refine kernelInit_same _ _ (base_holds (fun u t δ f g hu ht hδ => ?_) ⟨_, rfl, ofRows_mat _⟩ ⟨_, rfl, ofRows_mat _⟩ (zeros_vec 1)
    fun u t f hu ht => sdeEmission_holds o one_pos hu ht)
  have h := expand2_mat (map_real Real.exp (map_real (fun v => -v * decay) hδ))
  exact ⟨_, checked_ok hu hδ h rfl, h⟩

theorem exp_scalar {δ : Tensor} {g : List ℕ → ℝ} (lam : ℝ) (hδ : HoldsReal u δ g) {s : Tensor} {A : List ℕ → Mat d d} (hs : HoldsMat u s A) :
    ∃ z, times (((expand2 δ).map (-lam * ·)).map Real.exp) s = .ok z ∧ HoldsMat u z fun b => Real.exp (-lam * g b) • A b :=
  times_scalar_full hs (map_real Real.exp (map_real (-lam * ·) hδ))

theorem matern32_holds (o : ℕ) (lengthscale variance jitter : ℝ) :
    SameKernel (tensorMatern32 o lengthscale variance jitter) (matern32 o lengthscale variance jitter) := by
  refine kernelInit_same _ _ (base_holds (fun u t δ f g hu ht hδ => ?_) ⟨_, rfl, ofRows_mat _⟩ ⟨_, rfl, smul_mat _ (ofRows_mat _)⟩ (zeros_vec 2)
    fun u t f hu ht => sdeEmission_holds o two_pos hu ht)
  obtain ⟨F, hF, hFh⟩ := plus_mat (ofRows_mat (feedback32 (Real.sqrt 3 / lengthscale))) (smul_mat (Real.sqrt 3 / lengthscale) (eye_mat 2 [])).b2
  obtain ⟨x, hx, hxh⟩ := times_scalar hFh hδ
  obtain ⟨y, hy, hyh⟩ := plus_mat' (eye_b2 2 u) hxh
  obtain ⟨z, hz, hzh⟩ := exp_scalar (Real.sqrt 3 / lengthscale) hδ hyh
  refine ⟨z, checked_ok hu hδ hzh ?_, hzh⟩
  simp only [hF, hx, hy, hz, Bind.bind, Except.bind]

theorem matern52_holds (o : ℕ) (lengthscale variance jitter : ℝ) :
    SameKernel (tensorMatern52 o lengthscale variance jitter) (matern52 o lengthscale variance jitter) := by
  refine kernelInit_same _ _ (base_holds (fun u t δ f g hu ht hδ => ?_) ⟨_, rfl, ofRows_mat _⟩ ⟨_, rfl, smul_mat _ (ofRows_mat _)⟩ (zeros_vec 3)
    fun u t f hu ht => sdeEmission_holds o three_pos hu ht)
  obtain ⟨F, hF, hFh⟩ := plus_mat (ofRows_mat (feedback52 (Real.sqrt 5 / lengthscale))) (smul_mat (Real.sqrt 5 / lengthscale) (eye_mat 3 [])).b2
  obtain ⟨x, hx, hxh⟩ := times_scalar hFh hδ
  obtain ⟨y, hy, hyh⟩ := plus_mat' (eye_b2 3 u) hxh
  obtain ⟨q, hq, hqh⟩ := matmul_mat hxh hxh
  have hq2 := (map_mat (· / 2) hqh).congr (g := fun b => (1 / 2 : ℝ) • (g b • (feedback52 (Real.sqrt 5 / lengthscale) +
    (Real.sqrt 5 / lengthscale) • (1 : Mat 3 3)) * g b • (feedback52 (Real.sqrt 5 / lengthscale) +
    (Real.sqrt 5 / lengthscale) • (1 : Mat 3 3)))) fun b _ => by
      ext i j
      rw [Matrix.map_apply, Matrix.smul_apply, smul_eq_mul]
      ring
  obtain ⟨w, hw, hwh⟩ := plus_mat hyh hq2.b2
  obtain ⟨z, hz, hzh⟩ := exp_scalar (Real.sqrt 5 / lengthscale) hδ hwh
  refine ⟨z, checked_ok hu hδ hzh ?_, hzh⟩
  simp only [hF, hx, hy, hq, hw, hz, Bind.bind, Except.bind]

theorem harmonic_holds (o : ℕ) (variance period jitter : ℝ) :
    SameKernel (tensorHarmonicOscillator o variance period jitter) (harmonicOscillator o variance period jitter) := by
  have hb := base_holds (o := o) (jitter := jitter) (H := tensorSdeEmission o 2) (H' := fun _ => sdeEmission o 2) (A := fun _ δ => tensorHarmonicTransitions (2 * Real.pi / period) δ)
    (A' := fun _ δ => !![Real.cos (δ * (2 * Real.pi / period)), -Real.sin (δ * (2 * Real.pi / period));
      Real.sin (δ * (2 * Real.pi / period)), Real.cos (δ * (2 * Real.pi / period))])
    (fun u t δ f g hu ht hδ => by
      have hc := expand2_mat (map_real Real.cos (map_real (· * (2 * Real.pi / period)) hδ))
      have hs := expand2_mat (map_real Real.sin (map_real (· * (2 * Real.pi / period)) hδ))
      obtain ⟨r1, h1, hr1⟩ := concat_cols hc (neg_mat hs)
      obtain ⟨r2, h2, hr2⟩ := concat_cols hs hc
      obtain ⟨z, hz, hzh⟩ := concat_rows hr1 hr2
      have hz' : HoldsMat (r := 2) (c := 2) u z fun b => !![Real.cos (g b * (2 * Real.pi / period)), -Real.sin (g b * (2 * Real.pi / period));
          Real.sin (g b * (2 * Real.pi / period)), Real.cos (g b * (2 * Real.pi / period))] := by
        refine hzh.congr fun b _ => ?_
        ext i j
        fin_cases i <;> fin_cases j <;> rfl
      refine ⟨z, checked_ok hu hδ hz' ?_, hz'⟩
      have e1 : concat 0 (((expand2 δ).map (· * (2 * Real.pi / period))).map Real.cos)
          ((((expand2 δ).map (· * (2 * Real.pi / period))).map Real.sin).map (-·)) = .ok r1 := h1
      have e2 : concat 0 (((expand2 δ).map (· * (2 * Real.pi / period))).map Real.sin)
          (((expand2 δ).map (· * (2 * Real.pi / period))).map Real.cos) = .ok r2 := h2
      simp only [e1, e2, hz, Bind.bind, Except.bind])
    ⟨_, rfl, ofRows_mat !![0, -(2 * Real.pi / period); 2 * Real.pi / period, 0]⟩ ⟨_, rfl, smul_mat variance (eye_mat 2 [])⟩ (zeros_vec 2)
    fun u t f hu ht => sdeEmission_holds o two_pos hu ht
  refine kernelInit_same _ _ { hb with processCov := fun u t δ f g hu ht hδ => ?_ }
  obtain ⟨z, hz, hzh⟩ := plus_mat (zeros_mat 2 2 u) ((jitterMatrix_mat 2 jitter).const u)
  refine ⟨z, ?_, hzh.congr fun b _ => zero_add _⟩
  show plus (zeros (2 :: 2 :: δ.shape)) (tensorJitterMatrix 2 jitter) = _
  rw [hδ.1, hz]

theorem constantTransitions_ok {δ : Tensor} {g : List ℕ → ℝ} (hu : u ≠ []) (hδ : HoldsReal u δ g) :
    ∃ a, tensorConstantTransitions δ = .ok a ∧ HoldsMat u a fun _ => !![1] := by
  have : ¬ u.length < 1 := by
    have := List.length_pos_of_ne_nil hu
    omega
  refine ⟨ones (1 :: 1 :: u), by simp only [tensorConstantTransitions, hδ.1, if_neg this, Bind.bind, Except.bind]; rfl, ?_⟩
  exact (ones_mat 1 1 u).congr fun b _ => by ext i j; fin_cases i; fin_cases j; rfl

theorem constantProcessCov_ok {δ : Tensor} {g : List ℕ → ℝ} (jitter : ℝ) (hδ : HoldsReal u δ g) :
    ∃ a, tensorConstantProcessCov jitter δ = .ok a ∧ HoldsMat u a fun _ => 0 + jitterMatrix 1 jitter := by
  obtain ⟨z, hz, hzh⟩ := plus_mat (zeros_mat 1 1 u) ((jitterMatrix_mat 1 jitter).const u)
  exact ⟨z, by rw [tensorConstantProcessCov, expand2_shape hδ, hz], hzh⟩

theorem constant_holds (o : ℕ) (variance jitter : ℝ) : SameKernel (tensorConstant o variance jitter) (constant o variance jitter) := by
  have hb := base_holds (o := o) (jitter := jitter) (H := tensorSdeEmission o 1) (H' := fun _ => sdeEmission o 1) (A := fun _ δ => tensorConstantTransitions δ) (A' := fun _ _ => !![1])
    (fun u t δ f g hu ht hδ => constantTransitions_ok hu hδ) ⟨_, rfl, zeros_mat 1 1 []⟩ ⟨_, rfl, ofRows_mat !![1 * variance]⟩ (zeros_vec 1)
    fun u t f hu ht => sdeEmission_holds o one_pos hu ht
  refine kernelInit_same _ _ { hb with
    processCov := fun u t δ f g hu ht hδ => constantProcessCov_ok jitter hδ
    transitionStatistics := fun u t δ f g hu ht hδ => ?_ }
  obtain ⟨a, ha, hah⟩ := constantTransitions_ok hu hδ
  obtain ⟨q, hq, hqh⟩ := constantProcessCov_ok jitter hδ
  exact ⟨a, q, by simp only [ha, hq, Bind.bind, Except.bind]; rfl, hah, hqh⟩

theorem legFeedback_holds {N R : Tensor} {N' R' : Mat d d} (hN : HoldsMat [] N fun _ => N') (hR : HoldsMat [] R fun _ => R') :
    ∃ F, tensorLegFeedback N R = .ok F ∧ HoldsMat [] F fun _ => legFeedback N' R' := by
  obtain ⟨x, hx, hxh⟩ := matmul_mat hN (matT_mat hN)
  obtain ⟨y, hy, hyh⟩ := plus_mat hxh hR.b2
  obtain ⟨z, hz, hzh⟩ := minus_mat hyh (matT_mat hR).b2
  refine ⟨_, by simp only [tensorLegFeedback, hx, hy, hz, Bind.bind, Except.bind]; rfl, ?_⟩
  refine (map_mat (· / 2) (neg_mat hzh)).congr fun b _ => ?_
  ext i j
  simp only [legFeedback, Matrix.map_apply, Matrix.smul_apply, smul_eq_mul]
  ring

theorem legTransitions_holds {N R : Tensor} {N' R' : Mat d d} (hN : HoldsMat [] N fun _ => N') (hR : HoldsMat [] R fun _ => R')
    {δ : Tensor} {g : List ℕ → ℝ} (hu : u ≠ []) (hδ : HoldsReal u δ g) :
    ∃ a, tensorLegTransitions d N R δ = .ok a ∧ HoldsMat u a fun b => NormedSpace.exp (g b • legFeedback N' R') := by
  obtain ⟨F, hF, hFh⟩ := legFeedback_holds hN hR
  obtain ⟨x, hx, hxh⟩ := times_scalar' hFh hδ
  obtain ⟨z, hz, hzh⟩ := expm_mat hxh
  exact ⟨z, checked_ok hu hδ hzh (by simp only [hF, hx, hz, Bind.bind, Except.bind]), hzh⟩

theorem legInit_ok {N R : Tensor} {N' R' : Mat d d} (hN : HoldsMat [] N fun _ => N') (hR : HoldsMat [] R fun _ => R') :
    Shapes.legInit N.tfShape R.tfShape = .ok d := by
  rw [tfShape2 hN.1, tfShape2 hR.1]
  exact (C42_leg _ _ d).2 ⟨rfl, rfl⟩

theorem leg_holds (hd : 0 < d) {N R : Tensor} {N' R' : Mat d d} (jitter : ℝ) (hN : HoldsMat [] N fun _ => N') (hR : HoldsMat [] R fun _ => R') :
    SameKernel (tensorLeg N R jitter) (leg N' R' jitter) := by
  have hb := base_holds (o := d) (jitter := jitter) (H := tensorSdeEmission d d) (H' := fun _ => sdeEmission d d) (A := fun _ δ => tensorLegTransitions d N R δ)
    (A' := fun _ δ => NormedSpace.exp (δ • legFeedback N' R')) (fun u t δ f g hu ht hδ => legTransitions_holds hN hR hu hδ)
    (legFeedback_holds hN hR) ⟨_, rfl, eye_mat d []⟩ (zeros_vec d) fun u t f hu ht => sdeEmission_holds d hd hu ht
  have e : tensorLeg N R jitter = tensorKernelInit jitter [] { TKernel.base d d (fun _ δ => tensorLegTransitions d N R δ) (tensorLegFeedback N R)
        (.ok (eye d [])) jitter (zeros [d]) (tensorSdeEmission d d) with
      processCov := fun _ δ => do
        let A ← tensorLegTransitions d N R δ
        let aa ← matmul A A.matT
        minus (eye d []) aa } := by
    simp only [tensorLeg, legInit_ok hN hR, Bind.bind, Except.bind]
  rw [e]
  refine kernelInit_same _ _ { hb with processCov := fun u t δ f g hu ht hδ => ?_ }
  obtain ⟨a, ha, hah⟩ := legTransitions_holds hN hR hu hδ
  obtain ⟨x, hx, hxh⟩ := matmul_mat hah (matT_mat hah)
  obtain ⟨z, hz, hzh⟩ := minus_mat' (eye_b2 d u) hxh
  exact ⟨z, by simp only [ha, hx, hz, Bind.bind, Except.bind], hzh⟩

end MF
