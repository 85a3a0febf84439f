import Verif.Lemmas.BatchedPiecewise3

/-!
# Piecewise kernels on tensors: transition statistics and the state space model
-/

namespace MF
open Matrix Spec Tensor

variable {o d p m n : ℕ} {K : TPiecewise} {k : Piecewise o d} (h : HoldsPiecewise K k) {t δ : Tensor} {times deltas : List ℝ} (inf : ℝ)
include h

theorem pw_steady_holds (ht : HoldsReals [] t times) : Agree (fun z l => HoldsSeq [d, d] encMat z l ∧ l.length = times.length)
    (K.steadyStateCovariances inf t) (k.steadyStateCovariances inf times) :=
  gather_holds h inf (fun _ _ hk => hk.Pinf.imp fun _ hz => ⟨hz.1, holdsMat_one hz.2⟩) ht

theorem pw_feedback_holds (ht : HoldsReals [] t times) : Agree (fun z l => HoldsSeq [d, d] encMat z l ∧ l.length = times.length)
    (K.feedbackMatrices inf t) (k.feedbackMatrices inf times) :=
  gather_holds h inf (fun _ _ hk => hk.feedback.imp fun _ hz => ⟨hz.1, holdsMat_one hz.2⟩) ht

theorem pw_stateMeans_holds (ht : HoldsReals [] t times) : Agree (fun z l => HoldsSeq [d] encVec z l ∧ l.length = times.length)
    (K.stateMeans inf t) (k.stateMeans inf times) :=
  gather_holds h inf (fun K' _ hk => ⟨K'.stateMean, rfl, holdsVec_one hk.stateMean⟩) ht

theorem pw_transitionStatistics_holds (ht : HoldsReals [] t times) (hδ : HoldsReals [] δ deltas) :
    Agree (fun z l => HoldsSeq [d, d] encMat z.1 l.1 ∧ HoldsSeq [d, d] encMat z.2 l.2 ∧ l.1.length = times.length ∧ l.2.length = times.length)
      (K.transitionStatistics inf t δ) (k.transitionStatistics inf times deltas) := by
  rcases pw_stateTransitions_holds (m := 0) h inf ht hδ with ⟨A, as, h1, h2, h3, h4⟩ | ⟨e, h1, h2⟩
  swap
  · exact .inr ⟨e, by simp only [TPiecewise.transitionStatistics, h1, Bind.bind, Except.bind],
      by simp only [Piecewise.transitionStatistics, h2, Bind.bind, Except.bind]⟩
  rcases pw_steady_holds h inf ht with ⟨P, ps, g1, g2, g3, g4⟩ | ⟨e, g1, g2⟩
  swap
  · exact .inr ⟨e, by simp only [TPiecewise.transitionStatistics, h1, g1, Bind.bind, Except.bind],
      by simp only [Piecewise.transitionStatistics, h2, g2, Bind.bind, Except.bind]⟩
  have hA := mat_of_seq h3
  have hlen : ps.length = as.length := by omega
  have hP := mat_of_seq g3
  rw [show [ps.length] = [as.length] by rw [hlen]] at hP
  obtain ⟨x1, e1, f1⟩ := matmul_mat hA hP
  obtain ⟨x2, e2, f2⟩ := matmul_mat f1 (matT_mat hA)
  obtain ⟨x3, e3, f3⟩ := minus_mat hP f2.b2
  obtain ⟨x4, e4, f4⟩ := plus_mat f3 ((jitterMatrix_mat d K.jitter).const _)
  have hs := h.stateDim
  refine .inl ⟨(A, x4), (as, _), ?_, by simp only [Piecewise.transitionStatistics, h2, g2, Bind.bind, Except.bind]; rfl, h3, ?_, h4, by simp [h4, g4]⟩
  · simp only [TPiecewise.transitionStatistics, h1, g1, e1, e2, e3, hs, e4, Bind.bind, Except.bind]
    rfl
  · refine seq_of_mat (by simp [hlen]) f4 fun q hq => ?_
    have hq' : q < as.length := by simp at hq; omega
    have hq2 : q < ps.length := by omega
    have a1 := lift_fin (fun _ : List ℕ => as.get) ⟨q, hq'⟩ []
    have a2 := lift_fin (fun _ : List ℕ => ps.get) ⟨q, hq2⟩ []
    dsimp only at a1 a2 ⊢
    simp only [List.getElem_zipWith]
    simp only [List.get_eq_getElem] at a1 a2
    rw [← a1, ← a2, h.jitter]

theorem pw_initialCovariance_holds {t0 : ℝ} (ht : HoldsReals [] t [t0]) :
    Agree (fun z P => HoldsMat [] z fun _ => P) (K.initialCovariance inf t) (k.initialCovariance inf t0) := by
  rcases pw_steady_holds h inf ht with ⟨P, ps, g1, g2, g3, g4⟩ | ⟨e, g1, g2⟩
  swap
  · exact .inr ⟨e, by simp only [TPiecewise.initialCovariance, g1, Bind.bind, Except.bind],
      by simp only [Piecewise.initialCovariance, g2, Bind.bind, Except.bind]⟩
  obtain ⟨M, rfl⟩ := List.length_eq_one_iff.1 g4
  have hsh : P.shape = [d, d, 1] := g3.1
  have hpos : 0 < P.dim (P.shape.length - 1) := by rw [dim, hsh]; simp
  refine .inl ⟨index 2 0 P, M, ?_, by simp only [Piecewise.initialCovariance, g2, List.head?_cons, Option.elim, Bind.bind, Except.bind],
    by simp [index, hsh, removeAt], fun b hb i j => ?_⟩
  · simp only [TPiecewise.initialCovariance, g1, Bind.bind, Except.bind, if_pos hpos]
    simp only [hsh, List.length_cons, List.length_nil]
    rfl
  · have hb' : b = [] := by simpa using inRange_length hb
    subst hb'
    have := (holdsMatrices_iff.2 g3).2 [] trivial ⟨0, by simp⟩ i j
    simpa [index, insertAt] using this

theorem pw_stateSpaceModel_holds {ts : Fin (n + 1) → ℝ} (ht : HoldsTimes [] t fun _ => ts) :
    Elementwise [] (HoldsSSM []) (K.stateSpaceModel inf t) fun _ => k.stateSpaceModel inf ts := by
  rcases toDelta_holds ht with ⟨δ, δ', hδ, hδh, hδ'⟩ | ⟨e, hδ, b, hb, he⟩
  swap
  · refine .inr ⟨e, ?_, b, hb, ?_⟩
    · simp only [TPiecewise.stateSpaceModel, hδ, Bind.bind, Except.bind]
    · beta_reduce at he
      simp only [Piecewise.stateSpaceModel, he, Bind.bind, Except.bind]
  have hδ'' := hδ' [] trivial
  beta_reduce at hδ''
  have hbs : t.shape.drop 1 = [] := by rw [ht.1]; rfl
  have toReals : ∀ {n : ℕ} {x : Tensor} {f : List ℕ → Fin n → ℝ}, HoldsVec [] x f → HoldsReals [] x (List.ofFn (f [])) := by
    intro n x f hx
    refine ⟨by rw [hx.1]; simp, fun b hb i => ?_⟩
    have hb' : b = [] := by simpa using inRange_length hb
    subst hb'
    have := hx.2 [] trivial (i.cast (by simp))
    simp only [Fin.val_cast] at this
    simp only [this, List.get_ofFn]
  have hs := toReals (sliceDrop_vec ht)
  have hd := toReals hδh
  have h0 : HoldsReals [] (sliceTo 0 1 t) [ts 0] := by simpa using toReals (sliceTo_vec ht)
  rcases pw_transitionStatistics_holds h inf hs hd with ⟨⟨A, Q⟩, ⟨as, qs⟩, h1, h2, h3, h4, h5, h6⟩ | ⟨e, h1, h2⟩
  swap
  · refine .inr ⟨e, ?_, [], trivial, ?_⟩
    · simp only [TPiecewise.stateSpaceModel, hδ, h1, Bind.bind, Except.bind]
    · simp only [Piecewise.stateSpaceModel, hδ'', h2, Bind.bind, Except.bind]
  rcases pw_initialCovariance_holds h inf h0 with ⟨P0, p0, g1, g2, g3⟩ | ⟨e, g1, g2⟩
  swap
  · refine .inr ⟨e, ?_, [], trivial, ?_⟩
    · simp only [TPiecewise.stateSpaceModel, hδ, h1, g1, Bind.bind, Except.bind]
    · simp only [Piecewise.stateSpaceModel, hδ'', h2, g2, Bind.bind, Except.bind]
  rcases pw_stateOffsets_holds (m := 0) h inf hs hd with ⟨b, bs, f1, f2, f3, f4⟩ | ⟨e, f1, f2⟩
  swap
  · refine .inr ⟨e, ?_, [], trivial, ?_⟩
    · simp only [TPiecewise.stateSpaceModel, hδ, h1, g1, f1, Bind.bind, Except.bind]
    · simp only [Piecewise.stateSpaceModel, hδ'', h2, g2, f2, Bind.bind, Except.bind]
  simp only [List.length_ofFn] at h5 h6 f4
  have e1 : K.stateSpaceModel inf t = tensorSSMFromCovariances (zeros [d]) P0 A b Q := by
    simp only [TPiecewise.stateSpaceModel, hδ, h1, g1, f1, hbs, h.stateDim, Bind.bind, Except.bind]
  have e2 : k.stateSpaceModel inf ts = ssmFromCovariances 0 p0 (fun i => as.get (i.cast h5.symm)) (fun i => bs.get (i.cast f4.symm))
      fun i => qs.get (i.cast h6.symm) := by
    simp only [Piecewise.stateSpaceModel, hδ'', h2, g2, f2, Piecewise.toFin, dif_pos h5, dif_pos h6, dif_pos f4, Bind.bind, Except.bind]
  have toMats : ∀ {z : Tensor} {l : List (Mat d d)} (hl : l.length = n), HoldsSeq [d, d] encMat z l →
      HoldsMats [] z fun _ (i : Fin n) => l.get (i.cast hl.symm) := by
    rintro z l rfl hz
    exact holdsMatrices_iff.2 hz
  have toVecs : ∀ {z : Tensor} {l : List (Vec d)} (hl : l.length = n), HoldsSeq [d] encVec z l →
      HoldsVecs [] z fun _ (i : Fin n) => l.get (i.cast hl.symm) := by
    rintro z l rfl hz
    exact holdsVectors_iff.2 hz
  rw [e1]
  simp only [e2]
  exact fromCovariances_holds (by simp) ⟨rfl, fun _ _ _ => rfl⟩ g3 (toMats h5 h3) (toVecs f4 f3) (toMats h6 h4)

end MF
