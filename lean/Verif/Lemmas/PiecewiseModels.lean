import Verif.Lemmas.PiecewiseProcess
import Verif.Lemmas.Predict
import Verif.Lemmas.GPR
import Verif.Model.PiecewiseModels
import Verif.Props.Piecewise

/-! # Models over a piecewise kernel -/

namespace MF
open Matrix Spec MeasureTheory ProbabilityTheory
variable {n d o p m : ℕ}

/-- `transition_statistics` of the kernel active at the start of the transition. -/
noncomputable def pwTrans (ker : Fin (m + 1) → Stationary o d) (cp : Fin m → ℝ) (j : ℝ) : TransFn d := fun t δ =>
  ((ker (segment cp t)).stateTransitions t δ,
    (ker (segment cp t)).Pinf - (ker (segment cp t)).stateTransitions t δ * (ker (segment cp t)).Pinf *
      ((ker (segment cp t)).stateTransitions t δ)ᵀ + jitterMatrix d j)

section cond
variable (ker : Fin (m + 1) → Stationary o d) (cp : Fin m → ℝ) {j : ℝ} {K : Piecewise o d}

theorem searchsortedLeft_mono (ts : Fin n → ℝ) : Monotone (searchsortedLeft ts) := by
  classical
  intro s t h
  show (Finset.univ.filter fun j => ts j < s).card ≤ (Finset.univ.filter fun j => ts j < t).card
  refine Finset.card_le_card fun i hi => ?_
  rw [Finset.mem_filter] at hi ⊢
  exact ⟨hi.1, hi.2.trans_le h⟩

theorem toFin_map {α : Type} (f : ℝ → α) (a : Fin n → ℝ) :
    Piecewise.toFin n ((List.ofFn a).map f) = .ok fun i => f (a i) := by
  unfold Piecewise.toFin
  rw [dif_pos (by simp)]
  congr 1
  funext i
  simp

/-- For sorted queries the list-valued code is the pointwise one with the kernel active at the start. -/
theorem pw_conditionalStatisticsAux (hK : Piecewise.init (List.ofFn ker) (List.ofFn cp) j = .ok K) (hm : 0 < m)
    {ts : Fin (n + 1) → ℝ} (hts : Monotone ts) (h0 : -approxInf ≤ ts 0) (h1 : ts (Fin.last n) < approxInf)
    {new : Fin p → ℝ} (hnew : Monotone new) (hn0 : ∀ q, -approxInf ≤ new q) (hn1 : ∀ q, new q < approxInf) :
    K.conditionalStatisticsAux approxInf new ts = conditionalStatisticsAux approxInf new ts (pwTrans ker cp j) := by
  have haug := augmentedTimes_mono hts h0 h1.le
  have hmin : Monotone fun q => augmentedTimes approxInf ts (searchsortedLeft ts (new q)).castSucc :=
    fun a b hab => haug (Fin.castSucc_le_castSucc_iff.2 (searchsortedLeft_mono ts (hnew hab)))
  have hmlt : ∀ i : Fin (n + 2), augmentedTimes approxInf ts i.castSucc < approxInf := by
    intro i
    refine Fin.cases ?_ (fun i => ?_) i
    · show -approxInf < approxInf
      unfold approxInf; norm_num
    · rw [← Fin.succ_castSucc, augmentedTimes_mid]
      exact (hts (Fin.le_last i)).trans_lt h1
  have hmge : ∀ i : Fin (n + 3), -approxInf ≤ augmentedTimes approxInf ts i := fun i => haug (Fin.zero_le i)
  have s1 := (C30_sorted_times ker cp hK hm
    (ts := List.ofFn fun q => augmentedTimes approxInf ts (searchsortedLeft ts (new q)).castSucc)
    (δs := List.ofFn fun q => new q - augmentedTimes approxInf ts (searchsortedLeft ts (new q)).castSucc)
    (by simp) (by rw [List.pairwise_ofFn]; intro a b hab; exact hmin hab.le)
    (by
      intro t ht
      obtain ⟨i, rfl⟩ := (List.mem_ofFn' _ _).1 ht
      exact ⟨hmge _, hmlt _⟩)).2.2.2
  have s2 := (C30_sorted_times ker cp hK hm (ts := List.ofFn new)
    (δs := List.ofFn fun q => augmentedTimes approxInf ts (searchsortedLeft ts (new q)).succ - new q)
    (by simp) (by rw [List.pairwise_ofFn]; intro a b hab; exact hnew hab.le)
    (by
      intro t ht
      obtain ⟨i, rfl⟩ := (List.mem_ofFn' _ _).1 ht
      exact ⟨hn0 _, hn1 _⟩)).2.2.2
  unfold Piecewise.conditionalStatisticsAux conditionalStatisticsAux
  simp only [s1, s2, bind, Except.bind, toFin_zipWith]
  rfl

theorem pw_emissions (hK : Piecewise.init (List.ofFn ker) (List.ofFn cp) j = .ok K) (hm : 0 < m)
    {new : Fin p → ℝ} (hnew : Monotone new) (hn0 : ∀ q, -approxInf ≤ new q) (hn1 : ∀ q, new q < approxInf) :
    K.emissions approxInf (List.ofFn new) =
      .ok ((List.ofFn new).map fun t => (ker (segment cp t)).emission t) :=
  (C30_sorted_times ker cp hK hm (ts := List.ofFn new) (δs := List.ofFn new) rfl
    (by rw [List.pairwise_ofFn]; intro a b hab; exact hnew hab.le)
    (by
      intro t ht
      obtain ⟨i, rfl⟩ := (List.mem_ofFn' _ _).1 ht
      exact ⟨hn0 _, hn1 _⟩)).2.2.1

theorem pw_initialCovarianceAtFirst (hK : Piecewise.init (List.ofFn ker) (List.ofFn cp) j = .ok K) (hm : 0 < m)
    {new : Fin (p + 1) → ℝ} (hn0 : -approxInf ≤ new 0) (hn1 : new 0 < approxInf) :
    K.initialCovarianceAtFirst approxInf new = .ok (ker (segment cp (new 0))).Pinf := by
  unfold Piecewise.initialCovarianceAtFirst
  have e : (List.ofFn new).take 1 = [new 0] := by rw [List.ofFn_succ]; rfl
  rw [e, (C30_any_order ker cp hK hm (ts := [new 0]) (by simpa using ⟨hn0, hn1⟩)).1]
  rfl

/-- The value of `predict_state`, for sorted queries. -/
theorem pw_predictState {c : PWProcess n o d} (hK : Piecewise.init (List.ofFn ker) (List.ofFn cp) j = .ok c.kernel)
    (hm : 0 < m) (hq : c.q.Nondegenerate) (hn : 0 < n) (hd : 0 < d) (hts : Monotone c.times)
    (h0 : -approxInf ≤ c.times 0) (h1 : c.times (Fin.last n) < approxInf)
    {new : Fin (p + 1) → ℝ} (hnew : Monotone new) (hn0 : ∀ q, -approxInf ≤ new q) (hn1 : ∀ q, new q < approxInf)
    {cs : Fin (p + 1) → CondStats d}
    (hcs : ∀ q, CodeStats approxInf c.times (pwTrans ker cp j) (new q) (cs q)) :
    ∃ mu : Fin (n + 3) → Vec d, ∃ C : Fin (n + 3) → Mat d d, ∃ S : Fin (n + 2) → Mat d d,
      mu = Fin.cons 0 (Fin.snoc (α := fun _ => Vec d) c.q.mus 0) ∧
      C = Fin.cons (ker (segment cp (new 0))).Pinf (Fin.snoc (α := fun _ => Mat d d)
        (fun k => blk c.q.Kd k k) (ker (segment cp (new 0))).Pinf) ∧
      S = Fin.cons 0 (Fin.snoc (α := fun _ => Mat d d)
        (fun k : Fin n => blk c.q.Kd k.succ k.castSucc) 0) ∧
      c.predictState new = .ok fun j => ((cs j).D *ᵥ mu (searchsortedLeft c.times (new j)).castSucc +
          (cs j).E *ᵥ mu (searchsortedLeft c.times (new j)).succ,
        (cs j).T + fromCols (cs j).D (cs j).E *
          fromBlocks (C (searchsortedLeft c.times (new j)).castSucc)
            (S (searchsortedLeft c.times (new j)))ᵀ (S (searchsortedLeft c.times (new j)))
            (C (searchsortedLeft c.times (new j)).succ) * (fromCols (cs j).D (cs j).E)ᵀ) := by
  obtain ⟨mu, C, S, hpw, hmu, hC, hS⟩ := pairwiseMarginals_eq hq hn hd 0 (ker (segment cp (new 0))).Pinf
  refine ⟨mu, C, S, hmu, hC, hS, ?_⟩
  unfold PWProcess.predictState Piecewise.conditionalPredict
  rw [pw_initialCovarianceAtFirst ker cp hK hm (hn0 0) (hn1 0)]
  simp only [Bind.bind, Except.bind, hpw]
  rw [pw_conditionalStatisticsAux ker cp hK hm hts h0 h1 hnew hn0 hn1, conditionalStatisticsAux_of hcs]
  simp only [pure, Except.pure]
  congr 1
  funext j
  simp only [baseConditionalPredict, Option.map_some]
  rw [fromCols_mulVec]
  simp only [Sum.elim_comp_inl, Sum.elim_comp_inr]

end cond

/-! ### the process of the kernel -/

section law
variable (ker : Fin (m + 1) → Stationary o d) (cp : Fin m → ℝ)

/-- Transitions and stationary covariances of the children. -/
noncomputable def pwA (ker : Fin (m + 1) → Stationary o d) : Fin (m + 1) → ℝ → Mat d d := fun i => (ker i).stateTransitions 0
/-- See `pwA`. -/
noncomputable def pwP (ker : Fin (m + 1) → Stationary o d) : Fin (m + 1) → Mat d d := fun i => (ker i).Pinf

variable {ker cp}

theorem Spec.NoChange.sub {s t s' t' : ℝ} (h : NoChange cp s t) (h1 : s ≤ s') (h2 : t' ≤ t) : NoChange cp s' t' :=
  fun i hi => h i ⟨h1.trans_lt hi.1, hi.2.trans_le h2⟩

/-- The law of the state space model of a piecewise kernel, state means included. -/
theorem pw_ssm_law {K : Piecewise o d} (hc : ∀ i, Core (ker i)) {μ : Fin (m + 1) → Vec d}
    (ho : ∀ i t δ, (ker i).stateOffsets t δ = μ i - (ker i).stateTransitions 0 δ *ᵥ μ i)
    (hK : Piecewise.init (List.ofFn ker) (List.ofFn cp) 0 = .ok K) (hm : 0 < m) {ts : Fin (n + 1) → ℝ}
    (hts : Monotone ts) (h0 : ∀ i, -approxInf ≤ ts i ∧ ts i < approxInf)
    (hch : ∀ k : Fin n, NoChange cp (ts k.castSucc) (ts k.succ)) {s : SSM n d}
    (hs : K.stateSpaceModel approxInf ts = .ok s) :
    s.mus = (fun i => pieceMean (pwA ker) μ (pwP ker) cp (ts 0) (ts i)) ∧
    s.Kd = Matrix.of fun i j : Fin (n + 1) × Fin d =>
      pieceCov (pwA ker) μ (pwP ker) cp (ts 0) (ts i.1) (ts j.1) i.2 j.2 := by
  have hsp : ∀ i, StatProc (pwA ker i) (pwP ker i) := fun i => (hc i).statProc
  have hQs : ∀ (i : Fin (m + 1)) (t δ : ℝ), ((ker i).Pinf - (ker i).stateTransitions t δ * (ker i).Pinf *
      ((ker i).stateTransitions t δ)ᵀ + jitterMatrix d 0)ᵀ = (ker i).Pinf - (ker i).stateTransitions t δ * (ker i).Pinf *
      ((ker i).stateTransitions t δ)ᵀ + jitterMatrix d 0 := by
    intro i t δ
    rw [jitterMatrix_zero, add_zero, transpose_sub, transpose_mul, transpose_mul, transpose_transpose,
      (hc i).statProc.symm, Matrix.mul_assoc]
  rw [C30_state_space_model ker cp hK hm hts h0] at hs
  obtain ⟨hm0, hA, hb, hP, hQ⟩ := ssmFromCovariances_ok (hc _).statProc.symm (fun k => hQs _ _ _) hs
  have hpc : ∀ k : Fin n, pieces (pwA ker) μ (pwP ker) cp (ts k.castSucc) (ts k.succ) = ⟨s.A k, s.b k, s.Q k⟩ := by
    intro k
    rw [pieces_noChange hsp μ cp (hts Fin.castSucc_lt_succ.le) (hch k), hA, hb, hQ, (hc _).time, jitterMatrix_zero,
      add_zero]
    ext1
    · exact ((hc _).time _ _).symm
    · exact (ho _ _ _).symm
    · rfl
  have hst : ∀ k : Fin n, ts 0 ≤ ts k.castSucc ∧ ts k.castSucc ≤ ts k.succ := fun k =>
    ⟨hts (Fin.zero_le _), hts Fin.castSucc_lt_succ.le⟩
  constructor
  · refine (SSM.IsMeans.unique (m0 := s.mu0) (A := s.A) (b := s.b) ⟨?_, fun k => ?_⟩ s.mus_isMeans).symm
    · rw [pieceMean_start hsp, hm0]
    · rw [pieceMean_step hsp μ cp (hst k).1 (hst k).2, hpc]
  · ext i j
    refine congrFun (congrFun ((piece_markov hsp μ cp (ts 0)).ssm_blocks hts le_rfl (s := s) (fun k => ?_) ?_
      (fun k => ?_) i.1 j.1) i.2) j.2
    · rw [hpc]
    · rw [hP, pieceVar_start hsp]; rfl
    · rw [pieceVar_step hsp μ cp (hst k).1 (hst k).2, hpc, add_sub_cancel_left]

/-- What the code computes at a query, as a transition of the process. -/
theorem pwTrans_pieces (hc : ∀ i, Core (ker i)) {t₀ s t : ℝ} (h0 : t₀ ≤ s) (hst : s ≤ t) (hch : NoChange cp s t) :
    pwTrans ker cp 0 s (t - s) = ((pieces (pwA ker) (fun _ => 0) (pwP ker) cp s t).A,
      pieceVar (pwA ker) (fun _ => 0) (pwP ker) cp t₀ t - (pieces (pwA ker) (fun _ => 0) (pwP ker) cp s t).A *
        pieceVar (pwA ker) (fun _ => 0) (pwP ker) cp t₀ s * (pieces (pwA ker) (fun _ => 0) (pwP ker) cp s t).Aᵀ) := by
  have hsp : ∀ i, StatProc (pwA ker i) (pwP ker i) := fun i => (hc i).statProc
  rw [pieceVar_step hsp _ cp h0 hst, add_sub_cancel_left, pieces_noChange hsp _ cp hst hch]
  unfold pwTrans
  rw [(hc _).time, jitterMatrix_zero, add_zero]
  rfl

/-- The statistics the code computes exist. -/
theorem pw_codeStats (hc : ∀ i, Core (ker i)) (hN : ∀ i, Noisy (ker i) true) {ts : Fin (n + 1) → ℝ} (hts : Monotone ts)
    {t : ℝ} (h0 : -approxInf < t) (h1 : t ≤ approxInf) : ∃ c, CodeStats approxInf ts (pwTrans ker cp 0) t c := by
  obtain ⟨hl, hr⟩ := augmented_between hts h0 h1
  unfold CodeStats pwTrans
  simp only [(hc _).time, jitterMatrix_zero, add_zero]
  have hp := (hN (segment cp (augmentedTimes approxInf ts (searchsortedLeft ts t).castSucc))).strict rfl _ (sub_pos.2 hl)
  have hs := (hc (segment cp t)).contr _ (sub_nonneg.2 hr)
  refine (C21_succeeds hp.posSemidef hs).1.2 ?_
  have := (Matrix.IsUnit.posDef_star_right_conjugate_iff ((hc (segment cp t)).isUnit
    (augmentedTimes approxInf ts (searchsortedLeft ts t).succ - t))).2 hp
  rw [star_eq_conjTranspose, conjTranspose_eq_transpose_of_trivial] at this
  exact PosDef.posSemidef_add hs this

/-- They are bridge statistics of the piecewise process on the grid of conditioning times (compare `interior_stats`). -/
theorem pw_interior_stats (hc : ∀ i, Core (ker i)) {ts : Fin (n + 1) → ℝ} (hn : 0 < n) (hts : Monotone ts)
    (hinf : -approxInf < ts 0) (hch : ∀ k : Fin n, NoChange cp (ts k.castSucc) (ts k.succ)) {new : Fin p → ℝ}
    (h0 : ∀ j, ts 0 ≤ new j) (h1 : ∀ j, new j ≤ ts (Fin.last n)) {cs : Fin p → CondStats d}
    (hcs : ∀ j, CodeStats approxInf ts (pwTrans ker cp 0) (new j) (cs j)) :
    ∃ (k : Fin p → Fin n) (cs' : Fin p → CondStats d),
      MBridges (fun t s => (pieces (pwA ker) (fun _ => 0) (pwP ker) cp s t).A)
        (pieceVar (pwA ker) (fun _ => 0) (pwP ker) cp (ts 0)) ts new k cs' ∧
      ∀ j, (searchsortedLeft ts (new j) = (k j).castSucc.succ ∧ cs' j = cs j) ∨
        (new j = ts 0 ∧ searchsortedLeft ts (new j) = 0 ∧ (k j).castSucc = 0 ∧ cs j = ⟨0, 1, 0⟩ ∧ cs' j = ⟨1, 0, 0⟩) := by
  have hsp : ∀ i, StatProc (pwA ker i) (pwP ker i) := fun i => (hc i).statProc
  have hM := piece_markov hsp (fun _ => 0) cp (ts 0)
  have key : ∀ j, ∃ (k : Fin n) (c' : CondStats d),
      MBridges (fun t s => (pieces (pwA ker) (fun _ => 0) (pwP ker) cp s t).A)
        (pieceVar (pwA ker) (fun _ => 0) (pwP ker) cp (ts 0)) ts (fun _ : Unit => new j) (fun _ => k) (fun _ => c') ∧
      ((searchsortedLeft ts (new j) = k.castSucc.succ ∧ c' = cs j) ∨
        (new j = ts 0 ∧ searchsortedLeft ts (new j) = 0 ∧ k.castSucc = 0 ∧ cs j = ⟨0, 1, 0⟩ ∧ c' = ⟨1, 0, 0⟩)) := by
    intro j
    have hcj := hcs j
    unfold CodeStats at hcj
    rcases (h0 j).lt_or_eq with hlt | heq
    · obtain ⟨k, hk, ha, hb⟩ := exists_interval hts hlt (h1 j)
      rw [hk, aug_left, aug_right] at hcj
      have hk0 : ts 0 ≤ ts k.castSucc := hts (Fin.zero_le _)
      rw [pwTrans_pieces hc hk0 ha.le ((hch k).sub le_rfl hb),
        pwTrans_pieces hc (h0 j) hb ((hch k).sub ha.le le_rfl)] at hcj
      have q1 := hM.contr _ _ hk0 ha.le
      have q2 := hM.contr _ _ (h0 j) hb
      obtain ⟨e1, e2, e3, e4⟩ := condStats_ok (isSymm_of_psd q1) (isSymm_of_psd q2) hcj
      have hT := (innovation_law q1 q2 e1 e2 e4).1
      exact ⟨k, cs j, ⟨fun _ => ha.le, fun _ => hb, fun _ => isSymm_of_psd hT, fun _ => gain_mul e1 e2, fun _ => e3,
        fun _ => e4⟩, .inl ⟨hk, rfl⟩⟩
    · have hs : searchsortedLeft ts (new j) = 0 := by
        have hlt := lt_searchsortedLeft hts (new j) 0
        by_contra hne
        have : (0 : ℕ) < (searchsortedLeft ts (new j) : ℕ) := Nat.pos_of_ne_zero fun h => hne (Fin.ext h)
        exact absurd (hlt.1 this) (by rw [heq]; exact lt_irrefl _)
      obtain ⟨N, rfl⟩ := Nat.exists_eq_succ_of_ne_zero hn.ne'
      refine ⟨0, ⟨1, 0, 0⟩, ⟨fun _ => ?_, fun _ => ?_, fun _ => transpose_zero, fun _ => ?_, fun _ => ?_, fun _ => ?_⟩,
        .inr ⟨heq.symm, hs, rfl, ?_, rfl⟩⟩
      · exact heq.le
      · rw [← heq]; exact hts (Fin.zero_le _)
      · dsimp only
        rw [← heq, Fin.castSucc_zero, pieces_self hsp]
        simp [Channel.stay]
      · dsimp only
        rw [← heq, Fin.castSucc_zero, pieces_self hsp]
        simp [Channel.stay]
      · dsimp only
        rw [← heq, Fin.castSucc_zero, pieces_self hsp]
        simp [Channel.stay]
      · have hd0 : augmentedTimes approxInf ts (searchsortedLeft ts (new j)).succ - new j = 0 := by
          rw [hs, ← heq]
          exact sub_self _
        have hl : (0 : ℝ) ≤ new j - augmentedTimes approxInf ts (searchsortedLeft ts (new j)).castSucc := by
          rw [hs]; exact sub_nonneg.2 (hinf.trans_le (h0 j)).le
        rw [hd0] at hcj
        unfold pwTrans at hcj
        simp only [(hc _).time, jitterMatrix_zero, add_zero, (hc _).zero, Matrix.one_mul, transpose_one, Matrix.mul_one,
          sub_self] at hcj
        obtain ⟨a, b, c⟩ := condStats_at_zero ((hc _).contr _ hl) hcj
        cases hcs : cs j
        rw [hcs] at a b c
        simp only at a b c
        rw [a, b, c]
  choose k c' hb hk using key
  exact ⟨k, c', ⟨fun j => (hb j).left (), fun j => (hb j).right (), fun j => (hb j).symm (), fun j => (hb j).gain (),
    fun j => (hb j).D (), fun j => (hb j).T ()⟩, hk⟩

end law
end MF
