import Verif.Props.PiecewiseSparseTraining

/-!
# C57: the conditional statistics of a piecewise kernel
-/

namespace MF
open Matrix Spec MeasureTheory ProbabilityTheory
variable {n d o p m : ℕ}

section
variable {ker : Fin (m + 1) → Stationary o d} {k : Fin (m + 1) → ℝ → ℝ → Mat o o} {cp : Fin m → ℝ}
  {K : Piecewise o d} {ts : Fin (n + 1) → ℝ}

/-- **C57** `conditional_statistics` with a piecewise kernel returns a projection `P` and a covariance `T` such that, for
every distribution `q` of the states at the training points, the prediction at a new point between two training points has
the mean and covariance of `P u + w`, `u` the pair of neighbouring states and `w` independent with covariance `T`. -/
theorem C57_conditional_statistics (h : PWValid ker k cp K ts) {X : Fin (p + 1) → ℝ} (hX : Monotone X)
    (h0 : ∀ j, ts 0 ≤ X j) (h1 : ∀ j, X j ≤ ts (Fin.last n)) :
    ∃ P T, K.conditionalStatistics approxInf X ts = .ok (P, T) ∧
      ∀ q : SSM n d, q.Nondegenerate → ∀ mf : ℝ → Vec o,
        ∃ r, (⟨q, K, ts, mf⟩ : PWProcess n o d).predictState X = .ok r ∧
          ∀ j, ∀ i : Fin n, ts i.castSucc < X j → X j ≤ ts i.succ →
            (r j).1 = P j *ᵥ Sum.elim (q.mus i.castSucc) (q.mus i.succ) ∧
            (r j).2 = T j + P j * fromBlocks (blk q.Kd i.castSucc i.castSucc) (blk q.Kd i.succ i.castSucc)ᵀ
              (blk q.Kd i.succ i.castSucc) (blk q.Kd i.succ i.succ) * (P j)ᵀ := by
  obtain ⟨P0, P, T, hP0, hst⟩ := h.stats hX h0 h1
  refine ⟨P, T, ?_, fun q hq mf => ?_⟩
  · unfold Piecewise.conditionalStatistics
    rw [hst]
    rfl
  · refine ⟨_, pw_predict_value (⟨q, K, ts, mf⟩ : PWProcess n o d) h hP0 hst hq, fun j i ha hb => ?_⟩
    have hs : searchsortedLeft ts (X j) = i.succ.castSucc := by
      refine (inInterval_iff h.times.monotone _ _).2 ⟨fun l hl => ?_, fun l hl => ?_⟩
      · exact lt_of_le_of_lt (h.times.monotone (by
          have : (l : ℕ) < i + 1 := by simpa [Fin.lt_def] using hl
          exact Fin.le_def.2 (by simpa using Nat.lt_succ_iff.1 this))) ha
      · exact hb.trans (h.times.monotone (by simpa [Fin.le_def] using hl))
    have e1 : ∀ {α : Type} (a b : α) (f : Fin (n + 1) → α),
        (Fin.cons a (Fin.snoc (α := fun _ => α) f b) : Fin (n + 3) → α) i.succ.castSucc.castSucc = f i.castSucc := by
      intro α a b f
      have : i.succ.castSucc.castSucc = (i.castSucc.castSucc).succ := by ext; simp
      rw [this, Fin.cons_succ, Fin.snoc_castSucc (α := fun _ => α)]
    have e2 : ∀ {α : Type} (a b : α) (f : Fin (n + 1) → α),
        (Fin.cons a (Fin.snoc (α := fun _ => α) f b) : Fin (n + 3) → α) i.succ.castSucc.succ = f i.succ := by
      intro α a b f
      rw [Fin.cons_succ, Fin.snoc_castSucc (α := fun _ => α)]
    have e3 : ∀ {α : Type} (a b : α) (f : Fin n → α),
        (Fin.cons a (Fin.snoc (α := fun _ => α) f b) : Fin (n + 2) → α) i.succ.castSucc = f i := by
      intro α a b f
      have : i.succ.castSucc = (i.castSucc).succ := by ext; simp
      rw [this, Fin.cons_succ, Fin.snoc_castSucc (α := fun _ => α)]
    unfold nbPredict nbMean nbCov nbSub
    dsimp only
    rw [hs, e1, e2, e1, e2, e3]
    refine ⟨?_, rfl⟩
    conv_rhs => rw [← fromCols_toCols (P j), fromCols_mulVec]
    rfl

/-- **C57**, the constructor of the sparse variational model: without an initial distribution `q` starts at the piecewise
prior at the inducing points, and `elbo` is then the (scaled) expectation of the log likelihood under the Gaussian process
prior with the covariance function of the piecewise process; with an initial distribution `q` starts there. A missing mean
function is zero. -/
theorem C57_svgp_init (h : PWValid ker k cp K ts) {lik : ScalarLikelihood} (hlik : ExactLikelihood lik)
    (mf : Option (ℝ → Vec o)) (num : Option ℕ) :
    (∃ v, PWSVGP.init K lik ts mf num none = .ok v ∧ v.q.Nondegenerate ∧ K.stateSpaceModel approxInf ts = .ok v.q ∧
      v.kernel = K ∧ v.inducing = ts ∧ v.meanFunction = mf.getD (fun _ => 0) ∧ v.numData = num ∧ v.likelihood = lik ∧
      ∀ {p : ℕ} (X : Fin (p + 1) → ℝ) (Y : Fin (p + 1) → Vec o), Monotone X → (∀ j, ts 0 ≤ X j) → (∀ j, X j ≤ ts (Fin.last n)) →
        v.elbo X Y = .ok ((match num with | some N => (N : ℝ) / (p + 1 : ℕ) | none => 1) *
          ∫ f, outputLogLik lik Y f ∂gpLaw (mf.getD fun _ => 0) (pwKernel ker cp (ts 0)) X)) ∧
    ∀ q0 : SSM n d, q0.Nondegenerate → ∃ v, PWSVGP.init K lik ts mf num (some q0) = .ok v ∧ v.q = q0 ∧
      v.kernel = K ∧ v.inducing = ts ∧ v.meanFunction = mf.getD (fun _ => 0) ∧ v.numData = num ∧ v.likelihood = lik := by
  have hcopy : ∀ s : SSM n d, s.Nondegenerate → s.createTrainableCopy = s := by
    intro s hs
    unfold SSM.createTrainableCopy
    rw [show tril s.cholP0 = s.cholP0 from (hs 0).1.tril_eq,
      show (fun k => tril (s.cholQ k)) = s.cholQ from funext fun k => (hs k.succ).1.tril_eq]
  constructor
  · obtain ⟨s, hs, hnd, -, -⟩ := h.ssm
    refine ⟨⟨K, lik, ts, mf.getD fun _ => 0, num, s⟩, ?_, hnd, hs, rfl, rfl, rfl, rfl, rfl, fun {p} X Y hX h0 h1 => ?_⟩
    · unfold PWSVGP.init
      simp only [hs, bind, Except.bind, pure, Except.pure, hcopy s hnd]
    · obtain ⟨s', e, kl, E, ν, hs', he, -, hν, hkl, hkl0, hE, hee, -⟩ :=
        C57_svgp (v := (⟨K, lik, ts, mf.getD fun _ => 0, num, s⟩ : PWSVGP n o d)) h hnd hlik hX h0 h1 Y
      obtain rfl : s = s' := Except.ok.inj (hs.symm.trans hs')
      have hps : IsProbabilityMeasure s.law := by rw [SSM.law_eq_gauss]; infer_instance
      have hz : kl = 0 := by
        change InformationTheory.klDiv s.law s.law = _ at hkl
        rw [InformationTheory.klDiv_self] at hkl
        exact le_antisymm (ENNReal.ofReal_eq_zero.1 hkl.symm) hkl0
      change IsPredictive (pwPrior ker cp ts X) s.law ν at hν
      obtain ⟨hprob, hkν⟩ := klDiv_predictive (q := s.law) hν
      rw [← (h.prior_fst h0 hs).1, InformationTheory.klDiv_self, InformationTheory.klDiv_eq_zero_iff] at hkν
      subst hkν
      have hall : ∀ i, ts 0 ≤ Sum.elim ts X i := by
        rintro (i | i)
        · exact h.times.monotone (Fin.zero_le i)
        · exact h0 i
      have hml : Measurable (pwLatent ker cp (mf.getD fun _ => 0) X) := measurable_latentAt (pwOut ker cp) _ X
      have hlat : (pwPrior ker cp ts X).map (fun x => pwLatent ker cp (mf.getD fun _ => 0) X x.2) =
          gpLaw (mf.getD fun _ => 0) (pwKernel ker cp (ts 0)) X := by
        have e1 : (pwPrior ker cp ts X).map Prod.snd = gpLaw (fun _ => 0) (pwStateCov ker cp (ts 0)) X := by
          unfold pwPrior
          rw [Measure.map_map measurable_snd measurable_atTimes]
          unfold gpLaw
          exact gaussLaw_comp (h.psd (Sum.elim ts X) hall) (fun i => (0 : Vec d) i.2)
            (fun i : Fin (p + 1) × Fin d => (Sum.inr i.1, i.2))
        have e2 : pwLatent ker cp (mf.getD fun _ => 0) X =
            fun x => meanVec (mf.getD fun _ => 0) X + outMat (pwOut ker cp) X *ᵥ x := latentAt_eq (pwOut ker cp) _ X
        rw [show (fun x : (Fin (n + 1) × Fin d → ℝ) × (Fin (p + 1) × Fin d → ℝ) => pwLatent ker cp (mf.getD fun _ => 0) X x.2) =
          pwLatent ker cp (mf.getD fun _ => 0) X ∘ Prod.snd from rfl, ← Measure.map_map hml measurable_snd, e1, e2]
        unfold gpLaw
        rw [gaussLaw_map_affine (h.psd X h0), h.out_conj]
        congr 1
        rw [show (fun i : Fin (p + 1) × Fin d => (0 : Vec d) i.2) = 0 from rfl, mulVec_zero, add_zero]
        rfl
      rw [he, hee, hz, sub_zero, hE, ← hlat,
        integral_map (φ := fun x : (Fin (n + 1) × Fin d → ℝ) × (Fin (p + 1) × Fin d → ℝ) => pwLatent ker cp (mf.getD fun _ => 0) X x.2)
        (hml.comp measurable_snd).aemeasurable
        (measurable_outputLogLik hlik _).aestronglyMeasurable]
      rfl
  · intro q0 hq0
    refine ⟨⟨K, lik, ts, mf.getD fun _ => 0, num, q0⟩, ?_, rfl, rfl, rfl, rfl, rfl, rfl⟩
    unfold PWSVGP.init
    simp only [bind, Except.bind, pure, Except.pure, hcopy q0 hq0]

end

/-- Non-vacuity: two Ornstein-Uhlenbeck kernels of different length scale with a change point at 0, training points at
-1, 0, 1; new points on either side of the change point, the first one strictly between two training points. -/
example : ∃ (ker : Fin 2 → Stationary 1 1) (k : Fin 2 → ℝ → ℝ → Mat 1 1) (K : Piecewise 1 1) (ts : Fin 3 → ℝ) (X : Fin 2 → ℝ),
    PWValid ker k (fun _ : Fin 1 => (0 : ℝ)) K ts ∧ Monotone X ∧ (∀ j, ts 0 ≤ X j) ∧ (∀ j, X j ≤ ts (Fin.last 2)) ∧
    ts (0 : Fin 2).castSucc < X 0 ∧ X 0 < ts (0 : Fin 2).succ ∧ ts (1 : Fin 2).castSucc < X 1 ∧ X 1 ≤ ts (1 : Fin 2).succ ∧
    (∃ q : SSM 2 1, q.Nondegenerate) ∧ ExactLikelihood poissonLikelihood := by
  obtain ⟨k₀, k₁, a0, a1, h0, h1, -⟩ := exists_two_ou
  have hK : Piecewise.init (List.ofFn ![k₀, k₁]) (List.ofFn fun _ : Fin 1 => (0 : ℝ)) 0 =
      .ok ⟨List.ofFn ![k₀, k₁], List.ofFn fun _ : Fin 1 => (0 : ℝ), 0⟩ := by
    unfold Piecewise.init; rw [if_neg (by simp), if_neg (by simp)]
  have hmono : StrictMono ![(-1 : ℝ), 0, 1] := by
    rw [Fin.strictMono_iff_lt_succ]
    intro i; fin_cases i
    · show (-1 : ℝ) < 0; norm_num
    · show (0 : ℝ) < 1; norm_num
  have hb : ∀ i, Builds (![k₀, k₁] i) (![iso (ouCov 1 1), iso (ouCov 2 1)] i) := by
    intro i; fin_cases i
    · exact .leaf (.ou a0)
    · exact .leaf (.ou a1)
  have hV : PWValid ![k₀, k₁] ![iso (ouCov 1 1), iso (ouCov 2 1)] (fun _ : Fin 1 => (0 : ℝ)) _ ![-1, 0, 1] :=
    ⟨hK, one_pos, hb,
      by intro i; fin_cases i
         · exact .ou a0
         · exact .ou a1, two_pos, hmono, by show (-10000000000 : ℝ) < -1; norm_num,
      by show (1 : ℝ) < 10000000000; norm_num,
      by intro i j hj; fin_cases i
         · exact lt_irrefl (0 : ℝ) hj.2
         · exact lt_irrefl (0 : ℝ) hj.1⟩
  obtain ⟨s, hs, hsn, -, -⟩ := hV.ssm
  refine ⟨_, _, _, _, ![-1 / 2, 1 / 2], hV, ?_, ?_, ?_, ?_, ?_, ?_, ?_, ⟨s, hsn⟩, poissonLikelihood_exact⟩
  · refine (Fin.strictMono_iff_lt_succ.2 fun i => ?_).monotone
    fin_cases i
    show (-1 / 2 : ℝ) < 1 / 2; norm_num
  · intro j; fin_cases j
    · show (-1 : ℝ) ≤ -1 / 2; norm_num
    · show (-1 : ℝ) ≤ 1 / 2; norm_num
  · intro j; fin_cases j
    · show (-1 / 2 : ℝ) ≤ 1; norm_num
    · show (1 / 2 : ℝ) ≤ 1; norm_num
  · show (-1 : ℝ) < -1 / 2; norm_num
  · show (-1 / 2 : ℝ) < 0; norm_num
  · show (0 : ℝ) < 1 / 2; norm_num
  · show (1 / 2 : ℝ) ≤ 1; norm_num

end MF
