import Verif.Props.HistoryInvariance

/-!
# C80: origin, direction and unit of time, and the expression of the kernel, do not influence training by site updates
-/

namespace MF
open Matrix Spec MeasureTheory ProbabilityTheory
variable {n d d' p : ℕ}

/-- Two models with the same training history: after any number `j` of calls of `update_sites()` either both have raised, or both have not and have the
same sites (in the order `σ`), the same `classic_elbo()` - or it raises on both -, the same `elbo()` if all `nat2` are negative, and, if the posterior
process can be built, the same predictions at times related by `φ`. -/
def CVI.SameTraining (φ : ℝ → ℝ) (σ : Equiv.Perm (Fin (n + 1))) (c : CVI n d) (c' : CVI n d') : Prop :=
  ∀ j : ℕ, (CVI.updates j c = .error .invalidArgument ∧ CVI.updates j c' = .error .invalidArgument) ∨
    ∃ r r', CVI.updates j c = .ok r ∧ CVI.updates j c' = .ok r' ∧
      (∀ i, r'.sites.nat1 (σ i) = r.sites.nat1 i ∧ r'.sites.nat2 (σ i) = r.sites.nat2 i) ∧
      r'.classicElbo = r.classicElbo ∧ ((∀ t, r.sites.nat2 t 0 0 < 0) → r'.elbo = r.elbo ∧ ∃ e, r.elbo = .ok e) ∧
      ((r.posterior = .error .invalidArgument ∧ r'.posterior = .error .invalidArgument) ∨
        ∃ post post', r.posterior = .ok post ∧ r'.posterior = .ok post' ∧
          ∀ {p : ℕ} (new : Fin p → ℝ), (∀ q, c.times 0 ≤ new q ∧ new q ≤ c.times (Fin.last n)) →
            ∃ f, post.predictF new = .ok f ∧ post'.predictF (fun q => φ (new q)) = .ok f)

/-- C80: two models of the same problem have the same training history, for any likelihood. -/
theorem C80_training {φ : ℝ → ℝ} {σ : Equiv.Perm (Fin (n + 1))} {k k' : ℝ → ℝ → Mat 1 1} {c : CVI n d} {c' : CVI n d'}
    (h : CVI.SameProblem φ σ k k' c c') (hG : (gpGram k c.times).PosDef) : CVI.SameTraining φ σ c c' := by
  intro j
  rcases C80_history h hG j with h1 | ⟨r, r', hr, hr', hrs, hrs', hs⟩
  · exact .inl h1
  · have ht : r.times = c.times := by rw [hrs]
    obtain ⟨h1, h2⟩ := C80_results hs (by rw [ht]; exact hG)
    refine .inr ⟨r, r', hr, hr', fun i => ⟨hs.nat1 i, hs.nat2 i⟩, ?_, fun hneg => ?_, ?_⟩
    · rcases h1 with ⟨-, -, e1, e2⟩ | ⟨_, _, e, -, -, e1, e2, -⟩ <;> rw [e1, e2]
    · obtain ⟨e, e1, e2⟩ := h2 hneg
      exact ⟨by rw [e1, e2], e, e1⟩
    · rcases h1 with ⟨e1, e2, -, -⟩ | ⟨post, post', e, e1, e2, -, -, hp⟩
      · exact .inl ⟨e1, e2⟩
      · refine .inr ⟨post, post', e1, e2, fun new hn => ?_⟩
        rw [ht] at hp
        exact hp new (fun q => (hn q).1) (fun q => (hn q).2)

/-- Moving the origin of time gives the same problem. -/
theorem CVI.Valid.translation {c : CVI n d} {k} (h : c.Valid k) (hH : ∀ t, c.kernel.emission t = c.kernel.emission 0) (a : ℝ)
    (hl : -10000000000 < c.times 0 + a) (hu : c.times (Fin.last n) + a ≤ 10000000000) :
    CVI.SameProblem (fun t => t + a) (.refl _) k k c { c with times := fun i => c.times i + a } :=
  ⟨h, ⟨h.builds, h.noise, h.jitter, fun _ _ hij => add_lt_add_left (h.times hij) a, hl, hu, h.two⟩, fun _ => rfl,
    fun _ h0 h1 => ⟨add_le_add_left h0 a, add_le_add_left h1 a⟩, fun s t => Builds.stationary h.builds hH a s t, fun _ => rfl, rfl, rfl, fun _ => rfl, fun _ => rfl⟩

/-- Reversing the direction of time gives the same problem. -/
theorem CVI.Valid.reversal {c : CVI n d} {k} (h : c.Valid k) (hH : ∀ t, c.kernel.emission t = c.kernel.emission 0)
    (hl : -10000000000 ≤ c.times 0) (hu : c.times (Fin.last n) < 10000000000) :
    CVI.SameProblem (fun t => -t) Fin.revPerm k k c
      { c with times := fun i => -c.times i.rev, observations := fun i => c.observations i.rev, sites := ⟨fun i => c.sites.nat1 i.rev, fun i => c.sites.nat2 i.rev⟩ } := by
  refine ⟨h, ⟨h.builds, h.noise, h.jitter, fun i j hij => neg_lt_neg (h.times (Fin.rev_lt_rev.2 hij)), ?_, ?_, h.two⟩,
    fun i => ?_, fun t h0 h1 => ?_, fun s t => Builds.reversible h.builds hH s t, fun i => ?_, rfl, rfl, fun i => ?_, fun i => ?_⟩
  · show -10000000000 < -c.times (Fin.rev 0)
    rw [Fin.rev_zero]
    linarith
  · show -c.times (Fin.rev (Fin.last n)) ≤ 10000000000
    rw [Fin.rev_last]
    linarith
  · show -c.times (Fin.rev (Fin.revPerm i)) = -c.times i
    rw [Fin.revPerm_apply, Fin.rev_rev]
  · show -c.times (Fin.rev 0) ≤ -t ∧ -t ≤ -c.times (Fin.rev (Fin.last n))
    rw [Fin.rev_zero, Fin.rev_last]
    exact ⟨neg_le_neg h1, neg_le_neg h0⟩
  · show c.observations (Fin.rev (Fin.revPerm i)) = _
    rw [Fin.revPerm_apply, Fin.rev_rev]
  · show c.sites.nat1 (Fin.rev (Fin.revPerm i)) = _
    rw [Fin.revPerm_apply, Fin.rev_rev]
  · show c.sites.nat2 (Fin.rev (Fin.revPerm i)) = _
    rw [Fin.revPerm_apply, Fin.rev_rev]

/-- Changing the unit of time together with the parameters of the kernel gives the same problem. -/
theorem SameUpToUnits.sameProblem {a : ℝ} (ha : 0 < a) {c : CVI n d} {K' : Stationary 1 d} (hK : SameUpToUnits 1 a 1 c.kernel K') (ht : StrictMono c.times)
    (hn : 0 < n) (hl : -10000000000 < c.times 0) (hu : c.times (Fin.last n) ≤ 10000000000) (hl' : -10000000000 < a * c.times 0)
    (hu' : a * c.times (Fin.last n) ≤ 10000000000) :
    ∃ k k', CVI.SameProblem (fun t => a * t) (.refl _) k k' c { c with times := fun i => a * c.times i, kernel := K' } ∧ (gpGram k c.times).PosDef := by
  obtain ⟨k, k', hb, hb', hN, hN', hj, hj', hkk⟩ := hK.spec ha
  have hem : c.kernel.emission = fun _ => sdeEmission 1 d := by
    cases hK with
    | matern12 h h' => rw [(kernelInit_ok h).2.2]; rfl
    | matern32 h h' => rw [(kernelInit_ok h).2.2]; rfl
    | matern52 h h' => rw [(kernelInit_ok h).2.2]; rfl
    | ou h h' => rw [(kernelInit_ok h).2.2]; rfl
  have hd : 0 < d := (Builds.good hb).1.pos
  have hG : (gpGram k c.times).PosDef := by
    refine gpGram_posDef hb hN hn ht hj fun i => ?_
    refine LinearIndependent.of_subsingleton 0 fun h0 => ?_
    have := congrFun h0 ⟨0, hd⟩
    rw [hem] at this
    simp [sdeEmission] at this
  exact ⟨k, k', ⟨⟨hb, hN, hj, ht, hl, hu, hn⟩,
    ⟨hb', hN', hj', fun _ _ hij => mul_lt_mul_of_pos_left (ht hij) ha, hl', hu', hn⟩, fun _ => rfl,
    fun _ h0 h1 => ⟨mul_le_mul_of_nonneg_left h0 ha.le, mul_le_mul_of_nonneg_left h1 ha.le⟩,
    fun s t => by rw [hkk, one_pow, one_smul], fun _ => rfl, rfl, rfl, fun _ => rfl, fun _ => rfl⟩, hG⟩

/-- Replacing the kernel by another one with the same covariance function gives the same problem. -/
theorem CVI.Valid.same_covariance {c : CVI n d} {k} (h : c.Valid k) {K' : Stationary 1 d'} (hB : Builds K' k) (hN : NoiseTag K' true) (hj : K'.jitter = 0) :
    CVI.SameProblem (fun t => t) (.refl _) k k c (⟨c.times, c.observations, K', c.likelihood, c.meanFunction, c.learningRate, c.sites⟩ : CVI n d') :=
  ⟨h, ⟨hB, hN, hj, h.times, h.lower, h.upper, h.two⟩, fun _ => rfl, fun _ h0 h1 => ⟨h0, h1⟩, fun _ _ => rfl, fun _ => rfl, rfl, rfl, fun _ => rfl, fun _ => rfl⟩

/-- C80: the origin of time is irrelevant for training. -/
theorem C80_translation {c : CVI n d} {k} (h : c.Valid k) (hG : (gpGram k c.times).PosDef) (hH : ∀ t, c.kernel.emission t = c.kernel.emission 0) (a : ℝ)
    (hl : -10000000000 < c.times 0 + a) (hu : c.times (Fin.last n) + a ≤ 10000000000) :
    CVI.SameTraining (fun t => t + a) (.refl _) c { c with times := fun i => c.times i + a } :=
  C80_training (h.translation hH a hl hu) hG

/-- C80: the direction of time is irrelevant for training. -/
theorem C80_reversal {c : CVI n d} {k} (h : c.Valid k) (hG : (gpGram k c.times).PosDef) (hH : ∀ t, c.kernel.emission t = c.kernel.emission 0)
    (hl : -10000000000 ≤ c.times 0) (hu : c.times (Fin.last n) < 10000000000) :
    CVI.SameTraining (fun t => -t) Fin.revPerm c
      { c with times := fun i => -c.times i.rev, observations := fun i => c.observations i.rev, sites := ⟨fun i => c.sites.nat1 i.rev, fun i => c.sites.nat2 i.rev⟩ } :=
  C80_training (h.reversal hH hl hu) hG

/-- C80: the unit of time is irrelevant for training, if the kernel's own parameters are converted. -/
theorem C80_units {a : ℝ} (ha : 0 < a) {c : CVI n d} {K' : Stationary 1 d} (hK : SameUpToUnits 1 a 1 c.kernel K') (ht : StrictMono c.times) (hn : 0 < n)
    (hl : -10000000000 < c.times 0) (hu : c.times (Fin.last n) ≤ 10000000000) (hl' : -10000000000 < a * c.times 0)
    (hu' : a * c.times (Fin.last n) ≤ 10000000000) :
    CVI.SameTraining (fun t => a * t) (.refl _) c { c with times := fun i => a * c.times i, kernel := K' } := by
  obtain ⟨k, k', h, hG⟩ := hK.sameProblem ha ht hn hl hu hl' hu'
  exact C80_training h hG

/-- C80: the expression of the covariance function is irrelevant for training: the kernel may be replaced by any other with the same covariance function,
with another state dimension. -/
theorem C80_same_covariance {c : CVI n d} {k} (h : c.Valid k) (hG : (gpGram k c.times).PosDef) {K' : Stationary 1 d'} (hB : Builds K' k)
    (hN : NoiseTag K' true) (hj : K'.jitter = 0) :
    CVI.SameTraining (fun t => t) (.refl _) c (⟨c.times, c.observations, K', c.likelihood, c.meanFunction, c.learningRate, c.sites⟩ : CVI n d') :=
  C80_training (h.same_covariance hB hN hj) hG

end MF
