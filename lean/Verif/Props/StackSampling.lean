import Verif.Lemmas.StackSampling
import Verif.Props.Stack

/-!
# C55: sampling from processes over an `IndependentMultiOutputStack`

Vocabulary as in `Props/Stack`.
-/

namespace MF
open Matrix Spec MeasureTheory ProbabilityTheory
variable {n p R : ℕ} {k : StackKernel R} {cov : Fin R → ℝ → ℝ → Mat 1 1} {c : StackProcess n k} {X : Fin R → Fin p → ℝ}

/-- C55: sampling from a process over a stack returns exactly if, for every child that has a smaller state than the stack, the
new times are distinct and differ from the conditioning times of that child. -/
theorem C55_sampling_returns_iff (h : k.Valid cov c.times c.q) (h0 : ∀ r j, c.times r 0 ≤ X r j)
    (h1 : ∀ r j, X r j ≤ c.times r (Fin.last n)) (ε : Fin R → Fin (n + p + 1) → Vec k.stateDim)
    (ε' : Fin R → Fin (n + 1) → Vec k.stateDim) :
    ((∃ S, c.sampleStateTrajectories X ε ε' = .ok S) ↔ ∃ F, c.sampleF X ε ε' = .ok F) ∧
    ((∃ S, c.sampleStateTrajectories X ε ε' = .ok S) ↔
      ∀ r, k.stateDim = (k.children r).1 ∨ (Function.Injective (X r) ∧ ∀ j i, X r j ≠ c.times r i)) := by
  have key := fun r => (slice_sample_all (h.builds r) (h.noise r) (Nat.add_sub_cancel' (k.le_stateDim r)) (S := k.slice r)
    (by unfold StackKernel.slice; rw [h.jitter]) (q := c.q r) h.two (h.times r) (h.lower r) (h.upper r) (h0 r) (h1 r) (c.meanFunction r)).1
  refine ⟨⟨fun ⟨S, hS⟩ => ⟨_, by unfold StackProcess.sampleF; rw [hS]; rfl⟩, fun ⟨F, hF⟩ => ?_⟩,
    ⟨fun ⟨S, hS⟩ r => ?_, fun hd => ?_⟩⟩
  · unfold StackProcess.sampleF at hF
    rcases hS : c.sampleStateTrajectories X ε ε' with err | S
    · rw [hS] at hF; cases hF
    · exact ⟨S, rfl⟩
  · exact (key r _ _).1 ⟨_, seqFin_ok_iff.1 hS r⟩
  · choose S hS using fun r => (key r (ε r) (ε' r)).2 (hd r)
    exact ⟨S, seqFin_ok hS⟩

/-- C55: samples from a process over a stack: fed with independent standard normal draws, the states returned at the conditioning
times and the values of `sample_f` follow independent processes, one per child, each with `q` at the conditioning times and the
child's prior conditional in between. -/
theorem C55_samples (h : k.Valid cov c.times c.q) (h0 : ∀ r j, c.times r 0 ≤ X r j) (h1 : ∀ r j, X r j ≤ c.times r (Fin.last n))
    (hd : ∀ r, k.stateDim = (k.children r).1 ∨ (Function.Injective (X r) ∧ ∀ j i, X r j ≠ c.times r i)) :
    ∃ (S : (Fin R → Ix (n + p) k.stateDim → ℝ) → (Fin R → Ix n k.stateDim → ℝ) →
          Fin R → (Fin p → Vec k.stateDim) × (Fin (n + 1) → Vec k.stateDim))
      (F : (Fin R → Ix (n + p) k.stateDim → ℝ) → (Fin R → Ix n k.stateDim → ℝ) → Fin p → Vec R) (ν : Fin R → Measure _),
      (∀ ε ε', c.sampleStateTrajectories X (fun r => unstk (ε r)) (fun r => unstk (ε' r)) = .ok (S ε ε')) ∧
      (∀ ε ε', c.sampleF X (fun r => unstk (ε r)) (fun r => unstk (ε' r)) = .ok (F ε ε')) ∧
      (∀ r, IsPredictive (slicePrior (k.children r).2 k.stateDim (c.meanFunction r) (c.times r) (X r)) (c.q r).law (ν r)) ∧
      ((Measure.pi fun _ : Fin R => stdNormal (Ix (n + p) k.stateDim)).prod (Measure.pi fun _ : Fin R => stdNormal (Ix n k.stateDim))).map
        (fun ε r => (stk (S ε.1 ε.2 r).2, fun i : Fin p × Fin 1 => F ε.1 ε.2 i.1 r)) = Measure.pi ν := by
  have key := fun r => slice_sample_all (h.builds r) (h.noise r) (Nat.add_sub_cancel' (k.le_stateDim r)) (S := k.slice r)
    (by unfold StackKernel.slice; rw [h.jitter]) (q := c.q r) h.two (h.times r) (h.lower r) (h.upper r) (h0 r) (h1 r) (c.meanFunction r)
  choose S' hS' using fun r ε ε' => ((key r).1 ε ε').2 (hd r)
  have hlaw := fun r => (key r).2 (fun ε ε' => S' r (unstk ε) (unstk ε')) fun ε ε' => hS' r _ _
  refine ⟨fun ε ε' r => S' r (unstk (ε r)) (unstk (ε' r)), fun ε ε' q r =>
    ((k.slice r).emission (X r q) *ᵥ (S' r (unstk (ε r)) (unstk (ε' r))).1 q) 0 + c.meanFunction r (X r q), _, fun ε ε' => seqFin_ok fun r => hS' r _ _,
    fun ε ε' => ?_, fun r => (hlaw r).2, ?_⟩
  · unfold StackProcess.sampleF
    have : c.sampleStateTrajectories X (fun r => unstk (ε r)) (fun r => unstk (ε' r)) = .ok fun r => S' r (unstk (ε r)) (unstk (ε' r)) :=
      seqFin_ok fun r => hS' r _ _
    rw [this]
    simp only [bind, Except.bind, pure, Except.pure]
    congr 1
    funext q r
    exact add_comm _ _
  · have hp := measurePreserving_arrowProdEquivProdArrow (Ix (n + p) k.stateDim → ℝ) (Ix n k.stateDim → ℝ) (Fin R)
      (fun _ => stdNormal (Ix (n + p) k.stateDim)) fun _ => stdNormal (Ix n k.stateDim)
    rw [← hp.map_eq, Measure.map_map, ← Measure.pi_map_pi fun r => (hlaw r).1.aemeasurable]
    · congr 1
      funext ε r
      refine Prod.ext rfl ?_
      funext ⟨i, o⟩
      obtain rfl : o = 0 := Subsingleton.elim o 0
      rfl
    · refine measurable_pi_lambda _ fun r => ?_
      have := (hlaw r).1.comp (((measurable_pi_apply r).comp measurable_fst).prodMk
        ((measurable_pi_apply r).comp (measurable_snd (α := Fin R → Ix (n + p) k.stateDim → ℝ) (β := Fin R → Ix n k.stateDim → ℝ))))
      convert this using 1
      funext ε
      refine Prod.ext rfl ?_
      funext ⟨i, o⟩
      obtain rfl : o = 0 := Subsingleton.elim o 0
      rfl
    · exact hp.measurable

/-- The hypotheses of the theorems above hold for a stack of children with states of different sizes and new times between the
conditioning times; with a new time at a conditioning time of the padded child the same stack does not sample. -/
example : ∃ (k : StackKernel 2) (cov : _) (c : StackProcess 2 k) (X X' : Fin 2 → Fin 2 → ℝ),
    k.stateDim = 2 ∧ (k.children 0).1 = 1 ∧ k.Valid cov c.times c.q ∧
    ((∀ r j, c.times r 0 ≤ X r j) ∧ (∀ r j, X r j ≤ c.times r (Fin.last 2)) ∧
      (∀ r, k.stateDim = (k.children r).1 ∨ (Function.Injective (X r) ∧ ∀ j i, X r j ≠ c.times r i))) ∧
    (∀ ε ε', ∃ F, c.sampleF X ε ε' = .ok F) ∧ ∀ ε ε' F, c.sampleF X' ε ε' ≠ .ok F := by
  obtain ⟨K1, hK1⟩ := (C28_constructors (o := 1) 2 3 1 1 1 0).1.2 (by norm_num)
  obtain ⟨K2, hK2⟩ := (C28_constructors (o := 1) 1 2 1 1 1 0).2.1.2 (by norm_num)
  obtain ⟨k, hk⟩ : ∃ k : StackKernel 2, k = ⟨![⟨_, K1⟩, ⟨_, K2⟩], 0⟩ := ⟨_, rfl⟩
  have hd : k.stateDim = 2 := by
    rw [hk]; rfl
  have hc0 : (k.children 0).1 = 1 := by rw [hk]; rfl
  have hc1 : (k.children 1).1 = 2 := by rw [hk]; rfl
  obtain ⟨z, hz⟩ : ∃ z : Fin 2 → Fin 3 → ℝ, z = ![![0, 1, 3], ![0, 2, 4]] := ⟨_, rfl⟩
  have hB : ∀ r, ∃ c, Builds (k.children r).2 c := by
    subst hk
    exact Fin.cases ⟨_, .leaf (.matern12 hK1)⟩ fun r => by rw [Subsingleton.elim r 0]; exact ⟨_, .leaf (.matern32 hK2)⟩
  choose cov hB using hB
  have hv : k.Valid cov z (fun _ => (⟨fun _ => 1, 1, fun _ => 1, fun _ => 0, fun _ => 1⟩ : SSM 2 k.stateDim)) := by
    refine ⟨hB, ?_, by rw [hk], ?_, ?_, ?_, by norm_num, fun r i => ?_⟩
    · subst hk
      exact Fin.cases (.matern12 hK1) fun r => by rw [Subsingleton.elim r 0]; exact .matern32 hK2
    · intro r
      refine Fin.strictMono_iff_lt_succ.2 fun i => ?_
      rw [hz]
      fin_cases r <;> fin_cases i <;> simp; norm_num
    · intro r; rw [hz]; fin_cases r <;> simp
    · intro r; rw [hz]; fin_cases r <;> simp [Fin.last] <;> norm_num
    · refine Fin.cases ?_ (fun i => ?_) i <;>
      exact ⟨fun a b hab => Matrix.one_apply_ne hab.ne, fun a => (Matrix.one_apply_eq (α := ℝ) a).trans_ne one_ne_zero⟩
  obtain ⟨X, hX⟩ : ∃ X : Fin 2 → Fin 2 → ℝ, X = ![![2, 1 / 2], ![2, 2]] := ⟨_, rfl⟩
  obtain ⟨X', hX'⟩ : ∃ X' : Fin 2 → Fin 2 → ℝ, X' = ![![1, 1 / 2], ![2, 2]] := ⟨_, rfl⟩
  obtain ⟨c, hc⟩ : ∃ c : StackProcess 2 k, c = ⟨fun _ => ⟨fun _ => 1, 1, fun _ => 1, fun _ => 0, fun _ => 1⟩, z, fun _ _ => 0⟩ := ⟨_, rfl⟩
  have hv' : k.Valid cov c.times c.q := by rw [hc]; exact hv
  have hcz : c.times = z := by rw [hc]
  have h0 : (∀ r j, c.times r 0 ≤ X r j) ∧ (∀ r j, X r j ≤ c.times r (Fin.last 2)) := by
    rw [hcz, hz, hX]
    constructor <;> intro r j <;> fin_cases r <;> fin_cases j <;> simp [Fin.last] <;> norm_num
  have h0' : (∀ r j, c.times r 0 ≤ X' r j) ∧ (∀ r j, X' r j ≤ c.times r (Fin.last 2)) := by
    rw [hcz, hz, hX']
    constructor <;> intro r j <;> fin_cases r <;> fin_cases j <;> simp [Fin.last] <;> norm_num
  have hdd : ∀ r, k.stateDim = (k.children r).1 ∨ (Function.Injective (X r) ∧ ∀ j i, X r j ≠ c.times r i) := by
    intro r
    rcases Fin.exists_fin_two.1 ⟨r, rfl⟩ with rfl | rfl
    · refine .inr ⟨fun a b hab => ?_, fun j i => ?_⟩
      · rw [hX] at hab
        fin_cases a <;> fin_cases b <;> first | rfl | (exfalso; norm_num at hab)
      · rw [hX, hcz, hz]
        fin_cases j <;> fin_cases i <;> norm_num
    · exact .inl (hd.trans hc1.symm)
  refine ⟨k, cov, c, X, X', hd, hc0, hv', ⟨h0.1, h0.2, hdd⟩, fun ε ε' => ?_, fun ε ε' F hF => ?_⟩
  · obtain ⟨h1, h2⟩ := C55_sampling_returns_iff hv' h0.1 h0.2 ε ε'
    exact h1.1 (h2.2 hdd)
  · obtain ⟨h1, h2⟩ := C55_sampling_returns_iff hv' h0'.1 h0'.2 ε ε'
    rcases h2.1 (h1.2 ⟨F, hF⟩) 0 with h | h
    · rw [hd, hc0] at h; omega
    · refine h.2 0 1 ?_
      rw [hX', hcz, hz]
      norm_num

end MF
