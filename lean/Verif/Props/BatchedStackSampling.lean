import Verif.Props.BatchedStack
import Verif.Props.BatchedSampling
import Verif.Props.StackSampling

/-!
# C66: the law of the samples from processes over a stack, on raw tensors

Vocabulary as in `Props/BatchedStack`, `Props/StackSampling` and `Props/BatchedSampling`.
-/

namespace MF
open Matrix Spec Tensor MeasureTheory ProbabilityTheory

variable {n p R : ℕ} {bs ss : List ℕ} {k : StackKernel R}

/-- C66: on tensors of any batch shape, `sample_f` over a stack returns exactly if at every batch element, for every child that has a
smaller state than the stack, the new times are distinct and differ from the conditioning times of that child. -/
theorem C66_sampling_returns_iff (hR : 0 < R) (hbs : ∀ k ∈ bs, 0 < k) (hd : 0 < k.stateDim) {C : TCondProcess} {c : List ℕ → StackProcess n k}
    (h : HoldsStackProcess bs C c) {cov : Fin R → ℝ → ℝ → Mat 1 1} (hc : ∀ b, InRange b bs → k.Valid cov (c b).times (c b).q)
    {new : Tensor} {xs : List ℕ → Fin R → Fin p → ℝ} (hx : HoldsVecs bs new xs) (hss : ∀ k ∈ ss, 0 < k)
    (hi : ∀ b, InRange b bs → ∀ r j, (c b).times r 0 ≤ xs b r j ∧ xs b r j ≤ (c b).times r (Fin.last n)) (E E' : List ℕ → ℝ) :
    (∃ Y, C.sampleF new ss E E' = .ok Y) ↔ ∀ b, InRange b bs → ∀ r, k.stateDim = (k.children r).1 ∨
      (Function.Injective (xs b r) ∧ ∀ j i, xs b r j ≠ (c b).times r i) := by
  have key := fun b hb ε ε' => C55_sampling_returns_iff (c := c b) (X := xs b) (hc b hb) (fun r j => (hi b hb r j).1) (fun r j => (hi b hb r j).2) ε ε'
  have hext : ∀ b, InRange b bs → ∃ b', InRange b' (bs ++ ss) ∧ b'.take bs.length = b := fun b hb => by
    obtain ⟨b₂, hb₂⟩ := inRange_exists hss
    exact ⟨b ++ b₂, inRange_append hb hb₂, by rw [← inRange_length hb, List.take_left]⟩
  rcases C66_sample_f hR hbs hd h hx hss E E' with ⟨x, y, hx', -, hy⟩ | ⟨⟨e, hx'⟩, b, hb, e', hy⟩
  · refine ⟨fun _ b hb => ?_, fun _ => ⟨x, hx'⟩⟩
    obtain ⟨b', hb', rfl⟩ := hext b hb
    obtain ⟨h1, h2⟩ := key _ hb (fun r t i => E (0 :: (i : ℕ) :: (t : ℕ) :: (r : ℕ) :: b')) (fun r t i => E' (0 :: (i : ℕ) :: (t : ℕ) :: (r : ℕ) :: b'))
    exact h2.1 (h1.2 ⟨_, hy b' hb'⟩)
  · refine ⟨fun ⟨Y, hY⟩ => absurd (hx'.symm.trans hY) (by simp), fun hall => ?_⟩
    exfalso
    obtain ⟨hb1, -⟩ := inRange_split hb
    obtain ⟨h1, h2⟩ := key _ hb1 (fun r t i => E (0 :: (i : ℕ) :: (t : ℕ) :: (r : ℕ) :: b)) (fun r t i => E' (0 :: (i : ℕ) :: (t : ℕ) :: (r : ℕ) :: b))
    obtain ⟨F, hF⟩ := h1.1 (h2.2 (hall _ hb1))
    beta_reduce at hy
    rw [hy] at hF
    cases hF

/-- C66 with C55: when all draws are independent and standard normal, then jointly over the whole result of `sample_f` over a stack the
samples, the batch elements and the kernels are independent, and each output follows the process of its child: its own `q` at its own conditioning
times and the child's prior conditional in between. -/
theorem C66_samples_law (hR : 0 < R) (hbs : ∀ k ∈ bs, 0 < k) (hd : 0 < k.stateDim) {C : TCondProcess} {c : List ℕ → StackProcess n k}
    (h : HoldsStackProcess bs C c) {cov : Fin R → ℝ → ℝ → Mat 1 1} (hc : ∀ b, InRange b bs → k.Valid cov (c b).times (c b).q)
    {new : Tensor} {xs : List ℕ → Fin R → Fin p → ℝ} (hx : HoldsVecs bs new xs) (hss : ∀ k ∈ ss, 0 < k)
    (hi : ∀ b, InRange b bs → ∀ r j, (c b).times r 0 ≤ xs b r j ∧ xs b r j ≤ (c b).times r (Fin.last n))
    (hnew : ∀ b, InRange b bs → ∀ r, k.stateDim = (k.children r).1 ∨ (Function.Injective (xs b r) ∧ ∀ j i, xs b r j ≠ (c b).times r i)) :
    ∃ (F : (Idx (bs ++ ss) → Fin R → (Ix (n + p) k.stateDim → ℝ) × (Ix n k.stateDim → ℝ)) → Idx (bs ++ ss) → Fin p → Vec R)
      (ν : Idx (bs ++ ss) → Fin R → Measure ((Fin (n + 1) × Fin k.stateDim → ℝ) × (Fin p × Fin 1 → ℝ))),
      (∀ e E E', HoldsStackNoise (bs ++ ss) E (fun b r => (e b r).1) → HoldsStackNoise (bs ++ ss) E' (fun b r => (e b r).2) → ∃ Y,
        C.sampleF new ss E E' = .ok Y ∧ HoldsSamples (bs ++ ss) Y (F e)) ∧
      (∀ b r, IsPredictive (slicePrior (k.children r).2 k.stateDim ((c (b.1.take bs.length)).meanFunction r) ((c (b.1.take bs.length)).times r)
        (xs (b.1.take bs.length) r)) ((c (b.1.take bs.length)).q r).law (ν b r)) ∧
      (Measure.pi fun _ : Idx (bs ++ ss) => Measure.pi fun _ : Fin R => (stdNormal (Ix (n + p) k.stateDim)).prod (stdNormal (Ix n k.stateDim))).map
        (fun e b r => fun i : Fin p × Fin 1 => F e b i.1 r) = Measure.pi fun b => Measure.pi fun r => (ν b r).map Prod.snd := by
  have hb : ∀ b : Idx (bs ++ ss), InRange (b.1.take bs.length) bs := fun b => (inRange_split b.2).1
  choose S F ν _ hF hν hlaw using fun b : Idx (bs ++ ss) => C55_samples (c := c (b.1.take bs.length)) (X := xs (b.1.take bs.length)) (hc _ (hb b))
    (fun r j => (hi _ (hb b) r j).1) (fun r j => (hi _ (hb b) r j).2) (hnew _ (hb b))
  have hpν : ∀ b r, IsProbabilityMeasure (ν b r) := fun b r => by
    have : IsProbabilityMeasure ((c (b.1.take bs.length)).q r).law := by rw [SSM.law_eq_gauss]; infer_instance
    obtain ⟨κ, hκ, -, h2⟩ := hν b r
    rw [h2]
    infer_instance
  have hpm : ∀ b r, IsProbabilityMeasure ((ν b r).map Prod.snd) := fun b r => Measure.isProbabilityMeasure_map measurable_snd.aemeasurable
  refine ⟨fun e b => F b (fun r => (e b r).1) fun r => (e b r).2, ν, fun e E E' hE hE' => ?_, hν, ?_⟩
  · obtain ⟨x, y, hx', hr, hy⟩ := (C66_sample_f hR hbs hd h hx hss E E').transfer (P := fun b y => ∀ hb : InRange b (bs ++ ss),
      y = F ⟨b, hb⟩ (fun r => (e ⟨b, hb⟩ r).1) fun r => (e ⟨b, hb⟩ r).2) fun b hb => by
      refine ⟨F ⟨b, hb⟩ (fun r => (e ⟨b, hb⟩ r).1) fun r => (e ⟨b, hb⟩ r).2, ?_, fun _ => rfl⟩
      beta_reduce
      rw [← hF ⟨b, hb⟩]
      congr 1
      · funext r t i; exact hE ⟨b, hb⟩ r t i
      · funext r t i; exact hE' ⟨b, hb⟩ r t i
    refine ⟨x, hx', hr.1, fun b t i => ?_⟩
    rw [hr.2 b.1 b.2, (hy b.1 b.2).2 b.2]
    rfl
  · have key : ∀ b, AEMeasurable (fun e : Fin R → (Ix (n + p) k.stateDim → ℝ) × (Ix n k.stateDim → ℝ) =>
          fun (r : Fin R) (i : Fin p × Fin 1) => F b (fun r => (e r).1) (fun r => (e r).2) i.1 r)
          (Measure.pi fun _ : Fin R => (stdNormal (Ix (n + p) k.stateDim)).prod (stdNormal (Ix n k.stateDim))) ∧
        (Measure.pi fun _ : Fin R => (stdNormal (Ix (n + p) k.stateDim)).prod (stdNormal (Ix n k.stateDim))).map
          (fun e : Fin R → (Ix (n + p) k.stateDim → ℝ) × (Ix n k.stateDim → ℝ) =>
          fun (r : Fin R) (i : Fin p × Fin 1) => F b (fun r => (e r).1) (fun r => (e r).2) i.1 r) = Measure.pi fun r => (ν b r).map Prod.snd := by
      intro b
      have hm := aemeasurable_of_map_isProb (hlaw b)
      have hp := measurePreserving_arrowProdEquivProdArrow (Ix (n + p) k.stateDim → ℝ) (Ix n k.stateDim → ℝ) (Fin R)
        (fun _ => stdNormal (Ix (n + p) k.stateDim)) fun _ => stdNormal (Ix n k.stateDim)
      have hsnd : Measurable fun (x : Fin R → (Fin (n + 1) × Fin k.stateDim → ℝ) × (Fin p × Fin 1 → ℝ)) r => (x r).2 := by fun_prop
      have h1 : (Measure.pi fun _ : Fin R => (stdNormal (Ix (n + p) k.stateDim)).prod (stdNormal (Ix n k.stateDim))).map
          (fun e : Fin R → (Ix (n + p) k.stateDim → ℝ) × (Ix n k.stateDim → ℝ) =>
          fun (r : Fin R) (i : Fin p × Fin 1) => F b (fun r => (e r).1) (fun r => (e r).2) i.1 r) = Measure.pi fun r => (ν b r).map Prod.snd := by
        rw [← Measure.pi_map_pi fun r => measurable_snd.aemeasurable, ← hlaw b, AEMeasurable.map_map_of_aemeasurable hsnd.aemeasurable hm]
        have hm2 := hsnd.comp_aemeasurable hm
        rw [← hp.map_eq] at hm2 ⊢
        rw [AEMeasurable.map_map_of_aemeasurable hm2 hp.measurable.aemeasurable]
        rfl
      exact ⟨aemeasurable_of_map_isProb h1, h1⟩
    have hs : ∀ b, SigmaFinite ((Measure.pi fun _ : Fin R => (stdNormal (Ix (n + p) k.stateDim)).prod (stdNormal (Ix n k.stateDim))).map
          fun e : Fin R → (Ix (n + p) k.stateDim → ℝ) × (Ix n k.stateDim → ℝ) =>
          fun (r : Fin R) (i : Fin p × Fin 1) => F b (fun r => (e r).1) (fun r => (e r).2) i.1 r) := fun b => by
      rw [(key b).2]; infer_instance
    refine (Measure.pi_map_pi fun b => (key b).1).trans ?_
    congr 1
    funext b
    exact (key b).2

end MF
