import Verif.Model.SDE
import Verif.Spec.SDE
import Verif.Lemmas.Gauss
import Verif.Lemmas.SSMLaw
import Mathlib.MeasureTheory.Integral.IntegralEqImproper
import Mathlib.Analysis.SpecialFunctions.ExpDeriv
import Mathlib.InformationTheory.KullbackLeibler.Basic

/-!
# Lemmas for the SDE module
-/

namespace MF
open Matrix Spec MeasureTheory ProbabilityTheory
variable {n d : ℕ}

/-! ### `tf.scan` -/

theorem tfScan_zero {α β : Type*} (f : α → β → α) (a : α) (e : Fin (n + 1) → β) : tfScan f a e 0 = f a (e 0) := by
  simp [tfScan, List.ofFn_succ]

theorem tfScan_succ {α β : Type*} (f : α → β → α) (a : α) (e : Fin (n + 1) → β) (k : Fin n) :
    tfScan f a e k.succ = f (tfScan f a e k.castSucc) (e k.succ) := by
  unfold tfScan
  have h : (k : ℕ) + 1 < (List.ofFn e).length := by simp
  rw [Fin.val_succ, Fin.val_castSucc, List.take_add_one (i := (k : ℕ) + 1), List.foldl_append, List.getElem?_eq_getElem h]
  simp only [Option.toList_some, List.foldl_cons, List.foldl_nil, List.getElem_ofFn]
  rfl

/-! ### Stein's identity -/

theorem hasDerivAt_gaussianPDFReal (m : ℝ) (v : NNReal) (x : ℝ) :
    HasDerivAt (gaussianPDFReal m v) (-(x - m) / v * gaussianPDFReal m v x) x := by
  have h : HasDerivAt (fun x : ℝ => -(x - m) ^ 2 / (2 * v)) (-(x - m) / v) x := by
    have := ((((hasDerivAt_id x).sub_const m).pow 2).neg).div_const (2 * (v : ℝ))
    refine this.congr_deriv ?_
    simp only [id, Nat.cast_ofNat, pow_one, mul_one]
    by_cases hv : (v : ℝ) = 0
    · simp [hv]
    · field_simp
      simp
  have := (h.exp).const_mul (Real.sqrt (2 * Real.pi * v))⁻¹
  refine this.congr_deriv ?_
  unfold gaussianPDFReal
  ring

theorem integrable_gaussianReal_iff {m : ℝ} {v : NNReal} (hv : v ≠ 0) (f : ℝ → ℝ) :
    Integrable f (gaussianReal m v) ↔ Integrable fun x => gaussianPDFReal m v x * f x := by
  rw [gaussianReal, if_neg hv, integrable_withDensity_iff_integrable_smul' (measurable_gaussianPDF m v)
    (Filter.Eventually.of_forall fun x => gaussianPDF_lt_top)]
  simp only [toReal_gaussianPDF, smul_eq_mul]

/-- Stein's identity. -/
theorem stein {m : ℝ} {v : NNReal} (hv : v ≠ 0) {f f' : ℝ → ℝ} (hf : ∀ x, HasDerivAt f (f' x) x)
    (h1 : Integrable f (gaussianReal m v)) (h2 : Integrable f' (gaussianReal m v))
    (h3 : Integrable (fun x => (x - m) * f x) (gaussianReal m v)) :
    ∫ x, (x - m) * f x ∂gaussianReal m v = v * ∫ x, f' x ∂gaussianReal m v := by
  have hv' : (v : ℝ) ≠ 0 := by exact_mod_cast hv
  rw [integrable_gaussianReal_iff hv] at h1 h2 h3
  have := integral_mul_deriv_eq_deriv_mul_of_integrable (u := f) (u' := f') (v := gaussianPDFReal m v)
    (v' := fun x => -(x - m) / v * gaussianPDFReal m v x) (fun x _ => hf x) (fun x _ => hasDerivAt_gaussianPDFReal m v x)
    ?_ ?_ ?_
  · rw [integral_gaussianReal_eq_integral_smul hv, integral_gaussianReal_eq_integral_smul hv]
    simp only [smul_eq_mul]
    have e1 : ∫ x, f x * (-(x - m) / v * gaussianPDFReal m v x) =
        -(v : ℝ)⁻¹ * ∫ x, gaussianPDFReal m v x * ((x - m) * f x) := by
      rw [← integral_const_mul]
      congr 1; funext x; field_simp
    have e2 : ∫ x, f' x * gaussianPDFReal m v x = ∫ x, gaussianPDFReal m v x * f' x := by
      congr 1; funext x; ring
    rw [e1, e2] at this
    have h' := congrArg (fun z => -(v : ℝ) * z) this
    have e3 : ∀ z : ℝ, -(v : ℝ) * (-(v : ℝ)⁻¹ * z) = z := fun z => by field_simp
    rw [e3] at h'
    rw [h']; ring
  · refine (h3.const_mul (-(v : ℝ)⁻¹)).congr (Filter.Eventually.of_forall fun x => ?_)
    simp only [Pi.mul_apply]; field_simp
  · refine h2.congr (Filter.Eventually.of_forall fun x => ?_)
    simp only [Pi.mul_apply]; ring
  · refine h1.congr (Filter.Eventually.of_forall fun x => ?_)
    simp only [Pi.mul_apply]; ring

/-! ### divergence between scalar chains -/

theorem steps_zero (m0 s0 : ℝ) (F : Fin n → ℝ → ℝ) (σ : Fin n → ℝ) (e : Fin (n + 1) → ℝ) : steps m0 s0 F σ e 0 = m0 + s0 * e 0 := rfl

theorem steps_succ (m0 s0 : ℝ) (F : Fin n → ℝ → ℝ) (σ : Fin n → ℝ) (e : Fin (n + 1) → ℝ) (k : Fin n) :
    steps m0 s0 F σ e k.succ = F k (steps m0 s0 F σ e k.castSucc) + σ k * e k.succ := by
  unfold steps
  rw [Fin.induction_succ]

/-- One more step of a chain: the pair of a state and its successor. -/
noncomputable def stepLaw {X : Type*} [MeasurableSpace X] (μ : Measure X) (a : X → ℝ) (σ : ℝ) : Measure (X × ℝ) :=
  (μ.prod (gaussianReal 0 1)).map fun p => (p.1, a p.1 + σ * p.2)

variable {X : Type*} [MeasurableSpace X]

theorem gauss_shift (c : ℝ) {h : ℝ → ENNReal} (hh : Measurable h) :
    ∫⁻ z, h (c + z) ∂gaussianReal 0 1 = ∫⁻ z, h z * ENNReal.ofReal (Real.exp (c * z - c ^ 2 / 2)) ∂gaussianReal 0 1 := by
  have e1 : ∫⁻ z, h (c + z) ∂gaussianReal 0 1 = ∫⁻ z, h z ∂gaussianReal c 1 := by
    have := gaussianReal_map_const_add (μ := 0) (v := 1) c
    rw [zero_add] at this
    rw [← this, lintegral_map hh (measurable_const_add c)]
  rw [e1, gaussianReal, gaussianReal, if_neg one_ne_zero, if_neg one_ne_zero,
    lintegral_withDensity_eq_lintegral_mul _ (measurable_gaussianPDF _ _) hh,
    lintegral_withDensity_eq_lintegral_mul (g := fun z => h z * ENNReal.ofReal (Real.exp (c * z - c ^ 2 / 2))) _
      (measurable_gaussianPDF _ _) (hh.mul (by fun_prop))]
  congr 1
  funext z
  simp only [Pi.mul_apply, gaussianPDF]
  have : gaussianPDFReal c 1 z = gaussianPDFReal 0 1 z * Real.exp (c * z - c ^ 2 / 2) := by
    have e : Real.exp (-(z - c) ^ 2 / (2 * ((1 : NNReal) : ℝ))) =
        Real.exp (-(z - 0) ^ 2 / (2 * ((1 : NNReal) : ℝ))) * Real.exp (c * z - c ^ 2 / 2) := by
      rw [← Real.exp_add]; congr 1
      simp only [NNReal.coe_one]; ring
    unfold gaussianPDFReal
    rw [e, mul_assoc (Real.sqrt _)⁻¹]
  rw [this, ENNReal.ofReal_mul (gaussianPDFReal_nonneg _ _ _)]
  ring

theorem stepLaw_withDensity {μ ν : Measure X} [SFinite μ] [SFinite ν] {ℓ a b : X → ℝ} (hℓ : Measurable ℓ) (ha : Measurable a) (hb : Measurable b)
    {σ : ℝ} (hσ : σ ≠ 0) (h : μ = ν.withDensity fun x => ENNReal.ofReal (Real.exp (ℓ x))) :
    stepLaw μ a σ = (stepLaw ν b σ).withDensity fun p => ENNReal.ofReal (Real.exp
      (ℓ p.1 + ((a p.1 - b p.1) / σ * ((p.2 - b p.1) / σ) - ((a p.1 - b p.1) / σ) ^ 2 / 2))) := by
  have hT : ∀ c : X → ℝ, Measurable c → Measurable fun p : X × ℝ => (p.1, c p.1 + σ * p.2) := fun c hc => by fun_prop
  refine Measure.ext_of_lintegral _ fun g hg => ?_
  rw [lintegral_withDensity_eq_lintegral_mul _ (by fun_prop) hg]
  unfold stepLaw
  rw [lintegral_map hg (hT a ha), lintegral_map (by fun_prop) (hT b hb),
    lintegral_prod (fun p : X × ℝ => g (p.1, a p.1 + σ * p.2)) (hg.comp (hT a ha)).aemeasurable, lintegral_prod _ (by fun_prop)]
  simp only [Pi.mul_apply]
  have inner : ∀ x, ∫⁻ z, g (x, a x + σ * z) ∂gaussianReal 0 1 = ∫⁻ z, g (x, b x + σ * z) *
      ENNReal.ofReal (Real.exp ((a x - b x) / σ * z - ((a x - b x) / σ) ^ 2 / 2)) ∂gaussianReal 0 1 := fun x => by
    rw [← gauss_shift ((a x - b x) / σ) (h := fun z => g (x, b x + σ * z)) (by fun_prop)]
    congr 1; funext z; congr 2; field_simp; ring
  simp only [inner]
  subst h
  rw [lintegral_withDensity_eq_lintegral_mul _ (by fun_prop)]
  · congr 1
    funext x
    simp only [Pi.mul_apply]
    rw [← lintegral_const_mul _ (by fun_prop)]
    congr 1
    funext z
    have e : (b x + σ * z - b x) / σ = z := by field_simp; ring
    rw [e, Real.exp_add, ENNReal.ofReal_mul (Real.exp_pos _).le]
    ring
  · have : Measurable (Function.uncurry fun (x : X) (z : ℝ) => g (x, b x + σ * z) *
        ENNReal.ofReal (Real.exp ((a x - b x) / σ * z - ((a x - b x) / σ) ^ 2 / 2))) := by
      unfold Function.uncurry; fun_prop
    exact this.lintegral_prod_right

theorem stepLaw_integral {μ : Measure X} [IsProbabilityMeasure μ] {ℓ a b : X → ℝ} (hℓ : Measurable ℓ) (ha : Measurable a) (hb : Measurable b)
    {σ : ℝ} (hσ : σ ≠ 0) (h1 : Integrable ℓ μ) (h2 : Integrable (fun x => (a x - b x) ^ 2) μ) :
    Integrable (fun p : X × ℝ => ℓ p.1 + ((a p.1 - b p.1) / σ * ((p.2 - b p.1) / σ) - ((a p.1 - b p.1) / σ) ^ 2 / 2)) (stepLaw μ a σ) ∧
    ∫ p, (ℓ p.1 + ((a p.1 - b p.1) / σ * ((p.2 - b p.1) / σ) - ((a p.1 - b p.1) / σ) ^ 2 / 2)) ∂(stepLaw μ a σ) =
      ∫ x, ℓ x ∂μ + ∫ x, (a x - b x) ^ 2 / (2 * σ ^ 2) ∂μ := by
  have hT : Measurable fun p : X × ℝ => (p.1, a p.1 + σ * p.2) := by fun_prop
  have hfm : Measurable fun p : X × ℝ => ℓ p.1 + ((a p.1 - b p.1) / σ * ((p.2 - b p.1) / σ) - ((a p.1 - b p.1) / σ) ^ 2 / 2) := by
    fun_prop
  have e : (fun p : X × ℝ => ℓ p.1 + ((a p.1 - b p.1) / σ * ((p.2 - b p.1) / σ) - ((a p.1 - b p.1) / σ) ^ 2 / 2)) ∘
      (fun p : X × ℝ => (p.1, a p.1 + σ * p.2)) =
      fun p : X × ℝ => ℓ p.1 + (a p.1 - b p.1) ^ 2 / (2 * σ ^ 2) + (a p.1 - b p.1) / σ * p.2 := by
    funext p
    simp only [Function.comp]
    field_simp
    ring
  have hL2 : MemLp (fun x => a x - b x) 2 μ := (memLp_two_iff_integrable_sq (ha.sub hb).aestronglyMeasurable).2 h2
  have i1 : Integrable (fun p : X × ℝ => ℓ p.1) (μ.prod (gaussianReal 0 1)) := h1.comp_fst _
  have i2 : Integrable (fun p : X × ℝ => (a p.1 - b p.1) ^ 2 / (2 * σ ^ 2)) (μ.prod (gaussianReal 0 1)) := (h2.div_const _).comp_fst _
  have hz : Integrable (fun z : ℝ => z) (gaussianReal 0 1) := (memLp_id_gaussianReal' (μ := 0) (v := 1) 1 (by simp)).integrable le_rfl
  have i3 : Integrable (fun p : X × ℝ => (a p.1 - b p.1) / σ * p.2) (μ.prod (gaussianReal 0 1)) :=
    ((hL2.integrable one_le_two).div_const σ).mul_prod hz
  unfold stepLaw
  constructor
  · rw [integrable_map_measure hfm.aestronglyMeasurable hT.aemeasurable, e]
    exact (i1.add i2).add i3
  · have := integral_map (μ := μ.prod (gaussianReal 0 1)) hT.aemeasurable (f := fun p : X × ℝ =>
      ℓ p.1 + ((a p.1 - b p.1) / σ * ((p.2 - b p.1) / σ) - ((a p.1 - b p.1) / σ) ^ 2 / 2)) hfm.aestronglyMeasurable
    rw [this]
    have e' := fun p => congrFun e p
    simp only [Function.comp] at e'
    simp only [e']
    have a1 := integral_add (i1.add i2) i3
    simp only [Pi.add_apply] at a1
    rw [a1, integral_add i1 i2, integral_fun_fst, integral_fun_fst (fun x => (a x - b x) ^ 2 / (2 * σ ^ 2)),
      integral_prod_mul (fun x => (a x - b x) / σ) (fun z : ℝ => z)]
    simp [integral_id_gaussianReal]

/-! ### one step at a time -/

theorem measurable_snoc : Measurable fun p : (Fin (n + 1) → ℝ) × ℝ => (Fin.snoc p.1 p.2 : Fin (n + 2) → ℝ) := by
  refine measurable_pi_lambda _ fun i => ?_
  refine Fin.lastCases ?_ (fun i => ?_) i
  · simp only [Fin.snoc_last]; fun_prop
  · simp only [Fin.snoc_castSucc]; fun_prop

theorem stdNormal_snoc : stdNormal (Fin (n + 2)) =
    ((stdNormal (Fin (n + 1))).prod (gaussianReal 0 1)).map fun p => (Fin.snoc p.1 p.2 : Fin (n + 2) → ℝ) := by
  have h := (measurePreserving_piFinSuccAbove (fun _ : Fin (n + 2) => gaussianReal 0 1) (Fin.last (n + 1))).symm
  have hs := h.map_eq
  unfold stdNormal
  rw [← hs, ← Measure.prod_swap, Measure.map_map h.measurable measurable_swap]
  congr 1
  funext p
  refine funext fun i => ?_
  refine Fin.lastCases ?_ (fun i => ?_) i
  · simp [MeasurableEquiv.piFinSuccAbove, Fin.insertNthEquiv]
  · simp [MeasurableEquiv.piFinSuccAbove, Fin.insertNthEquiv]

theorem steps_snoc (m0 s0 : ℝ) (F : Fin (n + 1) → ℝ → ℝ) (σ : Fin (n + 1) → ℝ) (e : Fin (n + 1) → ℝ) (z : ℝ) :
    steps m0 s0 F σ (Fin.snoc e z : Fin (n + 2) → ℝ) =
      Fin.snoc (steps m0 s0 (fun k => F k.castSucc) (fun k => σ k.castSucc) e)
        (F (Fin.last n) (steps m0 s0 (fun k => F k.castSucc) (fun k => σ k.castSucc) e (Fin.last n)) + σ (Fin.last n) * z) := by
  have key : ∀ k : Fin (n + 1), steps m0 s0 F σ (Fin.snoc e z : Fin (n + 2) → ℝ) k.castSucc =
      steps m0 s0 (fun k => F k.castSucc) (fun k => σ k.castSucc) e k := fun k => by
    induction k using Fin.induction with
    | zero =>
      show m0 + s0 * (Fin.snoc e z : Fin (n + 2) → ℝ) 0 = m0 + s0 * e 0
      rw [← Fin.castSucc_zero, Fin.snoc_castSucc]
    | succ k ih =>
      rw [← Fin.succ_castSucc, steps_succ, ih, steps_succ, Fin.succ_castSucc, Fin.snoc_castSucc]
  funext i
  refine Fin.lastCases ?_ (fun i => ?_) i
  · rw [Fin.snoc_last, ← Fin.succ_last, steps_succ, key, Fin.succ_last, Fin.snoc_last]
  · rw [Fin.snoc_castSucc, key]

theorem measurable_steps (m0 s0 : ℝ) {F : Fin n → ℝ → ℝ} (hF : ∀ k, Measurable (F k)) (σ : Fin n → ℝ) :
    Measurable (steps m0 s0 F σ) := by
  refine measurable_pi_lambda _ fun k => ?_
  induction k using Fin.induction with
  | zero => simp only [steps_zero]; fun_prop
  | succ k ih =>
    simp only [steps_succ]
    exact ((hF k).comp ih).add ((measurable_pi_apply _).const_mul _)

theorem stepsLaw_prob (m0 s0 : ℝ) {F : Fin n → ℝ → ℝ} (hF : ∀ k, Measurable (F k)) (σ : Fin n → ℝ) :
    IsProbabilityMeasure (stepsLaw m0 s0 F σ) := by
  unfold stepsLaw stdNormal
  exact Measure.isProbabilityMeasure_map (measurable_steps m0 s0 hF σ).aemeasurable

theorem stepsLaw_succ (m0 s0 : ℝ) {F : Fin (n + 1) → ℝ → ℝ} (hF : ∀ k, Measurable (F k)) (σ : Fin (n + 1) → ℝ) :
    stepsLaw m0 s0 F σ = (stepLaw (stepsLaw m0 s0 (fun k => F k.castSucc) (fun k => σ k.castSucc))
      (fun x => F (Fin.last n) (x (Fin.last n))) (σ (Fin.last n))).map fun p => (Fin.snoc p.1 p.2 : Fin (n + 2) → ℝ) := by
  have hm := measurable_steps m0 s0 (F := fun k : Fin n => F k.castSucc) (fun k => hF _) fun k => σ k.castSucc
  have hl := hF (Fin.last n)
  have hT : Measurable fun p : (Fin (n + 1) → ℝ) × ℝ => (p.1, F (Fin.last n) (p.1 (Fin.last n)) + σ (Fin.last n) * p.2) := by
    fun_prop
  haveI : SFinite (stdNormal (Fin (n + 1))) := by unfold stdNormal; infer_instance
  unfold stepLaw
  rw [Measure.map_map measurable_snoc hT]
  unfold stepsLaw
  rw [stdNormal_snoc, Measure.map_map (measurable_steps m0 s0 hF σ) measurable_snoc]
  have hp := Measure.map_prod_map (stdNormal (Fin (n + 1))) (gaussianReal 0 1) hm measurable_id
  rw [Measure.map_id] at hp
  rw [hp, Measure.map_map (measurable_snoc.comp hT) (hm.prodMap measurable_id)]
  congr 1
  funext p
  exact steps_snoc m0 s0 F σ p.1 p.2

/-- Marginals of the chain do not depend on later steps. -/
theorem stepsLaw_init (m0 s0 : ℝ) {F : Fin (n + 1) → ℝ → ℝ} (hF : ∀ k, Measurable (F k)) (σ : Fin (n + 1) → ℝ) :
    (stepsLaw m0 s0 F σ).map (fun x k => x (Fin.castSucc k)) = stepsLaw m0 s0 (fun k => F k.castSucc) fun k => σ k.castSucc := by
  have hi : Measurable fun (x : Fin (n + 2) → ℝ) (k : Fin (n + 1)) => x k.castSucc := by fun_prop
  have hl := hF (Fin.last n)
  have hT : Measurable fun p : (Fin (n + 1) → ℝ) × ℝ => (p.1, F (Fin.last n) (p.1 (Fin.last n)) + σ (Fin.last n) * p.2) := by
    fun_prop
  haveI := stepsLaw_prob m0 s0 (F := fun k : Fin n => F k.castSucc) (fun k => hF _) fun k => σ k.castSucc
  rw [stepsLaw_succ m0 s0 hF σ, Measure.map_map hi measurable_snoc]
  unfold stepLaw
  rw [Measure.map_map (hi.comp measurable_snoc) hT]
  have : (((fun (x : Fin (n + 2) → ℝ) (k : Fin (n + 1)) => x k.castSucc) ∘ fun p : (Fin (n + 1) → ℝ) × ℝ => (Fin.snoc p.1 p.2 : Fin (n + 2) → ℝ)) ∘
      fun p : (Fin (n + 1) → ℝ) × ℝ => (p.1, F (Fin.last n) (p.1 (Fin.last n)) + σ (Fin.last n) * p.2)) = Prod.fst := by
    funext p k
    simp [Function.comp]
  rw [this, Measure.map_fst_prod, measure_univ, one_smul]

theorem map_density {Y Z : Type*} [MeasurableSpace Y] [MeasurableSpace Z] {P Q : Measure Y} {s : Y → Z} {u : Z → Y} (hs : Measurable s)
    (hu : Measurable u) (hus : ∀ y, u (s y) = y) {L : Y → ℝ} (hL : Measurable L)
    (h : P = Q.withDensity fun y => ENNReal.ofReal (Real.exp (L y))) :
    P.map s = (Q.map s).withDensity (fun z => ENNReal.ofReal (Real.exp (L (u z)))) ∧
      (Integrable L P → Integrable (fun z => L (u z)) (P.map s)) ∧ ∫ z, L (u z) ∂P.map s = ∫ y, L y ∂P := by
  have mLu : Measurable fun z => L (u z) := hL.comp hu
  refine ⟨?_, fun hi => ?_, ?_⟩
  · refine Measure.ext_of_lintegral _ fun g hg => ?_
    rw [lintegral_map hg hs, h, lintegral_withDensity_eq_lintegral_mul (g := fun a => g (s a)) _ (by fun_prop) (hg.comp hs),
      lintegral_withDensity_eq_lintegral_mul _ (by fun_prop) hg, lintegral_map (by fun_prop) hs]
    simp only [Pi.mul_apply, hus]
  · rw [integrable_map_measure mLu.aestronglyMeasurable hs.aemeasurable]
    refine hi.congr (Filter.Eventually.of_forall fun y => ?_)
    simp only [Function.comp, hus]
  · rw [integral_map hs.aemeasurable mLu.aestronglyMeasurable]
    simp only [hus]

/-- Discrete Girsanov: the density of one chain with respect to another with the same start and noise, and the mean of its logarithm. -/
theorem steps_girsanov (m0 s0 : ℝ) : ∀ {n : ℕ} {F G : Fin n → ℝ → ℝ} (_ : ∀ k, Measurable (F k)) (_ : ∀ k, Measurable (G k))
    {σ : Fin n → ℝ} (_ : ∀ k, σ k ≠ 0)
    (_ : ∀ k : Fin n, Integrable (fun x => (F k (x k.castSucc) - G k (x k.castSucc)) ^ 2) (stepsLaw m0 s0 F σ)),
    ∃ ℓ : (Fin (n + 1) → ℝ) → ℝ, Measurable ℓ ∧
      stepsLaw m0 s0 F σ = (stepsLaw m0 s0 G σ).withDensity (fun x => ENNReal.ofReal (Real.exp (ℓ x))) ∧
      Integrable ℓ (stepsLaw m0 s0 F σ) ∧ ∫ x, ℓ x ∂stepsLaw m0 s0 F σ =
        ∑ k : Fin n, ∫ x, (F k (x k.castSucc) - G k (x k.castSucc)) ^ 2 / (2 * σ k ^ 2) ∂stepsLaw m0 s0 F σ := by
  intro n
  induction n with
  | zero =>
    intro F G hF hG σ hσ hI
    refine ⟨fun _ => 0, measurable_const, ?_, integrable_const_iff.2 (Or.inl rfl), by simp⟩
    simp only [Real.exp_zero, ENNReal.ofReal_one]
    rw [show (fun _ : Fin (0 + 1) → ℝ => (1 : ENNReal)) = 1 from rfl, withDensity_one]
    have : F = G := funext fun k => k.elim0
    rw [this]
  | succ n ih =>
    intro F G hF hG σ hσ hI
    have hprev := stepsLaw_init m0 s0 hF σ
    have hi : Measurable fun (x : Fin (n + 2) → ℝ) (k : Fin (n + 1)) => x k.castSucc := by fun_prop
    have tr : ∀ g : (Fin (n + 1) → ℝ) → ℝ, Measurable g → (Integrable g (stepsLaw m0 s0 (fun k : Fin n => F k.castSucc) fun k => σ k.castSucc) ↔
        Integrable (fun x : Fin (n + 2) → ℝ => g fun k => x k.castSucc) (stepsLaw m0 s0 F σ)) := fun g hg => by
      rw [← hprev, integrable_map_measure hg.aestronglyMeasurable hi.aemeasurable]; rfl
    have tri : ∀ g : (Fin (n + 1) → ℝ) → ℝ, Measurable g → ∫ x, g x ∂(stepsLaw m0 s0 (fun k : Fin n => F k.castSucc) fun k => σ k.castSucc) =
        ∫ x : Fin (n + 2) → ℝ, g (fun k => x k.castSucc) ∂(stepsLaw m0 s0 F σ) := fun g hg => by
      rw [← hprev, integral_map hi.aemeasurable hg.aestronglyMeasurable]
    have hFl := hF (Fin.last n)
    have hGl := hG (Fin.last n)
    have mm : ∀ k : Fin n, Measurable fun x : Fin (n + 1) → ℝ => (F k.castSucc (x k.castSucc) - G k.castSucc (x k.castSucc)) ^ 2 := fun k => by
      have h1 := hF k.castSucc
      have h2 := hG k.castSucc
      fun_prop
    obtain ⟨ℓ, hℓ, hd, hint, hval⟩ := ih (F := fun k => F k.castSucc) (G := fun k => G k.castSucc) (fun k => hF _) (fun k => hG _)
      (σ := fun k => σ k.castSucc) (fun k => hσ _) fun k => (tr _ (mm k)).2 (hI k.castSucc)
    haveI p1 := stepsLaw_prob m0 s0 (F := fun k : Fin n => F k.castSucc) (fun k => hF _) fun k => σ k.castSucc
    haveI p2 := stepsLaw_prob m0 s0 (F := fun k : Fin n => G k.castSucc) (fun k => hG _) fun k => σ k.castSucc
    set a : (Fin (n + 1) → ℝ) → ℝ := fun x => F (Fin.last n) (x (Fin.last n)) with ha
    set b : (Fin (n + 1) → ℝ) → ℝ := fun x => G (Fin.last n) (x (Fin.last n)) with hb
    have ma : Measurable a := by fun_prop
    have mb : Measurable b := by fun_prop
    have hs := hσ (Fin.last n)
    have hD := stepLaw_withDensity hℓ ma mb hs hd
    have hlast : Integrable (fun x => (a x - b x) ^ 2) (stepsLaw m0 s0 (fun k : Fin n => F k.castSucc) fun k => σ k.castSucc) :=
      (tr _ (by fun_prop)).2 (hI (Fin.last n))
    obtain ⟨hJ, hV⟩ := stepLaw_integral hℓ ma mb hs hint hlast
    set L : (Fin (n + 1) → ℝ) × ℝ → ℝ := fun p => ℓ p.1 + ((a p.1 - b p.1) / σ (Fin.last n) * ((p.2 - b p.1) / σ (Fin.last n)) -
      ((a p.1 - b p.1) / σ (Fin.last n)) ^ 2 / 2) with hL
    have mL : Measurable L := by fun_prop
    set un : (Fin (n + 2) → ℝ) → (Fin (n + 1) → ℝ) × ℝ := fun x => (fun k => x k.castSucc, x (Fin.last (n + 1))) with hun
    have mun : Measurable un := by fun_prop
    have hus : ∀ p : (Fin (n + 1) → ℝ) × ℝ, un (Fin.snoc p.1 p.2) = p := fun p => by simp [un]
    have hcF := stepsLaw_succ m0 s0 hF σ
    have hcG := stepsLaw_succ m0 s0 hG σ
    obtain ⟨t1, t2, t3⟩ := map_density measurable_snoc mun hus mL hD
    refine ⟨fun x => L (un x), mL.comp mun, ?_, ?_, ?_⟩
    · rw [hcF, hcG]; exact t1
    · rw [hcF]; exact t2 hJ
    · have e1 : ∫ x, L (un x) ∂stepsLaw m0 s0 F σ = ∫ p, L p ∂stepLaw (stepsLaw m0 s0 (fun k => F k.castSucc) fun k => σ k.castSucc) a (σ (Fin.last n)) := by
        rw [hcF]; exact t3
      rw [e1, hV, hval, Fin.sum_univ_castSucc]
      congr 1
      · exact Finset.sum_congr rfl fun k _ => tri _ ((mm k).div_const _)
      · exact tri (fun x => (a x - b x) ^ 2 / (2 * σ (Fin.last n) ^ 2)) (by fun_prop)

theorem klDiv_of_density {μ ν : Measure X} [IsProbabilityMeasure μ] [IsProbabilityMeasure ν] {ℓ : X → ℝ} (hℓ : Measurable ℓ)
    (h : μ = ν.withDensity fun x => ENNReal.ofReal (Real.exp (ℓ x))) (hI : Integrable ℓ μ) :
    InformationTheory.klDiv μ ν = ENNReal.ofReal (∫ x, ℓ x ∂μ) := by
  have hac : μ ≪ ν := by rw [h]; exact withDensity_absolutelyContinuous _ _
  have hllr : llr μ ν =ᵐ[μ] ℓ := by
    have h1 : μ.rnDeriv ν =ᵐ[ν] fun x => ENNReal.ofReal (Real.exp (ℓ x)) := by
      conv_lhs => rw [h]
      exact Measure.rnDeriv_withDensity ν (by fun_prop)
    filter_upwards [hac.ae_le h1] with x hx
    rw [llr, hx, ENNReal.toReal_ofReal (Real.exp_pos _).le, Real.log_exp]
  rw [InformationTheory.klDiv_of_ac_of_integrable hac (hI.congr hllr.symm), integral_congr_ae hllr]
  simp

/-- The divergence between two chains with the same start and noise. -/
theorem klDiv_steps (m0 s0 : ℝ) {F G : Fin n → ℝ → ℝ} (hF : ∀ k, Measurable (F k)) (hG : ∀ k, Measurable (G k))
    {σ : Fin n → ℝ} (hσ : ∀ k, σ k ≠ 0)
    (hI : ∀ k : Fin n, Integrable (fun x => (F k (x k.castSucc) - G k (x k.castSucc)) ^ 2) (stepsLaw m0 s0 F σ)) :
    InformationTheory.klDiv (stepsLaw m0 s0 F σ) (stepsLaw m0 s0 G σ) = ENNReal.ofReal
      (∑ k : Fin n, ∫ x, (F k (x k.castSucc) - G k (x k.castSucc)) ^ 2 / (2 * σ k ^ 2) ∂stepsLaw m0 s0 F σ) := by
  obtain ⟨ℓ, hℓ, hd, hint, hval⟩ := steps_girsanov m0 s0 hF hG hσ hI
  haveI := stepsLaw_prob m0 s0 hF σ
  haveI := stepsLaw_prob m0 s0 hG σ
  rw [klDiv_of_density hℓ hd hint, hval]

end MF
