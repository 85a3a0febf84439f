import Verif.Model.Parameters
import Verif.Props.SVGP
import Verif.Props.SparseCVI
import Verif.Props.SparsePEP

/-!
# C53: parameters stay valid under any history of assignments and optimiser steps
-/

namespace MF
open Matrix Spec
variable {n d o : ℕ}

theorem tfpOrdered_sum (n : ℕ) (y : Fin (n + 1) → ℝ) (j : Fin n) :
    (tfpOrdered n).2 y j.succ = (tfpOrdered n).2 y j.castSucc + Real.exp (y j.succ) := by
  simp only [tfpOrdered]
  have : Finset.Iic j.succ = insert j.succ (Finset.Iic j.castSucc) := by
    ext i
    simp only [Finset.mem_Iic, Finset.mem_insert, Fin.le_def, Fin.ext_iff, Fin.val_succ, Fin.val_castSucc]
    omega
  rw [this, Finset.sum_insert (by simp [Fin.le_def]), Fin.cons_succ, add_comm]

theorem tfpOrdered_zero (n : ℕ) (y : Fin (n + 1) → ℝ) : (tfpOrdered n).2 y 0 = y 0 := by
  simp only [tfpOrdered]
  have : Finset.Iic (0 : Fin (n + 1)) = {0} := by
    ext i; rw [Finset.mem_Iic, Finset.mem_singleton, Fin.le_zero_iff]
  rw [this, Finset.sum_singleton, Fin.cons_zero]

theorem ordered_strictMono (u : Fin (n + 1) → ℝ) : StrictMono ((ordered n).forward u) :=
  Fin.strictMono_iff_lt_succ.2 fun j => by
    show (tfpOrdered n).2 u j.castSucc < (tfpOrdered n).2 u j.succ
    rw [tfpOrdered_sum]
    linarith [Real.exp_pos (u j.succ)]

theorem ordered_roundtrip {z : Fin (n + 1) → ℝ} (hz : StrictMono z) :
    ∃ u, (ordered n).inverse z = .ok u ∧ (ordered n).forward u = z := by
  have h : ∀ j : Fin n, 0 < z j.succ - z j.castSucc := fun j => sub_pos.2 (hz (Fin.castSucc_lt_succ))
  refine ⟨Fin.cons (z 0) fun j => Real.log (z j.succ - z j.castSucc), if_pos h, ?_⟩
  funext i
  show (tfpOrdered n).2 _ i = z i
  induction i using Fin.induction with
  | zero => rw [tfpOrdered_zero, Fin.cons_zero]
  | succ j ih =>
    rw [tfpOrdered_sum, ih, Fin.cons_succ, Real.exp_log (h j)]
    ring

theorem ordered_inverse_ok {z u : Fin (n + 1) → ℝ} (h : (ordered n).inverse z = .ok u) : StrictMono z := by
  refine Fin.strictMono_iff_lt_succ.2 fun j => ?_
  by_contra hj
  have : (ordered n).inverse z = .error .invalidArgument := if_neg fun hall => hj (sub_pos.1 (hall j))
  rw [this] at h
  cases h

/-- C53: the inducing inputs. A value can be given (at construction or by assignment) exactly when it is strictly
increasing, and is then shown unchanged; after any history of assignments (those that raise included) and optimiser
steps the inputs shown are strictly increasing; and every strictly increasing sequence can be reached by a step. -/
theorem C53_ordered (n : ℕ) :
    (∀ z, (∃ u, (ordered n).create z = .ok u) ↔ StrictMono z) ∧
    (∀ z u, (ordered n).create z = .ok u → (ordered n).forward u = z) ∧
    (∀ u h, StrictMono ((ordered n).forward ((ordered n).after u h))) ∧
    (∀ u h z, StrictMono z → (ordered n).forward ((ordered n).after u (h ++ [.assign z])) = z) ∧
    (∀ z, StrictMono z → ∃ u', ∀ u h, (ordered n).forward ((ordered n).after u (h ++ [.step u'])) = z) := by
  have happ : ∀ (h : List (Update (Fin (n + 1) → ℝ) (Fin (n + 1) → ℝ))) u x, (ordered n).after u (h ++ [x]) =
      (ordered n).after ((ordered n).after u h) [x] := by
    intro h
    induction h with
    | nil => intro u x; rfl
    | cons a t ih =>
      intro u x
      cases a <;> exact ih _ _
  refine ⟨fun z => ⟨fun ⟨u, hu⟩ => ordered_inverse_ok hu, fun hz => ?_⟩, fun z u hu => ?_, fun u h => ordered_strictMono _,
    fun u h z hz => ?_, fun z hz => ?_⟩
  · obtain ⟨u, hu, -⟩ := ordered_roundtrip hz
    exact ⟨u, hu⟩
  · obtain ⟨u', hu', hf⟩ := ordered_roundtrip (ordered_inverse_ok hu)
    obtain rfl : u = u' := Except.ok.inj (hu.symm.trans hu')
    exact hf
  · obtain ⟨u', hu', hf⟩ := ordered_roundtrip hz
    rw [happ]
    simp only [Transform.after, hu']
    exact hf
  · obtain ⟨u', hu', hf⟩ := ordered_roundtrip hz
    refine ⟨u', fun u h => ?_⟩
    rw [happ]
    exact hf

/-- C53: the positive hyperparameters. The kernel constructors accept exactly the values that the transform can
represent, the value is shown unchanged, and after any history of assignments and steps on lengthscale and variance the
kernel with the current values is one the constructor accepts: every theorem about it (valid covariances,
stationarity, ...) goes on holding during training. -/
theorem C53_kernel_parameters (o : ℕ) {l v j : ℝ} (hj : 0 ≤ j) :
    ((∃ K, matern12 o l v j = .ok K) ↔ ∃ ul uv, positive.create l = .ok ul ∧ positive.create v = .ok uv) ∧
    (∀ x u, positive.create x = .ok u → positive.forward u = x) ∧
    ∀ ul uv (hl hv : List (Update ℝ ℝ)),
      (∃ K, matern12 o (positive.forward (positive.after ul hl)) (positive.forward (positive.after uv hv)) j = .ok K) ∧
      (∃ K, matern32 o (positive.forward (positive.after ul hl)) (positive.forward (positive.after uv hv)) j = .ok K) ∧
      (∃ K, matern52 o (positive.forward (positive.after ul hl)) (positive.forward (positive.after uv hv)) j = .ok K) ∧
      (∃ K, ornsteinUhlenbeck o (positive.forward (positive.after ul hl)) (positive.forward (positive.after uv hv)) j =
        .ok K) ∧
      (∃ K, harmonicOscillator o (positive.forward (positive.after ul hl)) (positive.forward (positive.after uv hv)) j =
        .ok K) ∧
      ∃ K, constant o (positive.forward (positive.after uv hv)) j = .ok K := by
  have hpos : ∀ u, 0 < positive.forward u := fun u => by
    show 0 < Real.log (1 + Real.exp u)
    exact Real.log_pos (by linarith [Real.exp_pos u])
  have hinv : ∀ x, (∃ u, positive.create x = .ok u) ↔ 0 < x := fun x => by
    unfold Transform.create positive
    dsimp only
    split_ifs with h <;> simp [h]
  refine ⟨?_, fun x u hu => ?_, fun ul uv hl hv => ?_⟩
  · rw [(C28_constructors l v 1 1 1 j).1]
    constructor
    · rintro ⟨-, h1, h2⟩
      obtain ⟨ul, h1⟩ := (hinv l).2 h1
      obtain ⟨uv, h2⟩ := (hinv v).2 h2
      exact ⟨ul, uv, h1, h2⟩
    · rintro ⟨ul, uv, h1, h2⟩
      exact ⟨hj, (hinv l).1 ⟨_, h1⟩, (hinv v).1 ⟨_, h2⟩⟩
  · have hx := (hinv x).1 ⟨u, hu⟩
    have hu' : positive.create x = .ok (Real.log (Real.exp x - 1)) := if_pos hx
    obtain rfl : u = _ := Except.ok.inj (hu.symm.trans hu')
    show Real.log (1 + Real.exp (Real.log (Real.exp x - 1))) = x
    have : 0 < Real.exp x - 1 := by linarith [Real.add_one_lt_exp hx.ne']
    rw [Real.exp_log this, add_sub_cancel, Real.log_exp]
  · have h1 := hpos (positive.after ul hl)
    have h2 := hpos (positive.after uv hv)
    obtain ⟨c1, c2, c3, -⟩ := C28_constructors (o := o) (positive.forward (positive.after ul hl))
      (positive.forward (positive.after uv hv)) 1 1 1 j
    obtain ⟨-, -, -, c4, -⟩ := C28_constructors (o := o) 1 1 1 (positive.forward (positive.after ul hl))
      (positive.forward (positive.after uv hv)) j
    obtain ⟨-, -, -, -, c5, -⟩ := C28_constructors (o := o) 1 (positive.forward (positive.after ul hl))
      (positive.forward (positive.after uv hv)) 1 1 j
    obtain ⟨-, -, -, -, -, c6⟩ := C28_constructors (o := o) 1 (positive.forward (positive.after uv hv)) 1 1 1 j
    exact ⟨c1.2 ⟨hj, h1, h2⟩, c2.2 ⟨hj, h1, h2⟩, c3.2 ⟨hj, h1, h2⟩, c4.2 ⟨hj, h1, h2⟩, c5.2 ⟨hj, h1, h2⟩, c6.2 ⟨hj, h2⟩⟩

/-- C53: the Cholesky factors. After any history the factor shown is lower triangular, so that its square is a
covariance; a lower triangular factor is shown unchanged, of any other matrix the part above the diagonal is silently
dropped. Non-singularity is *not* kept: a step can make the factor zero. -/
theorem C53_triangular (d : ℕ) :
    (∀ u h i j, i < j → (triangular d).forward ((triangular d).after u h) i j = 0) ∧
    (∀ u h, ((triangular d).forward ((triangular d).after u h) *
      ((triangular d).forward ((triangular d).after u h))ᵀ).PosSemidef) ∧
    (∀ M, ∃ u, (triangular d).create M = .ok u ∧ ∀ i j, (triangular d).forward u i j = if j ≤ i then M i j else 0) ∧
    ∃ u', ∀ u, (triangular d).forward ((triangular d).after u [.step u']) = 0 := by
  have hlow : ∀ u i j, i < j → (triangular d).forward u i j = 0 := fun u i j hij => dif_neg (not_le.2 hij)
  refine ⟨fun u h i j hij => hlow _ i j hij, fun u h => ?_, fun M => ⟨_, rfl, fun i j => ?_⟩, 0, fun u => ?_⟩
  · have := posSemidef_self_mul_conjTranspose ((triangular d).forward ((triangular d).after u h))
    rwa [conjTranspose_eq_transpose_of_trivial] at this
  · show (if h : j ≤ i then M i j else 0) = _
    split_ifs <;> rfl
  · ext i j
    show (if h : j ≤ i then (0 : ℝ) else 0) = 0
    split_ifs <;> rfl

/-- C53: the sparse models. For a kernel expression with noise, each constructor succeeds exactly on strictly increasing
inducing points, which are then the model's inducing inputs; and after any history of updates of the inducing inputs
the prior at them can be built and is non-degenerate. -/
theorem C53_sparse_models {K : Stationary o d} {k} (hK : Builds K k) (hN : NoiseTag K true) (hn : 0 < n)
    (lik : ScalarLikelihood) (m : Option (ℝ → Vec o)) (num : Option ℕ) (init : Option (SSM n d)) (z : Fin (n + 1) → ℝ) :
    ((∃ r, SVGP.create K lik z m num init = .ok r) ↔ StrictMono z) ∧
    ∀ v u, SVGP.create K lik z m num init = .ok (v, u) → v.inducing = z ∧ v.kernel = K ∧
      ∀ h, ∃ s, ({ v with inducing := (ordered n).forward ((ordered n).after u h) } : SVGP n o d).distP = .ok s ∧
        s.Nondegenerate := by
  have hinit : StrictMono z → ∃ v, SVGP.init K lik z m num init = .ok v ∧ v.kernel = K := fun hz => by
    obtain ⟨s, hs, -⟩ := kernel_ssm_nondegenerate hK hN hn hz
    unfold SVGP.init
    cases init with
    | none => exact ⟨_, by simp only [hs, bind, Except.bind, pure, Except.pure]; rfl, rfl⟩
    | some q => exact ⟨_, by simp only [bind, Except.bind, pure, Except.pure]; rfl, rfl⟩
  constructor
  · constructor
    · rintro ⟨r, hr⟩
      unfold SVGP.create at hr
      cases hu : (ordered n).create z with
      | error e => rw [hu] at hr; cases hr
      | ok u => exact ordered_inverse_ok hu
    · intro hz
      obtain ⟨u, hu, -⟩ := ordered_roundtrip hz
      obtain ⟨v, hv, -⟩ := hinit hz
      refine ⟨({ v with inducing := (ordered n).forward u }, u), ?_⟩
      unfold SVGP.create Transform.create
      rw [hu]
      simp only [bind, Except.bind, hv, pure, Except.pure]
  · intro v u hr
    unfold SVGP.create at hr
    cases hu : (ordered n).create z with
    | error e => rw [hu] at hr; cases hr
    | ok u' =>
      have hz := ordered_inverse_ok hu
      obtain ⟨v', hv', hk⟩ := hinit hz
      rw [hu] at hr
      simp only [bind, Except.bind, hv', pure, Except.pure] at hr
      obtain ⟨rfl, rfl⟩ := Prod.mk.inj (Except.ok.inj hr)
      refine ⟨(C53_ordered n).2.1 z u' hu, hk, fun h => ?_⟩
      obtain ⟨s, hs, hnd⟩ := kernel_ssm_nondegenerate hK hN hn (ordered_strictMono ((ordered n).after u' h))
      refine ⟨s, ?_, hnd⟩
      unfold SVGP.distP
      dsimp only
      rw [hk]
      exact hs

/-- C53: the two sparse models with sites. -/
theorem C53_site_models {K : Stationary 1 d} {k} (hK : Builds K k) (hN : NoiseTag K true) (hn : 0 < n)
    (lik : ScalarLikelihood) (lik' : PEPLikelihood) (m : Option (ℝ → Vec 1)) (r a : ℝ) (z : Fin (n + 1) → ℝ) :
    ((∃ x, SparseCVI.create K z lik m r = .ok x) ↔ StrictMono z) ∧
    ((∃ x, SparsePEP.create K z lik' m r a = .ok x) ↔ StrictMono z) ∧
    (∀ c u, SparseCVI.create K z lik m r = .ok (c, u) → c = SparseCVI.init K z lik m r ∧
      ∀ h, ∃ s, ({ c with inducing := (ordered n).forward ((ordered n).after u h) } : SparseCVI n d).distP = .ok s ∧
        s.Nondegenerate) ∧
    ∀ c u, SparsePEP.create K z lik' m r a = .ok (c, u) → c = SparsePEP.init K z lik' m r a ∧
      ∀ h, ∃ s, ({ c with inducing := (ordered n).forward ((ordered n).after u h) } : SparsePEP n d).distP = .ok s ∧
        s.Nondegenerate := by
  have hs := fun u h => kernel_ssm_nondegenerate hK hN hn (ordered_strictMono ((ordered n).after u h))
  refine ⟨⟨?_, fun hz => ?_⟩, ⟨?_, fun hz => ?_⟩, fun c u hr => ?_, fun c u hr => ?_⟩
  · rintro ⟨x, hx⟩
    unfold SparseCVI.create at hx
    cases hu : (ordered n).create z with
    | error e => rw [hu] at hx; cases hx
    | ok u => exact ordered_inverse_ok hu
  · obtain ⟨u, hu, -⟩ := ordered_roundtrip hz
    exact ⟨_, by unfold SparseCVI.create Transform.create; rw [hu]; rfl⟩
  · rintro ⟨x, hx⟩
    unfold SparsePEP.create at hx
    cases hu : (ordered n).create z with
    | error e => rw [hu] at hx; cases hx
    | ok u => exact ordered_inverse_ok hu
  · obtain ⟨u, hu, -⟩ := ordered_roundtrip hz
    exact ⟨_, by unfold SparsePEP.create Transform.create; rw [hu]; rfl⟩
  · unfold SparseCVI.create at hr
    cases hu : (ordered n).create z with
    | error e => rw [hu] at hr; cases hr
    | ok u' =>
      rw [hu] at hr
      obtain ⟨rfl, rfl⟩ := Prod.mk.inj (Except.ok.inj hr)
      refine ⟨?_, fun h => hs _ _⟩
      rw [(C53_ordered n).2.1 z u' hu]
      rfl
  · unfold SparsePEP.create at hr
    cases hu : (ordered n).create z with
    | error e => rw [hu] at hr; cases hr
    | ok u' =>
      rw [hu] at hr
      obtain ⟨rfl, rfl⟩ := Prod.mk.inj (Except.ok.inj hr)
      refine ⟨?_, fun h => hs _ _⟩
      rw [(C53_ordered n).2.1 z u' hu]
      rfl

/-- Non-vacuity: inducing points 0, 1, 3, a failed assignment, a step; a Matérn kernel. -/
example : ∃ (u : Fin 3 → ℝ) (K : Stationary 1 2), (ordered 2).create ![0, 1, 3] = .ok u ∧ matern32 1 2 3 0 = .ok K ∧
    NoiseTag K true ∧ (ordered 2).after u [.assign ![5, 4, 3], .step ![1, 0, 0]] = ![1, 0, 0] := by
  have hz : StrictMono (![0, 1, 3] : Fin 3 → ℝ) := by
    refine Fin.strictMono_iff_lt_succ.2 fun i => ?_
    fin_cases i <;> simp
  obtain ⟨u, hu⟩ := ((C53_ordered 2).1 ![0, 1, 3]).2 hz
  obtain ⟨K, hK⟩ := (C28_constructors (o := 1) 2 3 1 1 1 0).2.1.2 (by norm_num)
  exact ⟨u, K, hu, hK, .matern32 hK, rfl⟩

end MF
