import Verif.Spec.Kernel
import Verif.Model.Kernels

/-!
# Specification: kernel expressions and the covariance functions they stand for

`Builds K k`: the kernel object `K` was obtained by (nested) constructor calls, and `k` is the
covariance function that the corresponding textbook expression denotes. Sums add, products multiply,
independent outputs are uncorrelated, factor analysis mixes linearly.
-/

namespace MF.Spec
open Matrix

/-- All outputs are the same process, with an isotropic scalar covariance `k(|t - t'|)`. -/
noncomputable def iso {o : ℕ} (k : ℝ → ℝ) (t t' : ℝ) : Mat o o := Matrix.of fun _ _ => k |t - t'|

/-- Block diagonal covariance: output `(a, r)` is output `r` of child `a`; outputs of different
children are independent. -/
noncomputable def independent {o N : ℕ} (c : Fin N → ℝ → ℝ → Mat o o) (t t' : ℝ) :
    Mat (N * o) (N * o) :=
  Matrix.of fun i j =>
    let a := (finProdFinEquiv.symm i).1
    let b := (finProdFinEquiv.symm j).1
    if a = b then c a t t' (finProdFinEquiv.symm i).2 (finProdFinEquiv.symm j).2 else 0

/-- The basic kernels (any number of outputs, any jitter), with their covariance functions. -/
inductive Leaf : {o d : ℕ} → Stationary o d → (ℝ → ℝ) → Prop
  | matern12 {o : ℕ} {l v j : ℝ} {K} (h : MF.matern12 o l v j = .ok K) : Leaf K (matern12Cov l v)
  | ou {o : ℕ} {dec dif j : ℝ} {K} (h : ornsteinUhlenbeck o dec dif j = .ok K) :
      Leaf K (ouCov dec dif)
  | matern32 {o : ℕ} {l v j : ℝ} {K} (h : MF.matern32 o l v j = .ok K) : Leaf K (matern32Cov l v)
  | matern52 {o : ℕ} {l v j : ℝ} {K} (h : MF.matern52 o l v j = .ok K) : Leaf K (matern52Cov l v)
  | periodic {o : ℕ} {v p j : ℝ} {K} (h : harmonicOscillator o v p j = .ok K) :
      Leaf K (cosineCov v p)
  | constant {o : ℕ} {v j : ℝ} {K} (h : MF.constant o v j = .ok K) : Leaf K fun _ => v
  | leg {e : ℕ} {N R : Mat (e + 1) (e + 1)} {j : ℝ} {K} (h : MF.leg N R j = .ok K) :
      Leaf K fun r => NormedSpace.exp (r • ((1 / 2 : ℝ) • (-(N * Nᵀ + R - Rᵀ)))) 0 0

/-- Kernel expressions built by constructor calls (any jitter), with their covariance functions. -/
inductive Builds : {o d : ℕ} → Stationary o d → (ℝ → ℝ → Mat o o) → Prop
  | leaf {o d : ℕ} {K : Stationary o d} {k} (h : Leaf K k) : Builds K (iso k)
  | sum {o : ℕ} {ks : List (Σ d, Stationary o d)} {c : Fin ks.length → ℝ → ℝ → Mat o o} {j : ℝ} {K}
      (hc : ∀ a, Builds (ks.get a).2 (c a)) (h : sumKernel ks j = .ok K) :
      Builds K fun t t' => ∑ a, c a t t'
  | prod {ks : List (Σ d, Stationary 1 d)} {c : Fin ks.length → ℝ → ℝ → Mat 1 1} {j : ℝ} {K}
      (hc : ∀ a, Builds (ks.get a).2 (c a)) (h : productKernel ks j = .ok K) :
      Builds K fun t t' => Matrix.of fun _ _ => ∏ a, c a t t' 0 0
  | multi {o : ℕ} {ks : List (Σ d, Stationary o d)} {c : Fin ks.length → ℝ → ℝ → Mat o o} {j : ℝ} {K}
      (hc : ∀ a, Builds (ks.get a).2 (c a)) (h : independentMultiOutput ks j = .ok K) :
      Builds K (independent c)
  | factor {o o' : ℕ} {ks : List (Σ d, Stationary o d)} {c : Fin ks.length → ℝ → ℝ → Mat o o}
      {W : ℝ → Mat o' (ks.length * o)} {B : Mat (ks.length * o) (ks.length * o)} {j : ℝ} {K}
      (hc : ∀ a, Builds (ks.get a).2 (c a)) (h : factorAnalysis ks W B j = .ok K) :
      Builds K fun t t' => (W t * B) * independent c t t' * (W t' * B)ᵀ

/-- Which expressions have strictly positive process noise (`true`) and which have none (`false`):
the Matérn family has noise, the oscillator and the constant have none; a sum must not mix the two; a
product has noise as soon as one factor has. -/
inductive NoiseTag : {o d : ℕ} → Stationary o d → Bool → Prop
  | matern12 {o : ℕ} {l v j : ℝ} {K} (h : MF.matern12 o l v j = .ok K) : NoiseTag K true
  | ou {o : ℕ} {dec dif j : ℝ} {K} (h : ornsteinUhlenbeck o dec dif j = .ok K) : NoiseTag K true
  | matern32 {o : ℕ} {l v j : ℝ} {K} (h : MF.matern32 o l v j = .ok K) : NoiseTag K true
  | matern52 {o : ℕ} {l v j : ℝ} {K} (h : MF.matern52 o l v j = .ok K) : NoiseTag K true
  | leg {e : ℕ} {N R : Mat (e + 1) (e + 1)} {j : ℝ} {K} (hN : IsUnit N.det) (h : MF.leg N R j = .ok K) :
      NoiseTag K true
  | periodic {o : ℕ} {v p j : ℝ} {K} (h : harmonicOscillator o v p j = .ok K) : NoiseTag K false
  | constant {o : ℕ} {v j : ℝ} {K} (h : MF.constant o v j = .ok K) : NoiseTag K false
  | sum {o : ℕ} {ks : List (Σ d, Stationary o d)} {b : Bool} {j : ℝ} {K}
      (hc : ∀ a, NoiseTag (ks.get a).2 b) (h : sumKernel ks j = .ok K) : NoiseTag K b
  | prod {ks : List (Σ d, Stationary 1 d)} {bs : Fin ks.length → Bool} {j : ℝ} {K}
      (hc : ∀ a, NoiseTag (ks.get a).2 (bs a)) (h : productKernel ks j = .ok K) :
      NoiseTag K (decide (∃ a, bs a = true))
  | multi {o : ℕ} {ks : List (Σ d, Stationary o d)} {b : Bool} {j : ℝ} {K}
      (hc : ∀ a, NoiseTag (ks.get a).2 b) (h : independentMultiOutput ks j = .ok K) : NoiseTag K b
  | factor {o o' : ℕ} {ks : List (Σ d, Stationary o d)} {b : Bool}
      {W : ℝ → Mat o' (ks.length * o)} {B : Mat (ks.length * o) (ks.length * o)} {j : ℝ} {K}
      (hc : ∀ a, NoiseTag (ks.get a).2 b) (h : factorAnalysis ks W B j = .ok K) : NoiseTag K b

end MF.Spec
