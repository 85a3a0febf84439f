import Verif.Lemmas.NatGradPath

/-!
# The gradient, in the expectation parameters, of an evidence lower bound
-/

namespace MF
open Matrix Spec MeasureTheory ProbabilityTheory InformationTheory Topology Filter
variable {n d : ℕ}

theorem pairing_add_left (a b c : ExpPar n d) : pairing (a + b) c = pairing a c + pairing b c := by
  have := pairing_sub_left (a + b) b c
  rw [add_sub_cancel_right] at this
  linarith

theorem pairing_add_right (a b c : ExpPar n d) : pairing a (b + c) = pairing a b + pairing a c := by
  rw [pairing_comm, pairing_add_left, pairing_comm b, pairing_comm c]

theorem pairing_zero_left (a : ExpPar n d) : pairing 0 a = 0 := by
  have := pairing_smul_left 0 a a
  rwa [zero_smul, zero_mul] at this

theorem pairing_sum_left {ι : Type*} (S : Finset ι) (a : ι → ExpPar n d) (c : ExpPar n d) :
    pairing (∑ i ∈ S, a i) c = ∑ i ∈ S, pairing (a i) c := by
  classical
  induction S using Finset.induction_on with
  | empty => simp [pairing_zero_left]
  | insert i S hi ih => rw [Finset.sum_insert hi, Finset.sum_insert hi, pairing_add_left, ih]

theorem SymDiag.sum {ι : Type*} (S : Finset ι) {a : ι → ExpPar n d} (h : ∀ i, SymDiag (a i)) : SymDiag (∑ i ∈ S, a i) := by
  classical
  induction S using Finset.induction_on with
  | empty => intro b; rw [Finset.sum_empty]; exact transpose_zero
  | insert i S hi ih => rw [Finset.sum_insert hi]; exact SymDiag.add (h i) ih

/-- The divergence to a fixed model minus functions of finitely many pairs of linear functionals of the expectation parameters. -/
theorem totalGradient_elbo {ι : Type*} [Fintype ι] {q p : SSM n d} (hq : q.Nondegenerate) (hp : p.Nondegenerate)
    {α β : ι → ExpPar n d} (hα : ∀ i, SymDiag (α i)) (hβ : ∀ i, SymDiag (β i)) {F : ι → ℝ × ℝ → ℝ} {g : ι → ℝ × ℝ}
    (hF : ∀ i, HasFDerivAt (F i) ((g i).1 • ContinuousLinearMap.fst ℝ ℝ ℝ + (g i).2 • ContinuousLinearMap.snd ℝ ℝ ℝ)
      (pairing (α i) (expPar q), pairing (β i) (expPar q)))
    {L : SSM n d → ℝ} {c : ℝ} (hL : ∀ s : SSM n d, s.Nondegenerate → L s = (klDiv s.law p.law).toReal + c -
      ∑ i, F i (pairing (α i) (expPar s), pairing (β i) (expPar s))) :
    IsTotalGradient (lossOfExpectations L) (expPar q)
      (ssmToNaturals q - ssmToNaturals p - ∑ i, ((g i).1 • α i + (g i).2 • β i)) := by
  obtain ⟨k1, k2⟩ := totalGradient_kl hq hp (L := fun s => (klDiv s.law p.law).toReal + c) fun _ _ => rfl
  refine ⟨SymDiag.sub k1 (SymDiag.sum _ fun i => SymDiag.add (SymDiag.smul (hα i) _) (SymDiag.smul (hβ i) _)),
    fun γ γ' h0 hsym hv => ?_⟩
  obtain ⟨hev, -⟩ := ExpPar.path hq γ hv.continuousAt h0 hsym
  have key : (fun t : ℝ => lossOfExpectations L (γ t)) =ᶠ[𝓝 0] fun t =>
      lossOfExpectations (fun s => (klDiv s.law p.law).toReal + c) (γ t) - ∑ i, F i (pairing (α i) (γ t), pairing (β i) (γ t)) := by
    refine hev.mono fun t ⟨s, a1, a2, a3, _⟩ => ?_
    unfold lossOfExpectations
    beta_reduce
    rw [a1]
    show L s = (klDiv s.law p.law).toReal + c - _
    rw [hL s a2, a3]
  refine HasDerivAt.congr_of_eventuallyEq ?_ key
  rw [pairing_sub_left, pairing_sum_left]
  refine (k2 γ γ' h0 hsym hv).sub (HasDerivAt.fun_sum fun i _ => ?_)
  rw [pairing_add_left, pairing_smul_left, pairing_smul_left]
  have hp' : HasDerivAt (fun t : ℝ => ((pairing (α i) (γ t), pairing (β i) (γ t)) : ℝ × ℝ)) (pairing (α i) γ', pairing (β i) γ') 0 :=
    (hv.pairing _).prodMk (hv.pairing _)
  have hF' := hF i
  have e : ((pairing (α i) (expPar q), pairing (β i) (expPar q)) : ℝ × ℝ) =
      (fun t : ℝ => ((pairing (α i) (γ t), pairing (β i) (γ t)) : ℝ × ℝ)) 0 := by simp only [h0]
  rw [e] at hF'
  have := hF'.comp_hasDerivAt (0 : ℝ) hp'
  refine this.congr_deriv ?_
  simp

end MF
