import Verif.Spec.BatchedNatGrad
import Verif.Props.BatchedVariational
import Verif.Props.NatGrad

/-!
# Natural gradients on tensors of any batch shape
-/

namespace MF
open Matrix Spec Tensor
variable {n o d : ℕ} {bs : List ℕ}

theorem Spec.HoldsTriple.congr {x : TTriple} {y z : List ℕ → ExpPar n d} (h : HoldsTriple bs x y) (e : ∀ b, InRange b bs → y b = z b) :
    HoldsTriple bs x z :=
  ⟨h.1.congr fun b hb => by rw [e b hb], h.2.1.congr fun b hb => by rw [e b hb], h.2.2.congr fun b hb => by rw [e b hb]⟩

theorem triple_map {x : TTriple} {y : List ℕ → ExpPar n d} (h : HoldsTriple bs x y) {f : ℝ → ℝ} (a : ℝ) (hf : ∀ z, f z = a * z) :
    HoldsTriple bs (TTriple.map f x) fun b => a • y b :=
  ⟨⟨h.1.1, fun b hb t i => by show f _ = _; rw [hf, h.1.2 b hb]; rfl⟩, ⟨h.2.1.1, fun b hb t i j => by show f _ = _; rw [hf, h.2.1.2 b hb]; rfl⟩,
    ⟨h.2.2.1, fun b hb t i j => by show f _ = _; rw [hf, h.2.2.2 b hb]; rfl⟩⟩

theorem triple_plus {x x' : TTriple} {y y' : List ℕ → ExpPar n d} (h : HoldsTriple bs x y) (h' : HoldsTriple bs x' y') :
    ∃ z, TTriple.zipWith plus x x' = .ok z ∧ HoldsTriple bs z fun b => y b + y' b := by
  obtain ⟨a, ha, ha'⟩ := plus_vecs h.1 h'.1
  obtain ⟨b, hb, hb'⟩ := plus_mats h.2.1 h'.2.1
  obtain ⟨c, hc, hc'⟩ := plus_mats h.2.2 h'.2.2
  exact ⟨(a, b, c), by simp only [TTriple.zipWith, ha, hb, hc, Bind.bind, Except.bind]; rfl, ha', hb', hc'⟩

theorem triple_minus {x x' : TTriple} {y y' : List ℕ → ExpPar n d} (h : HoldsTriple bs x y) (h' : HoldsTriple bs x' y') :
    ∃ z, TTriple.zipWith minus x x' = .ok z ∧ HoldsTriple bs z fun b => y b - y' b := by
  obtain ⟨a, ha, ha'⟩ := minus_vecs h.1 h'.1
  obtain ⟨b, hb, hb'⟩ := minus_mats h.2.1 h'.2.1
  obtain ⟨c, hc, hc'⟩ := minus_mats h.2.2 h'.2.2
  exact ⟨(a, b, c), by simp only [TTriple.zipWith, ha, hb, hc, Bind.bind, Except.bind]; rfl, ha', hb', hc'⟩

theorem sumAll_vecs {k x} {f : List ℕ → Fin k → Vec d} (hx : HoldsVecs bs x f) : x.sumAll = sumShape bs fun b => ∑ t, ∑ i, f b t i := by
  unfold sumAll
  rw [hx.1]
  simp only [sumShape]
  rw [Finset.sum_comm, sumShape_sum]
  refine Finset.sum_congr rfl fun t _ => ?_
  rw [sumShape_sum]
  exact Finset.sum_congr rfl fun i _ => sumShape_congr fun b hb => hx.2 b hb t i

theorem sumAll_mats {k r c x} {f : List ℕ → Fin k → Mat r c} (hx : HoldsMats bs x f) :
    x.sumAll = sumShape bs fun b => ∑ t, ∑ i, ∑ j, f b t i j := by
  unfold sumAll
  rw [hx.1]
  simp only [sumShape]
  rw [sumShape_sum]
  have : ∀ t : Fin k, (sumShape bs fun b => ∑ i, ∑ j, f b t i j) = ∑ j : Fin c, ∑ i : Fin r, sumShape bs fun b => x.val ((j : ℕ) :: (i : ℕ) :: (t : ℕ) :: b) := by
    intro t
    rw [sumShape_sum, Finset.sum_comm]
    refine Finset.sum_congr rfl fun i _ => ?_
    rw [sumShape_sum]
    exact Finset.sum_congr rfl fun j _ => sumShape_congr fun b hb => (hx.2 b hb t i j).symm
  simp only [this]
  rw [Finset.sum_comm]
  rw [Finset.sum_comm]
  conv_rhs => rw [Finset.sum_comm]
  refine Finset.sum_congr rfl fun j _ => ?_
  rw [Finset.sum_comm]

theorem natgradNorm_holds {x x' : TTriple} {y y' : List ℕ → ExpPar n d} (h : HoldsTriple bs x y) (h' : HoldsTriple bs x' y') :
    TNatGrad.natgradNorm x x' = .ok (sumShape bs fun b => NatGrad.natgradNorm (y b) (y' b)) := by
  obtain ⟨a, ha, ha'⟩ := times_vecs h.1 h'.1
  obtain ⟨b, hb, hb'⟩ := times_mats h.2.1 h'.2.1
  obtain ⟨c, hc, hc'⟩ := times_mats h.2.2 h'.2.2
  simp only [TNatGrad.natgradNorm, TTriple.zipWith, ha, hb, hc, Bind.bind, Except.bind, Pure.pure, Except.pure]
  rw [sumAll_vecs ha', sumAll_mats hb', sumAll_mats hc', ← sumShape_mul, ← sumShape_add, ← sumShape_add]
  rfl

theorem triple_assign {x x' : TTriple} {y y' : List ℕ → ExpPar n d} (h : HoldsTriple bs x y) (h' : HoldsTriple bs x' y') :
    TTriple.assign x x' = .ok x' := by
  unfold TTriple.assign
  rw [if_pos ⟨h.1.1.trans h'.1.1.symm, h.2.1.1.trans h'.2.1.1.symm, h.2.2.1.trans h'.2.2.1.symm⟩]

theorem assignSSM_holds {S S' : TSSM} {s s' : List ℕ → SSM n d} (h : HoldsSSM bs S s) (h' : HoldsSSM bs S' s') :
    ∃ R, TNatGrad.assignSSM S S' = .ok R ∧
      HoldsSSM bs R fun b => { s' b with cholP0 := tril (s' b).cholP0, cholQ := fun k => tril ((s' b).cholQ k) } := by
  refine ⟨{ S' with cholP0 := trilT S'.cholP0, cholQ := trilT S'.cholQ }, by unfold TNatGrad.assignSSM; rw [if_pos ⟨h.A.1.trans h'.A.1.symm, h.b.1.trans h'.b.1.symm, h.cholP0.1.trans h'.cholP0.1.symm,
    h.cholQ.1.trans h'.cholQ.1.symm, h.mu0.1.trans h'.mu0.1.symm⟩], h'.mu0, tril_mat h'.cholP0, h'.A, h'.b, tril_mats h'.cholQ⟩

/-- The moving averages that `minimize` starts from. -/
theorem moving_holds (hbs : ∀ k ∈ bs, 0 < k) {S : TSSM} {s : List ℕ → SSM n d} (h : HoldsSSM bs S s)
    (hs : ∀ b, InRange b bs → (s b).Nondegenerate) (hn : 0 < n) (hd : 0 < d) {opt : TNatGrad} {m : List ℕ → ExpPar n d}
    (hm : HoldsMoving bs opt.ms m) : ∃ ms : TTriple, opt.moving S = .ok ms ∧ HoldsTriple bs ms m := by
  unfold TNatGrad.moving
  rcases hm with ⟨hx, h0⟩ | ⟨y, hx, hy⟩ <;> rw [hx]
  · rcases ssmToExpectations_holds hbs h with ⟨x, y, hx, hxy, -⟩ | ⟨e, -, b, hb, hy⟩
    · refine ⟨(zeros x.1.shape, zeros x.2.1.shape, zeros x.2.2.shape), by simp only [hx, Bind.bind, Except.bind]; rfl, ?_⟩
      rw [hxy.1.1, hxy.2.1.1, hxy.2.2.1]
      refine Spec.HoldsTriple.congr (y := fun _ => 0) ⟨⟨rfl, fun _ _ _ _ => rfl⟩, ⟨rfl, fun _ _ _ _ _ => rfl⟩, ⟨rfl, fun _ _ _ _ _ => rfl⟩⟩ fun b hb => (h0 b hb).symm
    · dsimp only at hy
      rw [ssmToExpectations_eq _ (hs b hb) hn hd] at hy
      cases hy
  · exact ⟨y, rfl, hy⟩

/-- The end of `minimize`: back from the natural parameters. -/
theorem minimize_tail (hbs : ∀ k ∈ bs, 0 < k) {S : TSSM} {s : List ℕ → SSM n d} (h : HoldsSSM bs S s) {x : TTriple} {θ : List ℕ → ExpPar n d}
    (hx : HoldsTriple bs x θ) (opt : TNatGrad) :
    Elementwise bs (fun (R : TNatGrad × TSSM) (y : List ℕ → SSM n d) => R.1 = opt ∧ HoldsSSM bs R.2 y)
      (do let new ← tensorNaturalsToSSM x.1 x.2.1 x.2.2
          let ssm' ← TNatGrad.assignSSM S new
          return (opt, ssm'))
      fun b => do
        let new ← naturalsToSSM (θ b).1 (θ b).2.1 (θ b).2.2
        return { new with cholP0 := tril new.cholP0, cholQ := fun k => tril (new.cholQ k) } := by
  refine (naturalsToSSM_holds hbs hx.1 hx.2.1 hx.2.2).bind fun S' s' hS' => ?_
  obtain ⟨R, h1, h2⟩ := assignSSM_holds h hS'
  refine .inl ⟨(opt, R), _, by simp only [h1, Bind.bind, Except.bind]; rfl, ⟨rfl, h2⟩, fun b hb => rfl⟩

end MF
