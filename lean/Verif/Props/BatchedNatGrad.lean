import Verif.Lemmas.BatchedNatGrad
import Verif.Props.Descent
import Verif.Props.SVGPNatGrad

/-!
# Natural gradients on batches (C70)
-/

namespace MF
open Matrix MeasureTheory Spec Tensor InformationTheory
variable {n o d p : ℕ} {bs : List ℕ}

/-- C70: without momentum, a call of `minimize` on a batch of distributions is one call per batch element. -/
theorem C70_step (hbs : ∀ k ∈ bs, 0 < k) {S : TSSM} {s : List ℕ → SSM n d} (h : HoldsSSM bs S s)
    (hs : ∀ b, InRange b bs → (s b).Nondegenerate) (hn : 0 < n) (hd : 0 < d) {opt : TNatGrad} (hm : opt.momentum = false)
    {m : List ℕ → ExpPar n d} (hms : HoldsMoving bs opt.ms m) {G : TTriple} {g : List ℕ → ExpPar n d} (hG : HoldsTriple bs G g) (Gθ : TTriple)
    (gθ : List ℕ → ExpPar n d) {one : NatGrad n d} (h1 : one.momentum = false) (hγ : one.gamma = opt.gamma) :
    Elementwise bs (fun (R : TNatGrad × TSSM) (y : List ℕ → NatGrad n d × SSM n d) =>
        (∃ ms, R.1 = { opt with ms := some ms } ∧ HoldsTriple bs ms m) ∧ HoldsSSM bs R.2 fun b => (y b).2)
      (opt.minimize S G Gθ) fun b => one.step (s b) (g b) (gθ b) := by
  obtain ⟨ms, e1, e2⟩ := moving_holds hbs h hs hn hd hms
  obtain ⟨θ, f1, f2⟩ := ssmToNaturals_holds hn h
  obtain ⟨θ', k1, k2⟩ := triple_minus f2 (triple_map hG opt.gamma fun _ => rfl)
  have hX : opt.minimize S G Gθ = (do
      let new ← tensorNaturalsToSSM θ'.1 θ'.2.1 θ'.2.2
      let ssm' ← TNatGrad.assignSSM S new
      return ({ opt with ms := some ms }, ssm')) := by
    unfold TNatGrad.minimize
    simp only [e1, f1, hm, Bool.false_eq_true, if_false, k1, Bind.bind, Except.bind, Pure.pure, Except.pure]
  rw [hX]
  rcases minimize_tail hbs h k2 { opt with ms := some ms } with ⟨R, y, hR, ⟨hR1, hR2⟩, hy⟩ | ⟨e, hR, b, hb, hy⟩
  · refine .inl ⟨R, fun b => (one, y b), hR, ⟨⟨ms, hR1, e2⟩, hR2⟩, fun b hb => ?_⟩
    have := hy b hb
    dsimp only at this ⊢
    rw [step_eq one h1, hγ]
    revert this
    cases naturalsToSSM (ssmToNaturals (s b) - opt.gamma • g b).1 (ssmToNaturals (s b) - opt.gamma • g b).2.1
      (ssmToNaturals (s b) - opt.gamma • g b).2.2 with
    | error e => intro h; cases h
    | ok q => intro h; rw [← Except.ok.inj h]; rfl
  · refine .inr ⟨e, hR, b, hb, ?_⟩
    dsimp only
    rw [step_eq one h1, hγ]
    revert hy
    dsimp only
    cases naturalsToSSM (ssmToNaturals (s b) - opt.gamma • g b).1 (ssmToNaturals (s b) - opt.gamma • g b).2.1
      (ssmToNaturals (s b) - opt.gamma • g b).2.2 with
    | error e => intro h; rw [Except.error.inj h]; rfl
    | ok q => intro h; cases h

/-- C70: without momentum, any number of calls, where the gradient for an element depends on the distribution of that element: one optimisation per
batch element. -/
theorem C70_steps (hbs : ∀ k ∈ bs, 0 < k) {S : TSSM} {s : List ℕ → SSM n d} (h : HoldsSSM bs S s)
    (hs : ∀ b, InRange b bs → (s b).Nondegenerate) (hn : 0 < n) (hd : 0 < d) {opt : TNatGrad} (hm : opt.momentum = false)
    {m : List ℕ → ExpPar n d} (hms : HoldsMoving bs opt.ms m) {grad : ℕ → TSSM → TTriple × TTriple}
    {grad' : List ℕ → ℕ → SSM n d → ExpPar n d × ExpPar n d}
    (hg : ∀ i S s, HoldsSSM bs S s → HoldsTriple bs (grad i S).1 fun b => (grad' b i (s b)).1)
    (hsym : ∀ b i q, SymDiag (grad' b i q).1) {one : NatGrad n d} (h1 : one.momentum = false) (hγ : one.gamma = opt.gamma) (N : ℕ) :
    Elementwise bs (fun (R : TNatGrad × TSSM) (y : List ℕ → NatGrad n d × SSM n d) =>
        (∃ ms, R.1 = { opt with ms := ms } ∧ HoldsMoving bs ms m) ∧ HoldsSSM bs R.2 (fun b => (y b).2) ∧
          ∀ b, InRange b bs → (y b).1 = one ∧ (y b).2.Nondegenerate)
      (TNatGrad.steps grad N (opt, S)) fun b => NatGrad.steps (grad' b) N (one, s b) := by
  induction N with
  | zero => exact .inl ⟨(opt, S), fun b => (one, s b), rfl, ⟨⟨_, rfl, hms⟩, h, fun b hb => ⟨rfl, hs b hb⟩⟩, fun b _ => rfl⟩
  | succ N ih =>
    refine ih.bind (g := fun b x => x.1.step x.2 (grad' b N x.2).1 (grad' b N x.2).2) fun R y hR => ?_
    obtain ⟨⟨ms, e1, e2⟩, e3, e4⟩ := hR
    obtain ⟨opt', S'⟩ := R
    obtain rfl : opt' = { opt with ms := ms } := e1
    have := C70_step (opt := { opt with ms := ms }) hbs e3 (fun b hb => (e4 b hb).2) hn hd hm e2 (hg N S' _ e3) (grad N S').2
      (fun b => (grad' b N (y b).2).2) h1 hγ
    rcases this with ⟨R', y', f1, ⟨⟨ms', f2, f3⟩, f4⟩, f5⟩ | ⟨e, f1, b, hb, f2⟩
    · refine .inl ⟨R', y', f1, ⟨⟨_, f2, .inr ⟨_, rfl, f3⟩⟩, f4, fun b hb => ?_⟩, fun b hb => ?_⟩
      · have f5 := f5 b hb
        dsimp only at f5
        obtain ⟨a1, a2⟩ := C39_step one h1 (e4 b hb).2 hn hd (grad' b N (y b).2).1 (grad' b N (y b).2).2 (hsym b N _)
        by_cases hp : ProperNaturals (ssmToNaturals (y b).2 - one.gamma • (grad' b N (y b).2).1)
        · obtain ⟨q', c1, c2, -⟩ := a1 hp
          rw [c1] at f5
          rw [← Except.ok.inj f5]
          exact ⟨rfl, c2⟩
        · rw [a2 hp] at f5
          cases f5
      · dsimp only
        rw [(e4 b hb).1]
        exact f5 b hb
    · refine .inr ⟨e, f1, b, hb, ?_⟩
      dsimp only
      rw [(e4 b hb).1]
      exact f2

/-- C70: with momentum the batch elements share one scale. The squared norm is summed over the whole batch; the moving averages and the natural
parameters are updated per element, with the common rate; the call succeeds exactly when the norm average is not negative and the new natural
parameters of every element are proper. -/
theorem C70_momentum_step (hbs : ∀ k ∈ bs, 0 < k) {S : TSSM} {s : List ℕ → SSM n d} (h : HoldsSSM bs S s)
    (hs : ∀ b, InRange b bs → (s b).Nondegenerate) (hn : 0 < n) (hd : 0 < d) {opt : TNatGrad} (hm : opt.momentum = true)
    {m : List ℕ → ExpPar n d} (hms : HoldsMoving bs opt.ms m) {G Gθ : TTriple} {g gθ : List ℕ → ExpPar n d} (hG : HoldsTriple bs G g)
    (hGθ : HoldsTriple bs Gθ gθ) (hg : ∀ b, InRange b bs → SymDiag (g b)) (hmsym : ∀ b, InRange b bs → SymDiag (m b))
    {m' θ' : List ℕ → ExpPar n d} {v' : ℝ} (hm' : ∀ b, m' b = opt.beta1 • m b + (1 - opt.beta1) • g b)
    (hv' : v' = opt.beta2 * opt.v + (1 - opt.beta2) *
      sumShape bs fun b => pairing (g b) (gθ b) + ∑ k, ∑ i, ∑ j, (g b).2.2 k i j * (gθ b).2.2 k i j)
    (hθ' : ∀ b, θ' b = ssmToNaturals (s b) - (opt.gamma * Real.sqrt (1 - opt.beta2 ^ opt.stepCounter) / (1 - opt.beta1 ^ opt.stepCounter) /
      (Real.sqrt v' + opt.epsilon)) • m' b) :
    (v' < 0 → opt.minimize S G Gθ = .error .invalidArgument) ∧
    (0 ≤ v' → (∃ b, InRange b bs ∧ ¬ ProperNaturals (θ' b)) → opt.minimize S G Gθ = .error .invalidArgument) ∧
    (0 ≤ v' → (∀ b, InRange b bs → ProperNaturals (θ' b)) → ∃ (M : TTriple) (S' : TSSM) (s' : List ℕ → SSM n d),
      opt.minimize S G Gθ = .ok ({ opt with ms := some M, v := v', stepCounter := opt.stepCounter + 1 }, S') ∧ HoldsTriple bs M m' ∧
        HoldsSSM bs S' s' ∧ ∀ b, InRange b bs → (s' b).Nondegenerate ∧ ssmToNaturals (s' b) = θ' b) := by
  obtain ⟨ms, e1, e2⟩ := moving_holds hbs h hs hn hd hms
  obtain ⟨θ, f1, f2⟩ := ssmToNaturals_holds hn h
  obtain ⟨M, k1, k2⟩ := triple_plus (triple_map e2 (f := (· * opt.beta1)) opt.beta1 fun z => mul_comm _ _)
    (triple_map hG (f := ((1 - opt.beta1) * ·)) (1 - opt.beta1) fun z => rfl)
  have k2' : HoldsTriple bs M m' := k2.congr fun b hb => (hm' b).symm
  have hnorm := natgradNorm_holds hG hGθ
  have hv2 : opt.v * opt.beta2 + (1 - opt.beta2) * (sumShape bs fun b => NatGrad.natgradNorm (g b) (gθ b)) = v' := by
    rw [hv', mul_comm opt.v]
    congr 2
    refine sumShape_congr fun b hb => ?_
    unfold NatGrad.natgradNorm pairing
    ring
  set r : ℝ := opt.gamma * Real.sqrt (1 - opt.beta2 ^ opt.stepCounter) / (1 - opt.beta1 ^ opt.stepCounter) / (Real.sqrt v' + opt.epsilon) with hr
  obtain ⟨T, l1, l2⟩ := triple_minus f2 (triple_map k2' (f := fun z => opt.lr * z / (Real.sqrt v' + opt.epsilon)) r fun z => by
    rw [hr, TNatGrad.lr]; ring)
  have l2' : HoldsTriple bs T θ' := l2.congr fun b hb => (hθ' b).symm
  constructor
  · intro hneg
    unfold TNatGrad.minimize
    simp only [e1, f1, hm, if_true, k1, hnorm, hv2, hneg, Bind.bind, Except.bind]
  have hX : 0 ≤ v' → opt.minimize S G Gθ = (do
      let new ← tensorNaturalsToSSM T.1 T.2.1 T.2.2
      let ssm' ← TNatGrad.assignSSM S new
      return ({ opt with ms := some M, v := v', stepCounter := opt.stepCounter + 1 }, ssm')) := by
    intro h0
    unfold TNatGrad.minimize
    simp only [e1, f1, hm, if_true, k1, hnorm, hv2, not_lt.2 h0, if_false, l1, triple_assign e2 k2', Bind.bind, Except.bind, Pure.pure, Except.pure]
  have hsy : ∀ b, InRange b bs → SymDiag (θ' b) := fun b hb => by
    rw [hθ', hm']
    exact SymDiag.sub (symDiag_naturals (hs b hb)) (SymDiag.smul (fun i => by
      have h1 := hmsym b hb i
      have h2 := hg b hb i
      show (opt.beta1 • (m b).2.1 i + (1 - opt.beta1) • (g b).2.1 i)ᵀ = _
      rw [Matrix.transpose_add, Matrix.transpose_smul, Matrix.transpose_smul, h1, h2]
      rfl) _)
  have tail := minimize_tail hbs h l2' { opt with ms := some M, v := v', stepCounter := opt.stepCounter + 1 }
  have bad : ∀ b, InRange b bs → ¬ ProperNaturals (θ' b) → naturalsToSSM (θ' b).1 (θ' b).2.1 (θ' b).2.2 = .error .invalidArgument :=
    fun b hb hp => C17_improper_raises _ _ _ hn (hsy b hb) hp
  have good : ∀ b, InRange b bs → ProperNaturals (θ' b) → ∃ q, naturalsToSSM (θ' b).1 (θ' b).2.1 (θ' b).2.2 = .ok q ∧ q.Nondegenerate ∧
      ssmToNaturals q = θ' b := fun b hb hp => C17_naturals_round_trip _ _ _ hn hd (hsy b hb) hp
  constructor
  · rintro h0 ⟨b, hb, hp⟩
    rw [hX h0]
    rcases tail with ⟨R, y, -, -, hy⟩ | ⟨e, hR, b', hb', hy⟩
    · have := hy b hb
      dsimp only at this
      rw [bad b hb hp] at this
      cases this
    · rw [hR]
      by_cases hp' : ProperNaturals (θ' b')
      · obtain ⟨q, hq, -⟩ := good b' hb' hp'
        dsimp only at hy
        rw [hq] at hy
        cases hy
      · dsimp only at hy
        rw [bad b' hb' hp'] at hy
        rw [← Except.error.inj hy]
  · intro h0 hp
    rw [hX h0]
    rcases tail with ⟨R, y, hR, ⟨hR1, hR2⟩, hy⟩ | ⟨e, hR, b', hb', hy⟩
    · refine ⟨M, R.2, y, ?_, k2', hR2, fun b hb => ?_⟩
      · rw [hR, ← hR1]
      · obtain ⟨q, hq, hq1, hq2⟩ := good b hb (hp b hb)
        have hy := hy b hb
        dsimp only at hy
        rw [hq] at hy
        have hy := Except.ok.inj hy
        rw [tril_of_nondegenerate hq1] at hy
        rw [← hy]
        exact ⟨hq1, hq2⟩
    · obtain ⟨q, hq, -⟩ := good b' hb' (hp b' hb')
      dsimp only at hy
      rw [hq] at hy
      cases hy

/-! ### Gradients of a batch -/

open Filter Topology in
theorem eventually_inRange {α : Type*} {l : Filter α} {P : List ℕ → α → Prop} {u : List ℕ} (h : ∀ b, InRange b u → ∀ᶠ t in l, P b t) :
    ∀ᶠ t in l, ∀ b, InRange b u → P b t := by
  induction u generalizing P with
  | nil =>
    filter_upwards [h [] trivial] with t ht b hb
    cases b with
    | nil => exact ht
    | cons i b => exact absurd hb (by simp [InRange])
  | cons k u ih =>
    have : ∀ i : Fin k, ∀ᶠ t in l, ∀ b, InRange b u → P ((i : ℕ) :: b) t := fun i => ih fun b hb => h _ ⟨i.2, hb⟩
    filter_upwards [eventually_all.2 this] with t ht b hb
    obtain ⟨i, b', rfl, hi, hb'⟩ := inRange_cons_iff.1 hb
    exact ht ⟨i, hi⟩ b' hb'

theorem hasDerivAt_sumShape {u : List ℕ} {f : List ℕ → ℝ → ℝ} {f' : List ℕ → ℝ} {x : ℝ} (h : ∀ b, InRange b u → HasDerivAt (f b) (f' b) x) :
    HasDerivAt (fun t => sumShape u fun b => f b t) (sumShape u f') x := by
  induction u generalizing f f' with
  | nil => exact h [] trivial
  | cons k u ih => exact HasDerivAt.fun_sum fun (i : Fin k) _ => ih fun b hb => h _ ⟨i.2, hb⟩

theorem sumShape_single {u b₀ : List ℕ} (hb : InRange b₀ u) (x : ℝ) : sumShape u (fun b => if b = b₀ then x else 0) = x := by
  induction u generalizing b₀ with
  | nil =>
    cases b₀ with
    | nil => simp [sumShape]
    | cons i b => exact absurd hb (by simp [InRange])
  | cons k u ih =>
    obtain ⟨i, b', rfl, hi, hb'⟩ := inRange_cons_iff.1 hb
    simp only [sumShape]
    rw [Finset.sum_eq_single (⟨i, hi⟩ : Fin k)]
    · refine (sumShape_congr fun b _ => ?_).trans (ih hb')
      simp
    · intro j _ hj
      have hij : (j : ℕ) ≠ i := fun e => hj (Fin.ext e)
      have : ∀ b : List ℕ, (if (j : ℕ) :: b = i :: b' then x else 0) = (0 : ℝ) * 0 := fun b => by simp [hij]
      simp only [this]
      rw [sumShape_mul, mul_zero]
    · simp

theorem exists_vecs {k : ℕ} (f : List ℕ → Fin k → Vec d) : ∃ x, HoldsVecs bs x f :=
  ⟨⟨d :: k :: bs, fun i => match i with
    | j :: t :: b => if h : t < k ∧ j < d then f b ⟨t, h.1⟩ ⟨j, h.2⟩ else 0
    | _ => 0⟩, rfl, fun b _ t i => by simp⟩

theorem exists_mats {k r c : ℕ} (f : List ℕ → Fin k → Mat r c) : ∃ x, HoldsMats bs x f :=
  ⟨⟨c :: r :: k :: bs, fun i => match i with
    | j :: i :: t :: b => if h : t < k ∧ i < r ∧ j < c then f b ⟨t, h.1⟩ ⟨i, h.2.1⟩ ⟨j, h.2.2⟩ else 0
    | _ => 0⟩, rfl, fun b _ t i j => by simp⟩

theorem exists_triple (f : List ℕ → ExpPar n d) : ∃ x, HoldsTriple bs x f := by
  obtain ⟨x, hx⟩ := exists_vecs (bs := bs) fun b => (f b).1
  obtain ⟨y, hy⟩ := exists_mats (bs := bs) fun b => (f b).2.1
  obtain ⟨z, hz⟩ := exists_mats (bs := bs) fun b => (f b).2.2
  exact ⟨(x, y, z), hx, hy, hz⟩

open Filter Topology in
/-- C70: if the loss of a batch is the sum of the losses of the elements (as for the variational models, C64), then its gradient in the three tensors of
expectation parameters holds exactly the gradients of the losses of the elements. -/
theorem C70_gradient {s : List ℕ → SSM n d} (hs : ∀ b, InRange b bs → (s b).Nondegenerate) (hn : 0 < n) (hd : 0 < d) {L : TSSM → ℝ} {l : List ℕ → SSM n d → ℝ}
    (hL : ∀ (S : TSSM) (s : List ℕ → SSM n d), HoldsSSM bs S s → (∀ b, InRange b bs → (s b).Nondegenerate) → L S = sumShape bs fun b => l b (s b))
    {η g : List ℕ → ExpPar n d} (hη : ∀ b, InRange b bs → ssmToExpectations (s b) = .ok (η b)) :
    IsBatchGradient bs (batchLossOfExpectations L) η g ↔ ∀ b, InRange b bs → IsGradient (lossOfExpectations (l b)) (η b) (g b) := by
  have hη' : ∀ b, InRange b bs → expPar (s b) = η b := fun b hb =>
    Except.ok.inj ((ssmToExpectations_eq _ (hs b hb) hn hd).symm.trans (hη b hb))
  have key : ∀ (h : List ℕ → ExpPar n d) (c : ℝ → TTriple), (∀ b, SymDiag (h b)) → (∀ t : ℝ, HoldsTriple bs (c t) fun b => η b + t • h b) →
      (fun t => batchLossOfExpectations L (c t)) =ᶠ[𝓝 0] fun t : ℝ => sumShape bs fun b => lossOfExpectations (l b) (η b + t • h b) := by
    intro h c hsym hc
    have hev : ∀ᶠ t : ℝ in 𝓝 0, ∀ b, InRange b bs → ∃ q : SSM n d, expectationsToSSM (η b + t • h b).1 (η b + t • h b).2.1 (η b + t • h b).2.2 = .ok q ∧
        q.Nondegenerate := by
      refine eventually_inRange fun b hb => ?_
      have := (ExpPar.path (hs b hb) (fun t : ℝ => η b + t • h b) (by fun_prop) (by simp [hη' b hb]) fun t => ?_).1
      · filter_upwards [this] with t ht
        obtain ⟨q, h1, h2, -⟩ := ht
        exact ⟨q, h1, h2⟩
      · have : SymDiag (η b) := by
          rw [← hη' b hb]
          exact symDiag_expPar _
        intro i
        show ((η b).2.1 i + t • (h b).2.1 i)ᵀ = _
        rw [Matrix.transpose_add, Matrix.transpose_smul, this i, hsym b i]
        rfl
    filter_upwards [hev] with t ht
    have hct := hc t
    unfold batchLossOfExpectations
    rcases expectationsToSSM_holds hct.1 hct.2.1 hct.2.2 with ⟨R, y, hR, hRy, hy⟩ | ⟨e, -, b, hb, hy⟩
    · have hyn : ∀ b, InRange b bs → (y b).Nondegenerate := fun b hb => by
        obtain ⟨q, h1, h2⟩ := ht b hb
        rw [Except.ok.inj ((hy b hb).symm.trans h1)]
        exact h2
      rw [hR]
      dsimp only
      rw [hL R y hRy hyn]
      refine sumShape_congr fun b hb => ?_
      unfold lossOfExpectations
      have := hy b hb
      dsimp only at this
      rw [this]
    · obtain ⟨q, h1, -⟩ := ht b hb
      dsimp only at hy
      rw [h1] at hy
      cases hy
  constructor
  · rintro ⟨hgs, hd⟩ b₀ hb₀
    refine ⟨hgs b₀ hb₀, fun h₀ hh₀ => ?_⟩
    set hh : List ℕ → ExpPar n d := fun b => if b = b₀ then h₀ else 0 with hhh
    have hsy : ∀ b, SymDiag (hh b) := fun b => by
      rw [hhh]
      dsimp only
      split_ifs
      · exact hh₀
      · exact fun i => by simp
    choose c hc using fun t : ℝ => exists_triple (bs := bs) fun b => η b + t • hh b
    have hD := hd hh c hsy hc
    have hp : (sumShape bs fun b => pairing (g b) (hh b)) = pairing (g b₀) h₀ := by
      rw [← sumShape_single hb₀ (pairing (g b₀) h₀)]
      refine sumShape_congr fun b _ => ?_
      rw [hhh]
      dsimp only
      split_ifs with e
      · rw [e]
      · simp [pairing]
    rw [hp] at hD
    have hD := hD.congr_of_eventuallyEq (key hh c hsy hc).symm
    set K : ℝ := (sumShape bs fun b => lossOfExpectations (l b) (η b)) - lossOfExpectations (l b₀) (η b₀) with hK
    have hfun : (fun t : ℝ => sumShape bs fun b => lossOfExpectations (l b) (η b + t • hh b)) = fun t =>
        lossOfExpectations (l b₀) (η b₀ + t • h₀) + K := by
      funext t
      have e1 : (sumShape bs fun b => lossOfExpectations (l b) (η b + t • hh b)) = sumShape bs fun b =>
          (if b = b₀ then lossOfExpectations (l b₀) (η b₀ + t • h₀) - lossOfExpectations (l b₀) (η b₀) else 0) + lossOfExpectations (l b) (η b) := by
        refine sumShape_congr fun b _ => ?_
        rw [hhh]
        dsimp only
        split_ifs with e
        · rw [e]; ring
        · rw [smul_zero, add_zero, zero_add]
      rw [e1, sumShape_add, sumShape_single hb₀, hK]
      ring
    rw [hfun] at hD
    have := hD.sub_const K
    simpa using this
  · intro hg
    refine ⟨fun b hb => (hg b hb).1, fun hh c hsy hc => ?_⟩
    refine HasDerivAt.congr_of_eventuallyEq ?_ (key hh c hsy hc)
    exact hasDerivAt_sumShape fun b hb => (hg b hb).2 (hh b) (hsy b)

/-! ### The variational models -/

/-- The value of `loss()` of a batched variational GP as a function of `dist_q`. -/
noncomputable def TVGP.lossOf (V : TVGP) (S : TSSM) : ℝ :=
  match ({ V with q := S } : TVGP).loss with
  | .ok x => x
  | .error _ => 0

/-- The value of `loss((X, Y))` of a batched sparse variational GP as a function of `dist_q`. -/
noncomputable def TSVGP.lossOf (V : TSVGP) (X Y : Tensor) (S : TSSM) : ℝ :=
  match ({ V with q := S } : TSVGP).loss X Y with
  | .ok x => x
  | .error _ => 0

theorem Spec.HoldsVGP.set {V : TVGP} {v : List ℕ → VGP n o d} (h : HoldsVGP bs V v) {S : TSSM} {s : List ℕ → SSM n d} (hS : HoldsSSM bs S s) :
    HoldsVGP bs { V with q := S } fun b => { v b with q := s b } := ⟨h.times, h.observations, h.kernel, h.likelihood, h.mean, hS⟩

theorem Spec.HoldsSVGP.set {V : TSVGP} {v : List ℕ → SVGP n o d} (h : HoldsSVGP bs V v) {S : TSSM} {s : List ℕ → SSM n d} (hS : HoldsSSM bs S s) :
    HoldsSVGP bs { V with q := S } fun b => { v b with q := s b } := ⟨h.inducing, h.kernel, h.likelihood, h.mean, h.numData, hS⟩

theorem VGP.Valid.set {v : VGP n o d} {k} (h : v.Valid k) {s : SSM n d} (hs : s.Nondegenerate) : ({ v with q := s } : VGP n o d).Valid k :=
  ⟨h.builds, h.noise, h.jitter, h.times, h.lower, h.upper, h.two, hs⟩

theorem tvgp_elbo (hbs : ∀ k ∈ bs, 0 < k) {V : TVGP} {v : List ℕ → VGP n o d} (h : HoldsVGP bs V v) {k : ℝ → ℝ → Mat o o}
    (hv : ∀ b, InRange b bs → (v b).Valid k) {S : TSSM} {s : List ℕ → SSM n d} (hS : HoldsSSM bs S s)
    (hs : ∀ b, InRange b bs → (s b).Nondegenerate) :
    ({ V with q := S } : TVGP).elbo = .ok (-(sumShape bs fun b => (v b).lossOf (s b))) ∧ V.lossOf S = sumShape bs fun b => (v b).lossOf (s b) := by
  have hok : ∀ b, InRange b bs → ({ v b with q := s b } : VGP n o d).elbo = .ok (-((v b).lossOf (s b))) := fun b hb => by
    obtain ⟨e, e1, e2⟩ := VGP.loss_ok ((hv b hb).set (hs b hb))
    rw [e1]
    unfold VGP.lossOf
    rw [e2]
    simp
  have he : ({ V with q := S } : TVGP).elbo = .ok (-(sumShape bs fun b => (v b).lossOf (s b))) := by
    rcases vgpElbo_holds hbs (h.set hS) with ⟨x, y, hx, hr, hy⟩ | ⟨e, -, b, hb, hy⟩
    · rw [hx, hr, show -(sumShape bs fun b => (v b).lossOf (s b)) = sumShape bs fun b => (v b).lossOf (s b) * -1 by rw [sumShape_mul]; ring]
      refine congrArg _ (sumShape_congr fun b hb => ?_)
      rw [mul_neg_one]
      exact Except.ok.inj ((hy b hb).symm.trans (hok b hb))
    · have := hok b hb
      dsimp only at hy
      rw [this] at hy
      cases hy
  refine ⟨he, ?_⟩
  unfold TVGP.lossOf TVGP.loss
  rw [he]
  simp [Bind.bind, Except.bind, Pure.pure, Except.pure]

open Filter Topology in
theorem min_rate {P : List ℕ → ℝ → Prop} (h : ∀ b, InRange b bs → ∃ ε : ℝ, 0 < ε ∧ ∀ r, 0 < r → r < ε → P b r) :
    ∃ ε : ℝ, 0 < ε ∧ ∀ r, 0 < r → r < ε → ∀ b, InRange b bs → P b r := by
  have : ∀ᶠ r : ℝ in 𝓝[>] 0, ∀ b, InRange b bs → P b r := by
    refine eventually_inRange fun b hb => ?_
    obtain ⟨ε, hε, hr⟩ := h b hb
    filter_upwards [Ioo_mem_nhdsGT hε] with r hr'
    exact hr r hr'.1 hr'.2
  obtain ⟨ε, hε, hr⟩ := mem_nhdsGT_iff_exists_Ioo_subset.1 this
  exact ⟨ε, hε, fun r h0 h1 => hr ⟨h0, h1⟩⟩

/-- What small steps do to a batch: if for every element with non-zero gradient a small step strictly decreases its loss, then for every batch with
a non-zero gradient somewhere, small steps strictly decrease the sum. -/
theorem batch_progress (hbs : ∀ k ∈ bs, 0 < k) {S : TSSM} {s : List ℕ → SSM n d} (h : HoldsSSM bs S s)
    (hs : ∀ b, InRange b bs → (s b).Nondegenerate) (hn : 0 < n) (hd : 0 < d) {l : List ℕ → SSM n d → ℝ} (hl : ∀ b, InRange b bs → OfLaw (l b))
    {G : TTriple} {g : List ℕ → ExpPar n d} (hG : HoldsTriple bs G g)
    (hstep : ∀ b, InRange b bs → g b ≠ 0 → ∃ ε : ℝ, 0 < ε ∧ ∀ opt : NatGrad n d, opt.momentum = false → 0 < opt.gamma → opt.gamma < ε →
      ∃ q', opt.step (s b) (g b) 0 = .ok (opt, q') ∧ q'.Nondegenerate ∧ l b q' < l b (s b)) (Gθ : TTriple) :
    (∀ b, InRange b bs → g b = 0) ∨ ∃ ε : ℝ, 0 < ε ∧ ∀ opt : TNatGrad, opt.momentum = false → 0 < opt.gamma → opt.gamma < ε →
      ∀ m : List ℕ → ExpPar n d, HoldsMoving bs opt.ms m →
      ∃ opt' S', ∃ s' : List ℕ → SSM n d, opt.minimize S G Gθ = .ok (opt', S') ∧ HoldsSSM bs S' s' ∧ (∀ b, InRange b bs → (s' b).Nondegenerate) ∧
        sumShape bs (fun b => l b (s' b)) < sumShape bs fun b => l b (s b) := by
  by_cases hz : ∀ b, InRange b bs → g b = 0
  · exact .inl hz
  refine .inr ?_
  push Not at hz
  obtain ⟨b₀, hb₀, hg₀⟩ := hz
  obtain ⟨ε, hε, hr⟩ := min_rate (bs := bs) (P := fun b r => ∀ opt : NatGrad n d, opt.momentum = false → opt.gamma = r →
      ∃ q', opt.step (s b) (g b) 0 = .ok (opt, q') ∧ q'.Nondegenerate ∧ l b q' ≤ l b (s b) ∧ (g b ≠ 0 → l b q' < l b (s b))) fun b hb => by
    by_cases h0 : g b = 0
    · refine ⟨1, one_pos, fun r _ _ opt hm _ => ?_⟩
      obtain ⟨q', a1, a2, a3⟩ := C68_stationary (hl b hb) (hs b hb) hn hd 0 opt hm
      have a4 : q'.Nondegenerate := by
        obtain ⟨s1, -⟩ := C39_step opt hm (hs b hb) hn hd 0 0 (fun _ => by simp)
        rw [smul_zero, sub_zero] at s1
        obtain ⟨q'', f1, f2, -⟩ := s1 (proper_of_ssm (hs b hb))
        have := Except.ok.inj (a1.symm.trans f1)
        rw [show q' = q'' from (Prod.ext_iff.1 this).2]
        exact f2
      exact ⟨q', by rw [h0]; exact a1, a4, a3.le, fun h => absurd h0 h⟩
    · obtain ⟨ε, hε, hr⟩ := hstep b hb h0
      refine ⟨ε, hε, fun r h1 h2 opt hm ho => ?_⟩
      obtain ⟨q', a1, a2, a3⟩ := hr opt hm (ho ▸ h1) (ho ▸ h2)
      exact ⟨q', a1, a2, a3.le, fun _ => a3⟩
  refine ⟨ε, hε, fun opt hm h1 h2 m hmv => ?_⟩
  have hall := fun b hb => hr opt.gamma h1 h2 b hb (NatGrad.init opt.gamma false 0 0 0) rfl rfl
  rcases C70_step hbs h hs hn hd hm hmv hG Gθ (fun _ => 0) (one := NatGrad.init opt.gamma false 0 0 0) rfl rfl with
    ⟨R, y, hR, ⟨-, hR2⟩, hy⟩ | ⟨e, -, b, hb, hy⟩
  · have hyb : ∀ b, InRange b bs → (y b).2.Nondegenerate ∧ l b (y b).2 ≤ l b (s b) ∧ (g b ≠ 0 → l b (y b).2 < l b (s b)) := fun b hb => by
      obtain ⟨q', a1, a2, a3, a4⟩ := hall b hb
      have := Except.ok.inj ((hy b hb).symm.trans a1)
      rw [this]
      exact ⟨a2, a3, a4⟩
    refine ⟨R.1, R.2, fun b => (y b).2, hR, hR2, fun b hb => (hyb b hb).1, ?_⟩
    refine lt_of_le_of_ne (sumShape_le fun b hb => (hyb b hb).2.1) fun he => ?_
    exact absurd ((sumShape_eq_iff fun b hb => (hyb b hb).2.1).1 he b₀ hb₀) ((hyb b₀ hb₀).2.2 hg₀).ne
  · obtain ⟨q', a1, -⟩ := hall b hb
    dsimp only at hy
    rw [a1] at hy
    cases hy

/-- C70: natural gradient steps on a batched variational GP make progress, for any differentiable likelihood: either the gradient of `loss()` vanishes
for all elements, or small enough steps succeed and strictly increase `elbo()`. -/
theorem C70_vgp (hbs : ∀ k ∈ bs, 0 < k) {V : TVGP} {v : List ℕ → VGP n o d} (h : HoldsVGP bs V v) {k : ℝ → ℝ → Mat o o}
    (hv : ∀ b, InRange b bs → (v b).Valid k) (hlik : DifferentiableVarExp V.likelihood)
    (hem : ∀ b, InRange b bs → ∀ t a, (v b).kernel.emission ((v b).times t) a ≠ 0) {η g : List ℕ → ExpPar n d}
    (hη : ∀ b, InRange b bs → ssmToExpectations (v b).q = .ok (η b)) (hg : IsBatchGradient bs (batchLossOfExpectations V.lossOf) η g)
    {G : TTriple} (hG : HoldsTriple bs G g) (Gθ : TTriple) :
    (∀ b, InRange b bs → g b = 0) ∨ ∃ ε : ℝ, 0 < ε ∧ ∀ opt : TNatGrad, opt.momentum = false → 0 < opt.gamma → opt.gamma < ε →
      ∀ m : List ℕ → ExpPar n d, HoldsMoving bs opt.ms m →
      ∃ opt' S' e e', opt.minimize V.q G Gθ = .ok (opt', S') ∧ V.elbo = .ok e ∧ ({ V with q := S' } : TVGP).elbo = .ok e' ∧ e < e' := by
  obtain ⟨b₁, hb₁⟩ := inRange_exists hbs
  have hn := (hv b₁ hb₁).two
  have hd := (Builds.good (hv b₁ hb₁).builds).1.pos
  have hq : ∀ b, InRange b bs → (v b).q.Nondegenerate := fun b hb => (hv b hb).q
  have hgr := (C70_gradient hq hn hd (L := V.lossOf) (l := fun b => (v b).lossOf) (fun S s hS hs => (tvgp_elbo hbs h hv hS hs).2) hη).1 hg
  rcases batch_progress hbs h.q hq hn hd (l := fun b => (v b).lossOf) (fun b hb => VGP.ofLaw (hv b hb)) hG (fun b hb h0 => by
      obtain ⟨_, η', _, _, -, hη', -, hgr'⟩ := C56_gradient (hv b hb) ((h.likelihood b hb).symm ▸ hlik) (hem b hb)
      obtain rfl : η b = η' := Except.ok.inj ((hη b hb).symm.trans hη')
      have hu := (C68_total_gradient (hq b hb) hn hd (hη b hb) hgr').2 (hgr b hb)
      rw [← hu] at hgr'
      exact C68_step (VGP.ofLaw (hv b hb)) (hq b hb) hn hd (hη b hb) hgr' h0 0) Gθ with h0 | ⟨ε, hε, hr⟩
  · exact .inl h0
  · refine .inr ⟨ε, hε, fun opt hm h1 h2 m hmv => ?_⟩
    obtain ⟨opt', S', s', a1, a2, a3, a4⟩ := hr opt hm h1 h2 m hmv
    exact ⟨opt', S', _, _, a1, (tvgp_elbo hbs h hv h.q hq).1, (tvgp_elbo hbs h hv a2 a3).1, neg_lt_neg a4⟩

/-- C70: Gaussian likelihood: one natural gradient step of rate 1 turns a batched variational GP into the batch of the exact posteriors of the elements
(each given its own data), and its `elbo()` into the sum of their log marginal likelihoods. -/
theorem C70_vgp_gaussian (hbs : ∀ k ∈ bs, 0 < k) {V : TVGP} {v : List ℕ → VGP n o d} (h : HoldsVGP bs V v) {k : ℝ → ℝ → Mat o o}
    (hv : ∀ b, InRange b bs → (v b).Valid k) {σ2 : ℝ} (hσ : 0 < σ2) (hlik : V.likelihood = gaussianLikelihood σ2) {η g : List ℕ → ExpPar n d}
    (hη : ∀ b, InRange b bs → ssmToExpectations (v b).q = .ok (η b)) (hg : IsBatchGradient bs (batchLossOfExpectations V.lossOf) η g)
    {G : TTriple} (hG : HoldsTriple bs G g) (Gθ : TTriple) {opt : TNatGrad} (hm : opt.momentum = false) (h1 : opt.gamma = 1)
    {m : List ℕ → ExpPar n d} (hmv : HoldsMoving bs opt.ms m) :
    ∃ (opt' : TNatGrad) (S' : TSSM) (s' : List ℕ → SSM n d) (c : List ℕ → CondProcess n o d), opt.minimize V.q G Gθ = .ok (opt', S') ∧
      HoldsSSM bs S' s' ∧ (∀ b, InRange b bs → ((v b).toGPR σ2).posterior = .ok (c b) ∧ (s' b).law = (c b).q.law) ∧
      ∃ L : List ℕ → ℝ, (∀ b, InRange b bs → ((v b).toGPR σ2).logLikelihood = .ok (L b)) ∧ ({ V with q := S' } : TVGP).elbo = .ok (sumShape bs L) := by
  obtain ⟨b₁, hb₁⟩ := inRange_exists hbs
  have hn := (hv b₁ hb₁).two
  have hd := (Builds.good (hv b₁ hb₁).builds).1.pos
  have hq : ∀ b, InRange b bs → (v b).q.Nondegenerate := fun b hb => (hv b hb).q
  have hgr := (C70_gradient hq hn hd (L := V.lossOf) (l := fun b => (v b).lossOf) (fun S s hS hs => (tvgp_elbo hbs h hv hS hs).2) hη).1 hg
  have hkl := fun b hb => VGP.gaussian_kl (hv b hb) hσ ((h.likelihood b hb).trans hlik)
  have hex : ∀ b, InRange b bs → ∃ (q' : SSM n d) (c : CondProcess n o d) (L : ℝ),
      (NatGrad.init 1 false 0 0 0).step (v b).q (g b) 0 = .ok (NatGrad.init 1 false 0 0 0, q') ∧ q'.Nondegenerate ∧
      ((v b).toGPR σ2).posterior = .ok c ∧ q'.law = c.q.law ∧ ((v b).toGPR σ2).logLikelihood = .ok L ∧ (v b).lossOf q' = -L := fun b hb => by
    obtain ⟨c, L, h1, h2, h3, h4⟩ := hkl b hb
    have hgb := (C39_gradient_of_kl (hq b hb) h3 hn hd h4 (hη b hb) (g b)).1 (hgr b hb)
    have hθ : ssmToNaturals (v b).q - (NatGrad.init (n := n) (d := d) 1 false 0 0 0).gamma • g b = ssmToNaturals c.q := by
      rw [hgb]
      show _ - (1 : ℝ) • _ = _
      rw [one_smul, sub_sub_cancel]
    obtain ⟨q', k1, k2, k3⟩ := (C39_step (NatGrad.init 1 false 0 0 0) rfl (hq b hb) hn hd (g b) 0 (hgr b hb).1).1 (by
      rw [hθ]; exact proper_of_ssm h3)
    have hl := law_of_naturals k2 h3 (k3.trans hθ)
    refine ⟨q', c, L, k1, k2, h1, hl, h2, ?_⟩
    have hpp : IsProbabilityMeasure c.q.law := by rw [SSM.law_eq_gauss]; infer_instance
    rw [h4 q' k2, hl, klDiv_self]
    simp
  have : Nonempty (SSM n d) := ⟨(v b₁).q⟩
  have : Nonempty (CondProcess n o d) := ⟨(v b₁).posterior⟩
  choose! q' c L a1 a2 a3 a4 a5 a6 using hex
  rcases C70_step hbs h.q hq hn hd hm hmv hG Gθ (fun _ => 0) (one := NatGrad.init 1 false 0 0 0) rfl h1.symm with
    ⟨R, y, hR, ⟨-, hR2⟩, hy⟩ | ⟨e, -, b, hb, hy⟩
  · have hR3 : HoldsSSM bs R.2 q' := by
      have e : ∀ b, InRange b bs → (y b).2 = q' b := fun b hb => by
        have := Except.ok.inj ((hy b hb).symm.trans (a1 b hb))
        rw [this]
      exact ⟨hR2.mu0.congr fun b hb => by rw [e b hb], hR2.cholP0.congr fun b hb => by rw [e b hb], hR2.A.congr fun b hb => by rw [e b hb],
        hR2.b.congr fun b hb => by rw [e b hb], hR2.cholQ.congr fun b hb => by rw [e b hb]⟩
    refine ⟨R.1, R.2, q', c, hR, hR3, fun b hb => ⟨a3 b hb, a4 b hb⟩, L, a5, ?_⟩
    rw [(tvgp_elbo hbs h hv hR3 a2).1]
    refine congrArg _ ?_
    rw [sumShape_congr (g := fun b => L b * -1) fun b hb => by rw [a6 b hb, mul_neg_one], sumShape_mul]
    ring
  · have := a1 b hb
    dsimp only at hy
    rw [this] at hy
    cases hy

/-! ### The sparse variational GP -/

theorem tsvgp_elbo (hbs : ∀ k ∈ bs, 0 < k) {V : TSVGP} {v : List ℕ → SVGP n o d} (h : HoldsSVGP bs V v) {k : ℝ → ℝ → Mat o o}
    (hv : ∀ b, InRange b bs → (v b).Valid k) {X Y : Tensor} {xs : List ℕ → Fin (p + 1) → ℝ} {ys : List ℕ → Fin (p + 1) → Vec o}
    (hX : HoldsTimes bs X xs) (hY : HoldsVecs bs Y ys) (h0 : ∀ b, InRange b bs → ∀ j, -10000000000 < xs b j)
    (h1 : ∀ b, InRange b bs → ∀ j, xs b j ≤ 10000000000) {S : TSSM} {s : List ℕ → SSM n d} (hS : HoldsSSM bs S s)
    (hs : ∀ b, InRange b bs → (s b).Nondegenerate) :
    ({ V with q := S } : TSVGP).elbo X Y = .ok (-(sumShape bs fun b => (v b).lossOf (xs b) (ys b) (s b))) ∧
      V.lossOf X Y S = sumShape bs fun b => (v b).lossOf (xs b) (ys b) (s b) := by
  have hok : ∀ b, InRange b bs → ({ v b with q := s b } : SVGP n o d).elbo (xs b) (ys b) = .ok (-((v b).lossOf (xs b) (ys b) (s b))) := fun b hb => by
    obtain ⟨fx, P, T, -, hst⟩ := SVGP.stats_ok (hv b hb) (h0 b hb) (h1 b hb)
    obtain ⟨_, _, _, hL⟩ := SVGP.lossOf_formula (hv b hb) (h0 b hb) (h1 b hb) (ys b) hst
    exact (hL (s b) (hs b hb)).1
  have he : ({ V with q := S } : TSVGP).elbo X Y = .ok (-(sumShape bs fun b => (v b).lossOf (xs b) (ys b) (s b))) := by
    rcases svgpElbo_holds hbs (h.set hS) hX hY with ⟨x, y, hx, hr, hy⟩ | ⟨e, -, b, hb, hy⟩
    · rw [hx, hr, show -(sumShape bs fun b => (v b).lossOf (xs b) (ys b) (s b)) = sumShape bs fun b => (v b).lossOf (xs b) (ys b) (s b) * -1 by
        rw [sumShape_mul]; ring]
      refine congrArg _ (sumShape_congr fun b hb => ?_)
      rw [mul_neg_one]
      exact Except.ok.inj ((hy b hb).symm.trans (hok b hb))
    · have := hok b hb
      dsimp only at hy
      rw [this] at hy
      cases hy
  refine ⟨he, ?_⟩
  unfold TSVGP.lossOf TSVGP.loss
  rw [he]
  simp [Bind.bind, Except.bind, Pure.pure, Except.pure]

/-- C70: the same for the sparse variational GP on any minibatch, several outputs, mean function and `num_data` scaling included. -/
theorem C70_svgp (hbs : ∀ k ∈ bs, 0 < k) {V : TSVGP} {v : List ℕ → SVGP n o d} (h : HoldsSVGP bs V v) {k : ℝ → ℝ → Mat o o}
    (hv : ∀ b, InRange b bs → (v b).Valid k) (hlik : DifferentiableVarExp V.likelihood) {X Y : Tensor} {xs : List ℕ → Fin (p + 1) → ℝ}
    {ys : List ℕ → Fin (p + 1) → Vec o} (hX : HoldsTimes bs X xs) (hY : HoldsVecs bs Y ys) (h0 : ∀ b, InRange b bs → ∀ j, -10000000000 < xs b j)
    (h1 : ∀ b, InRange b bs → ∀ j, xs b j ≤ 10000000000) (hem : ∀ b, InRange b bs → ∀ j a, (v b).kernel.emission (xs b j) a ≠ 0)
    {η g : List ℕ → ExpPar n d} (hη : ∀ b, InRange b bs → ssmToExpectations (v b).q = .ok (η b))
    (hg : IsBatchGradient bs (batchLossOfExpectations (V.lossOf X Y)) η g) {G : TTriple} (hG : HoldsTriple bs G g) (Gθ : TTriple) :
    (∀ b, InRange b bs → g b = 0) ∨ ∃ ε : ℝ, 0 < ε ∧ ∀ opt : TNatGrad, opt.momentum = false → 0 < opt.gamma → opt.gamma < ε →
      ∀ m : List ℕ → ExpPar n d, HoldsMoving bs opt.ms m →
      ∃ opt' S' e e', opt.minimize V.q G Gθ = .ok (opt', S') ∧ V.elbo X Y = .ok e ∧ ({ V with q := S' } : TSVGP).elbo X Y = .ok e' ∧ e < e' := by
  obtain ⟨b₁, hb₁⟩ := inRange_exists hbs
  have hn := (hv b₁ hb₁).two
  have hd := (Builds.good (hv b₁ hb₁).builds).1.pos
  have hq : ∀ b, InRange b bs → (v b).q.Nondegenerate := fun b hb => (hv b hb).q
  have hgr := (C70_gradient hq hn hd (L := V.lossOf X Y) (l := fun b => (v b).lossOf (xs b) (ys b))
    (fun S s hS hs => (tsvgp_elbo hbs h hv hX hY h0 h1 hS hs).2) hη).1 hg
  rcases batch_progress hbs h.q hq hn hd (l := fun b => (v b).lossOf (xs b) (ys b)) (fun b hb => by
      obtain ⟨fx, P, T, -, hst⟩ := SVGP.stats_ok (hv b hb) (h0 b hb) (h1 b hb)
      exact SVGP.ofLaw (hv b hb) (h0 b hb) (h1 b hb) (ys b) hst) hG (fun b hb hz => by
      obtain ⟨s', η', fx, P, T, hs', hη', hf, hst, -, hgr'⟩ := C69_gradient (hv b hb) ((h.likelihood b hb).symm ▸ hlik) (h0 b hb) (h1 b hb) (hem b hb) (ys b)
      have hgr' := hgr' _ (fun _ _ => rfl) _ (fun _ _ => rfl)
      obtain rfl : η b = η' := Except.ok.inj ((hη b hb).symm.trans hη')
      have hu := (C68_total_gradient (hq b hb) hn hd (hη b hb) hgr').2 (hgr b hb)
      rw [← hu] at hgr'
      exact C68_step (SVGP.ofLaw (hv b hb) (h0 b hb) (h1 b hb) (ys b) hst) (hq b hb) hn hd (hη b hb) hgr' hz 0) Gθ with hz | ⟨ε, hε, hr⟩
  · exact .inl hz
  · refine .inr ⟨ε, hε, fun opt hm k1 k2 m hmv => ?_⟩
    obtain ⟨opt', S', s', a1, a2, a3, a4⟩ := hr opt hm k1 k2 m hmv
    exact ⟨opt', S', _, _, a1, (tsvgp_elbo hbs h hv hX hY h0 h1 h.q hq).1, (tsvgp_elbo hbs h hv hX hY h0 h1 a2 a3).1, neg_lt_neg a4⟩

/-- Non-vacuity: two different data sets, Gaussian likelihood: the gradient of the batch exists, so the hypotheses of C70 hold, and a fresh optimiser
has moving averages zero. -/
example : ∃ (V : TVGP) (v : List ℕ → VGP 2 1 2) (kf : ℝ → ℝ → Mat 1 1) (η g : List ℕ → ExpPar 2 2) (G : TTriple),
    HoldsVGP [2] V v ∧ (∀ b, InRange b [2] → (v b).Valid kf) ∧ (v [0]).observations ≠ (v [1]).observations ∧
    (∀ b, InRange b [2] → ssmToExpectations (v b).q = .ok (η b)) ∧ IsBatchGradient [2] (batchLossOfExpectations V.lossOf) η g ∧ HoldsTriple [2] G g ∧
    HoldsMoving [2] (⟨1, false, 0, 0, 0, none, 0, 1⟩ : TNatGrad).ms fun _ => (0 : ExpPar 2 2) := by
  obtain ⟨T, Y, K, V, v, kf, hV, hVv, hv, -, hobs, -⟩ := batch_vgp_example
  have hlik : V.likelihood = gaussianLikelihood 3 := by
    unfold TVGP.init at hV
    simp only [Bind.bind, Except.bind] at hV
    split at hV
    · cases hV
    · split at hV
      · cases hV
      · rw [← Except.ok.inj hV]
  have hq : ∀ b, InRange b [2] → (v b).q.Nondegenerate := fun b hb => (hv b hb).q
  have hkl := fun b hb => VGP.gaussian_kl (hv b hb) (σ2 := 3) (by norm_num) ((hVv.likelihood b hb).trans hlik)
  have : Nonempty (CondProcess 2 1 2) := ⟨(v []).posterior⟩
  choose! c L h1 h2 h3 h4 using hkl
  have hη : ∀ b, InRange b [2] → ssmToExpectations (v b).q = .ok (expPar (v b).q) := fun b hb => ssmToExpectations_eq _ (hq b hb) (by norm_num) (by norm_num)
  obtain ⟨G, hG⟩ := exists_triple (bs := [2]) fun b => ssmToNaturals (v b).q - ssmToNaturals (c b).q
  refine ⟨V, v, kf, _, _, G, hVv, hv, hobs, hη, ?_, hG, .inl ⟨rfl, fun _ _ => rfl⟩⟩
  refine (C70_gradient hq (by norm_num) (by norm_num) (L := V.lossOf) (l := fun b => (v b).lossOf)
    (fun S s hS hs => (tvgp_elbo (by simp) hVv hv hS hs).2) hη).2 fun b hb => ?_
  exact (C39_gradient_of_kl (hq b hb) (h3 b hb) (by norm_num) (by norm_num) (h4 b hb) (hη b hb) _).2 rfl

end MF
