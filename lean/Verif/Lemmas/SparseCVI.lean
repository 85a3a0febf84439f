import Verif.Model.SparseCVI
import Verif.Lemmas.CVI
import Verif.Props.SVGP

/-!
# Lemmas for `SparseCVIGaussianProcess`
-/

namespace MF
open Matrix Spec MeasureTheory ProbabilityTheory InformationTheory
variable {n d o p : ℕ}

theorem denseSym_isSymm {D : Fin (n + 1) → Mat d d} {S : Fin n → Mat d d} (hD : ∀ b, (D b)ᵀ = D b) :
    (denseSym D S)ᵀ = denseSym D S := by
  apply blk_ext
  intro b c
  rw [blk_transpose, blk_denseSym, blk_denseSym]
  rcases lt_trichotomy b c with h | h | h
  · rw [symBlk_of_lt _ _ h, symBlk_of_gt _ _ h]
  · subst h; simp [symBlk_self, hD]
  · rw [symBlk_of_lt _ _ h, symBlk_of_gt _ _ h, transpose_transpose]

theorem posDef_sub_quad {ι : Type*} [Fintype ι] [DecidableEq ι] {P M : Matrix ι ι ℝ} (hP : P.PosDef) (hM : Mᵀ = M)
    (h : ∀ x, x ⬝ᵥ (M *ᵥ x) ≤ 0) : (P - (2 : ℝ) • M).PosDef := by
  rw [sub_eq_add_neg, ← smul_neg]
  refine hP.add_posSemidef (PosSemidef.of_dotProduct_mulVec_nonneg ?_ fun x => ?_)
  · rw [IsHermitian, conjTranspose_eq_transpose_of_trivial, transpose_smul, transpose_neg, hM]
  · rw [star_trivial, smul_mulVec, neg_mulVec, dotProduct_smul, dotProduct_neg, smul_eq_mul]
    linarith [h x]

theorem dotProduct_sumElim (w : Fin d ⊕ Fin d → ℝ) (a b : Vec d) :
    w ⬝ᵥ Sum.elim a b = (fun i => w (.inl i)) ⬝ᵥ a + (fun i => w (.inr i)) ⬝ᵥ b := by
  simp [dotProduct, Fintype.sum_sum_type]

theorem quad_sumElim (A : Matrix (Fin d ⊕ Fin d) (Fin d ⊕ Fin d) ℝ) (hA : Aᵀ = A) (a b : Vec d) :
    Sum.elim a b ⬝ᵥ (A *ᵥ Sum.elim a b) = a ⬝ᵥ (A.toBlocks₁₁ *ᵥ a) + 2 * (b ⬝ᵥ (A.toBlocks₂₁ *ᵥ a)) +
      b ⬝ᵥ (A.toBlocks₂₂ *ᵥ b) := by
  have e : a ⬝ᵥ (A.toBlocks₁₂ *ᵥ b) = b ⬝ᵥ (A.toBlocks₂₁ *ᵥ a) := by
    rw [dotProduct_mulVec, ← mulVec_transpose, dotProduct_comm]
    congr 2
    ext i j
    have := congrFun (congrFun hA (.inr i)) (.inl j)
    simpa [toBlocks₁₂, toBlocks₂₁] using this
  conv_lhs => rw [← fromBlocks_toBlocks A, fromBlocks_mulVec]
  simp only [Sum.elim_comp_inl, Sum.elim_comp_inr]
  rw [show ∀ (a b a' b' : Vec d), Sum.elim a b ⬝ᵥ Sum.elim a' b' = a ⬝ᵥ a' + b ⬝ᵥ b' from
    fun a b a' b' => by simp [dotProduct, Fintype.sum_sum_type]]
  rw [dotProduct_add, dotProduct_add, e]
  ring

/-- The linear and quadratic parts collected per inducing state. -/
def siteLin (θ₁ : Fin (n + 2) → Fin d ⊕ Fin d → ℝ) : Fin (n + 1) → Vec d := fun m a =>
  θ₁ m.succ (.inl a) + θ₁ m.castSucc (.inr a)
def siteDiag (θ₂ : Fin (n + 2) → Matrix (Fin d ⊕ Fin d) (Fin d ⊕ Fin d) ℝ) : Fin (n + 1) → Mat d d := fun m =>
  Matrix.of fun a b => θ₂ m.succ (.inl a) (.inl b) + θ₂ m.castSucc (.inr a) (.inr b)
def siteSub (θ₂ : Fin (n + 2) → Matrix (Fin d ⊕ Fin d) (Fin d ⊕ Fin d) ℝ) : Fin n → Mat d d := fun k =>
  Matrix.of fun a b => θ₂ k.castSucc.succ (.inr a) (.inl b)

theorem siteDiag_symm {θ₂ : Fin (n + 2) → Matrix (Fin d ⊕ Fin d) (Fin d ⊕ Fin d) ℝ} (h : ∀ j, (θ₂ j)ᵀ = θ₂ j) (m) :
    (siteDiag θ₂ m)ᵀ = siteDiag θ₂ m := by
  ext a b
  have h1 := congrFun (congrFun (h m.succ) (.inl a)) (.inl b)
  have h2 := congrFun (congrFun (h m.castSucc) (.inr a)) (.inr b)
  simp only [transpose_apply] at h1 h2
  simp [siteDiag, h1, h2]

theorem pairSite_quad (θ₁ : Fin (n + 2) → Fin d ⊕ Fin d → ℝ)
    {θ₂ : Fin (n + 2) → Matrix (Fin d ⊕ Fin d) (Fin d ⊕ Fin d) ℝ} (h : ∀ j, (θ₂ j)ᵀ = θ₂ j) (x : Ix n d → ℝ) :
    stk (siteLin θ₁) ⬝ᵥ x + x ⬝ᵥ (denseSym (siteDiag θ₂) (siteSub θ₂) *ᵥ x) = pairSiteLogLik θ₁ θ₂ (unstk x) := by
  rw [quad_denseSym _ _ (siteDiag_symm h)]
  unfold pairSiteLogLik neighbours
  simp only [dotProduct_sumElim, quad_sumElim _ (h _), Finset.sum_add_distrib]
  have e1 : ∀ g : Fin (n + 2) → Vec d → ℝ, (∀ j, g j 0 = 0) →
      ∑ j, g j ((Fin.cons 0 (unstk x) : Fin (n + 2) → Vec d) j) = ∑ m : Fin (n + 1), g m.succ (unstk x m) := by
    intro g hg
    rw [Fin.sum_univ_succ]
    simp [hg]
  have e2 : ∀ g : Fin (n + 2) → Vec d → ℝ, (∀ j, g j 0 = 0) →
      ∑ j, g j ((Fin.snoc (α := fun _ => Vec d) (unstk x) 0 : Fin (n + 2) → Vec d) j) =
        ∑ m : Fin (n + 1), g m.castSucc (unstk x m) := by
    intro g hg
    rw [Fin.sum_univ_castSucc]
    simp [hg]
  rw [e1 (fun j u => (fun i => θ₁ j (.inl i)) ⬝ᵥ u) (by simp), e2 (fun j u => (fun i => θ₁ j (.inr i)) ⬝ᵥ u) (by simp),
    e1 (fun j u => u ⬝ᵥ ((θ₂ j).toBlocks₁₁ *ᵥ u)) (by simp), e2 (fun j u => u ⬝ᵥ ((θ₂ j).toBlocks₂₂ *ᵥ u)) (by simp)]
  have e3 : ∑ j : Fin (n + 2), 2 * ((Fin.snoc (α := fun _ => Vec d) (unstk x) 0 : Fin (n + 2) → Vec d) j ⬝ᵥ
      ((θ₂ j).toBlocks₂₁ *ᵥ (Fin.cons 0 (unstk x) : Fin (n + 2) → Vec d) j)) =
      2 * ∑ k : Fin n, unstk x k.succ ⬝ᵥ (siteSub θ₂ k *ᵥ unstk x k.castSucc) := by
    rw [← Finset.mul_sum, Fin.sum_univ_succ, Fin.sum_univ_castSucc]
    simp only [Fin.cons_zero, mulVec_zero, dotProduct_zero, zero_add, Fin.cons_succ, Fin.succ_last, Fin.snoc_last,
      zero_dotProduct, add_zero]
    congr 1
    refine Finset.sum_congr rfl fun k _ => ?_
    rw [show k.castSucc.succ = k.succ.castSucc from rfl, Fin.snoc_castSucc]
    rfl
  rw [e3]
  have e4 : stk (siteLin θ₁) ⬝ᵥ x = ∑ m : Fin (n + 1), ((fun i => θ₁ m.succ (.inl i)) ⬝ᵥ unstk x m) +
      ∑ m : Fin (n + 1), ((fun i => θ₁ m.castSucc (.inr i)) ⬝ᵥ unstk x m) := by
    simp only [dotProduct, Fintype.sum_prod_type, stk, siteLin, unstk, add_mul, Finset.sum_add_distrib]
  have e5 : ∑ b, unstk x b ⬝ᵥ (siteDiag θ₂ b *ᵥ unstk x b) =
      ∑ m : Fin (n + 1), unstk x m ⬝ᵥ ((θ₂ m.succ).toBlocks₁₁ *ᵥ unstk x m) +
      ∑ m : Fin (n + 1), unstk x m ⬝ᵥ ((θ₂ m.castSucc).toBlocks₂₂ *ᵥ unstk x m) := by
    rw [← Finset.sum_add_distrib]
    refine Finset.sum_congr rfl fun m _ => ?_
    rw [← dotProduct_add, ← add_mulVec]
    rfl
  rw [e4, e5]
  ring

theorem inInterval_iff {z : Fin (n + 1) → ℝ} (hz : Monotone z) (j : Fin (n + 2)) (t : ℝ) :
    searchsortedLeft z t = j ↔ InInterval z j t := by
  have h := lt_searchsortedLeft hz t
  constructor
  · rintro rfl
    refine ⟨fun i hi => (h i).1 hi, fun i hi => not_lt.1 fun hc => ?_⟩
    exact absurd ((h i).2 hc) (not_lt.2 hi)
  · rintro ⟨h1, h2⟩
    apply Fin.ext
    rcases lt_trichotomy (searchsortedLeft z t : ℕ) (j : ℕ) with hl | he | hg
    · have hi : (searchsortedLeft z t : ℕ) < n + 1 := by omega
      exact absurd ((h ⟨_, hi⟩).2 (h1 ⟨_, hi⟩ hl)) (lt_irrefl _)
    · exact he
    · have hi : (j : ℕ) < n + 1 := by omega
      exact absurd ((h ⟨_, hi⟩).1 hg) (not_lt.2 (h2 ⟨_, hi⟩ (le_refl _)))

theorem partitionSum_eq {α : Type*} [AddCommMonoid α] {G : ℕ} (indices : Fin p → Fin G) (data : Fin p → α) (g : Fin G) :
    partitionSum indices data g = ∑ i, if indices i = g then data i else 0 := by
  unfold partitionSum
  rw [← Finset.sum_filter]
  rw [← List.sum_toFinset _ ((List.nodup_finRange p).filter _)]
  refine Finset.sum_congr ?_ fun _ _ => rfl
  ext i
  simp

/-! ### selecting the neighbours -/

section pick
variable {S ι : Type*} [Fintype S] [DecidableEq S] [Fintype ι] [DecidableEq ι]

def pickMat (f : S → Option ι) : Matrix S ι ℝ := Matrix.of fun s i => if f s = some i then 1 else 0

omit [Fintype S] [DecidableEq S] in
theorem pickMat_mulVec (f : S → Option ι) (x : ι → ℝ) : pickMat f *ᵥ x = fun s => (f s).elim 0 x := by
  funext s
  simp only [pickMat, mulVec, dotProduct, of_apply]
  cases f s with
  | none => simp
  | some i => simp [Option.some_inj]

omit [Fintype S] [DecidableEq S] in
theorem pickMat_conj (f : S → Option ι) (K : Matrix ι ι ℝ) (s s' : S) :
    (pickMat f * K * (pickMat f)ᵀ) s s' = (f s).elim 0 fun i => (f s').elim 0 fun i' => K i i' := by
  have e : ∀ M : Matrix S ι ℝ, (M * (pickMat f)ᵀ) s s' = (f s').elim 0 (M s) := fun M => by
    have := congrFun (pickMat_mulVec f (M s)) s'
    rw [← this]
    simp only [mul_apply, transpose_apply, mulVec, dotProduct]
    exact Finset.sum_congr rfl fun i _ => mul_comm _ _
  rw [e]
  have e2 : ∀ i', (pickMat f * K) s i' = (f s).elim 0 fun i => K i i' := fun i' => by
    have := congrFun (pickMat_mulVec f (fun i => K i i')) s
    exact this
  cases hs' : f s' with
  | none => cases f s <;> rfl
  | some i' => exact e2 i'
end pick

/-- The coordinates of the neighbours of interval `j`. -/
def nbIdx (d : ℕ) (j : Fin (n + 2)) : Fin d ⊕ Fin d → Option (Fin (n + 1) × Fin d)
  | .inl a => Fin.cases (motive := fun _ => Option (Fin (n + 1) × Fin d)) none (fun m => some (m, a)) j
  | .inr a => Fin.lastCases (motive := fun _ => Option (Fin (n + 1) × Fin d)) none (fun m => some (m, a)) j

theorem nbIdx_zero_inl (a : Fin d) : nbIdx d (0 : Fin (n + 2)) (.inl a) = none := rfl
theorem nbIdx_succ_inl (m : Fin (n + 1)) (a : Fin d) : nbIdx d m.succ (.inl a) = some (m, a) := rfl
theorem nbIdx_last_inr (a : Fin d) : nbIdx d (Fin.last (n + 1)) (.inr a) = none := by
  simp only [nbIdx, Fin.lastCases_last]
theorem nbIdx_castSucc_inr (m : Fin (n + 1)) (a : Fin d) : nbIdx d m.castSucc (.inr a) = some (m, a) := by
  simp only [nbIdx, Fin.lastCases_castSucc]

theorem neighbours_eq (x : Ix n d → ℝ) (j : Fin (n + 2)) : neighbours (unstk x) j = pickMat (nbIdx d j) *ᵥ x := by
  rw [pickMat_mulVec]
  funext s
  rcases s with a | a
  · refine Fin.cases ?_ (fun m => ?_) j
    · rw [nbIdx_zero_inl]; rfl
    · rw [nbIdx_succ_inl]; rfl
  · refine Fin.lastCases ?_ (fun m => ?_) j
    · rw [nbIdx_last_inr]
      simp [neighbours]
    · rw [nbIdx_castSucc_inr]
      simp only [neighbours, Sum.elim_inr, Fin.snoc_castSucc]; rfl

/-- Covariance of the stand-ins for missing neighbours. -/
noncomputable def endCov (P0 : Mat d d) (j : Fin (n + 2)) : Matrix (Fin d ⊕ Fin d) (Fin d ⊕ Fin d) ℝ :=
  fromBlocks (if j = 0 then P0 else 0) 0 0 (if j = Fin.last (n + 1) then P0 else 0)

theorem pair_cov_eq (P0 : Mat d d) {K : Matrix (Ix n d) (Ix n d) ℝ} (hK : Kᵀ = K) (j : Fin (n + 2)) :
    fromBlocks
      ((Fin.cons P0 (Fin.snoc (α := fun _ => Mat d d) (fun k => blk K k k) P0) : Fin (n + 3) → Mat d d) j.castSucc)
      ((Fin.cons 0 (Fin.snoc (α := fun _ => Mat d d) (fun k : Fin n => blk K k.succ k.castSucc) 0) :
        Fin (n + 2) → Mat d d) j)ᵀ
      ((Fin.cons 0 (Fin.snoc (α := fun _ => Mat d d) (fun k : Fin n => blk K k.succ k.castSucc) 0) :
        Fin (n + 2) → Mat d d) j)
      ((Fin.cons P0 (Fin.snoc (α := fun _ => Mat d d) (fun k => blk K k k) P0) : Fin (n + 3) → Mat d d) j.succ) =
    pickMat (nbIdx d j) * K * (pickMat (nbIdx d j))ᵀ + endCov P0 j := by
  have hs : ∀ i i', K i i' = K i' i := fun i i' => congrFun (congrFun hK i') i
  refine Fin.cases ?_ (fun m => ?_) j
  · ext s s'
    rw [Matrix.add_apply, pickMat_conj, pad_first, pad_second, endCov, if_pos rfl, if_neg (Fin.last_pos.ne)]
    rw [show (0 : Fin (n + 2)) = (0 : Fin (n + 1)).castSucc from rfl]
    rcases s with a | a <;> rcases s' with b | b <;>
      simp only [fromBlocks_apply₁₁, fromBlocks_apply₁₂, fromBlocks_apply₂₁, fromBlocks_apply₂₂, nbIdx_castSucc_inr,
        Option.elim_some] <;> simp [nbIdx, blk]
  · refine Fin.lastCases ?_ (fun k => ?_) m
    · ext s s'
      rw [Matrix.add_apply, pickMat_conj, Fin.succ_last, pad_butlast, pad_last, pad_cross_last, endCov, if_pos rfl,
        if_neg (Fin.last_pos.ne')]
      rw [← Fin.succ_last]
      rcases s with a | a <;> rcases s' with b | b <;>
        simp only [fromBlocks_apply₁₁, fromBlocks_apply₁₂, fromBlocks_apply₂₁, fromBlocks_apply₂₂, nbIdx_succ_inl,
          Option.elim_some] <;> (try rw [Fin.succ_last]) <;> (try simp only [nbIdx_last_inr]) <;> simp [blk]
    · ext s s'
      have h0 : k.castSucc.succ ≠ (0 : Fin (n + 2)) := Fin.succ_ne_zero _
      have h1 : k.castSucc.succ ≠ Fin.last (n + 1) := by
        rw [← Fin.succ_last]
        exact fun h => (Fin.castSucc_lt_last k).ne (Fin.succ_injective _ h)
      rw [Matrix.add_apply, pickMat_conj, endCov, if_neg h0, if_neg h1]
      have e1 : (Fin.cons P0 (Fin.snoc (α := fun _ => Mat d d) (fun k => blk K k k) P0) : Fin (n + 3) → Mat d d)
          k.castSucc.succ.castSucc = blk K k.castSucc k.castSucc := by
        rw [show k.castSucc.succ.castSucc = k.castSucc.castSucc.succ from rfl, Fin.cons_succ]
        exact Fin.snoc_castSucc (α := fun _ => Mat d d) P0 (fun k => blk K k k) k.castSucc
      have e2 : (Fin.cons P0 (Fin.snoc (α := fun _ => Mat d d) (fun k => blk K k k) P0) : Fin (n + 3) → Mat d d)
          k.castSucc.succ.succ = blk K k.succ k.succ := by
        rw [Fin.cons_succ]
        exact Fin.snoc_castSucc (α := fun _ => Mat d d) P0 (fun k => blk K k k) k.succ
      have e3 : (Fin.cons 0 (Fin.snoc (α := fun _ => Mat d d) (fun k : Fin n => blk K k.succ k.castSucc) 0) :
        Fin (n + 2) → Mat d d) k.castSucc.succ = blk K k.succ k.castSucc := by
        rw [Fin.cons_succ]
        exact Fin.snoc_castSucc (α := fun _ => Mat d d) 0 (fun k : Fin n => blk K k.succ k.castSucc) k
      rw [e1, e2, e3]
      have f1 : ∀ a, nbIdx d k.castSucc.succ (.inl a) = some (k.castSucc, a) := fun a => nbIdx_succ_inl _ _
      have f2 : ∀ a, nbIdx d k.castSucc.succ (.inr a) = some (k.succ, a) := fun a => nbIdx_castSucc_inr k.succ a
      rcases s with a | a <;> rcases s' with b | b <;>
        simp only [fromBlocks_apply₁₁, fromBlocks_apply₁₂, fromBlocks_apply₂₁, fromBlocks_apply₂₂, f1, f2,
          Option.elim_some, Matrix.zero_apply, add_zero, transpose_apply] <;> simp [blk, hs (k.succ, b)]

theorem pair_mean_eq (u : Fin (n + 1) → Vec d) (j : Fin (n + 2)) :
    Sum.elim ((Fin.cons 0 (Fin.snoc (α := fun _ => Vec d) u 0) : Fin (n + 3) → Vec d) j.castSucc)
      ((Fin.cons 0 (Fin.snoc (α := fun _ => Vec d) u 0) : Fin (n + 3) → Vec d) j.succ) = neighbours u j := by
  unfold neighbours
  congr 1
  refine Fin.cases rfl (fun m => ?_) j
  rw [show m.succ.castSucc = m.castSucc.succ from rfl, Fin.cons_succ, Fin.cons_succ]
  exact Fin.snoc_castSucc (α := fun _ => Vec d) 0 u m


/-! ### predictions in terms of the neighbours -/

/-- `W v`, the prior conditional mean of the latent value given the neighbouring inducing states. -/
noncomputable def projW (K : Stationary 1 d) (X : Fin p → ℝ) (P : Fin p → Matrix (Fin d) (Fin d ⊕ Fin d) ℝ) (i : Fin p) :
    Fin d ⊕ Fin d → ℝ := (K.emission (X i) * P i) 0

/-- The part of the predictive variance that does not depend on `q`. -/
noncomputable def restVar (K : Stationary 1 d) (z : Fin (n + 1) → ℝ) (X : Fin p → ℝ)
    (P : Fin p → Matrix (Fin d) (Fin d ⊕ Fin d) ℝ) (T : Fin p → Mat d d) (i : Fin p) : ℝ :=
  (K.emission (X i) * T i * (K.emission (X i))ᵀ) 0 0 +
    projW K X P i ⬝ᵥ (endCov K.initialCovariance (searchsortedLeft z (X i)) *ᵥ projW K X P i)

theorem row_conj {S : Type*} [Fintype S] (A : Matrix (Fin 1) S ℝ) (M : Matrix S S ℝ) :
    (A * M * Aᵀ) 0 0 = A 0 ⬝ᵥ (M *ᵥ A 0) := by
  rw [Matrix.mul_assoc, mul_apply]
  simp only [dotProduct, mulVec, mul_apply, transpose_apply]

theorem pair_predict {K : Stationary 1 d} {k} (hK : Builds K k) {q : SSM n d} (hq : q.Nondegenerate) (hn : 0 < n)
    {z : Fin (n + 1) → ℝ} {X : Fin p → ℝ} {P T} (hst : conditionalStatistics approxInf X z K.trans = .ok (P, T)) {f}
    (hf : (⟨q, K, z, fun _ => 0⟩ : CondProcess n 1 d).predictFDiag X = .ok f) (i : Fin p) :
    (f i).1 0 = projW K X P i ⬝ᵥ neighbours q.mus (searchsortedLeft z (X i)) ∧
    (f i).2 0 = projW K X P i ⬝ᵥ ((pickMat (nbIdx d (searchsortedLeft z (X i))) * q.Kd *
      (pickMat (nbIdx d (searchsortedLeft z (X i))))ᵀ) *ᵥ projW K X P i) + restVar K z X P T i := by
  obtain ⟨hc, hreg, -⟩ := Builds.good hK
  have hr : ∃ r, (⟨q, K, z, fun _ => 0⟩ : CondProcess n 1 d).predictState X = .ok r := by
    unfold CondProcess.predictFDiag at hf
    cases h : (⟨q, K, z, fun _ => 0⟩ : CondProcess n 1 d).predictState X with
    | ok r => exact ⟨r, rfl⟩
    | error e => rw [h] at hf; cases hf
  obtain ⟨r, hr⟩ := hr
  obtain ⟨f', _, hf', -, hfv⟩ := (C45_formulas hr 0).2
  obtain rfl : f = f' := Except.ok.inj (hf.symm.trans hf')
  obtain ⟨cs, hcs, mu, C, S, hmu, hC, hS, hrj⟩ := predictState_ok hq hn hc.pos hr
  have hst' : conditionalStatistics approxInf X z K.trans =
      .ok (fun j => fromCols (cs j).D (cs j).E, fun j => (cs j).T) := by
    unfold conditionalStatistics
    rw [conditionalStatisticsAux_of hcs]; rfl
  have hPT := Except.ok.inj (hst.symm.trans hst')
  obtain ⟨rfl, rfl⟩ := Prod.mk.inj hPT
  obtain ⟨e1, e2, -⟩ := hfv i
  rw [hreg.mean] at hmu
  have hm := pair_mean_eq q.mus (searchsortedLeft z (X i))
  have hcv := pair_cov_eq K.initialCovariance (isSymm_of_psd q.Kd_posSemidef) (searchsortedLeft z (X i))
  rw [← hC, ← hS] at hcv
  rw [← hmu] at hm
  constructor
  · rw [e1, hrj, ← hm]
    simp only [projW]
    rw [show (0 : Vec 1) = 0 from rfl]
    have : (K.emission (X i) * fromCols (cs i).D (cs i).E) 0 ⬝ᵥ
        Sum.elim (mu (searchsortedLeft z (X i)).castSucc) (mu (searchsortedLeft z (X i)).succ) =
        ((K.emission (X i) * fromCols (cs i).D (cs i).E) *ᵥ
        Sum.elim (mu (searchsortedLeft z (X i)).castSucc) (mu (searchsortedLeft z (X i)).succ)) 0 := rfl
    rw [this, ← mulVec_mulVec, fromCols_mulVec]
    simp
  · rw [e2, hrj]
    dsimp only
    rw [hcv]
    have key : ∀ (H : Mat 1 d) (F : Matrix (Fin d) (Fin d ⊕ Fin d) ℝ) (T : Mat d d)
        (A E : Matrix (Fin d ⊕ Fin d) (Fin d ⊕ Fin d) ℝ),
        H * (T + F * (A + E) * Fᵀ) * Hᵀ = H * T * Hᵀ + (H * F) * A * (H * F)ᵀ + (H * F) * E * (H * F)ᵀ := by
      intro H F T A E
      simp only [transpose_mul, Matrix.mul_add, Matrix.add_mul, Matrix.mul_assoc, add_assoc]
    rw [key, Matrix.add_apply, Matrix.add_apply, row_conj (_ * _), row_conj (_ * _)]
    simp only [projW, restVar]
    ring

/-- The law of the projection of the neighbours under `q`. -/
theorem neighbours_law (q : SSM n d) (W : Fin d ⊕ Fin d → ℝ) (j : Fin (n + 2)) :
    0 ≤ W ⬝ᵥ ((pickMat (nbIdx d j) * q.Kd * (pickMat (nbIdx d j))ᵀ) *ᵥ W) ∧
    q.law.map (fun x => W ⬝ᵥ neighbours (unstk x) j) = gaussianReal (W ⬝ᵥ neighbours q.mus j)
      (W ⬝ᵥ ((pickMat (nbIdx d j) * q.Kd * (pickMat (nbIdx d j))ᵀ) *ᵥ W)).toNNReal := by
  set G : Matrix (Fin 1) (Ix n d) ℝ := (Matrix.of fun _ => W) * pickMat (nbIdx d j) with hG
  have hv : W ⬝ᵥ ((pickMat (nbIdx d j) * q.Kd * (pickMat (nbIdx d j))ᵀ) *ᵥ W) = (G * q.Kd * Gᵀ) 0 0 := by
    rw [hG, transpose_mul]
    have := row_conj (Matrix.of fun _ : Fin 1 => W) (pickMat (nbIdx d j) * q.Kd * (pickMat (nbIdx d j))ᵀ)
    simp only [Matrix.mul_assoc] at this ⊢
    exact this.symm
  have hpsd : (G * q.Kd * Gᵀ).PosSemidef := posSemidef_conj' q.Kd_posSemidef _
  have hx : ∀ x : Ix n d → ℝ, W ⬝ᵥ neighbours (unstk x) j = (0 + G *ᵥ x) 0 := by
    intro x
    rw [zero_add, neighbours_eq, hG, ← mulVec_mulVec]; rfl
  have hm : W ⬝ᵥ neighbours q.mus j = (0 + G *ᵥ stk q.mus) 0 := by rw [← hx]; rfl
  refine ⟨by rw [hv]; exact hpsd.diag_nonneg, ?_⟩
  rw [hv, hm, SSM.law_eq_gauss]
  simp only [hx]
  rw [← gaussLaw_eval hpsd, ← gaussLaw_map_affine q.Kd_posSemidef,
    Measure.map_map (measurable_pi_apply 0) (measurable_affine 0 G)]
  rfl

theorem measurable_neighbours (W : Fin d ⊕ Fin d → ℝ) (j : Fin (n + 2)) :
    Measurable fun x : Ix n d → ℝ => W ⬝ᵥ neighbours (unstk x) j := by
  simp only [neighbours_eq]
  unfold mulVec dotProduct
  fun_prop

end MF
