import Verif.Lemmas.MarkovBridge
import Mathlib.MeasureTheory.Constructions.BorelSpace.Order

/-! # The piecewise process is a Markov Gaussian process -/

namespace MF
open Matrix Spec MeasureTheory
variable {d m : ℕ}

/-! ### channels -/

theorem Spec.Channel.andThen_assoc (a b c : Channel d) : (a.andThen b).andThen c = a.andThen (b.andThen c) := by
  ext1 <;> simp only [Channel.andThen]
  · rw [Matrix.mul_assoc]
  · rw [mulVec_add, mulVec_mulVec, add_assoc]
  · simp only [Matrix.mul_add, Matrix.add_mul, transpose_mul, Matrix.mul_assoc, add_assoc]

theorem Spec.Channel.stay_andThen (a : Channel d) : Channel.stay.andThen a = a := by
  ext1 <;> simp [Channel.andThen, Channel.stay]

theorem Spec.Channel.andThen_stay (a : Channel d) : a.andThen Channel.stay = a := by
  ext1 <;> simp [Channel.andThen, Channel.stay]

theorem relax_zero {A : ℝ → Mat d d} (h0 : A 0 = 1) (μ : Vec d) (P : Mat d d) :
    Channel.relax A μ P 0 = Channel.stay := by
  ext1 <;> simp [Channel.relax, Channel.stay, h0]

theorem relax_add {A : ℝ → Mat d d} {P : Mat d d} (h : StatProc A P) (μ : Vec d) {s t : ℝ} (hs : 0 ≤ s) (ht : 0 ≤ t) :
    Channel.relax A μ P (s + t) = (Channel.relax A μ P s).andThen (Channel.relax A μ P t) := by
  have e : A (s + t) = A t * A s := by rw [add_comm, h.add _ _ ht hs]
  ext1 <;> simp only [Channel.relax, Channel.andThen, e]
  · rw [mulVec_sub, mulVec_mulVec]; abel
  · simp only [Matrix.mul_sub, Matrix.sub_mul, transpose_mul, Matrix.mul_assoc]; abel

/-- The sequence of channels, one after the other. -/
def chain {k : ℕ} (f : Fin k → Channel d) : Channel d := (List.ofFn f).foldl Channel.andThen Channel.stay

theorem foldl_andThen (l : List (Channel d)) (c : Channel d) :
    l.foldl Channel.andThen c = c.andThen (l.foldl Channel.andThen Channel.stay) := by
  induction l generalizing c with
  | nil => exact (c.andThen_stay).symm
  | cons a l ih =>
    rw [List.foldl_cons, List.foldl_cons, ih, ih (Channel.stay.andThen a), Channel.stay_andThen,
      Channel.andThen_assoc]

theorem chain_zero (f : Fin 0 → Channel d) : chain f = Channel.stay := rfl

theorem chain_succ {k : ℕ} (f : Fin (k + 1) → Channel d) : chain f = (f 0).andThen (chain fun i => f i.succ) := by
  unfold chain
  rw [List.ofFn_succ, List.foldl_cons, Channel.stay_andThen, foldl_andThen]

theorem chain_stay {k : ℕ} (f : Fin k → Channel d) (h : ∀ i, f i = Channel.stay) : chain f = Channel.stay := by
  induction k with
  | zero => rfl
  | succ k ih => rw [chain_succ, h 0, Channel.stay_andThen, ih _ fun i => h i.succ]

theorem chain_single {k : ℕ} (f : Fin k → Channel d) (i₀ : Fin k) (h : ∀ i, i ≠ i₀ → f i = Channel.stay) :
    chain f = f i₀ := by
  induction k with
  | zero => exact i₀.elim0
  | succ k ih =>
    rw [chain_succ]
    induction i₀ using Fin.cases with
    | zero => rw [chain_stay _ fun i => h i.succ (Fin.succ_ne_zero i), Channel.andThen_stay]
    | succ i =>
      rw [h 0 (Fin.succ_ne_zero i).symm, Channel.stay_andThen]
      exact ih (fun i => f i.succ) i fun j hj => h j.succ fun e => hj (Fin.succ_injective _ e)

/-- If the first sequence is idle after position `i₀` and the second one before it, running one after the other is the
same as running them side by side. -/
theorem chain_andThen {k : ℕ} (f g fg : Fin k → Channel d) (i₀ : ℕ) (hf : ∀ i : Fin k, i₀ < i → f i = Channel.stay)
    (hg : ∀ i : Fin k, (i : ℕ) < i₀ → g i = Channel.stay) (hfg : ∀ i, fg i = (f i).andThen (g i)) :
    chain fg = (chain f).andThen (chain g) := by
  induction k generalizing i₀ with
  | zero => rw [chain_zero, chain_zero, chain_zero, Channel.stay_andThen]
  | succ k ih =>
    rw [chain_succ fg, chain_succ f, chain_succ g, hfg]
    rcases i₀ with _ | i₀
    · rw [chain_stay (fun i => f i.succ) fun i => hf i.succ (by simp), Channel.andThen_stay, Channel.andThen_assoc]
      congr 2
      congr 1
      funext i
      rw [hfg, hf i.succ (by simp), Channel.stay_andThen]
    · rw [hg 0 (by simp), Channel.stay_andThen, Channel.andThen_stay, Channel.andThen_assoc]
      congr 1
      exact ih _ _ _ i₀ (fun i hi => hf i.succ (by simpa using hi)) (fun i hi => hg i.succ (by simpa using hi))
        fun i => hfg i.succ

theorem chain_psd {k : ℕ} (f : Fin k → Channel d) (h : ∀ i, (f i).Q.PosSemidef) : (chain f).Q.PosSemidef := by
  induction k with
  | zero => exact PosSemidef.zero
  | succ k ih =>
    rw [chain_succ]
    exact (posSemidef_conj' (h 0) _).add (ih _ fun i => h i.succ)

/-! ### the time spent in an interval -/

section time
variable (cp : Fin m → ℝ)

theorem segment_monotone : Monotone (segment cp) := by
  classical
  intro s t h
  show (Finset.univ.filter fun j => cp j ≤ s).card ≤ (Finset.univ.filter fun j => cp j ≤ t).card
  refine Finset.card_le_card fun i hi => ?_
  rw [Finset.mem_filter] at hi ⊢
  exact ⟨hi.1, hi.2.trans h⟩

theorem segment_congr {s u : ℝ} (h : ∀ i, cp i ≤ s ↔ cp i ≤ u) : segment cp u = segment cp s := by
  unfold Spec.segment
  simp only [h]

theorem timeSet_ordConnected (i : Fin (m + 1)) (s t : ℝ) :
    {u | s < u ∧ u ≤ t ∧ segment cp u = i}.OrdConnected := by
  refine ⟨fun x hx y hy z hz => ⟨hx.1.trans_le hz.1, hz.2.trans hy.2.1, le_antisymm ?_ ?_⟩⟩
  · rw [← hy.2.2]; exact segment_monotone cp hz.2
  · rw [← hx.2.2]; exact segment_monotone cp hz.1

theorem timeSet_ne_top (i : Fin (m + 1)) (s t : ℝ) : volume {u | s < u ∧ u ≤ t ∧ segment cp u = i} ≠ ⊤ :=
  have hsub : {u | s < u ∧ u ≤ t ∧ segment cp u = i} ⊆ Set.Ioc s t := fun _ hu => ⟨hu.1, hu.2.1⟩
  ((measure_mono hsub).trans_lt measure_Ioc_lt_top).ne

theorem timeIn_nonneg (i : Fin (m + 1)) (s t : ℝ) : 0 ≤ timeIn cp i s t := ENNReal.toReal_nonneg

theorem timeIn_add (i : Fin (m + 1)) {r s t : ℝ} (h1 : r ≤ s) (h2 : s ≤ t) :
    timeIn cp i r t = timeIn cp i r s + timeIn cp i s t := by
  unfold timeIn
  rw [← ENNReal.toReal_add (timeSet_ne_top cp i r s) (timeSet_ne_top cp i s t),
    ← measure_union _ (timeSet_ordConnected cp i s t).measurableSet]
  · congr 2
    ext u
    simp only [Set.mem_ofPred_eq, Set.mem_union]
    constructor
    · rintro ⟨a, b, c⟩
      rcases le_or_gt u s with hu | hu
      · exact Or.inl ⟨a, hu, c⟩
      · exact Or.inr ⟨hu, b, c⟩
    · rintro (⟨a, b, c⟩ | ⟨a, b, c⟩)
      · exact ⟨a, b.trans h2, c⟩
      · exact ⟨h1.trans_lt a, b, c⟩
  · rw [Set.disjoint_left]
    rintro u ⟨-, b, -⟩ ⟨c, -, -⟩
    exact absurd b (not_le.2 c)

theorem timeIn_before {i : Fin (m + 1)} {s : ℝ} (h : i < segment cp s) (t : ℝ) : timeIn cp i s t = 0 := by
  have : {u | s < u ∧ u ≤ t ∧ segment cp u = i} = ∅ := by
    ext u
    simp only [Set.mem_ofPred_eq, Set.mem_empty_iff_false, iff_false]
    rintro ⟨a, -, rfl⟩
    exact absurd (segment_monotone cp a.le) (not_le.2 h)
  rw [timeIn, this, measure_empty, ENNReal.toReal_zero]

theorem timeIn_after {i : Fin (m + 1)} {t : ℝ} (h : segment cp t < i) (s : ℝ) : timeIn cp i s t = 0 := by
  have : {u | s < u ∧ u ≤ t ∧ segment cp u = i} = ∅ := by
    ext u
    simp only [Set.mem_ofPred_eq, Set.mem_empty_iff_false, iff_false]
    rintro ⟨-, a, rfl⟩
    exact absurd (segment_monotone cp a) (not_le.2 h)
  rw [timeIn, this, measure_empty, ENNReal.toReal_zero]

theorem timeIn_self (i : Fin (m + 1)) (t : ℝ) : timeIn cp i t t = 0 := by
  have := timeIn_add cp i (le_refl t) (le_refl t)
  linarith

variable {cp}

theorem segment_of_noChange {s t u : ℝ} (h : NoChange cp s t) (h1 : s ≤ u) (h2 : u < t) :
    segment cp u = segment cp s := by
  refine segment_congr cp fun i => ⟨fun a => a.trans h1, fun a => ?_⟩
  by_contra hc
  exact h i ⟨not_le.1 hc, a.trans_lt h2⟩

theorem timeIn_same {s t : ℝ} (h : NoChange cp s t) (hst : s ≤ t) : timeIn cp (segment cp s) s t = t - s := by
  have : volume {u | s < u ∧ u ≤ t ∧ segment cp u = segment cp s} = ENNReal.ofReal (t - s) := by
    refine le_antisymm ?_ ?_
    · rw [← Real.volume_Ioc]
      exact measure_mono fun u hu => ⟨hu.1, hu.2.1⟩
    · rw [← Real.volume_Ioo]
      exact measure_mono fun u hu => ⟨hu.1, hu.2.le, segment_of_noChange h hu.1.le hu.2⟩
  rw [timeIn, this, ENNReal.toReal_ofReal (sub_nonneg.2 hst)]

theorem timeIn_other {s t : ℝ} (h : NoChange cp s t) {i : Fin (m + 1)} (hi : i ≠ segment cp s) :
    timeIn cp i s t = 0 := by
  have : volume {u | s < u ∧ u ≤ t ∧ segment cp u = i} = 0 := by
    refine measure_mono_null (t := {t}) (fun u hu => ?_) (Real.volume_singleton)
    rcases hu.2.1.lt_or_eq with hlt | rfl
    · exact absurd ((segment_of_noChange h hu.1.le hlt).symm.trans hu.2.2) hi.symm
    · rfl
  rw [timeIn, this, ENNReal.toReal_zero]

end time

/-! ### the process -/

section process
variable {A : Fin (m + 1) → ℝ → Mat d d} {P : Fin (m + 1) → Mat d d} (h : ∀ i, StatProc (A i) (P i))
  (μ : Fin (m + 1) → Vec d) (cp : Fin m → ℝ)
include h

theorem pieces_self (t : ℝ) : pieces A μ P cp t t = Channel.stay :=
  chain_stay _ fun i => by rw [timeIn_self, relax_zero (h i).zero]

theorem pieces_trans {r s t : ℝ} (h1 : r ≤ s) (h2 : s ≤ t) :
    pieces A μ P cp r t = (pieces A μ P cp r s).andThen (pieces A μ P cp s t) := by
  refine chain_andThen _ _ _ (segment cp s : ℕ) (fun i hi => ?_) (fun i hi => ?_) fun i => ?_
  · rw [timeIn_after cp hi, relax_zero (h i).zero]
  · rw [timeIn_before cp hi, relax_zero (h i).zero]
  · rw [timeIn_add cp i h1 h2, relax_add (h i) _ (timeIn_nonneg cp i r s) (timeIn_nonneg cp i s t)]

theorem pieces_noChange {s t : ℝ} (hst : s ≤ t) (hc : NoChange cp s t) :
    pieces A μ P cp s t =
      Channel.relax (A (segment cp s)) (μ (segment cp s)) (P (segment cp s)) (t - s) := by
  rw [← timeIn_same hc hst]
  exact chain_single (fun i => Channel.relax (A i) (μ i) (P i) (timeIn cp i s t)) (segment cp s) fun i hi => by
    rw [timeIn_other hc hi, relax_zero (h i).zero]

theorem pieces_psd (s t : ℝ) : (pieces A μ P cp s t).Q.PosSemidef :=
  chain_psd _ fun i => (h i).contr _ (timeIn_nonneg cp i s t)

/-- Marginal covariance. -/
noncomputable def pieceVar (A : Fin (m + 1) → ℝ → Mat d d) (μ : Fin (m + 1) → Vec d) (P : Fin (m + 1) → Mat d d)
    (cp : Fin m → ℝ) (t₀ t : ℝ) : Mat d d :=
  (pieces A μ P cp t₀ t).A * P (segment cp t₀) * (pieces A μ P cp t₀ t).Aᵀ + (pieces A μ P cp t₀ t).Q

omit h in
theorem pieceCov_eq (t₀ : ℝ) : pieceCov A μ P cp t₀ =
    markovCov (fun t s => (pieces A μ P cp s t).A) (pieceVar A μ P cp t₀) := rfl

theorem pieceVar_start (t₀ : ℝ) : pieceVar A μ P cp t₀ t₀ = P (segment cp t₀) := by
  unfold pieceVar
  rw [pieces_self h]
  simp [Channel.stay]

theorem pieceVar_step {t₀ s t : ℝ} (h1 : t₀ ≤ s) (h2 : s ≤ t) :
    pieceVar A μ P cp t₀ t = (pieces A μ P cp s t).A * pieceVar A μ P cp t₀ s * (pieces A μ P cp s t).Aᵀ +
      (pieces A μ P cp s t).Q := by
  unfold pieceVar
  rw [pieces_trans h μ cp h1 h2]
  simp only [Channel.andThen, Matrix.mul_add, Matrix.add_mul, transpose_mul, Matrix.mul_assoc, add_assoc]

theorem pieceMean_step {t₀ s t : ℝ} (h1 : t₀ ≤ s) (h2 : s ≤ t) :
    pieceMean A μ P cp t₀ t = (pieces A μ P cp s t).A *ᵥ pieceMean A μ P cp t₀ s + (pieces A μ P cp s t).b := by
  unfold pieceMean
  rw [pieces_trans h μ cp h1 h2]
  rfl

theorem pieceMean_start (t₀ : ℝ) : pieceMean A μ P cp t₀ t₀ = 0 := by
  unfold pieceMean
  rw [pieces_self h]
  rfl

theorem piece_markov (t₀ : ℝ) :
    MarkovProc t₀ (fun t s => (pieces A μ P cp s t).A) (pieceVar A μ P cp t₀) where
  refl t := by rw [pieces_self h]; rfl
  trans r s t h1 h2 := by rw [pieces_trans h μ cp h1 h2]; rfl
  psd t _ := (posSemidef_conj' (h _).psd _).add (pieces_psd h μ cp _ _)
  contr s t h1 h2 := by
    rw [pieceVar_step h μ cp h1 h2, add_sub_cancel_left]
    exact pieces_psd h μ cp s t

omit h in
/-- Without state means, no drift. -/
theorem pieces_b_zero (s t : ℝ) : (pieces A (fun _ => 0) P cp s t).b = 0 := by
  have : ∀ {k : ℕ} (f : Fin k → Channel d), (∀ i, (f i).b = 0) → (chain f).b = 0 := by
    intro k f hf
    induction k with
    | zero => rfl
    | succ k ih =>
      rw [chain_succ]
      simp only [Channel.andThen]
      rw [hf 0, ih _ fun i => hf i.succ, mulVec_zero, add_zero]
  exact this _ fun i => by simp [Channel.relax]

end process
end MF
