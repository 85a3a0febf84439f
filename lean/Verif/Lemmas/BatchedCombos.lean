import Verif.Lemmas.BatchedKernels

/-!
# The combination kernels on tensors of any batch shape
-/

namespace MF
open Matrix Spec Tensor

variable {o d : ℕ} {u : List ℕ} {Ks : List TKernel} {ks : List (Σ d, Stationary o d)}

theorem sumDim_holds (h : HoldsKernels Ks ks) : (Ks.map (·.stateDim)).sum = sumDim ks := by
  induction h with
  | nil => rfl
  | cons h _ ih => simp [sumDim, ih, h.stateDim]

theorem prodDim_holds (h : HoldsKernels Ks ks) : (Ks.map (·.stateDim)).prod = prodDim ks := by
  induction h with
  | nil => rfl
  | cons h _ ih => simp [prodDim, ih, h.stateDim]

theorem outputDim_holds (h : HoldsKernels Ks ks) : ∀ K ∈ Ks, K.outputDim = o := by
  induction h with
  | nil => simp
  | cons h _ ih => simpa [h.outputDim] using ih

theorem length_holds (h : HoldsKernels Ks ks) : Ks.length = ks.length := List.Forall₂.length_eq h

theorem nil_holds (h : HoldsKernels Ks ks) : Ks = [] ↔ ks = [] := by
  rw [← List.length_eq_zero_iff, ← List.length_eq_zero_iff, length_holds h]

theorem childOutputDim_holds (h : HoldsKernels Ks ks) (hne : ks ≠ []) : childOutputDim Ks = o := by
  cases h with
  | nil => exact absurd rfl hne
  | cons h _ => simp [childOutputDim, h.outputDim]

theorem combineInit_same {o' : ℕ} {K : TKernel} {k : Stationary o' d} (jitter : ℝ) (h : HoldsKernels Ks ks)
    (hk : ks ≠ [] → HoldsKernel K k) : SameKernel (tensorCombineInit Ks jitter K) (combineInit ks jitter k) := by
  unfold tensorCombineInit combineInit
  have h2 : ¬ ¬ ∀ k ∈ Ks, ∀ k' ∈ Ks, k.outputDim = k'.outputDim := by
    rw [not_not]
    intro k hk k' hk'
    rw [outputDim_holds h k hk, outputDim_holds h k' hk']
  by_cases h1 : ks = []
  · exact .inr ⟨_, if_pos ((nil_holds h).2 h1), if_pos h1⟩
  · have h1' : ¬ Ks = [] := fun e => h1 ((nil_holds h).1 e)
    by_cases h3 : ¬ 0 ≤ jitter
    · exact .inr ⟨_, by rw [if_neg h1', if_neg h2, if_pos h3], by rw [if_neg h1, if_pos h3]⟩
    · exact .inl ⟨_, _, by rw [if_neg h1', if_neg h2, if_neg h3], by rw [if_neg h1, if_neg h3], hk h1⟩

theorem children_feedback (h : HoldsKernels Ks ks) : ∃ zs, Ks.mapM (·.feedback) = .ok zs ∧
    List.Forall₂ (fun z k => HoldsMat [] z fun _ => k.2.feedback) zs ks :=
  mapM_ok (List.Forall₂.imp (fun _ _ hk => hk.feedback) h)

theorem children_Pinf (h : HoldsKernels Ks ks) : ∃ zs, Ks.mapM (·.Pinf) = .ok zs ∧
    List.Forall₂ (fun z k => HoldsMat [] z fun _ => k.2.Pinf) zs ks :=
  mapM_ok (List.Forall₂.imp (fun _ _ hk => hk.Pinf) h)

theorem children_initialMean (h : HoldsKernels Ks ks) (batch : List ℕ) : ∃ zs, Ks.mapM (fun k => k.initialMean batch) = .ok zs ∧
    List.Forall₂ (fun z k => HoldsVec batch z fun _ => k.2.initialMean) zs ks :=
  mapM_ok (List.Forall₂.imp (fun _ _ hk => hk.initialMean batch) h)

theorem children_transitions (h : HoldsKernels Ks ks) {t δ : Tensor} {f g : List ℕ → ℝ} (hu : u ≠ []) (ht : HoldsReal u t f)
    (hδ : HoldsReal u δ g) : ∃ zs, Ks.mapM (fun k => k.stateTransitions t δ) = .ok zs ∧
    List.Forall₂ (fun z k => HoldsMat u z fun b => k.2.stateTransitions (f b) (g b)) zs ks :=
  mapM_ok (List.Forall₂.imp (fun _ _ hk => hk.stateTransitions u t δ f g hu ht hδ) h)

theorem children_emission (h : HoldsKernels Ks ks) {t : Tensor} {f : List ℕ → ℝ} (hu : u ≠ []) (ht : HoldsReal u t f) :
    ∃ zs, Ks.mapM (fun k => k.emission t) = .ok zs ∧ List.Forall₂ (fun z k => HoldsMat u z fun b => k.2.emission (f b)) zs ks :=
  mapM_ok (List.Forall₂.imp (fun _ _ hk => hk.emission u t f hu ht) h)

theorem concatProperty_holds {F : (d : ℕ) → Stationary o d → Mat d d} {X : Except Err (List Tensor)} {zs : List Tensor} (hX : X = .ok zs)
    (h : List.Forall₂ (fun z (k : Σ d, Stationary o d) => HoldsMat [] z fun _ => F k.1 k.2) zs ks) (hne : ks ≠ []) :
    ∃ z, concatProperty (sumDim ks) X = .ok z ∧ HoldsMat [] z fun _ => blockDiag F ks := by
  obtain ⟨z, hz, hzh⟩ := blockDiagT_mat (F := fun _ => F) h hne
  have e : Shapes.assertEqual z.tfShape [sumDim ks, sumDim ks] = .ok () := by
    rw [tfShape2 hzh.1]
    exact assertEqual_self _
  exact ⟨z, by simp only [concatProperty, hX, hz, e, Bind.bind, Except.bind]; rfl, hzh⟩

theorem concatTransitions_holds (h : HoldsKernels Ks ks) (hne : ks ≠ []) {t δ : Tensor} {f g : List ℕ → ℝ} (hu : u ≠ []) (ht : HoldsReal u t f)
    (hδ : HoldsReal u δ g) : ∃ z, concatTransitions Ks (sumDim ks) t δ = .ok z ∧
      HoldsMat u z fun b => blockDiag (fun _ k => k.stateTransitions (f b) (g b)) ks := by
  obtain ⟨zs, hzs, hzsh⟩ := children_transitions h hu ht hδ
  obtain ⟨z, hz, hzh⟩ := blockDiagT_mat (F := fun b _ k => k.stateTransitions (f b) (g b)) hzsh hne
  have e : z.tfShape = δ.tfShape ++ [sumDim ks, sumDim ks] := by rw [tfShape2 hzh.1, tfShape_eq hδ.1]
  exact ⟨z, by simp only [concatTransitions, hzs, hz, if_pos e, Bind.bind, Except.bind]; rfl, hzh⟩

theorem concatInitialMean_holds (h : HoldsKernels Ks ks) (hne : ks ≠ []) (batch : List ℕ) :
    ∃ z, concatInitialMean Ks (sumDim ks) batch = .ok z ∧ HoldsVec batch z fun _ => concatVec (fun _ k => k.initialMean) ks := by
  obtain ⟨zs, hzs, hzsh⟩ := children_initialMean h batch
  obtain ⟨z, hz, hzh⟩ := concatList_vec (F := fun _ _ k => k.initialMean) hzsh hne
  have e : Shapes.assertEqual z.tfShape (batch.reverse ++ [sumDim ks]) = .ok () := by
    rw [tfShape1 hzh.1]
    exact assertEqual_self _
  exact ⟨z, by simp only [concatInitialMean, hzs, hz, e, Bind.bind, Except.bind]; rfl, hzh⟩

theorem concatKernel_holds {o' : ℕ} {H : Tensor → Except Err Tensor} {H' : ℝ → Mat o' (sumDim ks)} (jitter : ℝ) (h : HoldsKernels Ks ks) (hne : ks ≠ [])
    (hH : ∀ (u : List ℕ) (t : Tensor) (f : List ℕ → ℝ), u ≠ [] → HoldsReal u t f → ∃ h, H t = .ok h ∧ HoldsMat u h fun b => H' (f b)) :
    HoldsKernel (tensorConcatKernel Ks jitter o' H) (concatKernel ks jitter H') := by
  unfold tensorConcatKernel
  rw [sumDim_holds h]
  obtain ⟨fs, hfs, hfsh⟩ := children_feedback h
  obtain ⟨ps, hps, hpsh⟩ := children_Pinf h
  have hb := base_holds (o := o') (jitter := jitter) (A := concatTransitions Ks (sumDim ks)) (A' := fun t δ => blockDiag (fun _ k => k.stateTransitions t δ) ks)
    (fun u t δ f g hu ht hδ => concatTransitions_holds h hne hu ht hδ)
    (concatProperty_holds (F := fun _ k => k.feedback) hfs hfsh hne) (concatProperty_holds (F := fun _ k => k.Pinf) hps hpsh hne)
    (zeros_vec (sumDim ks)) hH
  exact { hb with initialMean := fun batch => concatInitialMean_holds h hne batch }

theorem sum_holds (jitter : ℝ) (h : HoldsKernels Ks ks) : SameKernel (tensorSum Ks jitter) (sumKernel ks jitter) := by
  refine combineInit_same jitter h fun hne => ?_
  rw [childOutputDim_holds h hne]
  refine concatKernel_holds jitter h hne fun u t f hu ht => ?_
  obtain ⟨zs, hzs, hzsh⟩ := children_emission h hu ht
  obtain ⟨z, hz, hzh⟩ := concatList_cols (F := fun b _ k => k.emission (f b)) hzsh hne
  exact ⟨z, by simp only [hzs, hz, Bind.bind, Except.bind]; exact emission_ok hu hzh, hzh⟩

theorem multiOutputEmission_holds (h : HoldsKernels Ks ks) (hne : ks ≠ []) {t : Tensor} {f : List ℕ → ℝ} (hu : u ≠ []) (ht : HoldsReal u t f) :
    ∃ z, tensorMultiOutputEmission Ks t = .ok z ∧ HoldsMat u z fun b => padConcatRows o (fun _ k => k.emission (f b)) ks := by
  obtain ⟨zs, hzs, hzsh⟩ := children_emission h hu ht
  obtain ⟨z, hz, hzh⟩ := padConcat_mat (F := fun b _ k => k.emission (f b)) hzsh hne
  exact ⟨z, by simp only [tensorMultiOutputEmission, sumDim_holds h, hzs, hz, Bind.bind, Except.bind]; exact emission_ok hu hzh, hzh⟩

theorem multiOutput_holds (jitter : ℝ) (h : HoldsKernels Ks ks) :
    SameKernel (tensorIndependentMultiOutput Ks jitter) (independentMultiOutput ks jitter) := by
  refine combineInit_same jitter h fun hne => ?_
  have e : childOutputDim Ks * Ks.length = ks.length * o := by rw [childOutputDim_holds h hne, length_holds h, mul_comm]
  rw [e]
  exact concatKernel_holds jitter h hne fun u t f hu ht => multiOutputEmission_holds h hne hu ht

theorem factorAnalysis_holds {o' : ℕ} {weight : Tensor → Except Err Tensor} {weight' : ℝ → Mat o' (ks.length * o)} {B : Tensor}
    {B' : Mat (ks.length * o) (ks.length * o)} (jitter : ℝ) (h : HoldsKernels Ks ks)
    (hw : ∀ (u : List ℕ) (t : Tensor) (f : List ℕ → ℝ), u ≠ [] → HoldsReal u t f → ∃ a, weight t = .ok a ∧ HoldsMat u a fun b => weight' (f b))
    (hB : HoldsMat [] B fun _ => B') :
    SameKernel (tensorFactorAnalysis Ks weight B o' jitter) (factorAnalysis ks weight' B' jitter) := by
  refine combineInit_same jitter h fun hne => ?_
  refine concatKernel_holds jitter h hne fun u t f hu ht => ?_
  obtain ⟨a, ha, hah⟩ := hw u t f hu ht
  obtain ⟨w, hw, hwh⟩ := matmul_left hah (hB.const u)
  obtain ⟨e, he, heh⟩ := multiOutputEmission_holds h hne hu ht
  obtain ⟨z, hz, hzh⟩ := einsum_compose hwh heh
  refine ⟨z, ?_, hzh⟩
  simp only [ha, hw, emission_ok hu hwh, he, hz, Bind.bind, Except.bind]
  exact emission_ok hu hzh

theorem productProperty_holds {r : ℕ} {A : List ℕ → Mat r d} {X : Except Err (List Tensor)} {zs : List Tensor} {z : Tensor} {s : List ℕ} (hX : X = .ok zs)
    (hz : kronT zs = .ok z) (hzh : HoldsMat u z A) (hs : s = u.reverse ++ [r, d]) : productProperty s X = .ok z := by
  have e : Shapes.assertEqual z.tfShape s = .ok () := by
    rw [tfShape2 hzh.1, hs]
    exact assertEqual_self _
  simp only [productProperty, hX, hz, e, Bind.bind, Except.bind]
  rfl

theorem product_holds {ks : List (Σ d, Stationary 1 d)} (jitter : ℝ) (h : HoldsKernels Ks ks) :
    SameKernel (tensorProduct Ks jitter) (productKernel ks jitter) := by
  refine combineInit_same jitter h fun hne => ?_
  rw [childOutputDim_holds h hne, prodDim_holds h]
  obtain ⟨fs, hfs, hfsh⟩ := children_feedback h
  obtain ⟨ps, hps, hpsh⟩ := children_Pinf h
  obtain ⟨F, hF, hFh⟩ := kronT_mat (F := fun _ _ k => k.feedback) hfsh hne
  obtain ⟨P, hP, hPh⟩ := kronT_mat (F := fun _ _ k => k.Pinf) hpsh hne
  refine base_holds (fun u t δ f g hu ht hδ => ?_) ⟨F, productProperty_holds hfs hF hFh rfl, hFh⟩ ⟨P, productProperty_holds hps hP hPh rfl, hPh⟩
    (zeros_vec _) fun u t f hu ht => ?_
  · obtain ⟨zs, hzs, hzsh⟩ := children_transitions h hu ht hδ
    obtain ⟨z, hz, hzh⟩ := kronT_mat (F := fun b _ k => k.stateTransitions (f b) (g b)) hzsh hne
    exact ⟨z, productProperty_holds hzs hz hzh (by rw [tfShape_eq hδ.1]), hzh⟩
  · obtain ⟨zs, hzs, hzsh⟩ := children_emission h hu ht
    obtain ⟨z, hz, hzh⟩ := kronRowT_mat (F := fun b _ k => k.emission (f b)) hzsh hne
    refine ⟨z, ?_, hzh⟩
    rw [productProperty_holds hzs hz hzh (by rw [tfShape_eq ht.1])]
    exact emission_ok hu hzh

end MF
