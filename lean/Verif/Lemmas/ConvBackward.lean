import Verif.Model.ConvBackward
import Verif.Lemmas.ConvGradient
import Verif.Props.Backward
import Mathlib.Analysis.SpecialFunctions.Sqrt

/-! # Lemmas on the backward pass of convolutional networks -/

namespace HOL
open TorchScalar Spec Filter Topology

theorem get_unravel (x : Tensor ℝ) {S : List ℕ} (hs : x.shape = S) (p : Fin (numel S)) : x.get (unravel S p) = x.data.getD p 0 := by
  unfold Tensor.get
  rw [hs, ravel_unravel p.2]

theorem ofVec_data {S : List ℕ} (v : Fin (numel S) → ℝ) {p : ℕ} (hp : p < numel S) : (ofVec S v).data.getD p 0 = v ⟨p, hp⟩ := by
  rw [← get_unravel (ofVec S v) (ofVec_shape S v) ⟨p, hp⟩, ofVec_get_unravel]

/-- Tensors given by their data. -/
theorem eq_ofVec_data {S : List ℕ} {t : Tensor ℝ} (hs : t.shape = S) (hw : t.WF) (v : Fin (numel S) → ℝ) (h : ∀ p : Fin (numel S), t.data.getD p 0 = v p) : t = ofVec S v := by
  rw [eq_ofVec hs hw]
  congr 1
  funext p
  rw [get_unravel t hs, h]

/-! ## `nn.Flatten()` -/

theorem backprop_reshape {f : Fwd ℝ} {S T : List ℕ} (hn : numel T = numel S) (run : ∀ x : Tensor ℝ, x.shape = S → f x = .ok (x.reshape T)) (X : Fin (numel S) → ℝ) :
    Backprop f S T (fun Y m => Y (Fin.cast hn m)) X (fun g => .ok (g.reshape S)) := by
  refine Backprop.of_deriv (fun Y => ?_) _ (pick_deriv (Fin.cast hn) (fun _ v => v) (fun _ => 1) X fun m => hasDerivAt_id _) fun g hg hw => ⟨_, rfl, rfl, ?_, fun p => ?_⟩
  · rw [run _ rfl]
    refine congrArg Except.ok (eq_ofVec_data rfl (Tensor.wf_reshape (ofVec_wf S Y) hn) _ fun p => ?_)
    rw [Tensor.data_reshape, ofVec_data Y (hn ▸ p.2)]
    rfl
  · exact Tensor.wf_reshape hw (by rw [hg, hn])
  · rw [get_unravel _ (show (g.reshape S).shape = S from rfl), Finset.sum_eq_single (Fin.cast hn.symm p)]
    · beta_reduce
      rw [pick_apply, if_pos (by simp), mul_one, get_unravel g hg]
      rfl
    · intro m _ hne
      beta_reduce
      rw [pick_apply, if_neg fun h => hne (by rw [← h]; simp), mul_zero]
    · simp

/-! ## pooling -/

/-- The mean over the last `N` entries of every block. -/
theorem backprop_blocks {f : Fwd ℝ} {S T : List ℕ} {N : ℕ} (hN : 0 < N) (hn : numel S = numel T * N)
    (run : ∀ x : Tensor ℝ, x.shape = S → ∃ y : Tensor ℝ, f x = .ok y ∧ y.shape = T ∧ y.WF ∧
      ∀ p < numel T, y.data.getD p 0 = (∑ q ∈ Finset.range N, x.data.getD (p * N + q) 0) / N)
    {back : Tensor ℝ → Py (Tensor ℝ)} (hb : ∀ g : Tensor ℝ, g.shape = T → ∃ gx : Tensor ℝ, back g = .ok gx ∧ gx.shape = S ∧ gx.WF ∧
      ∀ p < numel S, gx.data.getD p 0 = g.data.getD (p / N) 0 / N) (X : Fin (numel S) → ℝ) :
    ∃ F, Backprop f S T F X back := by
  have hlt : ∀ (m : Fin (numel T)) (q : Fin N), (m : ℕ) * N + q < numel S := by
    intro m q
    have h1 : ((m : ℕ) + 1) * N ≤ numel T * N := Nat.mul_le_mul_right N m.2
    rw [Nat.add_mul, Nat.one_mul] at h1
    have := q.2
    omega
  let F : (Fin (numel S) → ℝ) → Fin (numel T) → ℝ := fun Y m => (∑ q : Fin N, Y ⟨(m : ℕ) * N + q, hlt m q⟩) / N
  refine ⟨F, Backprop.of_deriv (fun Y => ?_)
    (fun m => (N : ℝ)⁻¹ • ∑ q : Fin N, ContinuousLinearMap.proj (R := ℝ) (φ := fun _ : Fin (numel S) => ℝ) ⟨(m : ℕ) * N + q, hlt m q⟩) (fun m => ?_) fun g hg hw => ?_⟩
  · obtain ⟨y, h1, h2, h3, h4⟩ := run _ (ofVec_shape S Y)
    rw [h1]
    refine congrArg Except.ok (eq_ofVec_data h2 h3 _ fun p => ?_)
    rw [h4 p p.2, ← Fin.sum_univ_eq_sum_range (fun q => (ofVec S Y).data.getD ((p : ℕ) * N + q) 0)]
    exact congrArg (· / (N : ℝ)) (Finset.sum_congr rfl fun q _ => ofVec_data Y (hlt p q))
  · have h1 : HasFDerivAt (fun Y : Fin (numel S) → ℝ => ∑ q : Fin N, Y ⟨(m : ℕ) * N + q, hlt m q⟩)
        (∑ q : Fin N, ContinuousLinearMap.proj (R := ℝ) (φ := fun _ : Fin (numel S) => ℝ) ⟨(m : ℕ) * N + q, hlt m q⟩) X :=
      HasFDerivAt.fun_sum fun q _ => (ContinuousLinearMap.proj (R := ℝ) (φ := fun _ : Fin (numel S) => ℝ) _).hasFDerivAt
    refine (h1.const_mul (N : ℝ)⁻¹).congr_of_eventuallyEq (Eventually.of_forall fun Y => ?_)
    show (∑ q : Fin N, Y ⟨(m : ℕ) * N + q, hlt m q⟩) / N = (N : ℝ)⁻¹ * _
    rw [div_eq_inv_mul]
  · obtain ⟨gx, h1, h2, h3, h4⟩ := hb g hg
    refine ⟨gx, h1, h2, h3, fun p => ?_⟩
    have hpT : (p : ℕ) / N < numel T := (Nat.div_lt_iff_lt_mul hN).2 (hn ▸ p.2)
    rw [get_unravel gx h2, h4 p p.2, Finset.sum_eq_single (⟨(p : ℕ) / N, hpT⟩ : Fin (numel T))]
    · rw [get_unravel g hg, _root_.smul_apply, _root_.sum_apply, smul_eq_mul, Finset.sum_eq_single (⟨(p : ℕ) % N, Nat.mod_lt _ hN⟩ : Fin N)]
      · rw [ContinuousLinearMap.proj_apply, show (⟨((⟨(p : ℕ) / N, hpT⟩ : Fin (numel T)) : ℕ) * N + ((⟨(p : ℕ) % N, Nat.mod_lt _ hN⟩ : Fin N) : ℕ), hlt _ _⟩ : Fin (numel S)) = p from
          Fin.ext (Nat.div_add_mod' p N), Pi.single_eq_same, mul_one, div_eq_mul_inv]
      · intro q _ hq
        rw [ContinuousLinearMap.proj_apply, Pi.single_eq_of_ne]
        intro he
        apply hq
        have := congrArg Fin.val he
        apply Fin.ext
        show (q : ℕ) = (p : ℕ) % N
        rw [← this]
        exact (div_mod_channel q.2).2.symm
      · simp
    · intro m _ hm
      rw [_root_.smul_apply, _root_.sum_apply, smul_eq_mul, Finset.sum_eq_zero, mul_zero, mul_zero]
      intro q _
      rw [ContinuousLinearMap.proj_apply, Pi.single_eq_of_ne]
      intro he
      apply hm
      have := congrArg Fin.val he
      apply Fin.ext
      show (m : ℕ) = (p : ℕ) / N
      rw [← this]
      exact (div_mod_channel q.2).1.symm
    · simp

theorem numel_ones (d : ℕ) : numel (List.replicate d 1) = 1 := by
  induction d with
  | zero => rfl
  | succ d ih => rw [List.replicate_succ, numel, ih]

theorem tab2_data (a b : ℕ) (f : ℕ → ℕ → ℝ) {p : ℕ} (hp : p < a * b) : (Tensor.tab2 a b f).data.getD p 0 = f (p / b) (p % b) := by
  have hp' : p < numel [a, b] := by simpa [numel] using hp
  unfold Tensor.tab2
  rw [Tensor.data_tabulate_getD hp']
  simp [unravel, numel]

theorem backprop_pool (d : ℕ) {S : List ℕ} (hr : S.length = d + 1 ∨ S.length = d + 2) (hN : 0 < numel (S.drop (S.length - d))) (X : Fin (numel S) → ℝ) :
    ∃ F, Backprop (adaptiveAvgPool d) S (S.take (S.length - d) ++ List.replicate d 1) F X (fun g => .ok (poolInputGrad d (ofVec S X) g)) := by
  set keep := S.take (S.length - d) with hk
  set last := S.drop (S.length - d) with hl
  have hS : S = keep ++ last := (List.take_append_drop _ _).symm
  have hT : numel (keep ++ List.replicate d 1) = numel keep := by rw [numel_append, numel_ones, Nat.mul_one]
  have hn : numel S = numel (keep ++ List.replicate d 1) * numel last := by rw [hT, ← numel_append, ← hS]
  refine backprop_blocks hN hn (fun x hx => ?_) (fun g hg => ?_) X
  · refine ⟨(Tensor.tab1 (numel keep) fun p => sumL ((List.range (numel last)).map fun q => (x.reshape [numel keep, numel last]).get [p, q]) / ((numel last : ℕ) : ℝ)).reshape
      (keep ++ List.replicate d 1), ?_, rfl, ?_, fun p hp => ?_⟩
    · unfold adaptiveAvgPool
      rw [hx]
      dsimp only
      rw [if_pos hr, ← hk, ← hl, if_neg (by omega)]
    · refine Tensor.wf_reshape (Tensor.wf_tab1 _ _) ?_
      rw [hT]
      simp [numel]
    · rw [hT] at hp
      have hp' : p < numel [numel keep] := by simpa [numel] using hp
      rw [Tensor.data_reshape, Tensor.tab1, Tensor.data_tabulate_getD hp']
      have hu : (unravel [numel keep] p).getD 0 0 = p := by simp [unravel, numel]
      rw [hu, sumL_range]
      refine congrArg (· / ((numel last : ℕ) : ℝ)) (Finset.sum_congr rfl fun q _ => ?_)
      show x.data.getD (ravel [numel keep, numel last] [p, q]) 0 = _
      simp [ravel, numel]
  · refine ⟨_, rfl, rfl, ?_, fun p hp => ?_⟩
    · unfold poolInputGrad
      dsimp only
      rw [ofVec_shape, ← hk, ← hl]
      refine Tensor.wf_reshape (Tensor.wf_tab2 _ _ _) ?_
      rw [hn, hT]
      simp [numel]
    · unfold poolInputGrad
      dsimp only
      rw [ofVec_shape, ← hk, ← hl, Tensor.data_reshape, tab2_data _ _ _ (by rw [hn, hT] at hp; exact hp)]
      refine congrArg (· / ((numel last : ℕ) : ℝ)) ?_
      show g.data.getD (ravel [numel keep] [p / numel last]) 0 = _
      simp [ravel, numel]

/-! ## fully connected layers -/

/-- The vector of a matrix. -/
noncomputable def matVec (B O : ℕ) : (Fin (numel [B, O]) → ℝ) →L[ℝ] Fin B → Fin O → ℝ :=
  ContinuousLinearMap.pi fun b => ContinuousLinearMap.pi fun o =>
    ContinuousLinearMap.proj (R := ℝ) (φ := fun _ : Fin (numel [B, O]) => ℝ) (flatPos [B, O] [(b : ℕ), (o : ℕ)] (inShape2.2 ⟨b.2, o.2⟩))

theorem pos2 {B O : ℕ} (p : Fin (numel [B, O])) : ∃ (b : Fin B) (o : Fin O), unravel [B, O] p = [(b : ℕ), (o : ℕ)] := by
  obtain ⟨i, j, h, hi, hj⟩ := inShape2_exists (inShape_unravel p.2)
  exact ⟨⟨i, hi⟩, ⟨j, hj⟩, h⟩

/-- And back. -/
noncomputable def vecMat (B O : ℕ) : (Fin B → Fin O → ℝ) →L[ℝ] Fin (numel [B, O]) → ℝ :=
  ContinuousLinearMap.pi fun p => (ContinuousLinearMap.proj (pos2 p).choose_spec.choose).comp (ContinuousLinearMap.proj (R := ℝ) (φ := fun _ : Fin B => Fin O → ℝ) (pos2 p).choose)

theorem matVec_apply {B O : ℕ} (Y : Fin (numel [B, O]) → ℝ) (b : Fin B) (o : Fin O) : matVec B O Y b o = Y (flatPos [B, O] [(b : ℕ), (o : ℕ)] (inShape2.2 ⟨b.2, o.2⟩)) := rfl

theorem vecMat_apply {B O : ℕ} (M : Fin B → Fin O → ℝ) {p : Fin (numel [B, O])} {b : Fin B} {o : Fin O} (h : unravel [B, O] p = [(b : ℕ), (o : ℕ)]) : vecMat B O M p = M b o := by
  have h1 := h.symm.trans (pos2 p).choose_spec.choose_spec
  injection h1 with e1 h1
  injection h1 with e2 h1
  show M (pos2 p).choose (pos2 p).choose_spec.choose = M b o
  rw [Fin.ext e1, Fin.ext e2]

theorem unravel_flatPos2 {B O : ℕ} (b : Fin B) (o : Fin O) : unravel [B, O] (flatPos [B, O] [(b : ℕ), (o : ℕ)] (inShape2.2 ⟨b.2, o.2⟩)) = [(b : ℕ), (o : ℕ)] :=
  unravel_ravel (inShape2.2 ⟨b.2, o.2⟩)

theorem matVec_vecMat {B O : ℕ} (M : Fin B → Fin O → ℝ) : matVec B O (vecMat B O M) = M := by
  funext b o
  rw [matVec_apply, vecMat_apply M (unravel_flatPos2 b o)]

theorem vecMat_matVec {B O : ℕ} (Y : Fin (numel [B, O]) → ℝ) : vecMat B O (matVec B O Y) = Y := by
  funext p
  obtain ⟨b, o, h⟩ := pos2 p
  rw [vecMat_apply _ h, matVec_apply]
  congr 1
  exact (flatPos_eq_iff _ p).2 h.symm

theorem ofVec_ofMat {B O : ℕ} (Y : Fin (numel [B, O]) → ℝ) : ofVec [B, O] Y = ofMat (matVec B O Y) := by
  rw [eq_ofMat (ofVec_shape [B, O] Y) (ofVec_wf _ Y)]
  congr 1
  funext b o
  rw [ofVec_get Y (inShape2.2 ⟨b.2, o.2⟩), matVec_apply]

theorem ofMat_ofVec {B O : ℕ} (M : Fin B → Fin O → ℝ) : ofMat M = ofVec [B, O] (vecMat B O M) := by rw [ofVec_ofMat, matVec_vecMat]

theorem vecMat_single {B O : ℕ} (b : Fin B) (o : Fin O) : vecMat B O (Pi.single b (Pi.single o 1)) = Pi.single (flatPos [B, O] [(b : ℕ), (o : ℕ)] (inShape2.2 ⟨b.2, o.2⟩)) 1 := by
  funext p
  obtain ⟨b', o', h⟩ := pos2 p
  rw [vecMat_apply _ h]
  by_cases e : p = flatPos [B, O] [(b : ℕ), (o : ℕ)] (inShape2.2 ⟨b.2, o.2⟩)
  · rw [e, Pi.single_eq_same]
    rw [e, unravel_flatPos2] at h
    injection h with e1 h
    injection h with e2 h
    rw [← Fin.ext e1, ← Fin.ext e2, Pi.single_eq_same, Pi.single_eq_same]
  · rw [Pi.single_eq_of_ne e]
    by_cases eb : b' = b
    · subst eb
      rw [Pi.single_eq_same]
      refine Pi.single_eq_of_ne (fun eo => e ?_) _
      subst eo
      exact ((flatPos_eq_iff _ p).2 h.symm).symm
    · rw [Pi.single_eq_of_ne eb]
      rfl

theorem matVec_single {B O : ℕ} {p : Fin (numel [B, O])} {b : Fin B} {o : Fin O} (h : unravel [B, O] p = [(b : ℕ), (o : ℕ)]) :
    matVec B O (Pi.single p 1) = Pi.single b (Pi.single o 1) := by
  rw [← matVec_vecMat (Pi.single b (Pi.single o (1 : ℝ))), vecMat_single]
  congr 2
  exact ((flatPos_eq_iff _ p).2 h.symm).symm

theorem GradVec.gradOf {B O : ℕ} {D : (Fin (numel [B, O]) → ℝ) →L[ℝ] ℝ} {g : Tensor ℝ} (h : GradVec [B, O] D g) : GradOf (D.comp (vecMat B O)) g := by
  refine ⟨h.1, fun b o => ?_⟩
  rw [ContinuousLinearMap.comp_apply, vecMat_single, ← h.2.2, unravel_flatPos2]

theorem GradOf.gradVec {B O : ℕ} {D : (Fin B → Fin O → ℝ) →L[ℝ] ℝ} {g : Tensor ℝ} (h : GradOf D g) (hw : g.WF) : GradVec [B, O] (D.comp (matVec B O)) g := by
  refine ⟨h.1, hw, fun p => ?_⟩
  obtain ⟨b, o, hp⟩ := pos2 p
  rw [ContinuousLinearMap.comp_apply, matVec_single hp, ← h.2, hp]

theorem GLayer.inputGrad_wf (l : GLayer ℝ) {I O : ℕ} (h : l.Fits I O) {B : ℕ} (X : Fin B → Fin I → ℝ) (g : Tensor ℝ) : (l.inputGrad (ofMat X) g).WF := by
  cases l with
  | pw L => exact Tensor.wf_tabulate _ _
  | fn L => exact Tensor.wf_tabulate _ _
  | product L => exact Tensor.wf_tabulate _ _
  | linear w b =>
    obtain ⟨hws, -⟩ := h
    show (linearInputGrad w (ofMat X) g).WF
    unfold linearInputGrad
    rw [ofMat_shape, hws]
    exact Tensor.wf_tabulate _ _
  | relu => exact Tensor.wf_tabulate _ _

/-! ## batch normalization -/

/-- Positions of channel `c`. -/
def chn (S : List ℕ) (c : ℕ) : Finset (Fin (numel S)) := Finset.univ.filter fun p => (unravel S p).getD 1 0 = c

theorem mem_chn {S : List ℕ} {c : ℕ} {p : Fin (numel S)} : p ∈ chn S c ↔ (unravel S p).getD 1 0 = c := by
  unfold chn
  simp

theorem unravel_cons {b : ℕ} {T : List ℕ} {s r : ℕ} (hr : r < numel T) : unravel (b :: T) (s * numel T + r) = s :: unravel T r := by
  have h0 : 0 < numel T := by omega
  show (s * numel T + r) / numel T :: unravel T ((s * numel T + r) % numel T) = _
  rw [Nat.add_comm, Nat.add_mul_div_right _ _ h0, Nat.div_eq_of_lt hr, Nat.add_mul_mod_self_right, Nat.mod_eq_of_lt hr, Nat.zero_add]

theorem sum_chn {B C : ℕ} {R : List ℕ} {c : ℕ} (hc : c < C) (h : List ℕ → ℝ) :
    ∑ p ∈ chn (B :: C :: R) c, h (unravel (B :: C :: R) p) = ∑ s ∈ Finset.range B, ∑ q ∈ Finset.range (numel R), h (s :: c :: unravel R q) := by
  unfold chn
  rw [Finset.sum_filter, Fin.sum_univ_eq_sum_range (fun p => if (unravel (B :: C :: R) p).getD 1 0 = c then h (unravel (B :: C :: R) p) else 0)]
  show ∑ p ∈ Finset.range (B * numel (C :: R)), _ = _
  rw [sum_range_mul]
  refine Finset.sum_congr rfl fun s _ => ?_
  show ∑ v ∈ Finset.range (C * numel R), _ = _
  rw [sum_range_mul, Finset.sum_eq_single c]
  · refine Finset.sum_congr rfl fun q hq => ?_
    have hq' := Finset.mem_range.1 hq
    have hlt : c * numel R + q < numel (C :: R) := by
      show _ < C * numel R
      have := Nat.mul_le_mul_right (numel R) (show c + 1 ≤ C from hc)
      rw [Nat.add_mul, Nat.one_mul] at this
      omega
    rw [unravel_cons hlt, unravel_cons hq']
    exact if_pos rfl
  · intro c' hc' hne
    refine Finset.sum_eq_zero fun q hq => ?_
    have hq' := Finset.mem_range.1 hq
    have hlt : c' * numel R + q < numel (C :: R) := by
      show _ < C * numel R
      have := Nat.mul_le_mul_right (numel R) (show c' + 1 ≤ C from Finset.mem_range.1 hc')
      rw [Nat.add_mul, Nat.one_mul] at this
      omega
    rw [unravel_cons hlt, unravel_cons hq']
    exact if_neg hne
  · intro h'
    exact absurd (Finset.mem_range.2 hc) h'

theorem card_chn {B C : ℕ} {R : List ℕ} {c : ℕ} (hc : c < C) : (chn (B :: C :: R) c).card = B * numel R := by
  have h := sum_chn (B := B) (R := R) hc fun _ => 1
  simp only [Finset.sum_const, Finset.card_range, nsmul_eq_mul, mul_one] at h
  exact_mod_cast h

theorem sumL_channelEntries {B C : ℕ} {R : List ℕ} {x : Tensor ℝ} (hx : x.shape = B :: C :: R) {c : ℕ} (hc : c < C) :
    sumL (channelEntries x c) = ∑ p ∈ chn (B :: C :: R) c, x.get (unravel (B :: C :: R) p) := by
  unfold channelEntries
  rw [hx]
  dsimp only
  rw [sumL_flatMap_range, sum_chn hc]

theorem length_channelEntries {B C : ℕ} {R : List ℕ} {x : Tensor ℝ} (hx : x.shape = B :: C :: R) (c : ℕ) : (channelEntries x c).length = B * numel R := by
  unfold channelEntries
  rw [hx]
  dsimp only
  rw [List.length_flatMap]
  simp

theorem meanL_channelEntries {B C : ℕ} {R : List ℕ} {x : Tensor ℝ} (hx : x.shape = B :: C :: R) {c : ℕ} (hc : c < C) :
    meanL (channelEntries x c) = (∑ p ∈ chn (B :: C :: R) c, x.get (unravel (B :: C :: R) p)) / ((B * numel R : ℕ) : ℝ) := by
  unfold meanL
  rw [sumL_channelEntries hx hc, length_channelEntries hx]

theorem channelEntries_map {B C : ℕ} {R : List ℕ} {x : Tensor ℝ} (hx : x.shape = B :: C :: R) {c : ℕ} (f : ℝ → ℝ) :
    (channelEntries x c).map f = (List.range B).flatMap fun s => (List.range (numel R)).map fun p => f (x.get (s :: c :: unravel R p)) := by
  unfold channelEntries
  rw [hx]
  dsimp only
  rw [List.map_flatMap]
  apply List.flatMap_congr
  intro s _
  rw [List.map_map]
  rfl

theorem varL_channelEntries {B C : ℕ} {R : List ℕ} {x : Tensor ℝ} (hx : x.shape = B :: C :: R) {c : ℕ} (hc : c < C) :
    varL (channelEntries x c) = (∑ p ∈ chn (B :: C :: R) c, (x.get (unravel (B :: C :: R) p) - meanL (channelEntries x c)) ^ 2) / ((B * numel R : ℕ) : ℝ) := by
  unfold varL
  generalize hm : meanL (channelEntries x c) = m
  unfold meanL
  rw [List.length_map, length_channelEntries hx, channelEntries_map hx, sumL_flatMap_range, sum_chn hc fun idx => (x.get idx - m) ^ 2]
  refine congrArg (· / ((B * numel R : ℕ) : ℝ)) (Finset.sum_congr rfl fun s _ => Finset.sum_congr rfl fun q _ => ?_)
  rw [pow_two]

/-- Mean and variance of a channel of a vector. -/
noncomputable def vMean (S : List ℕ) (n : ℝ) (c : ℕ) (Y : Fin (numel S) → ℝ) : ℝ := (∑ p ∈ chn S c, Y p) / n
noncomputable def vVar (S : List ℕ) (n : ℝ) (c : ℕ) (Y : Fin (numel S) → ℝ) : ℝ := (∑ p ∈ chn S c, (Y p - vMean S n c Y) ^ 2) / n

theorem meanL_ofVec {B C : ℕ} {R : List ℕ} {c : ℕ} (hc : c < C) (Y : Fin (numel (B :: C :: R)) → ℝ) :
    meanL (channelEntries (ofVec (B :: C :: R) Y) c) = vMean (B :: C :: R) ((B * numel R : ℕ) : ℝ) c Y := by
  rw [meanL_channelEntries (ofVec_shape _ Y) hc]
  unfold vMean
  refine congrArg (· / ((B * numel R : ℕ) : ℝ)) (Finset.sum_congr rfl fun p _ => ofVec_get_unravel Y p)

theorem varL_ofVec {B C : ℕ} {R : List ℕ} {c : ℕ} (hc : c < C) (Y : Fin (numel (B :: C :: R)) → ℝ) :
    varL (channelEntries (ofVec (B :: C :: R) Y) c) = vVar (B :: C :: R) ((B * numel R : ℕ) : ℝ) c Y := by
  rw [varL_channelEntries (ofVec_shape _ Y) hc, meanL_ofVec hc]
  unfold vVar
  refine congrArg (· / ((B * numel R : ℕ) : ℝ)) (Finset.sum_congr rfl fun p _ => ?_)
  rw [ofVec_get_unravel Y p]

/-- The channel of a position. -/
def chanOf (S : List ℕ) (p : Fin (numel S)) : ℕ := (unravel S p).getD 1 0

theorem chanOf_lt {B C : ℕ} {R : List ℕ} (p : Fin (numel (B :: C :: R))) : chanOf (B :: C :: R) p < C := (inShape_unravel p.2).2.1

/-- The normalized entries in training mode. -/
noncomputable def vHat (S : List ℕ) (n eps : ℝ) (Y : Fin (numel S) → ℝ) (p : Fin (numel S)) : ℝ :=
  (Y p - vMean S n (chanOf S p) Y) / Real.sqrt (vVar S n (chanOf S p) Y + eps)

/-- Derivative of the normalized entries: what one direction does. -/
theorem vHat_deriv {S : List ℕ} {n eps : ℝ} (hn : 0 < n) (hcard : ∀ p : Fin (numel S), ((chn S (chanOf S p)).card : ℝ) = n) (heps : 0 < eps) (X : Fin (numel S) → ℝ) (m : Fin (numel S)) :
    ∃ A : (Fin (numel S) → ℝ) →L[ℝ] ℝ, HasFDerivAt (fun Y => vHat S n eps Y m) A X ∧ ∀ p : Fin (numel S), A (Pi.single p 1) =
      if chanOf S m = chanOf S p then ((if m = p then 1 else 0) - 1 / n - vHat S n eps X m * vHat S n eps X p / n) / Real.sqrt (vVar S n (chanOf S p) X + eps) else 0 := by
  set c := chanOf S m with hc
  let P : Fin (numel S) → (Fin (numel S) → ℝ) →L[ℝ] ℝ := fun q => ContinuousLinearMap.proj (R := ℝ) (φ := fun _ : Fin (numel S) => ℝ) q
  have hP : ∀ q, HasFDerivAt (fun Y : Fin (numel S) → ℝ => Y q) (P q) X := fun q => (P q).hasFDerivAt
  let M : (Fin (numel S) → ℝ) →L[ℝ] ℝ := n⁻¹ • ∑ q ∈ chn S c, P q
  have hM : HasFDerivAt (vMean S n c) M X := by
    have h1 : HasFDerivAt (fun Y : Fin (numel S) → ℝ => ∑ q ∈ chn S c, Y q) (∑ q ∈ chn S c, P q) X := HasFDerivAt.fun_sum fun q _ => hP q
    refine (h1.const_mul n⁻¹).congr_of_eventuallyEq (Eventually.of_forall fun Y => ?_)
    show (∑ q ∈ chn S c, Y q) / n = n⁻¹ * _
    rw [div_eq_inv_mul]
  let V : (Fin (numel S) → ℝ) →L[ℝ] ℝ := n⁻¹ • ∑ q ∈ chn S c, (2 * (X q - vMean S n c X)) • (P q - M)
  have hV : HasFDerivAt (vVar S n c) V X := by
    have h1 : HasFDerivAt (fun Y : Fin (numel S) → ℝ => ∑ q ∈ chn S c, (Y q - vMean S n c Y) ^ 2) (∑ q ∈ chn S c, (2 * (X q - vMean S n c X)) • (P q - M)) X := by
      refine HasFDerivAt.fun_sum fun q _ => ?_
      have h2 := ((hP q).sub hM).pow 2
      refine h2.congr_fderiv ?_
      simp
    refine (h1.const_mul n⁻¹).congr_of_eventuallyEq (Eventually.of_forall fun Y => ?_)
    show (∑ q ∈ chn S c, (Y q - vMean S n c Y) ^ 2) / n = n⁻¹ * _
    rw [div_eq_inv_mul]
  have hv0 : 0 ≤ vVar S n c X := div_nonneg (Finset.sum_nonneg fun q _ => sq_nonneg _) hn.le
  set s := Real.sqrt (vVar S n c X + eps) with hs
  have hs0 : 0 < s := Real.sqrt_pos.2 (by linarith)
  have hinv : HasDerivAt (fun v : ℝ => (Real.sqrt (v + eps))⁻¹) (-(1 / (2 * s)) / s ^ 2) (vVar S n c X) := by
    have h1 : HasDerivAt (fun v : ℝ => v + eps) 1 (vVar S n c X) := (hasDerivAt_id _).add_const eps
    have h2 := h1.sqrt (by linarith)
    exact h2.inv hs0.ne'
  have hA := ((hP m).sub hM).mul (hinv.comp_hasFDerivAt X hV)
  refine ⟨_, hA.congr_of_eventuallyEq (Eventually.of_forall fun Y => ?_), fun p => ?_⟩
  · show (Y m - vMean S n c Y) / Real.sqrt (vVar S n c Y + eps) = _
    rw [div_eq_mul_inv]
    rfl
  · have hPp : ∀ q, P q (Pi.single p 1) = if q = p then 1 else 0 := by
      intro q
      show (Pi.single p (1 : ℝ) : Fin (numel S) → ℝ) q = _
      rw [Pi.single_apply]
    have hmem : p ∈ chn S c ↔ c = chanOf S p := by
      rw [mem_chn]
      exact eq_comm
    have hMp : M (Pi.single p 1) = if c = chanOf S p then 1 / n else 0 := by
      show (n⁻¹ • ∑ q ∈ chn S c, P q) (Pi.single p 1) = _
      rw [_root_.smul_apply, _root_.sum_apply, smul_eq_mul, Finset.sum_congr rfl fun q _ => hPp q, Finset.sum_ite_eq']
      by_cases h : c = chanOf S p
      · rw [if_pos (hmem.2 h), if_pos h, mul_one, one_div]
      · rw [if_neg fun h' => h (hmem.1 h'), if_neg h, mul_zero]
    have hzero : ∑ q ∈ chn S c, (X q - vMean S n c X) = 0 := by
      rw [Finset.sum_sub_distrib, Finset.sum_const, nsmul_eq_mul, hcard m]
      unfold vMean
      field_simp
      ring
    have hVp : V (Pi.single p 1) = if c = chanOf S p then 2 * (X p - vMean S n c X) / n else 0 := by
      show (n⁻¹ • ∑ q ∈ chn S c, (2 * (X q - vMean S n c X)) • (P q - M)) (Pi.single p 1) = _
      rw [_root_.smul_apply, _root_.sum_apply, smul_eq_mul]
      have e1 : ∀ q ∈ chn S c, ((2 * (X q - vMean S n c X)) • (P q - M)) (Pi.single p 1)
          = (if q = p then 2 * (X q - vMean S n c X) else 0) - 2 * M (Pi.single p 1) * (X q - vMean S n c X) := by
        intro q _
        rw [_root_.smul_apply, _root_.sub_apply, smul_eq_mul, hPp]
        split <;> ring
      rw [Finset.sum_congr rfl e1, Finset.sum_sub_distrib, ← Finset.mul_sum, hzero, mul_zero, sub_zero, Finset.sum_ite_eq']
      by_cases h : c = chanOf S p
      · rw [if_pos (hmem.2 h), if_pos h]
        ring
      · rw [if_neg fun h' => h (hmem.1 h'), if_neg h, mul_zero]
    show (X m - vMean S n c X) * ((-(1 / (2 * s)) / s ^ 2) * V (Pi.single p 1)) + s⁻¹ * (P m (Pi.single p 1) - M (Pi.single p 1)) = _
    rw [hVp, hMp, hPp]
    by_cases h : c = chanOf S p
    · rw [if_pos h, if_pos h, if_pos h]
      unfold vHat
      rw [← hc, ← h, ← hs]
      field_simp
      ring
    · rw [if_neg h, if_neg h, if_neg h, if_neg fun e => h (hc.trans (congrArg _ e))]
      ring

/-- What batch normalization computes, for every number of axes. -/
theorem entries_flat {x : Tensor ℝ} {S : List ℕ} (hx : x.shape = S) {y : Tensor ℝ} (hs : y.shape = S) (hw : y.WF) (f : List ℕ → ℝ) (h : ∀ idx, InShape S idx → y.get idx = f idx) :
    y = Tensor.tabulate S f := by
  refine Tensor.ext_get hw (Tensor.wf_tabulate _ _) hs fun idx hin => ?_
  rw [hs] at hin
  rw [Tensor.get_tabulate hin, h idx hin]

/-- The numbers of axes that the batch normalizations accept. -/
def NormAxes (two : Bool) (R : List ℕ) : Prop := if two then R.length = 2 else R.length ≤ 1

/-- Mean and variance that the normalization of channel `c` uses. -/
noncomputable def normMean (N : BatchNorm ℝ) (training : Bool) (x : Tensor ℝ) (c : ℕ) : ℝ := if training then meanL (channelEntries x c) else N.runningMean c
noncomputable def normVar (N : BatchNorm ℝ) (training : Bool) (x : Tensor ℝ) (c : ℕ) : ℝ := if training then varL (channelEntries x c) else N.runningVar c

theorem norm_forward (N : BatchNorm ℝ) (two training : Bool) (ch B C : ℕ) (R : List ℕ) (hR : NormAxes two R) (hn : training = true → B * numel R ≠ 1) {x : Tensor ℝ} (hx : x.shape = B :: C :: R) :
    (IStage.norm two training ch N).forward x = .ok (Tensor.tabulate (B :: C :: R) fun idx => N.entry (idx.getD 1 0) (normMean N training x (idx.getD 1 0)) (normVar N training x (idx.getD 1 0)) (x.get idx)) := by
  unfold NormAxes at hR
  cases two with
  | true =>
    match R, hR with
    | [H, W], _ =>
      have hv : ∀ c, channelValues (fun s c p => x.get [s, c, p / W, p % W]) B (H * W) c = channelEntries x c := by
        intro c
        unfold channelValues channelEntries
        rw [hx]
        simp [numel, unravel]
      cases training with
      | true =>
        show N.train2 x = _
        unfold BatchNorm.train2
        simp only [hx]
        rw [if_neg (by
          intro e
          refine hn rfl ?_
          rw [← e]
          simp [numel, Nat.mul_assoc])]
        refine congrArg _ (entries_flat (x := x) hx rfl (Tensor.wf_tab4 _ _ _ _ _) _ ?_)
        intro idx hin
        obtain ⟨b, c, i, j, rfl, hb, hc, hi, hj⟩ := inShape4_exists hin
        rw [Tensor.get_tab4 hb hc hi hj, hv]
        rfl
      | false =>
        show N.eval2 x = _
        unfold BatchNorm.eval2
        simp only [hx]
        refine congrArg _ (entries_flat (x := x) hx rfl (Tensor.wf_tab4 _ _ _ _ _) _ ?_)
        intro idx hin
        obtain ⟨b, c, i, j, rfl, hb, hc, hi, hj⟩ := inShape4_exists hin
        rw [Tensor.get_tab4 hb hc hi hj]
        rfl
  | false =>
    match R, hR with
    | [], _ =>
      have hv : ∀ c, channelValues (fun s c _ => x.get [s, c]) B 1 c = channelEntries x c := by
        intro c
        unfold channelValues channelEntries
        rw [hx]
        simp [numel, unravel]
      cases training with
      | true =>
        show N.train x = _
        unfold BatchNorm.train
        simp only [hx]
        rw [if_neg (by
          intro e
          refine hn rfl ?_
          rw [e]
          rfl)]
        refine congrArg _ (entries_flat (x := x) hx rfl (Tensor.wf_tab2 _ _ _) _ ?_)
        intro idx hin
        obtain ⟨b, c, rfl, hb, hc⟩ := inShape2_exists hin
        rw [Tensor.get_tab2 hb hc, hv]
        rfl
      | false =>
        show N.eval x = _
        unfold BatchNorm.eval
        simp only [hx]
        refine congrArg _ (entries_flat (x := x) hx rfl (Tensor.wf_tab2 _ _ _) _ ?_)
        intro idx hin
        obtain ⟨b, c, rfl, hb, hc⟩ := inShape2_exists hin
        rw [Tensor.get_tab2 hb hc]
        rfl
    | [L], _ =>
      have hv : ∀ c, channelValues (fun s c i => x.get [s, c, i]) B L c = channelEntries x c := by
        intro c
        unfold channelValues channelEntries
        rw [hx]
        simp [numel, unravel]
      cases training with
      | true =>
        show N.train x = _
        unfold BatchNorm.train
        simp only [hx]
        rw [if_neg (by
          intro e
          refine hn rfl ?_
          rw [← e]
          simp [numel])]
        refine congrArg _ (entries_flat (x := x) hx rfl (Tensor.wf_tab3 _ _ _ _) _ ?_)
        intro idx hin
        obtain ⟨b, c, i, rfl, hb, hc, hi⟩ := inShape3_exists hin
        rw [Tensor.get_tab3 hb hc hi, hv]
        rfl
      | false =>
        show N.eval x = _
        unfold BatchNorm.eval
        simp only [hx]
        refine congrArg _ (entries_flat (x := x) hx rfl (Tensor.wf_tab3 _ _ _ _) _ ?_)
        intro idx hin
        obtain ⟨b, c, i, rfl, hb, hc, hi⟩ := inShape3_exists hin
        rw [Tensor.get_tab3 hb hc hi]
        rfl

/-- The normalized entries. -/
noncomputable def vNorm (N : BatchNorm ℝ) (training : Bool) (S : List ℕ) (n : ℝ) (Y : Fin (numel S) → ℝ) (p : Fin (numel S)) : ℝ :=
  if training then vHat S n N.eps Y p else (Y p - N.runningMean (chanOf S p)) / Real.sqrt (N.runningVar (chanOf S p) + N.eps)

/-- The number of entries of a channel. -/
abbrev chanSize (B : ℕ) (R : List ℕ) : ℝ := ((B * numel R : ℕ) : ℝ)

theorem norm_vec (N : BatchNorm ℝ) (two training : Bool) (ch B C : ℕ) (R : List ℕ) (hR : NormAxes two R) (hn : training = true → B * numel R ≠ 1) (Y : Fin (numel (B :: C :: R)) → ℝ) :
    (IStage.norm two training ch N).forward (ofVec (B :: C :: R) Y)
      = .ok (ofVec (B :: C :: R) fun p => vNorm N training (B :: C :: R) (chanSize B R) Y p * N.weight (chanOf (B :: C :: R) p) + N.bias (chanOf (B :: C :: R) p)) := by
  rw [norm_forward N two training ch B C R hR hn (ofVec_shape _ Y), tabulate_ofVec]
  refine congrArg (fun v => Except.ok (ofVec (B :: C :: R) v)) ?_
  funext p
  rw [ofVec_get_unravel Y p]
  show (Y p - normMean N training (ofVec (B :: C :: R) Y) (chanOf (B :: C :: R) p)) / Real.sqrt (normVar N training (ofVec (B :: C :: R) Y) (chanOf (B :: C :: R) p) + N.eps) * _ + _ = _
  unfold normMean normVar vNorm vHat
  rw [meanL_ofVec (chanOf_lt p), varL_ofVec (chanOf_lt p)]
  cases training <;> rfl

theorem hat_get (N : BatchNorm ℝ) (training : Bool) {B C : ℕ} {R : List ℕ} (X : Fin (numel (B :: C :: R)) → ℝ) (p : Fin (numel (B :: C :: R))) :
    (N.hat training (ofVec (B :: C :: R) X)).get (unravel (B :: C :: R) p) = vNorm N training (B :: C :: R) (chanSize B R) X p := by
  unfold BatchNorm.hat
  rw [ofVec_shape, Tensor.get_tabulate (inShape_unravel p.2), ofVec_get_unravel X p]
  show (if training then (X p - meanL (channelEntries (ofVec (B :: C :: R) X) (chanOf (B :: C :: R) p))) / Real.sqrt (varL (channelEntries (ofVec (B :: C :: R) X) (chanOf (B :: C :: R) p)) + N.eps)
    else (X p - N.runningMean (chanOf (B :: C :: R) p)) / Real.sqrt (N.runningVar (chanOf (B :: C :: R) p) + N.eps)) = _
  rw [meanL_ofVec (chanOf_lt p), varL_ofVec (chanOf_lt p)]
  rfl

/-- Sums over the positions of one channel. -/
theorem sum_same {S : List ℕ} (c : ℕ) (f : Fin (numel S) → ℝ) : (∑ m : Fin (numel S), if chanOf S m = c then f m else 0) = ∑ m ∈ chn S c, f m := by
  unfold chn
  rw [Finset.sum_filter]
  rfl

theorem chanSize_eq {B C : ℕ} {R : List ℕ} (p : Fin (numel (B :: C :: R))) : ((chn (B :: C :: R) (chanOf (B :: C :: R) p)).card : ℝ) = chanSize B R := by
  rw [card_chn (chanOf_lt p)]

theorem chanSize_pos {B C : ℕ} {R : List ℕ} (p : Fin (numel (B :: C :: R))) : 0 < chanSize B R := by
  rw [← chanSize_eq p]
  have h : p ∈ chn (B :: C :: R) (chanOf (B :: C :: R) p) := mem_chn.2 rfl
  exact_mod_cast Finset.card_pos.2 ⟨p, h⟩

/-- Batch normalization: the gradient of the input. -/
theorem backprop_norm (N : BatchNorm ℝ) (two training : Bool) (ch B C : ℕ) (R : List ℕ) (hR : NormAxes two R) (hn : training = true → B * numel R ≠ 1) (he : training = true → 0 < N.eps)
    (X : Fin (numel (B :: C :: R)) → ℝ) :
    Backprop (IStage.norm two training ch N).forward (B :: C :: R) (B :: C :: R)
      (fun Y p => vNorm N training (B :: C :: R) (chanSize B R) Y p * N.weight (chanOf (B :: C :: R) p) + N.bias (chanOf (B :: C :: R) p)) X
      (fun g => .ok (N.inputGrad training (ofVec (B :: C :: R) X) g)) := by
  cases training with
  | true =>
    choose A hA1 hA2 using fun m => vHat_deriv (chanSize_pos m) (fun p => chanSize_eq p) (he rfl) X m
    refine Backprop.of_deriv (norm_vec N two true ch B C R hR hn) (fun m => N.weight (chanOf (B :: C :: R) m) • A m) (fun m => ?_) fun g hg _ => ⟨_, rfl, rfl, Tensor.wf_tabulate _ _, fun p => ?_⟩
    · refine (((hA1 m).const_mul (N.weight (chanOf (B :: C :: R) m))).add_const (N.bias (chanOf (B :: C :: R) m))).congr_of_eventuallyEq (Eventually.of_forall fun Y => ?_)
      show vHat (B :: C :: R) (chanSize B R) N.eps Y m * _ + _ = _ * _ + _
      rw [mul_comm]
    · unfold BatchNorm.inputGrad
      rw [ofVec_shape]
      dsimp only
      rw [Tensor.get_tabulate (inShape_unravel p.2), if_pos rfl, hat_get]
      show N.weight (chanOf (B :: C :: R) p) / Real.sqrt (varL (channelEntries (ofVec (B :: C :: R) X) (chanOf (B :: C :: R) p)) + N.eps) *
        (g.get (unravel (B :: C :: R) p) - meanL (channelEntries g (chanOf (B :: C :: R) p)) - vHat (B :: C :: R) (chanSize B R) N.eps X p * meanL (channelEntries (Tensor.tabulate g.shape fun i =>
          g.get i * (N.hat true (ofVec (B :: C :: R) X)).get i) (chanOf (B :: C :: R) p))) = _
      have hgh : meanL (channelEntries (Tensor.tabulate g.shape fun i => g.get i * (N.hat true (ofVec (B :: C :: R) X)).get i) (chanOf (B :: C :: R) p))
          = (∑ m ∈ chn (B :: C :: R) (chanOf (B :: C :: R) p), g.get (unravel (B :: C :: R) m) * vHat (B :: C :: R) (chanSize B R) N.eps X m) / chanSize B R := by
        rw [hg, meanL_channelEntries rfl (chanOf_lt p)]
        refine congrArg (· / chanSize B R) (Finset.sum_congr rfl fun m _ => ?_)
        rw [Tensor.get_tabulate (inShape_unravel m.2), hat_get]
        rfl
      rw [hgh, meanL_channelEntries hg (chanOf_lt p), varL_ofVec (chanOf_lt p)]
      have e1 : ∀ m : Fin (numel (B :: C :: R)), g.get (unravel (B :: C :: R) m) * (N.weight (chanOf (B :: C :: R) m) • A m) (Pi.single p 1)
          = if chanOf (B :: C :: R) m = chanOf (B :: C :: R) p then (N.weight (chanOf (B :: C :: R) p) / Real.sqrt (vVar (B :: C :: R) (chanSize B R) (chanOf (B :: C :: R) p) X + N.eps)) *
              ((if m = p then g.get (unravel (B :: C :: R) m) else 0) - g.get (unravel (B :: C :: R) m) * (1 / chanSize B R) -
                g.get (unravel (B :: C :: R) m) * vHat (B :: C :: R) (chanSize B R) N.eps X m * (vHat (B :: C :: R) (chanSize B R) N.eps X p / chanSize B R)) else 0 := by
        intro m
        rw [_root_.smul_apply, smul_eq_mul, hA2]
        by_cases h : chanOf (B :: C :: R) m = chanOf (B :: C :: R) p
        · rw [if_pos h, if_pos h, h]
          split <;> ring
        · rw [if_neg h, if_neg h, mul_zero, mul_zero]
      rw [Finset.sum_congr rfl fun m _ => e1 m, sum_same, ← Finset.mul_sum, Finset.sum_sub_distrib, Finset.sum_sub_distrib, ← Finset.sum_mul, ← Finset.sum_mul, Finset.sum_ite_eq',
        if_pos (show p ∈ chn (B :: C :: R) (chanOf (B :: C :: R) p) from mem_chn.2 rfl)]
      ring
  | false =>
    refine Backprop.of_deriv (norm_vec N two false ch B C R hR hn) _
      (pick_deriv id (fun m v => (v - N.runningMean (chanOf (B :: C :: R) m)) / Real.sqrt (N.runningVar (chanOf (B :: C :: R) m) + N.eps) * N.weight (chanOf (B :: C :: R) m) + N.bias (chanOf (B :: C :: R) m))
        (fun m => 1 / Real.sqrt (N.runningVar (chanOf (B :: C :: R) m) + N.eps) * N.weight (chanOf (B :: C :: R) m)) X fun m => ?_)
      fun g hg _ => ⟨_, rfl, rfl, Tensor.wf_tabulate _ _, fun p => ?_⟩
    · exact ((((hasDerivAt_id _).sub_const _).div_const _).mul_const _).add_const _
    · unfold BatchNorm.inputGrad
      rw [ofVec_shape]
      dsimp only
      rw [Tensor.get_tabulate (inShape_unravel p.2), if_neg (by decide), Finset.sum_eq_single p]
      · rw [pick_apply]
        rw [if_pos (show id p = p from rfl)]
        show N.weight (chanOf (B :: C :: R) p) / Real.sqrt (N.runningVar (chanOf (B :: C :: R) p) + N.eps) * _ = _
        ring
      · intro m _ hm
        rw [pick_apply, if_neg (show ¬ id m = p from hm), mul_zero]
      · intro h
        exact absurd (Finset.mem_univ p) h

end HOL
