import Verif.Lemmas.Capacity
import Verif.Props.Convex
import Verif.Props.Stability

/-! # C95: how many samples a piecewise layer can fit -/

namespace HOL
open TorchScalar Spec Polynomial

/-- Number of samples segment `s` of `S` can hold: `n`, one less where the right end is shared with the next segment. -/
def segmentCapacity (shared : Bool) (n S s : ℕ) : ℕ := if shared = true ∧ s + 1 < S then n - 1 else n

open Classical in
/-- The samples whose coordinate `i` is in segment `s`. -/
noncomputable def samplesIn {B I : ℕ} (X : Fin B → Fin I → ℝ) (i : Fin I) (S s : ℕ) : Finset (Fin B) := Finset.univ.filter fun b => IsActive S s (X b i)

/-- **C95 (fitting).** A piecewise layer of any kind can fit any targets on a batch exactly if some input feature takes different values on all samples, no more of them in any segment than its capacity: `n` for
discontinuous layers and for the last segment, `n - 1` for the other segments of continuous layers. -/
theorem C95_fits_any_targets (L : PwLayer ℝ) (h : L.WF) (hl : L.length = 2) (hp : L.periodicity = none) {B : ℕ} (X : Fin B → Fin L.inFeatures → ℝ) (i : Fin L.inFeatures)
    (hinj : Function.Injective fun b => X b i) (hcap : ∀ s < L.segments, (samplesIn X i L.segments s).card ≤ segmentCapacity L.cls.shared L.n L.segments s)
    (T : Fin B → Fin L.outFeatures → ℝ) :
    ∃ w : Tensor ℝ, w.shape = L.w.shape ∧ w.WF ∧ ({ L with w := w } : PwLayer ℝ).forward (ofMat X) = .ok (ofMat T) := by
  classical
  set A : Finset ℝ := Finset.univ.image fun b => X b i with hA
  have hcard : ∀ s < L.segments, (A.filter (IsActive L.segments s)).card ≤ segmentCapacity L.cls.shared L.n L.segments s := by
    intro s hs
    refine le_trans ?_ (hcap s hs)
    rw [hA, Finset.filter_image]
    refine Finset.card_image_le.trans (le_of_eq ?_)
    unfold samplesIn
    congr
  have hv : ∀ o : ℕ, ∃ v : ℕ → ℝ, ∀ (ho : o < L.outFeatures) (b : Fin B) (s : ℕ), IsActive L.segments s (X b i) →
      (linkPoly L.n fun k => v (s * L.stride + k)).eval (localCoord L.segments s (X b i)) = T b ⟨o, ho⟩ := by
    intro o
    set f : ℝ → ℝ := fun x => if hB : ∃ b, X b i = x then (if ho : o < L.outFeatures then T hB.choose ⟨o, ho⟩ else 0) else 0 with hf
    have hfv : ∀ (ho : o < L.outFeatures) b, f (X b i) = T b ⟨o, ho⟩ := by
      intro ho b
      have hB : ∃ b', X b' i = X b i := ⟨b, rfl⟩
      rw [hf]
      dsimp only
      rw [dif_pos hB, dif_pos ho]
      exact congrArg (fun b => T b ⟨o, ho⟩) (hinj hB.choose_spec)
    have hmem : ∀ b, X b i ∈ A := fun b => Finset.mem_image_of_mem _ (Finset.mem_univ b)
    unfold PwLayer.stride
    cases hc : L.cls.shared with
    | true =>
      obtain ⟨v, hv⟩ := fit_shared h.n_pos h.seg_pos A (fun s hs => by
        have := hcard s hs
        simpa [segmentCapacity, hc] using this) f
      exact ⟨v, fun ho b s hs => by rw [if_pos rfl, hv s _ (hmem b) hs, hfv ho]⟩
    | false =>
      obtain ⟨v, hv⟩ := fit_separate h.n_pos h.seg_pos A (fun s hs => by
        have := hcard s hs
        simpa [segmentCapacity, hc] using this) f
      exact ⟨v, fun ho b s hs => by rw [if_neg (by simp), hv s _ (hmem b) hs, hfv ho]⟩
  choose v hv using hv
  set w : Tensor ℝ := Tensor.tab3 L.outFeatures L.inFeatures (PwLayer.wSize L.cls L.n L.segments) fun o j q => if j = i then v o q else 0 with hw
  have hs : w.shape = L.w.shape := h.w_shape.symm
  have hwf : w.WF := Tensor.wf_tabulate _ _
  refine ⟨w, hs, hwf, ?_⟩
  rw [PwLayer.forward_mat ({ L with w := w } : PwLayer ℝ) (h.withW hs hwf) X]
  congr 2
  funext b o
  have hlink : ∀ j < L.inFeatures, PwLayer.linkFn ({ L with w := w } : PwLayer ℝ) o j ((ofMat X).get [(b : ℕ), j]) = if j = i then T b o else 0 := by
    intro j hj
    have hget : (ofMat X).get [(b : ℕ), j] = X b ⟨j, hj⟩ := ofMat_get X b ⟨j, hj⟩
    rw [hget]
    obtain ⟨s, hact⟩ := isActive_exists h.seg_pos (X b ⟨j, hj⟩)
    rw [PwLayer.linkFn_isPiecewise ({ L with w := w } : PwLayer ℝ) h.seg_pos hl hp o j s _ hact]
    have e : (linkPoly L.n fun k => w.get [(o : ℕ), j, s * L.stride + k]) = linkPoly L.n fun k => if j = i then v o (s * L.stride + k) else 0 := by
      refine linkPoly_congr fun k hk => ?_
      rw [hw, Tensor.get_tab3 o.2 hj (L.widx_lt h.n_pos hact.1 hk)]
    show (linkPoly L.n fun k => w.get [(o : ℕ), j, s * L.stride + k]).eval (localCoord L.segments s (X b ⟨j, hj⟩)) = _
    rw [e]
    by_cases hji : j = i
    · obtain rfl : (⟨j, hj⟩ : Fin L.inFeatures) = i := Fin.ext hji
      simp only [if_true]
      exact hv o o.2 b s hact
    · simp only [if_neg hji]
      unfold linkPoly
      rw [show (fun _ : ℕ => (0 : ℝ)) = 0 from rfl, map_zero, eval_zero]
  unfold PwLayer.matFn
  show L.cls.combine L.inFeatures _ = _
  rw [L.cls.combine_congr hlink]
  unfold PwClass.combine
  have h1 : ∑ j ∈ Finset.range L.inFeatures, (if j = (i : ℕ) then T b o else 0) = T b o := by
    rw [Finset.sum_ite_eq' , if_pos (Finset.mem_range.2 i.2)]
  have h2 : ∏ j ∈ Finset.range L.inFeatures, (1 + if j = (i : ℕ) then T b o else 0) - 1 = T b o := by
    rw [Finset.prod_eq_single (i : ℕ)]
    · rw [if_pos rfl]
      ring
    · intro j _ hj
      rw [if_neg hj, add_zero]
    · intro hi
      exact absurd (Finset.mem_range.2 i.2) hi
  cases L.cls
  · exact h1
  · exact h2
  · exact h1
  · exact h2

/-- **C95 (training).** With a sum layer and squared error, on such a batch training cannot stop before all targets are met: if all gradients vanish the error is 0. -/
theorem C95_stationary_means_fitted (L : PwLayer ℝ) (h : L.WF) (hc : L.cls = .continuous ∨ L.cls = .discontinuous) (hl : L.length = 2) (hp : L.periodicity = none)
    {B : ℕ} (X : Fin B → Fin L.inFeatures → ℝ) (i : Fin L.inFeatures)
    (hinj : Function.Injective fun b => X b i) (hcap : ∀ s < L.segments, (samplesIn X i L.segments s).card ≤ segmentCapacity L.cls.shared L.n L.segments s)
    (T : Fin B → Fin L.outFeatures → ℝ) :
    ∃ Y : Fin B → Fin L.outFeatures → ℝ, L.forward (ofMat X) = .ok (ofMat Y) ∧ (GradsVanish [L.w] [L.weightGrad (ofMat X) (sqGrad T Y)] → Y = T) := by
  obtain ⟨Y, hY, hiff⟩ := C94_stationary_iff (.pw L) hc (I := L.inFeatures) (O := L.outFeatures) ⟨h, by rw [hl]; norm_num, by simp [hp], rfl, rfl⟩ X
  refine ⟨Y, hY, fun hz => ?_⟩
  obtain ⟨w, hs, hw, hfit⟩ := C95_fits_any_targets L h hl hp X i hinj hcap T
  obtain ⟨D, hD, hg⟩ := sqLoss_deriv T Y
  have hle := (hiff _ D _ (sqLoss_convex T) hD hg).2 hz (.pw { L with w := w }) T ⟨w, hs, hw, rfl⟩ hfit
  have h0 : sqLoss T T = 0 := by simp [sqLoss]
  rw [h0] at hle
  have hn : ∀ b, 0 ≤ ∑ o, (Y b o - T b o) ^ 2 := fun b => Finset.sum_nonneg fun o _ => sq_nonneg _
  have hz' := (Finset.sum_eq_zero_iff_of_nonneg fun b _ => hn b).1 (le_antisymm hle (Finset.sum_nonneg fun b _ => hn b))
  funext b o
  have := (Finset.sum_eq_zero_iff_of_nonneg fun o _ => sq_nonneg _).1 (hz' b (Finset.mem_univ b)) o (Finset.mem_univ o)
  have := pow_eq_zero_iff (two_ne_zero) |>.1 this
  linarith

/-- **C95 (limit per segment).** For discontinuous layers of one input the capacity is exact: if a segment holds more than `n` samples, some targets cannot be fitted. -/
theorem C95_capacity_is_exact (L : PwLayer ℝ) (h : L.WF) (hc : L.cls.shared = false) (hI : L.inFeatures = 1) (hO : 0 < L.outFeatures) (hl : L.length = 2) (hp : L.periodicity = none)
    {B : ℕ} (X : Fin B → Fin L.inFeatures → ℝ) (hinj : Function.Injective fun b => X b ⟨0, h.in_pos⟩) :
    (∀ T : Fin B → Fin L.outFeatures → ℝ, ∃ w : Tensor ℝ, w.shape = L.w.shape ∧ w.WF ∧ ({ L with w := w } : PwLayer ℝ).forward (ofMat X) = .ok (ofMat T)) ↔
      ∀ s < L.segments, (samplesIn X ⟨0, h.in_pos⟩ L.segments s).card ≤ L.n := by
  classical
  refine ⟨fun hall s hs => ?_, fun hcap T => C95_fits_any_targets L h hl hp X _ hinj (fun s hs => by simpa [segmentCapacity, hc] using hcap s hs) T⟩
  by_contra hlt
  push Not at hlt
  set M := samplesIn X ⟨0, h.in_pos⟩ L.segments s with hM
  obtain ⟨b0, hb0⟩ : M.Nonempty := Finset.card_pos.1 (by omega)
  obtain ⟨w, hsh, hwf, hfit⟩ := hall fun b _ => if b = b0 then 1 else 0
  have hval := ofMat_inj (Except.ok.inj ((PwLayer.forward_mat ({ L with w := w } : PwLayer ℝ) (h.withW hsh hwf) X).symm.trans hfit))
  set Q : ℝ[X] := linkPoly L.n fun k => w.get [0, 0, s * L.stride + k] with hQ
  have hQv : ∀ b ∈ M, Q.eval (localCoord L.segments s (X b ⟨0, h.in_pos⟩)) = if b = b0 then 1 else 0 := by
    intro b hb
    have hact : IsActive L.segments s (X b ⟨0, h.in_pos⟩) := (Finset.mem_filter.1 hb).2
    have e := congrFun (congrFun hval b) ⟨0, hO⟩
    beta_reduce at e
    rw [← e]
    unfold PwLayer.matFn
    show _ = L.cls.combine L.inFeatures _
    have hlink : PwLayer.linkFn ({ L with w := w } : PwLayer ℝ) 0 0 ((ofMat X).get [(b : ℕ), 0]) = Q.eval (localCoord L.segments s (X b ⟨0, h.in_pos⟩)) := by
      rw [show (ofMat X).get [(b : ℕ), 0] = X b ⟨0, h.in_pos⟩ from ofMat_get X b ⟨0, h.in_pos⟩,
        PwLayer.linkFn_isPiecewise ({ L with w := w } : PwLayer ℝ) h.seg_pos hl hp 0 0 s _ hact]
      rfl
    have hcomb : ∀ g : ℕ → ℝ, L.cls.combine L.inFeatures g = g 0 := by
      intro g
      rw [hI]
      cases hcl : L.cls <;> simp [PwClass.combine]
    rw [hcomb]
    exact hlink.symm
  have hz : Q = 0 := by
    refine eq_zero_of_degree_lt_of_eval_finset_eq_zero ((M.erase b0).image fun b => localCoord L.segments s (X b ⟨0, h.in_pos⟩)) ?_ ?_
    · rw [Finset.card_image_of_injective _ (show Function.Injective fun b => localCoord L.segments s (X b ⟨0, h.in_pos⟩) from (localCoord_inj h.seg_pos s).comp hinj), Finset.card_erase_of_mem hb0]
      refine lt_of_lt_of_le (linkPoly_degree_lt L.n _) ?_
      exact_mod_cast (by omega : L.n ≤ M.card - 1)
    · intro y hy
      obtain ⟨b, hb, rfl⟩ := Finset.mem_image.1 hy
      rw [hQv b (Finset.mem_of_mem_erase hb), if_neg (Finset.ne_of_mem_erase hb)]
  have := hQv b0 hb0
  rw [hz, eval_zero, if_pos rfl] at this
  norm_num at this

/-- **C95 (count).** A sum layer that can fit any targets on a batch has at least as many weights per output as the batch has samples. -/
theorem C95_samples_at_most_weights (L : PwLayer ℝ) (h : L.WF) (hc : L.cls = .continuous ∨ L.cls = .discontinuous) (hO : 0 < L.outFeatures) {B : ℕ} (X : Fin B → Fin L.inFeatures → ℝ)
    (hall : ∀ T : Fin B → Fin L.outFeatures → ℝ, ∃ w : Tensor ℝ, w.shape = L.w.shape ∧ w.WF ∧ ({ L with w := w } : PwLayer ℝ).forward (ofMat X) = .ok (ofMat T)) :
    B ≤ L.inFeatures * PwLayer.wSize L.cls L.n L.segments := by
  set J := Finset.range L.inFeatures ×ˢ Finset.range (PwLayer.wSize L.cls L.n L.segments) with hJ
  set c : Fin B → ℕ × ℕ → ℝ := fun b j => ∑ k ∈ Finset.range L.n,
    if L.seg ((ofMat X).get [(b : ℕ), j.1]) * L.stride + k = j.2 then (getLagrangeBasis L.n ((2 : ℕ) : ℝ)).call (L.xIn ((ofMat X).get [(b : ℕ), j.1])) k else 0 with hcdef
  let φ : (J → ℝ) →ₗ[ℝ] (Fin B → ℝ) :=
    { toFun := fun u b => ∑ j : J, u j * c b j
      map_add' := fun u v => by
        funext b
        simp [add_mul, Finset.sum_add_distrib]
      map_smul' := fun t u => by
        funext b
        simp [mul_assoc, Finset.mul_sum] }
  have hsurj : Function.Surjective φ := by
    intro y
    obtain ⟨w, hsh, hwf, hfit⟩ := hall fun b _ => y b
    have hval := ofMat_inj (Except.ok.inj ((PwLayer.forward_mat ({ L with w := w } : PwLayer ℝ) (h.withW hsh hwf) X).symm.trans hfit))
    refine ⟨fun j => w.get [0, j.1.1, j.1.2], ?_⟩
    funext b
    have e := congrFun (congrFun hval b) ⟨0, hO⟩
    rw [PwLayer.matFn_linear ({ L with w := w } : PwLayer ℝ) (h.withW hsh hwf) hc] at e
    rw [← e]
    exact Finset.sum_coe_sort J fun j => w.get [0, j.1, j.2] * c b j
  have := LinearMap.finrank_le_finrank_of_surjective hsurj
  rw [Module.finrank_fin_fun, Module.finrank_fintype_fun_eq_card, Fintype.card_coe, hJ, Finset.card_product, Finset.card_range, Finset.card_range] at this
  exact this

/-- A continuous piecewise linear layer with two segments on `[-1, 0)` and `[0, 1]` has three weights. It fits any targets at -1/2, 0 and 1/2. -/
example (v : ℕ → ℝ) (T : Fin 3 → Fin 1 → ℝ) :
    ∃ w : Tensor ℝ, w.shape = [1, 1, 3] ∧ ({ lineLayer 2 v with w := w } : PwLayer ℝ).forward (ofMat fun (b : Fin 3) (_ : Fin 1) => ((b : ℕ) : ℝ) / 2 - 1 / 2) = .ok (ofMat T) := by
  classical
  obtain ⟨w, h1, -, h3⟩ := C95_fits_any_targets (lineLayer 2 v) (lineLayer_wf (by norm_num) v) rfl rfl (B := 3) (fun b _ => ((b : ℕ) : ℝ) / 2 - 1 / 2) ⟨0, by simp [lineLayer]⟩
    (fun a b hab => by
      have hab' : ((a : ℕ) : ℝ) / 2 - 1 / 2 = ((b : ℕ) : ℝ) / 2 - 1 / 2 := hab
      have : ((a : ℕ) : ℝ) = ((b : ℕ) : ℝ) := by linarith
      exact Fin.ext (by exact_mod_cast this))
    (fun s hs => by
      have hs' : s < 2 := hs
      show (samplesIn _ _ 2 s).card ≤ segmentCapacity true 2 2 s
      have hsub : samplesIn (fun (b : Fin 3) (_ : Fin (lineLayer 2 v).inFeatures) => ((b : ℕ) : ℝ) / 2 - 1 / 2) ⟨0, by simp [lineLayer]⟩ 2 s
          ⊆ if s = 0 then {0} else {1, 2} := by
        intro b hb
        have hact : IsActive 2 s (((b : ℕ) : ℝ) / 2 - 1 / 2) := (Finset.mem_filter.1 hb).2
        obtain ⟨-, h1, h2⟩ := hact
        have hs2 : s = 0 ∨ s = 1 := by omega
        rcases hs2 with rfl | rfl
        · rw [if_pos rfl]
          have h2 : ((b : ℕ) : ℝ) / 2 - 1 / 2 < segLeft 2 (0 + 1) := by
            rcases h2 with h2 | h2
            · norm_num at h2
            · exact h2
          unfold segLeft at h2
          norm_num at h2
          have h3 : ((b : ℕ) : ℝ) < 1 := by linarith
          have : (b : ℕ) < 1 := by exact_mod_cast h3
          simp only [Finset.mem_singleton]
          exact Fin.ext (by simp; omega)
        · rw [if_neg (by norm_num)]
          have h1 : segLeft 2 1 ≤ ((b : ℕ) : ℝ) / 2 - 1 / 2 := by
            rcases h1 with h1 | h1
            · norm_num at h1
            · exact h1
          unfold segLeft at h1
          norm_num at h1
          have h3 : (1 : ℝ) ≤ ((b : ℕ) : ℝ) := by linarith
          have h4 : 1 ≤ (b : ℕ) := by exact_mod_cast h3
          fin_cases b <;> simp at h4 ⊢
      refine (Finset.card_le_card hsub).trans ?_
      have hs2 : s = 0 ∨ s = 1 := by omega
      rcases hs2 with rfl | rfl <;> simp [segmentCapacity])
    T
  exact ⟨w, h1, h3⟩

/-- Four different samples are too many for it, wherever they are. -/
example (v : ℕ → ℝ) (X : Fin 4 → Fin 1 → ℝ) :
    ¬ ∀ T : Fin 4 → Fin 1 → ℝ, ∃ w : Tensor ℝ, w.shape = (lineLayer 2 v).w.shape ∧ w.WF ∧ ({ lineLayer 2 v with w := w } : PwLayer ℝ).forward (ofMat X) = .ok (ofMat T) := by
  intro hall
  have := C95_samples_at_most_weights (lineLayer 2 v) (lineLayer_wf (by norm_num) v) (Or.inl rfl) (by simp [lineLayer]) X hall
  simp [lineLayer, PwLayer.wSize, PwClass.shared] at this

end HOL
