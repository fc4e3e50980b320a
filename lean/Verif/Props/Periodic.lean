import Verif.Props.Forward

/-! # C17, C18: mirror periodicity; C15 for `Polynomial` -/

namespace HOL
open TorchScalar Polynomial Spec

/-- **C17.** `make_periodic` as a function on the reals. -/
theorem C17_mirror_periodic {p : ℝ} (hp : 0 < p) :
    (∀ x, -(p / 2) ≤ makePeriodic x p ∧ makePeriodic x p ≤ p / 2) ∧
    (∀ x, -(p / 2) ≤ x → x ≤ p / 2 → makePeriodic x p = x) ∧
    (∀ (x : ℝ) (k : ℤ), makePeriodic (x + k * (2 * p)) p = makePeriodic x p) ∧
    (∀ (t : ℝ) (k : ℤ), makePeriodic (p / 2 + k * p + t) p = makePeriodic (p / 2 + k * p - t) p) ∧
    (Continuous fun x => makePeriodic x p) ∧
    (∀ x y, |makePeriodic x p - makePeriodic y p| ≤ |x - y|) := by
  refine ⟨makePeriodic_mem hp, fun x => makePeriodic_id hp, makePeriodic_add_int hp, ?_,
    makePeriodic_continuous hp, makePeriodic_lipschitz hp⟩
  intro t k
  have h := makePeriodic_mirror hp (p / 2 + k * p + t)
  rw [← h, ← makePeriodic_add_int hp _ k]
  congr 1
  ring

/-- Period 4 and mirroring about 1 for `p = 2`. -/
example : makePeriodic (7 / 2 : ℝ) 2 = -1 / 2 ∧ makePeriodic (3 / 2 : ℝ) 2 = 1 / 2 := by
  obtain ⟨_, h2, h3, h4, _⟩ := C17_mirror_periodic (p := 2) (by norm_num)
  constructor
  · have := h3 (-1 / 2) 1
    norm_num at this
    rw [this, h2 (-(1 / 2)) (by norm_num) (by norm_num)]
    norm_num
  · have := h4 (1 / 2) 0
    norm_num at this
    rw [this]
    exact h2 _ (by norm_num) (by norm_num)

theorem Tensor.map_congr_get {α β : Type} [Zero α] [Zero β] {f : α → β} {x y : Tensor α} (hx : x.WF) (hy : y.WF)
    (hs : y.shape = x.shape) (h : ∀ idx, InShape x.shape idx → f (y.get idx) = f (x.get idx)) :
    y.map f = x.map f := by
  have wf : ∀ t : Tensor α, t.WF → (t.map f).WF := by
    intro t ht; simp only [Tensor.WF, Tensor.map] at *; simpa using ht
  apply Tensor.ext_get (wf y hy) (wf x hx) hs
  intro idx hidx
  have hi : InShape y.shape idx := hidx
  rw [Tensor.get_map hy hi, Tensor.get_map hx (hs ▸ hi), h idx (hs ▸ hi)]

theorem PwLayer.forward_noPeriod {K : Type} [TorchScalar K] (L : PwLayer K) (x : Tensor K) :
    L.forward x = ({ L with periodicity := none } : PwLayer K).forward
      (x.map (periodize L.periodicity)) := by
  have : (x.map (periodize L.periodicity)).map (periodize (none : Option K))
      = x.map (periodize L.periodicity) := by
    unfold Tensor.map
    congr 1
    have : (periodize (none : Option K)) = id := rfl
    simp [this]
  unfold PwLayer.forward
  dsimp only
  rw [this]
  rfl

/-- **C18.** A piecewise layer (any of the four classes) with periodicity `p`: shifting any entries by multiples of
`2 p` and mirroring `x ↦ p - x` change nothing, and on `[-p/2, p/2]` it is the layer without periodicity. -/
theorem C18_periodic_layer (L : PwLayer ℝ) {p : ℝ} (hp : 0 < p) (hper : L.periodicity = some p)
    {x y : Tensor ℝ} (hx : x.WF) (hy : y.WF) (hs : y.shape = x.shape) :
    ((∀ idx, InShape x.shape idx → (∃ k : ℤ, y.get idx = x.get idx + k * (2 * p)) ∨
        y.get idx = p - x.get idx) → L.forward y = L.forward x) ∧
    ((∀ idx, InShape x.shape idx → -(p / 2) ≤ x.get idx ∧ x.get idx ≤ p / 2) →
      L.forward x = ({ L with periodicity := none } : PwLayer ℝ).forward x) := by
  constructor
  · intro h
    rw [L.forward_noPeriod y, L.forward_noPeriod x, hper]
    congr 1
    apply Tensor.map_congr_get hx hy hs
    intro idx hidx
    rcases h idx hidx with ⟨k, e⟩ | e
    · rw [e]; exact makePeriodic_add_int hp _ k
    · rw [e]; exact makePeriodic_mirror hp _
  · intro h
    rw [L.forward_noPeriod x, hper]
    congr 1
    have wf : (x.map (periodize (some p))).WF := by
      simp only [Tensor.WF, Tensor.map] at *; simpa using hx
    apply Tensor.ext_get wf hx rfl
    intro idx hidx
    rw [Tensor.get_map hx hidx]
    exact makePeriodic_id hp (h idx hidx).1 (h idx hidx).2

/-- **C18 (Polynomial).** The same for single segment layers. -/
theorem C18_periodic_function_layer (L : FnLayer ℝ) {p : ℝ} (hp : 0 < p) (hper : L.periodicity = some p)
    {x y : Tensor ℝ} (hx : x.WF) (hy : y.WF) (hs : y.shape = x.shape) :
    ((∀ idx, InShape x.shape idx → (∃ k : ℤ, y.get idx = x.get idx + k * (2 * p)) ∨
        y.get idx = p - x.get idx) → L.forward y = L.forward x) ∧
    ((∀ idx, InShape x.shape idx → -(p / 2) ≤ x.get idx ∧ x.get idx ≤ p / 2) →
      L.forward x = ({ L with periodicity := none } : FnLayer ℝ).forward x) := by
  unfold FnLayer.forward
  rw [hper]
  constructor
  · intro h
    congr 1
    apply Tensor.map_congr_get hx hy hs
    intro idx hidx
    rcases h idx hidx with ⟨k, e⟩ | e
    · rw [e]; exact makePeriodic_add_int hp _ k
    · rw [e]; exact makePeriodic_mirror hp _
  · intro h
    dsimp only
    congr 1
    have wf : ∀ f : ℝ → ℝ, (x.map f).WF := by
      intro f; simp only [Tensor.WF, Tensor.map] at *; simpa using hx
    refine Tensor.ext_get (t := x.map (periodize (some p))) (u := x.map (periodize none))
      (wf _) (wf _) rfl ?_
    intro idx hidx
    rw [Tensor.get_map hx hidx, Tensor.get_map hx hidx]
    exact makePeriodic_id hp (h idx hidx).1 (h idx hidx).2

/-- A periodic layer, evaluated at `x` and at shifted and mirrored entries. -/
example (v : ℕ → ℕ → ℝ) :
    let L := PwLayer.init .continuousProd 3 2 1 4 2 (fun _ _ => 1 / 2) 1 (some (2 : ℝ))
    L.forward (Tensor.tab2 2 2 fun b i => if b = 0 then v b i + 3 * (2 * 2) else 2 - v b i)
      = L.forward (Tensor.tab2 2 2 v) := by
  intro L
  refine (C18_periodic_layer L (p := 2) (x := Tensor.tab2 2 2 v)
    (y := Tensor.tab2 2 2 fun b i => if b = 0 then v b i + 3 * (2 * 2) else 2 - v b i)
    (by norm_num) rfl (Tensor.wf_tabulate _ _) (Tensor.wf_tabulate _ _) rfl).1 ?_
  intro idx hidx
  obtain ⟨b, i, rfl, hb, hi⟩ := inShape2_exists (a := 2) (b := 2) hidx
  rw [Tensor.get_tab2 hb hi, Tensor.get_tab2 hb hi]
  by_cases h : b = 0
  · left; exact ⟨3, by simp [h]⟩
  · right; simp [h]

/-- **C15 (Polynomial).** Linearity in the weights of `Function` layers with any basis. -/
theorem C15_linear_in_weights_polynomial (L : FnLayer ℝ) {n : ℕ} (hn : 0 < n) (basis : BasisFn ℝ)
    (hp : L.poly = ⟨.flat, n, basis⟩) (w1 w2 w3 : Tensor ℝ) (a c : ℝ)
    (hs1 : w1.shape = [L.outFeatures, L.inFeatures, n]) (hs2 : w2.shape = [L.outFeatures, L.inFeatures, n])
    (hs3 : w3.shape = [L.outFeatures, L.inFeatures, n])
    (hlin : ∀ idx, InShape [L.outFeatures, L.inFeatures, n] idx → w3.get idx = a * w1.get idx + c * w2.get idx)
    {B : ℕ} {x : Tensor ℝ} (hx : x.shape = [B, L.inFeatures]) :
    ∃ o1 o2 o3, ({ L with w := w1 } : FnLayer ℝ).forward x = .ok o1 ∧
      ({ L with w := w2 } : FnLayer ℝ).forward x = .ok o2 ∧
      ({ L with w := w3 } : FnLayer ℝ).forward x = .ok o3 ∧
      ∀ b < B, ∀ o < L.outFeatures, o3.get [b, o] = a * o1.get [b, o] + c * o2.get [b, o] := by
  unfold FnLayer.forward
  dsimp only
  rw [hp]
  refine ⟨_, _, _, interpolate_flat (x := x.map _) hn basis hx hs1,
    interpolate_flat (x := x.map _) hn basis hx hs2, interpolate_flat (x := x.map _) hn basis hx hs3, ?_⟩
  intro b hb o ho
  rw [Tensor.get_tab2 hb ho, Tensor.get_tab2 hb ho, Tensor.get_tab2 hb ho]
  rw [sumL_flatMap_range, sumL_flatMap_range, sumL_flatMap_range, Finset.mul_sum, Finset.mul_sum,
    ← Finset.sum_add_distrib]
  apply Finset.sum_congr rfl
  intro j hj
  rw [Finset.mul_sum, Finset.mul_sum, ← Finset.sum_add_distrib]
  apply Finset.sum_congr rfl
  intro i hi
  rw [hlin _ (inShape3.2 ⟨ho, Finset.mem_range.1 hi, Finset.mem_range.1 hj⟩)]
  ring

end HOL
