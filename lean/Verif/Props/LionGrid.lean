import Verif.Props.SparseLion
import Verif.Props.Stability

/-! # C112: weights trained with SparseLion stay on a grid -/

namespace HOL
open TorchScalar Spec

/-- **C112 (grid).** Over every training history every entry of a parameter is its initial value plus an integer multiple of the learning rate of its group, and the integer
is at most the number of steps. -/
theorem C112_grid (s : List (LionGroup ℝ)) (hs : LionWF s) (hist : List (ℕ → ℕ → Option (Tensor ℝ))) (hh : ∀ gr ∈ hist, GradsFit s gr) :
    ∃ s', sparseLionRun s hist = .ok s' ∧
      ∀ (gi : ℕ) (g : LionGroup ℝ), s[gi]? = some g → ∀ (pi : ℕ) (p : LionParam ℝ), g.params[pi]? = some p →
        ∃ (g' : LionGroup ℝ) (p' : LionParam ℝ), s'[gi]? = some g' ∧ g'.params[pi]? = some p' ∧ p'.data.WF ∧ p'.data.shape = p.data.shape ∧
          ∀ idx, InShape p.data.shape idx → ∃ z : ℤ, |z| ≤ hist.length ∧ p'.data.get idx = p.data.get idx + z * g.lr := by
  obtain ⟨s', h1, h2⟩ := sparseLionRun_entry hist s hs hh
  refine ⟨s', h1, fun gi g hg pi p hp => ?_⟩
  obtain ⟨g', p', a, b, c, d⟩ := h2 gi g hg pi p hp
  have hwf' := sparseLionRun_wf hist s s' hs hh h1 g' (List.mem_of_getElem? a) p' (List.mem_of_getElem? b)
  refine ⟨g', p', a, b, hwf'.data, c, fun idx hidx => ?_⟩
  have key : ∀ (l : List (ℕ → ℕ → Option (Tensor ℝ))) (st : ℝ × ℝ), ∃ z : ℤ, |z| ≤ l.length ∧
      ((l.map fun gr => gradEntry gr gi pi idx).foldl (lionEntry g.lr g.beta1 g.beta2) st).1 = st.1 + z * g.lr := by
    intro l
    induction l with
    | nil => exact fun st => ⟨0, by simp, by simp⟩
    | cons gr l ih =>
      intro st
      rw [List.map_cons, List.foldl_cons]
      obtain ⟨z, z1, z2⟩ := ih (lionEntry g.lr g.beta1 g.beta2 st (gradEntry gr gi pi idx))
      have step : ∃ e : ℤ, |e| ≤ 1 ∧ (lionEntry g.lr g.beta1 g.beta2 st (gradEntry gr gi pi idx)).1 = st.1 + e * g.lr := by
        unfold gradEntry
        cases hq : gr gi pi with
        | none => exact ⟨0, by simp, by simp [lionEntry]⟩
        | some t =>
          show ∃ e : ℤ, |e| ≤ 1 ∧ lionData g.lr g.beta1 st.1 st.2 (t.get idx) = st.1 + e * g.lr
          rcases lionData_move g.lr g.beta1 st.1 st.2 (t.get idx) with h | h | h
          · exact ⟨1, by simp, by push_cast; linarith⟩
          · exact ⟨0, by simp, by push_cast; linarith⟩
          · exact ⟨-1, by simp, by push_cast; linarith⟩
      obtain ⟨e, e1, e2⟩ := step
      refine ⟨e + z, (abs_add_le _ _).trans ?_, ?_⟩
      · rw [List.length_cons]; push_cast; linarith
      · rw [z2, e2]; push_cast; ring
  obtain ⟨z, z1, z2⟩ := key hist (p.data.get idx, p.mom.get idx)
  refine ⟨z, z1, ?_⟩
  rw [← d idx hidx] at z2
  exact z2

/-- **C112 (predictions).** Train the weights of a continuous layer. At inputs all features of which are at nodes of the layer (of any segments), the outputs after training are
those before plus integer multiples of the learning rate. -/
theorem C112_predictions (L : PwLayer ℝ) (h : L.WF) (hc : L.cls = .continuous) (hl : L.length = 2) (hper : L.periodicity = none) (hn : 2 ≤ L.n)
    (s : List (LionGroup ℝ)) (hs : LionWF s) {gi pi : ℕ} {g : LionGroup ℝ} {p : LionParam ℝ} (hg : s[gi]? = some g) (hp : g.params[pi]? = some p) (hpw : p.data = L.w)
    (hist : List (ℕ → ℕ → Option (Tensor ℝ))) (hh : ∀ gr ∈ hist, GradsFit s gr)
    {B : ℕ} {x : Tensor ℝ} (hx : x.shape = [B, L.inFeatures]) (hwf : x.WF) {b : ℕ} (hb : b < B) (sg k : ℕ → ℕ) (hsg : ∀ i < L.inFeatures, sg i < L.segments)
    (hk : ∀ i < L.inFeatures, k i < L.n) (hnode : ∀ i < L.inFeatures, x.get [b, i] = L.xGlobal ((chebyshevLobatto L.n : Tensor ℝ).get [k i]) (sg i)) :
    ∃ (s' : List (LionGroup ℝ)) (g' : LionGroup ℝ) (p' : LionParam ℝ) (out out' : Tensor ℝ), sparseLionRun s hist = .ok s' ∧ s'[gi]? = some g' ∧ g'.params[pi]? = some p' ∧
      L.forward x = .ok out ∧ ({ L with w := p'.data } : PwLayer ℝ).forward x = .ok out' ∧
      ∀ o < L.outFeatures, ∃ z : ℤ, |z| ≤ L.inFeatures * hist.length ∧ out'.get [b, o] = out.get [b, o] + z * g.lr := by
  obtain ⟨s', h1, h2⟩ := C112_grid s hs hist hh
  obtain ⟨g', p', a1, a2, a3, a4, a5⟩ := h2 gi g hg pi p hp
  rw [hpw] at a4 a5
  obtain ⟨out, o1, o2⟩ := C10_weights_are_values L h hc hl hper hn hx hwf hb sg k hsg hk hnode
  obtain ⟨out', p1, p2⟩ := C10_weights_are_values (L.withW p'.data) (h.withW a4 a3) hc hl hper hn hx hwf hb sg k hsg hk hnode
  refine ⟨s', g', p', out, out', h1, a1, a2, o1, p1, fun o ho => ?_⟩
  rw [o2 o ho, p2 o ho]
  have hin : ∀ i < L.inFeatures, InShape L.w.shape [o, i, sg i * (L.n - 1) + k i] := by
    intro i hi
    have := L.widx_lt h.n_pos (hsg i hi) (hk i hi)
    rw [h.w_shape]
    have hst : L.stride = L.n - 1 := by unfold PwLayer.stride; rw [hc]; rfl
    rw [hst] at this
    exact inShape3.2 ⟨ho, hi, this⟩
  choose! z z1 z2 using fun i (hi : i < L.inFeatures) => a5 _ (hin i hi)
  refine ⟨∑ i ∈ Finset.range L.inFeatures, z i, ?_, ?_⟩
  · refine (Finset.abs_sum_le_sum_abs _ _).trans ((Finset.sum_le_sum fun i hi => z1 i (Finset.mem_range.1 hi)).trans_eq ?_)
    rw [Finset.sum_const, Finset.card_range, nsmul_eq_mul]
  · rw [Int.cast_sum, Finset.sum_mul, ← Finset.sum_add_distrib]
    exact Finset.sum_congr rfl fun i hi => z2 i (Finset.mem_range.1 hi)

/-- **C112 (stuck).** So if the wanted value at such an input lies half way between two grid points, the error there is at least half the learning rate after every training, whatever
gradients were used. -/
theorem C112_stuck (L : PwLayer ℝ) (h : L.WF) (hc : L.cls = .continuous) (hl : L.length = 2) (hper : L.periodicity = none) (hn : 2 ≤ L.n)
    (s : List (LionGroup ℝ)) (hs : LionWF s) {gi pi : ℕ} {g : LionGroup ℝ} {p : LionParam ℝ} (hg : s[gi]? = some g) (hp : g.params[pi]? = some p) (hpw : p.data = L.w)
    (hlr : 0 < g.lr)
    {B : ℕ} {x : Tensor ℝ} (hx : x.shape = [B, L.inFeatures]) (hwf : x.WF) {b : ℕ} (hb : b < B) (sg k : ℕ → ℕ) (hsg : ∀ i < L.inFeatures, sg i < L.segments)
    (hk : ∀ i < L.inFeatures, k i < L.n) (hnode : ∀ i < L.inFeatures, x.get [b, i] = L.xGlobal ((chebyshevLobatto L.n : Tensor ℝ).get [k i]) (sg i))
    {o : ℕ} (ho : o < L.outFeatures) {out : Tensor ℝ} (hout : L.forward x = .ok out) {y : ℝ} (m : ℤ) (hy : y = out.get [b, o] + (m + 1 / 2) * g.lr) :
    ∀ hist : List (ℕ → ℕ → Option (Tensor ℝ)), (∀ gr ∈ hist, GradsFit s gr) →
      ∃ (s' : List (LionGroup ℝ)) (g' : LionGroup ℝ) (p' : LionParam ℝ) (out' : Tensor ℝ), sparseLionRun s hist = .ok s' ∧ s'[gi]? = some g' ∧ g'.params[pi]? = some p' ∧
        ({ L with w := p'.data } : PwLayer ℝ).forward x = .ok out' ∧ g.lr / 2 ≤ |out'.get [b, o] - y| := by
  intro hist hh
  obtain ⟨s', g', p', out0, out', h1, h2, h3, h4, h5, h6⟩ := C112_predictions L h hc hl hper hn s hs hg hp hpw hist hh hx hwf hb sg k hsg hk hnode
  rw [hout] at h4
  cases h4
  obtain ⟨z, _, hz⟩ := h6 o ho
  refine ⟨s', g', p', out', h1, h2, h3, h5, ?_⟩
  rw [hz, hy]
  have e : out.get [b, o] + z * g.lr - (out.get [b, o] + (m + 1 / 2) * g.lr) = ((z : ℝ) - m - 1 / 2) * g.lr := by ring
  rw [e, abs_mul, abs_of_pos hlr]
  have hhalf : (1 : ℝ) / 2 ≤ |(z : ℝ) - m - 1 / 2| := by
    rcases le_or_gt (z - m) 0 with hle | hgt
    · have : (z : ℝ) - m ≤ 0 := by exact_mod_cast hle
      rw [abs_of_nonpos (by linarith)]
      linarith
    · have : (1 : ℝ) ≤ (z : ℝ) - m := by exact_mod_cast hgt
      rw [abs_of_nonneg (by linarith)]
      linarith
  nlinarith

/-- **C112 (speed).** Training is slow: for inputs in `[-1, 1]` the outputs of a sum layer change by at most `Λ · inputs · steps · lr`, where `Λ` depends on the number of nodes only, is 1 for
`n ≤ 2` and at most `√(2n)`. -/
theorem C112_speed (n : ℕ) (hn : 0 < n) : ∃ Λ : ℝ, 0 < Λ ∧ (n ≤ 2 → Λ = 1) ∧ Λ ≤ √(2 * n) ∧ ∀ L : PwLayer ℝ, L.WF → (L.cls = .continuous ∨ L.cls = .discontinuous) →
    L.length = 2 → L.periodicity = none → L.n = n → ∀ s : List (LionGroup ℝ), LionWF s → ∀ (gi pi : ℕ) (g : LionGroup ℝ) (p : LionParam ℝ), s[gi]? = some g → g.params[pi]? = some p → p.data = L.w → 0 ≤ g.lr →
    ∀ hist : List (ℕ → ℕ → Option (Tensor ℝ)), (∀ gr ∈ hist, GradsFit s gr) → ∀ (B : ℕ) (x : Tensor ℝ), x.shape = [B, L.inFeatures] → x.WF → InRange x B L.inFeatures →
      ∃ (s' : List (LionGroup ℝ)) (g' : LionGroup ℝ) (p' : LionParam ℝ) (out out' : Tensor ℝ), sparseLionRun s hist = .ok s' ∧ s'[gi]? = some g' ∧ g'.params[pi]? = some p' ∧
        L.forward x = .ok out ∧ ({ L with w := p'.data } : PwLayer ℝ).forward x = .ok out' ∧
        ∀ b < B, ∀ o < L.outFeatures, |out'.get [b, o] - out.get [b, o]| ≤ Λ * (L.inFeatures * hist.length * g.lr) := by
  obtain ⟨Λ, c1, c2, c3, c4⟩ := C90_sum_layers n hn
  refine ⟨Λ, c1, c2, c3, fun L h hc hl hper hLn s hs gi pi g p hg hp hpw hlr hist hh B x hx hwf hr => ?_⟩
  obtain ⟨s', h1, h2⟩ := C112_grid s hs hist hh
  obtain ⟨g', p', a1, a2, a3, a4, a5⟩ := h2 gi g hg pi p hp
  rw [hpw] at a4 a5
  obtain ⟨out, out', o1, o2, o3⟩ := c4 L (L.withW p'.data) h (h.withW a4 a3) ⟨rfl, rfl, rfl, rfl, rfl, rfl, rfl⟩ hc hl hper hLn (fun _ _ => hist.length * g.lr) (by
    intro o ho i hi r hr
    obtain ⟨z, z1, z2⟩ := a5 [o, i, r] (by rw [h.w_shape]; exact inShape3.2 ⟨ho, hi, hr⟩)
    show |p'.data.get [o, i, r] - L.w.get [o, i, r]| ≤ _
    rw [z2, add_sub_cancel_left, abs_mul, abs_of_nonneg hlr]
    refine mul_le_mul_of_nonneg_right ?_ hlr
    have : |(z : ℝ)| = ((|z| : ℤ) : ℝ) := by push_cast; rfl
    rw [this]
    exact_mod_cast z1) B x hx hwf hr
  refine ⟨s', g', p', out, out', h1, a1, a2, o1, o2, fun b hb o ho => ?_⟩
  have := o3 b hb o ho
  rw [Finset.sum_const, Finset.card_range, nsmul_eq_mul] at this
  rw [mul_assoc (L.inFeatures : ℝ)]
  exact this

/-! ## examples -/

/-- The weights of a line through zero in one group. -/
noncomputable def exGridState : List (LionGroup ℝ) := [⟨1 / 10, 0, 9 / 10, 99 / 100, [⟨(lineLayer 1 fun _ => 0).w, none, none⟩]⟩]

theorem exGridState_wf : LionWF exGridState := by
  intro g hg p hp
  simp only [exGridState, List.mem_singleton] at hg
  subst hg
  simp only [List.mem_singleton] at hp
  subst hp
  exact ⟨Tensor.wf_tabulate _ _, by simp, by simp⟩

/-- With learning rate 1/10 a line that starts at zero never gets closer than 1/20 to the value 1/4 at the left end. -/
example (hist : List (ℕ → ℕ → Option (Tensor ℝ))) (hh : ∀ gr ∈ hist, GradsFit exGridState gr) :
    ∃ (s' : List (LionGroup ℝ)) (g' : LionGroup ℝ) (p' : LionParam ℝ) (out' : Tensor ℝ), sparseLionRun exGridState hist = .ok s' ∧ s'[0]? = some g' ∧ g'.params[0]? = some p' ∧
      ({ lineLayer 1 (fun _ => 0) with w := p'.data } : PwLayer ℝ).forward (Tensor.tab2 1 1 fun _ _ => -1) = .ok out' ∧ 1 / 20 ≤ |out'.get [0, 0] - 1 / 4| := by
  have hwf := lineLayer_wf (S := 1) one_pos fun _ => 0
  have hnode : (Tensor.tab2 1 1 fun _ _ => (-1 : ℝ)).get [0, 0] = (lineLayer 1 fun _ => 0).xGlobal ((chebyshevLobatto 2 : Tensor ℝ).get [0]) 0 := by
    rw [Tensor.get_tab2 one_pos one_pos, chebyshev_get (by norm_num), node_zero le_rfl]
    norm_num [PwLayer.xGlobal, PwLayer.eta, PwLayer.half, lineLayer]
  have hn : ∀ i < (lineLayer 1 fun _ => 0).inFeatures, (Tensor.tab2 1 1 fun _ _ => (-1 : ℝ)).get [0, i] = (lineLayer 1 fun _ => 0).xGlobal ((chebyshevLobatto 2 : Tensor ℝ).get [0]) 0 := by
    intro i hi
    have : i = 0 := by have : i < 1 := hi; omega
    subst this
    exact hnode
  obtain ⟨out, o1, o2⟩ := C10_weights_are_values (lineLayer 1 fun _ => 0) hwf rfl rfl rfl le_rfl (B := 1) (x := Tensor.tab2 1 1 fun _ _ => -1) rfl (Tensor.wf_tabulate _ _) (b := 0) one_pos
    (fun _ => 0) (fun _ => 0) (fun _ _ => one_pos) (fun _ _ => two_pos) hn
  have h0 : out.get [0, 0] = 0 := by
    rw [o2 0 one_pos]
    refine Finset.sum_eq_zero fun i hi => ?_
    exact Tensor.get_tab3 (f := fun _ _ _ => (0 : ℝ)) one_pos (Finset.mem_range.1 hi) (by norm_num)
  obtain ⟨s', g', p', out', h1, h2, h3, h4, h5⟩ := C112_stuck (lineLayer 1 fun _ => 0) hwf rfl rfl rfl le_rfl exGridState exGridState_wf (gi := 0) (pi := 0) rfl rfl rfl (by norm_num) (B := 1)
    (x := Tensor.tab2 1 1 fun _ _ => -1) rfl (Tensor.wf_tabulate _ _) (b := 0) one_pos (fun _ => 0) (fun _ => 0) (fun _ _ => one_pos) (fun _ _ => two_pos) hn (o := 0) one_pos o1
    (y := 1 / 4) 2 (by rw [h0]; norm_num) hist hh
  refine ⟨s', g', p', out', h1, h2, h3, h4, le_trans ?_ h5⟩
  norm_num

end HOL
