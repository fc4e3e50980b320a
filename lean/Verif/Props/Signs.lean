import Verif.Lemmas.SignLayers
import Verif.Props.Renumber

/-! # C135: the signs of the units of a network do not matter -/

namespace HOL
open TorchScalar Spec

/-- **C135 (layers).** Change the sign of any inputs and outputs of a layer, and put the numbers of the links of these inputs in the opposite order (piecewise continuous and polynomial layers) or change the sign of the
coefficients of sines (Fourier layers) or of the weights (linear and product layers), and change the sign of the weights of these outputs: the layer computes the same up to the signs. The outputs of layers of products keep their signs.
With or without periodicity; for all inputs, also outside `[-1, 1]` and at the ends of segments. -/
theorem C135_layer {l : GLayer ℝ} {I O : ℕ} (hf : l.Fits I O) (σ : ℕ → Bool) {ρ : ℕ → Bool} (ht : l.TakesSigns ρ) {B : ℕ} {x : Tensor ℝ} (hx : x.shape = [B, I]) (hwx : x.WF) :
    ∃ y, l.forward x = .ok y ∧ y.shape = [B, O] ∧ y.WF ∧ (l.sign σ ρ).forward (signed σ x) = .ok (signed ρ y) :=
  layer_answers hf ht σ B x hx hwx

/-- **C135 (discontinuous layers).** The same for discontinuous layers, if no input with changed sign is the common end of two segments. -/
theorem C135_discontinuous {L : PwLayer ℝ} (h : L.WF) (hl : L.length = 2) (hp : ∀ p, L.periodicity = some p → 0 < p) (σ ρ : ℕ → Bool) (hc : L.cls = .discontinuous ∨ L.cls = .discontinuousProd ∧ ρ = fun _ => false)
    {B : ℕ} {x : Tensor ℝ} (hx : x.shape = [B, L.inFeatures]) (hwx : x.WF) (hv : ∀ b < B, ∀ i < L.inFeatures, σ i = true → OffEnds L.segments (periodize L.periodicity (x.get [b, i]))) :
    ∃ y, L.forward x = .ok y ∧ y.shape = [B, L.outFeatures] ∧ y.WF ∧ ({ L with w := signLinks σ ρ L.w } : PwLayer ℝ).forward (signed σ x) = .ok (signed ρ y) := by
  obtain hc | ⟨hc, rfl⟩ := hc
  · exact pw_sum_answer h (Or.inr hc) hl hp σ ρ hx hwx (Or.inr hv)
  · exact pw_prod_answer h (Or.inr hc) hl hp σ hx hwx (Or.inr hv)

theorem zip_answers (f : ℝ → ℝ → ℝ) {u v : Tensor ℝ} {μ ν ρ : ℕ → Bool} {B O : ℕ} (hf : ∀ o a b, f (sg (μ o) * a) (sg (ν o) * b) = sg (ρ o) * f a b) (hu : u.shape = [B, O]) (hv : v.shape = [B, O]) :
    zipBcast f u v = .ok (Tensor.tab2 B O fun b o => f (u.get [b, o]) (v.get [b, o])) ∧
      zipBcast f (signed μ u) (signed ν v) = .ok (signed ρ (Tensor.tab2 B O fun b o => f (u.get [b, o]) (v.get [b, o]))) := by
  refine ⟨zipBcast_same f hu hv, ?_⟩
  rw [zipBcast_same f (s := signed μ u) (t := signed ν v) hu hv, signed_tab2]
  congr 1
  refine tab2_congr fun b hb o ho => ?_
  rw [signed_get hu hb ho, signed_get hv hb ho, hf]

theorem expr_answers {s t : ℕ → GLayer ℝ} {B : ℕ} : ∀ (e : GExpr ℝ) {σ ρ : ℕ → Bool} {I O : ℕ}, e.SignChange s t B σ ρ I O → Answers (e.forward s) (e.forward t) σ ρ B I O
  | .leaf j, σ, ρ, I, O, h => by
    show Answers (s j).forward (t j).forward σ ρ B I O
    rw [h.2.2]
    exact layer_answers h.1 h.2.1 σ B
  | .fixed (.norm N), σ, ρ, I, O, h => by
    obtain ⟨h1, rfl, h3, rfl⟩ := h
    exact norm_answers h3 h1 σ
  | .comp a b, σ, ρ, I, O, ⟨μ, M, h1, h2⟩ => by
    intro x hx hwx
    obtain ⟨y, a1, a2, a3, a4⟩ := expr_answers a h1 x hx hwx
    obtain ⟨z, b1, b2, b3, b4⟩ := expr_answers b h2 y a2 a3
    refine ⟨z, ?_, b2, b3, ?_⟩
    · show (a.forward s x >>= fun y => b.forward s y) = _
      rw [a1]; exact b1
    · show (a.forward t _ >>= fun y => b.forward t y) = _
      rw [a4]; exact b4
  | .add a b, σ, ρ, I, O, ⟨h1, h2⟩ => by
    intro x hx hwx
    obtain ⟨y, a1, a2, a3, a4⟩ := expr_answers a h1 x hx hwx
    obtain ⟨z, b1, b2, b3, b4⟩ := expr_answers b h2 x hx hwx
    obtain ⟨z1, z2⟩ := zip_answers (· + ·) (ρ := ρ) (fun o a b => (mul_add _ a b).symm) a2 b2
    refine ⟨_, ?_, rfl, Tensor.wf_tab2 B O fun b o => y.get [b, o] + z.get [b, o], ?_⟩
    · show (a.forward s x >>= fun u => b.forward s x >>= fun v => zipBcast (· + ·) u v) = _
      rw [a1, b1]; exact z1
    · show (a.forward t _ >>= fun u => b.forward t _ >>= fun v => zipBcast (· + ·) u v) = _
      rw [a4, b4]; exact z2
  | .mul a b, σ, ρ, I, O, ⟨μ, ν, h1, h2, h3⟩ => by
    intro x hx hwx
    obtain ⟨y, a1, a2, a3, a4⟩ := expr_answers a h1 x hx hwx
    obtain ⟨z, b1, b2, b3, b4⟩ := expr_answers b h2 x hx hwx
    obtain ⟨z1, z2⟩ := zip_answers (· * ·) (μ := μ) (ν := ν) (ρ := ρ) (fun o a b => by rw [h3, sg_xor]; ring) a2 b2
    refine ⟨_, ?_, rfl, Tensor.wf_tab2 B O fun b o => y.get [b, o] * z.get [b, o], ?_⟩
    · show (a.forward s x >>= fun u => b.forward s x >>= fun v => zipBcast (· * ·) u v >>= fun r => if r.shape = u.shape then Except.ok r else Except.error .runtimeError) = _
      rw [a1, b1]
      show (zipBcast (· * ·) y z >>= fun r => if r.shape = y.shape then Except.ok r else Except.error .runtimeError) = _
      rw [z1]
      exact if_pos a2.symm
    · show (a.forward t _ >>= fun u => b.forward t _ >>= fun v => zipBcast (· * ·) u v >>= fun r => if r.shape = u.shape then Except.ok r else Except.error .runtimeError) = _
      rw [a4, b4]
      show (zipBcast (· * ·) (signed μ y) (signed ν z) >>= fun r => if r.shape = y.shape then Except.ok r else Except.error .runtimeError) = _
      rw [z2]
      exact if_pos a2.symm

/-- **C135 (networks of modules).** Change signs of units anywhere in a network — also with sums and products of modules (the sign of a product is the product of the signs), modules used several times, max-abs and L2 normalizations — and the
weights of the modules accordingly: the network computes the same up to the signs of its inputs and outputs. -/
theorem C135_expression {s t : ℕ → GLayer ℝ} {B : ℕ} {e : GExpr ℝ} {σ ρ : ℕ → Bool} {I O : ℕ} (h : e.SignChange s t B σ ρ I O) {x : Tensor ℝ} (hx : x.shape = [B, I]) (hwx : x.WF) :
    ∃ y, e.forward s x = .ok y ∧ y.shape = [B, O] ∧ y.WF ∧ e.forward t (signed σ x) = .ok (signed ρ y) :=
  expr_answers e h x hx hwx

/-! ## the hypotheses are needed -/

/-- One discontinuous link of two constant pieces. -/
noncomputable def exJump (w : Tensor ℝ) : PwLayer ℝ := { cls := .discontinuous, n := 1, segments := 2, inFeatures := 1, outFeatures := 1, length := 2, periodicity := none, w := w }

theorem exJump_wf {w : Tensor ℝ} (hs : w.shape = [1, 1, 2]) (hw : w.WF) : (exJump w).WF := ⟨Nat.one_pos, Nat.two_pos, Nat.one_pos, Nat.one_pos, hs, hw⟩

theorem jump_at_zero {w : Tensor ℝ} (hs : w.shape = [1, 1, 2]) (hw : w.WF) : (exJump w).forward (Tensor.tab2 1 1 fun _ _ => 0) = .ok (Tensor.tab2 1 1 fun _ _ => w.get [0, 0, 1]) := by
  refine (PwLayer.forward_sum (x := Tensor.tab2 1 1 fun _ _ => 0) _ (exJump_wf hs hw) (Or.inr rfl) (B := 1) rfl (Tensor.wf_tabulate _ _)).trans ?_
  congr 1
  refine tab2_congr fun b hb o ho => ?_
  obtain rfl : b = 0 := by omega
  have ho : o < 1 := ho
  obtain rfl : o = 0 := by omega
  show ∑ i ∈ Finset.range 1, _ = _
  rw [Finset.sum_range_one, Tensor.get_tab2 (by norm_num) (by norm_num)]
  have ha : IsActive 2 1 0 := ⟨by norm_num, Or.inr (by norm_num [segLeft]), Or.inl rfl⟩
  have e := (exJump w).linkFn_isPiecewise Nat.two_pos rfl rfl 0 0 1 0 ha
  refine e.trans ?_
  exact linkPoly_one_eval _ _

/-- At the common end of two segments of a discontinuous layer, which belongs to the right one, the sign matters: a link that is 0 on the left and 1 on the right has the value 1 at 0; in the opposite order it has the value 0 there. -/
theorem C135_common_end : ∃ (L : PwLayer ℝ) (x y y' : Tensor ℝ) (σ ρ : ℕ → Bool), L.WF ∧ L.cls = .discontinuous ∧ L.length = 2 ∧ L.periodicity = none ∧ x.shape = [1, L.inFeatures] ∧ x.WF ∧
    L.forward x = .ok y ∧ ({ L with w := signLinks σ ρ L.w } : PwLayer ℝ).forward (signed σ x) = .ok y' ∧ y' ≠ signed ρ y := by
  obtain ⟨w, hw⟩ : ∃ w : Tensor ℝ, w = Tensor.tab3 1 1 2 fun _ _ r => (r : ℝ) := ⟨_, rfl⟩
  have hs : w.shape = [1, 1, 2] := by rw [hw]; rfl
  have hwf : w.WF := by rw [hw]; exact Tensor.wf_tabulate _ _
  have hx : signed (fun _ => true) (Tensor.tab2 1 1 fun _ _ => (0 : ℝ)) = Tensor.tab2 1 1 fun _ _ => (0 : ℝ) := by
    rw [signed_tab2]
    exact tab2_congr fun _ _ _ _ => mul_zero _
  refine ⟨exJump w, Tensor.tab2 1 1 fun _ _ => 0, Tensor.tab2 1 1 fun _ _ => w.get [0, 0, 1], Tensor.tab2 1 1 fun _ _ => (signLinks (fun _ => true) (fun _ => false) w).get [0, 0, 1], fun _ => true, fun _ => false,
    exJump_wf hs hwf, rfl, rfl, rfl, rfl, Tensor.wf_tabulate _ _, jump_at_zero hs hwf, ?_, ?_⟩
  · rw [hx]
    exact jump_at_zero (w := signLinks (fun _ => true) (fun _ => false) w) hs (signLinks_wf _ _ _)
  · intro h
    have := congrArg (fun t : Tensor ℝ => t.get [0, 0]) h
    have e1 : (signLinks (fun _ => true) (fun _ => false) w).get [0, 0, 1] = 0 := by
      rw [signLinks_get (O := 1) (I := 1) (S := 2) hs (by norm_num) (by norm_num) (by norm_num), sg_false, one_mul, hw]
      show (Tensor.tab3 1 1 2 fun _ _ r => (r : ℝ)).get [0, 0, 0] = 0
      exact (Tensor.get_tab3 (by norm_num) (by norm_num) (by norm_num)).trans (by norm_num)
    have e2 : w.get [0, 0, 1] = 1 := by
      rw [hw]
      exact (Tensor.get_tab3 (by norm_num) (by norm_num) (by norm_num)).trans (by norm_num)
    rw [signed_tab2] at this
    rw [Tensor.get_tab2 (by norm_num) (by norm_num), Tensor.get_tab2 (by norm_num) (by norm_num), e1, e2] at this
    norm_num [sg] at this

/-- `relu` does not change its sign with its input. -/
theorem C135_relu : ∃ (x : Tensor ℝ) (σ : ℕ → Bool), x.shape = [1, 1] ∧ x.WF ∧ ∀ ρ : ℕ → Bool, reluT (signed σ x) ≠ signed ρ (reluT x) := by
  refine ⟨Tensor.tab2 1 1 fun _ _ => 1, fun _ => true, rfl, Tensor.wf_tabulate _ _, fun ρ h => ?_⟩
  have := congrArg (fun t : Tensor ℝ => t.get [0, 0]) h
  have e1 : (reluT (signed (fun _ => true) (Tensor.tab2 1 1 fun _ _ => (1 : ℝ)))).get [0, 0] = 0 := by
    unfold reluT
    rw [signed_tab2, Tensor.get_map (Tensor.wf_tab2 _ _ _) (show InShape [1, 1] [0, 0] from inShape2.2 ⟨by norm_num, by norm_num⟩), Tensor.get_tab2 (by norm_num) (by norm_num)]
    norm_num [sg]
  have e2 : (signed ρ (reluT (Tensor.tab2 1 1 fun _ _ => (1 : ℝ)))).get [0, 0] = sg (ρ 0) := by
    rw [signed_get (B := 1) (I := 1) rfl (by norm_num) (by norm_num)]
    unfold reluT
    rw [Tensor.get_map (Tensor.wf_tab2 _ _ _) (show InShape [1, 1] [0, 0] from inShape2.2 ⟨by norm_num, by norm_num⟩), Tensor.get_tab2 (by norm_num) (by norm_num)]
    norm_num
  have e3 : (0 : ℝ) = sg (ρ 0) := by rw [← e1, ← e2]; exact this
  cases hρ : ρ 0 <;> rw [hρ] at e3 <;> norm_num [sg] at e3

end HOL
