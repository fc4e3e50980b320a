import Verif.Model.ConvOptions
import Verif.Lemmas.ConvReal

/-! # Convolutions with groups and padding modes: entries of the outputs -/

set_option linter.unusedSectionVars false

namespace HOL
open TorchScalar
variable {K : Type} [TorchScalar K]

theorem PadMode.source_lt {m : PadMode} {n p q : ℕ} (hm : m ≠ .zeros) (ha : m.accepts n p = true) (hq : q < n + 2 * p) : m.source n p q < n := by
  cases m with
  | zeros => exact absurd rfl hm
  | reflect =>
    simp only [PadMode.accepts, decide_eq_true_eq] at ha
    simp only [PadMode.source]
    split
    · omega
    · split <;> omega
  | replicate =>
    simp only [PadMode.accepts, decide_eq_true_eq] at ha
    simp only [PadMode.source]
    split
    · omega
    · split <;> omega
  | circular =>
    simp only [PadMode.accepts, Bool.and_eq_true, decide_eq_true_eq] at ha
    exact Nat.mod_lt _ ha.2

namespace OptConvLayer

theorem group_lt {G Og Cc r q : ℕ} (hr : r < G * Og) (hq : q < Cc) : r / Og * Cc + q < G * Cc := by
  have h : r / Og < G := Nat.div_lt_of_lt_mul (by rw [Nat.mul_comm]; exact hr)
  have : (r / Og + 1) * Cc ≤ G * Cc := Nat.mul_le_mul_right _ h
  rw [Nat.add_mul] at this
  omega

theorem groups_div {G Og : ℕ} (hG : 0 < G) : G * Og / G = Og := Nat.mul_div_cancel_left _ hG

theorem forward2_ok (L : OptConvLayer K) (hk : L.base.kind = .conv2d) (hm : L.mode = .zeros) (he : L.base.expander.Fits .two)
    {B C G Og Cc H W oh ow : ℕ} {x : Tensor K} (hG : L.groups = G) (hG0 : 0 < G)
    (hx : x.WF) (hs : x.shape = [B, C, H, W]) (hc : C * L.base.expander.variables = G * Cc)
    (hw : L.base.weight.shape = [G * Og, Cc, L.base.geometry.kernel, L.base.geometry.kernel])
    (h1 : convSize L.base.geometry H = .ok oh) (h2 : convSize L.base.geometry W = .ok ow) :
    L.forward x = .ok (Tensor.tab4 B (G * Og) oh ow fun s r i j =>
      sumL ((List.range Cc).flatMap fun q => (List.range L.base.geometry.kernel).flatMap fun d =>
        (List.range L.base.geometry.kernel).map fun e =>
          ((tap L.base.geometry H i d).elim 0 fun y => (tap L.base.geometry W j e).elim 0 fun z =>
            L.base.chan (r / Og * Cc + q) (x.get [s, (r / Og * Cc + q) / L.base.expander.variables, y, z])) * L.base.weight.get [r, q, d, e]) * L.base.rescale) := by
  obtain ⟨T, t1, t2, t3⟩ := L.base.expanded2 he hx hs
  unfold forward conv groupedConv2d
  rw [hk]
  simp only [bind, Except.bind, t1, t2, hw, hm, hG, if_true, ne_eq, hG0.ne', not_false_eq_true, Nat.mul_mod_right, hc, and_self, h1, h2, ConvLayer.map_tab4, groups_div hG0]
  congr 1
  apply tab4_congr
  intro s hs' r hr i _ j _
  congr 2
  apply List.flatMap_congr
  intro q hq
  apply List.flatMap_congr
  intro d _
  apply List.map_congr_left
  intro e _
  congr 1
  apply elim_congr
  intro y hy
  apply elim_congr
  intro z hz
  exact t3 s hs' _ (by rw [hc]; exact group_lt hr (List.mem_range.1 hq)) y (tap_lt hy) z (tap_lt hz)

theorem forward1_ok (L : OptConvLayer K) (hk : L.base.kind = .conv1d) (hm : L.mode = .zeros) (he : L.base.expander.Fits .one)
    {B C G Og Cc H oh : ℕ} {x : Tensor K} (hG : L.groups = G) (hG0 : 0 < G)
    (hx : x.WF) (hs : x.shape = [B, C, H]) (hc : C * L.base.expander.variables = G * Cc)
    (hw : L.base.weight.shape = [G * Og, Cc, L.base.geometry.kernel])
    (h1 : convSize L.base.geometry H = .ok oh) :
    L.forward x = .ok (Tensor.tab3 B (G * Og) oh fun s r i =>
      sumL ((List.range Cc).flatMap fun q => (List.range L.base.geometry.kernel).map fun d =>
          ((tap L.base.geometry H i d).elim 0 fun y =>
            L.base.chan (r / Og * Cc + q) (x.get [s, (r / Og * Cc + q) / L.base.expander.variables, y])) * L.base.weight.get [r, q, d]) * L.base.rescale) := by
  obtain ⟨T, t1, t2, t3⟩ := L.base.expanded1 he hx hs
  unfold forward conv groupedConv1d
  rw [hk]
  simp only [bind, Except.bind, t1, t2, hw, hm, hG, if_true, ne_eq, hG0.ne', not_false_eq_true, Nat.mul_mod_right, hc, and_self, h1, ConvLayer.map_tab3, groups_div hG0]
  congr 1
  apply tab3_congr
  intro s hs' r hr i _
  congr 2
  apply List.flatMap_congr
  intro q hq
  apply List.map_congr_left
  intro d _
  congr 1
  apply elim_congr
  intro y hy
  exact t3 s hs' _ (by rw [hc]; exact group_lt hr (List.mem_range.1 hq)) y (tap_lt hy)

theorem forwardT_ok (L : OptConvLayer K) (hk : L.base.kind = .convTranspose2d) (he : L.base.expander.Fits .two)
    {B C G Og Cc H W oh ow : ℕ} {x : Tensor K} (hG : L.groups = G) (hG0 : 0 < G)
    (hx : x.WF) (hs : x.shape = [B, C, H, W]) (hc : C * L.base.expander.variables = G * Cc)
    (hw : L.base.weight.shape = [G * Cc, Og, L.base.geometry.kernel, L.base.geometry.kernel])
    (h1 : convTransposeSize L.base.geometry H = .ok oh) (h2 : convTransposeSize L.base.geometry W = .ok ow) :
    L.forward x = .ok (Tensor.tab4 B (G * Og) oh ow fun s r i j =>
      sumL ((List.range Cc).flatMap fun q => (List.range L.base.geometry.kernel).flatMap fun d =>
        (List.range L.base.geometry.kernel).map fun e =>
          ((tapTranspose L.base.geometry H i d).elim 0 fun y => (tapTranspose L.base.geometry W j e).elim 0 fun z =>
            L.base.chan (r / Og * Cc + q) (x.get [s, (r / Og * Cc + q) / L.base.expander.variables, y, z])) *
            L.base.weight.get [r / Og * Cc + q, r % Og, d, e]) * L.base.rescale) := by
  obtain ⟨T, t1, t2, t3⟩ := L.base.expanded2 he hx hs
  unfold forward conv groupedConvTranspose2d
  rw [hk]
  simp only [bind, Except.bind, t1, t2, hw, hG, hc, if_true, ne_eq, hG0.ne', not_false_eq_true, Nat.mul_mod_right, and_self, h1, h2, ConvLayer.map_tab4, groups_div hG0]
  congr 1
  apply tab4_congr
  intro s hs' r hr i _ j _
  congr 2
  apply List.flatMap_congr
  intro q hq
  apply List.flatMap_congr
  intro d _
  apply List.map_congr_left
  intro e _
  congr 1
  apply elim_congr
  intro y hy
  apply elim_congr
  intro z hz
  exact t3 s hs' _ (by rw [hc]; exact group_lt hr (List.mem_range.1 hq)) y (tapTranspose_lt hy) z (tapTranspose_lt hz)

end OptConvLayer
end HOL
