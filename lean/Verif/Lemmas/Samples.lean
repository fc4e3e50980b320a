import Verif.Spec.Samples
import Verif.Model.ImageExamples
import Verif.Lemmas.ConvNet
import Verif.Props.Norm
import Verif.Props.Pieces

/-! # Functions that treat the samples of a batch separately -/

namespace HOL
open TorchScalar Spec

set_option linter.unusedSectionVars false
variable {K : Type} [TorchScalar K]

theorem Spec.SampleMap.comp {f g : Fwd K} {s t u : List ℕ} (hf : SampleMap f s t) (hg : SampleMap g t u) : SampleMap (fun x => do g (← f x)) s u := by
  constructor
  · intro B x hB hx hs
    obtain ⟨y, y1, y2, y3⟩ := hf.accepts B x hB hx hs
    obtain ⟨z, z1, z2, z3⟩ := hg.accepts B y hB y2 y3
    exact ⟨z, by simp only [y1, bind, Except.bind, z1], z2, z3⟩
  · intro B B' x x' z z' b b' hb hb' hx hx' hs hs' hz hz' he
    obtain ⟨y, y1, y2, y3⟩ := hf.accepts B x (by omega) hx hs
    obtain ⟨y', y1', y2', y3'⟩ := hf.accepts B' x' (by omega) hx' hs'
    simp only [y1, bind, Except.bind] at hz
    simp only [y1', bind, Except.bind] at hz'
    exact hg.own B B' y y' z z' b b' hb hb' y2 y2' y3 y3' hz hz' (hf.own B B' x x' y y' b b' hb hb' hx hx' hs hs' y1 y1' he)

theorem Spec.SampleMap.congr {f g : Fwd K} {s t : List ℕ} (hf : SampleMap f s t) (h : ∀ B (x : Tensor K), 1 ≤ B → x.WF → x.shape = B :: s → g x = f x) : SampleMap g s t := by
  constructor
  · intro B x hB hx hs
    rw [h B x hB hx hs]
    exact hf.accepts B x hB hx hs
  · intro B B' x x' z z' b b' hb hb' hx hx' hs hs' hz hz' he
    rw [h B x (by omega) hx hs] at hz
    rw [h B' x' (by omega) hx' hs'] at hz'
    exact hf.own B B' x x' z z' b b' hb hb' hx hx' hs hs' hz hz' he

/-- Entrywise functions. -/
theorem sampleMap_map (g : K → K) (s : List ℕ) : SampleMap (fun x => .ok (x.map g)) s s := by
  constructor
  · intro B x _ hx hs
    exact ⟨_, rfl, Tensor.wf_map hx _, hs⟩
  · intro B B' x x' y y' b b' hb hb' hx hx' hs hs' hy hy' he i hi
    cases hy
    cases hy'
    rw [Tensor.get_map hx (by rw [hs]; exact ⟨hb, hi⟩), Tensor.get_map hx' (by rw [hs']; exact ⟨hb', hi⟩), he i hi]

theorem sampleMap_relu (s : List ℕ) : SampleMap (K := K) (fun x => .ok (reluT x)) s s := sampleMap_map _ s

/-- A function given by a formula for the entries of `[c, h, w]` samples. -/
theorem sampleMap_of_tab4 {f : Fwd K} {C H W O P Q : ℕ} (F : (ℕ → ℕ → ℕ → K) → ℕ → ℕ → ℕ → K)
    (hloc : ∀ u v : ℕ → ℕ → ℕ → K, (∀ c < C, ∀ y < H, ∀ z < W, u c y z = v c y z) → F u = F v)
    (hf : ∀ B (x : Tensor K), x.WF → x.shape = [B, C, H, W] → f x = .ok (Tensor.tab4 B O P Q fun s => F fun c y z => x.get [s, c, y, z])) : SampleMap f [C, H, W] [O, P, Q] := by
  constructor
  · intro B x _ hx hs
    exact ⟨_, hf B x hx hs, Tensor.wf_tab4 _ _ _ _ _, rfl⟩
  · intro B B' x x' y y' b b' hb hb' hx hx' hs hs' hy hy' he i hi
    rw [hf B x hx hs] at hy
    rw [hf B' x' hx' hs'] at hy'
    cases hy
    cases hy'
    match i, hi with
    | [r, p, q], ⟨hr, hp, hq, _⟩ =>
      rw [Tensor.get_tab4 hb hr hp hq, Tensor.get_tab4 hb' hr hp hq]
      rw [hloc _ (fun c y z => x'.get [b', c, y, z]) fun c hc y hy z hz => he [c, y, z] ⟨hc, hy, hz, trivial⟩]

theorem ConvLayer.Between.sampleMap {L : ConvLayer K} {C O k s p : ℕ} (h : L.Between .two C O k s p) (hk : 1 ≤ k) (hs : 1 ≤ s) {H W : ℕ} (hH : k ≤ H + 2 * p)
    (hW : k ≤ W + 2 * p) : SampleMap L.forward [C, H, W] [O, convOut k s p H, convOut k s p W] := by
  have hg := h.geometry
  refine sampleMap_of_tab4 (fun u r i j =>
      sumL ((List.range (C * L.expander.variables)).flatMap fun q => (List.range L.geometry.kernel).flatMap fun d =>
        (List.range L.geometry.kernel).map fun e =>
          ((tap L.geometry H i d).elim 0 fun y => (tap L.geometry W j e).elim 0 fun z =>
            L.chan q (u (q / L.expander.variables) y z)) * L.weight.get [r, q, d, e]) * L.rescale) ?_ ?_
  · intro u v huv
    funext r i j
    congr 2
    apply List.flatMap_congr
    intro q hq
    apply List.flatMap_congr
    intro d _
    apply List.map_congr_left
    intro e _
    congr 1
    apply elim_congr
    intro y hy
    apply elim_congr
    intro z hz
    rw [huv _ (Nat.div_lt_of_lt_mul (by rw [Nat.mul_comm]; exact List.mem_range.1 hq)) _ (tap_lt hy) _ (tap_lt hz)]
  · intro B x hx hsh
    exact L.forward2_ok (by simpa using h.kind) h.expander hx hsh (by rw [hg]; simpa using h.weight)
      (by rw [hg]; exact convSize_plain hk hs hH) (by rw [hg]; exact convSize_plain hk hs hW)

theorem sampleMap_plain {w b : Tensor K} {C O k H W : ℕ} (hw : w.shape = [O, C, k, k]) (hk : 1 ≤ k) (hH : k ≤ H) (hW : k ≤ W) :
    SampleMap (fun x => conv2dBias (kernelOnly k) w b x) [C, H, W] [O, H - k + 1, W - k + 1] := by
  have c1 : convSize (kernelOnly k) H = .ok (H - k + 1) := by
    have := convSize_plain (k := k) (s := 1) (p := 0) (w := H) hk le_rfl (by omega)
    simpa [convOut, kernelOnly] using this
  have c2 : convSize (kernelOnly k) W = .ok (W - k + 1) := by
    have := convSize_plain (k := k) (s := 1) (p := 0) (w := W) hk le_rfl (by omega)
    simpa [convOut, kernelOnly] using this
  refine sampleMap_of_tab4 (fun u r i j => sumL ((List.range C).flatMap fun q => (List.range k).flatMap fun d => (List.range k).map fun e =>
          ((tap (kernelOnly k) H i d).elim 0 fun y => (tap (kernelOnly k) W j e).elim 0 fun z => u q y z) * w.get [r, q, d, e]) + b.get [r]) ?_ ?_
  · intro u v huv
    funext r i j
    congr 2
    apply List.flatMap_congr
    intro q hq
    apply List.flatMap_congr
    intro d _
    apply List.map_congr_left
    intro e _
    congr 1
    apply elim_congr
    intro y hy
    apply elim_congr
    intro z hz
    exact huv _ (List.mem_range.1 hq) _ (tap_lt hy) _ (tap_lt hz)
  · intro B x hx hsh
    unfold conv2dBias conv2d
    simp only [hsh, hw, kernelOnly, and_self, if_true, bind, Except.bind]
    have c1' : convSize ⟨k, 1, 0, 1, 0⟩ H = .ok (H - k + 1) := c1
    have c2' : convSize ⟨k, 1, 0, 1, 0⟩ W = .ok (W - k + 1) := c2
    simp only [c1', c2']
    show Except.ok _ = _
    congr 1
    apply tab4_congr
    intro s hs r hr i hi j hj
    rw [Tensor.get_tab4 hs hr hi hj]

theorem sampleMap_pool (f : List K → K) {C H W : ℕ} (hH : 2 ≤ H) (hW : 2 ≤ W) : SampleMap (fun x => pool22 f x) [C, H, W] [C, H / 2, W / 2] := by
  constructor
  · intro B x _ hx hs
    unfold pool22
    rw [hs]
    have : ¬ (H / 2 = 0 ∨ W / 2 = 0) := by omega
    simp only [this, if_false]
    exact ⟨_, rfl, Tensor.wf_tab4 _ _ _ _ _, rfl⟩
  · intro B B' x x' y y' b b' hb hb' hx hx' hs hs' hy hy' he i hi
    have : ¬ (H / 2 = 0 ∨ W / 2 = 0) := by omega
    unfold pool22 at hy hy'
    rw [hs] at hy
    rw [hs'] at hy'
    simp only [this, if_false] at hy hy'
    cases hy
    cases hy'
    match i, hi with
    | [c, p, q], ⟨hc, hp, hq, _⟩ =>
      rw [Tensor.get_tab4 hb hc hp hq, Tensor.get_tab4 hb' hc hp hq]
      have e : ∀ y z, y < H → z < W → x.get [b, c, y, z] = x'.get [b', c, y, z] := fun y z hy hz => he [c, y, z] ⟨hc, hy, hz, trivial⟩
      rw [e _ _ (by omega) (by omega), e _ _ (by omega) (by omega), e _ _ (by omega) (by omega), e _ _ (by omega) (by omega)]

theorem sampleMap_flatten (s : List ℕ) : SampleMap (K := K) (fun x => flattenRows x) s [numel s] := by
  constructor
  · intro B x hB hx hs
    refine ⟨_, flattenRows_ok x hs (by omega), Tensor.wf_reshape hx (by rw [hs]; simp [numel]), rfl⟩
  · intro B B' x x' y y' b b' hb hb' hx hx' hs hs' hy hy' he i hi
    have h1 := flattenRows_ok x hs (by omega)
    have h2 := flattenRows_ok x' hs' (by omega)
    rw [h1] at hy
    rw [h2] at hy'
    cases hy
    cases hy'
    match i, hi with
    | [q], ⟨hq, _⟩ =>
      have e : ∀ (t : Tensor K) (B b : ℕ), t.shape = B :: s → (t.reshape [B, numel s]).get [b, q] = t.get (b :: unravel s q) := by
        intro t B b ht
        rw [Tensor.get_reshape (idx' := b :: unravel s q)]
        rw [ht]
        simp [ravel, numel, ravel_unravel hq]
      rw [e x B b hs, e x' B' b' hs', he _ (inShape_unravel hq)]

/-! ## real arithmetic -/

theorem sampleMap_maxAbs {s : List ℕ} (hs0 : 0 < numel s) {eps : ℝ} : SampleMap (fun x => maxAbsNormalizationND x eps) s s := by
  constructor
  · intro B x hB hx hs
    obtain ⟨y, y1, y2, -⟩ := C39_max_abs_nd x eps B s hs hx (by omega) hs0
    refine ⟨y, y1, ?_, by rw [y2, hs]⟩
    have := flattenRows_ok x hs (by omega)
    unfold maxAbsNormalizationND at y1
    rw [this] at y1
    simp only [bind, Except.bind] at y1
    cases hm : maxAbs (x.reshape [B, numel s]) 1 with
    | error e => rw [hm] at y1; cases y1
    | ok m =>
      rw [hm] at y1
      cases y1
      refine Tensor.wf_reshape (Tensor.wf_tabulate _ _) ?_
      rw [hs]
      simp [zipDim, numel, Tensor.reshape, Tensor.tabulate]
  · intro B B' x x' y y' b b' hb hb' hx hx' hs hs' hy hy' he i hi
    obtain ⟨z, z1, z2, z3⟩ := C39_max_abs_nd x eps B s hs hx (by omega) hs0
    obtain ⟨z', z1', z2', z3'⟩ := C39_max_abs_nd x' eps B' s hs' hx' (by omega) hs0
    beta_reduce at hy hy'
    rw [z1] at hy
    rw [z1'] at hy'
    cases hy
    cases hy'
    obtain ⟨M, h1, h2⟩ := z3 b hb
    obtain ⟨M', h1', h2'⟩ := z3' b' hb'
    have hset : {v | ∃ rest, InShape s rest ∧ v = |x.get (b :: rest)|} = {v | ∃ rest, InShape s rest ∧ v = |x'.get (b' :: rest)|} := by
      ext v
      constructor
      · rintro ⟨r, hr, rfl⟩; exact ⟨r, hr, by rw [he r hr]⟩
      · rintro ⟨r, hr, rfl⟩; exact ⟨r, hr, by rw [he r hr]⟩
    rw [hset] at h1
    rw [h2 i hi, h2' i hi, he i hi, h1.unique h1']

theorem sampleMap_maxCenter {s : List ℕ} (hs0 : 0 < numel s) {eps : ℝ} : SampleMap (fun x => maxCenterNormalizationND x eps) s s := by
  constructor
  · intro B x hB hx hs
    obtain ⟨y, y1, y2, -⟩ := C39_max_center_nd x eps B s hs (by omega) hs0
    refine ⟨y, y1, ?_, by rw [y2, hs]⟩
    have hkey := maxCenterNormalization_eq (x.reshape [B, numel s]) eps (dim := 1) (by simp) (by simpa using hs0)
    unfold maxCenterNormalizationND at y1
    rw [flattenRows_ok x hs (by omega)] at y1
    simp only [bind, Except.bind, hkey] at y1
    cases y1
    refine Tensor.wf_reshape (Tensor.wf_tabulate _ _) ?_
    rw [hs]
    simp [numel, Tensor.reshape, Tensor.tabulate]
  · intro B B' x x' y y' b b' hb hb' hx hx' hs hs' hy hy' he i hi
    obtain ⟨z, z1, z2, z3⟩ := C39_max_center_nd x eps B s hs (by omega) hs0
    obtain ⟨z', z1', z2', z3'⟩ := C39_max_center_nd x' eps B' s hs' (by omega) hs0
    beta_reduce at hy hy'
    rw [z1] at hy
    rw [z1'] at hy'
    cases hy
    cases hy'
    obtain ⟨M, m, h1, g1, h2⟩ := z3 b hb
    obtain ⟨M', m', h1', g1', h2'⟩ := z3' b' hb'
    have hset : {v | ∃ rest, InShape s rest ∧ v = x.get (b :: rest)} = {v | ∃ rest, InShape s rest ∧ v = x'.get (b' :: rest)} := by
      ext v
      constructor
      · rintro ⟨r, hr, rfl⟩; exact ⟨r, hr, by rw [he r hr]⟩
      · rintro ⟨r, hr, rfl⟩; exact ⟨r, hr, by rw [he r hr]⟩
    rw [hset] at h1 g1
    rw [h2 i hi, h2' i hi, he i hi, h1.unique h1', g1.unique g1']

/-- Fully connected layers given by a function of the row. -/
theorem Spec.Computes.sampleMap {f : Fwd ℝ} {I O : ℕ} {F : ℕ → (ℕ → ℝ) → ℝ} (hF : Computes f I O F)
    (hloc : ∀ o < O, ∀ r r' : ℕ → ℝ, (∀ i < I, r i = r' i) → F o r = F o r') : SampleMap f [I] [O] := by
  constructor
  · intro B x _ hx hs
    obtain ⟨y, y1, y2, y3, -⟩ := hF B x hs hx
    exact ⟨y, y1, y3, y2⟩
  · intro B B' x x' y y' b b' hb hb' hx hx' hs hs' hy hy' he i hi
    obtain ⟨z, z1, z2, z3, z4⟩ := hF B x hs hx
    obtain ⟨z', z1', z2', z3', z4'⟩ := hF B' x' hs' hx'
    rw [z1] at hy
    rw [z1'] at hy'
    cases hy
    cases hy'
    match i, hi with
    | [o], ⟨ho, _⟩ =>
      rw [z4 b hb o ho, z4' b' hb' o ho]
      exact hloc o ho _ _ fun q hq => he [q] ⟨hq, trivial⟩

end HOL
