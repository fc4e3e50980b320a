import Verif.Model.BlockExample
import Verif.Props.ND
import Verif.Props.Norm
import Verif.Lemmas.Shapes
import Verif.Lemmas.SparseLion

/-! # The pixel network of examples/block_mnist.py (C101) -/

namespace HOL
open TorchScalar Spec

set_option linter.unusedSectionVars false

/-- What the network does with the ten outputs of a pixel. -/
noncomputable def blockRow (key : String) (v : ℕ → ℝ) (o : ℕ) : ℝ :=
  let row := (List.range 10).map v
  if key = "max_abs" then v o / (maxL (row.map TorchScalar.abs) + moduleEps)
  else (v o - 1 / ((2 : ℕ) : ℝ) * (maxL row + minL row)) / (maxL row - 1 / ((2 : ℕ) : ℝ) * (maxL row + minL row) + moduleEps)

theorem blockNormalization_row {key : String} {f : Fwd ℝ} (h : blockNormalization key = .ok f) {R : ℕ} {x : Tensor ℝ} (hx : x.WF) (hs : x.shape = [R, 10]) :
    ∃ y, f x = .ok y ∧ y.shape = [R, 10] ∧ ∀ r < R, ∀ o < 10, y.get [r, o] = blockRow key (fun j => x.get [r, j]) o := by
  have hsl : ∀ r o, slice x 1 [r, o] = (List.range 10).map fun j => x.get [r, j] := by
    intro r o
    unfold slice
    rw [hs]
    rfl
  unfold blockNormalization at h
  split at h
  · next hk =>
    cases h
    refine ⟨_, maxAbsNormalization_eq x moduleEps (dim := 1) hx (by simp [hs]) (by simp [hs]), hs, fun r hr o ho => ?_⟩
    rw [Tensor.get_tabulate (by rw [hs]; exact inShape2.2 ⟨hr, ho⟩), hsl]
    simp only [blockRow, hk, if_true]
  · next hk =>
    split at h
    · cases h
      refine ⟨_, maxCenterNormalization_eq x moduleEps (dim := 1) (by simp [hs]) (by simp [hs]), hs, fun r hr o ho => ?_⟩
      rw [Tensor.get_tabulate (by rw [hs]; exact inShape2.2 ⟨hr, ho⟩), hsl]
      simp only [blockRow, hk, if_false]
    · cases h

theorem blockRow_bound (key : String) (v : ℕ → ℝ) {o : ℕ} (ho : o < 10) : |blockRow key v o| < 1 := by
  have heps : (0 : ℝ) < moduleEps := by
    unfold moduleEps
    positivity
  unfold blockRow
  dsimp only
  split
  · have hM := isGreatest_map_range (n := 10) (by norm_num) fun q => |v q|
    rw [List.map_map]
    have hle : |v o| ≤ maxL ((List.range 10).map (TorchScalar.abs ∘ v)) := hM.2 ⟨o, ho, rfl⟩
    have h0 := abs_nonneg (v o)
    rw [abs_div, abs_of_pos (show (0 : ℝ) < maxL ((List.range 10).map (TorchScalar.abs ∘ v)) + moduleEps by linarith), div_lt_one (by linarith)]
    linarith
  · have hM := (isGreatest_map_range (n := 10) (by norm_num) fun q => v q).2 ⟨o, ho, rfl⟩
    have hm := (isLeast_map_range (n := 10) (by norm_num) fun q => v q).2 ⟨o, ho, rfl⟩
    change v o ≤ maxL ((List.range 10).map v) at hM
    change minL ((List.range 10).map v) ≤ v o at hm
    push_cast
    rw [abs_div, abs_of_pos (show (0 : ℝ) < maxL ((List.range 10).map v) - 1 / 2 * (maxL ((List.range 10).map v) + minL ((List.range 10).map v)) + moduleEps by linarith), div_lt_one (by linarith), abs_lt]
    constructor <;> linarith

theorem blockRow_congr (key : String) {v v' : ℕ → ℝ} (h : ∀ j < 10, v j = v' j) {o : ℕ} (ho : o < 10) : blockRow key v o = blockRow key v' o := by
  have : (List.range 10).map v = (List.range 10).map v' := List.map_congr_left fun j hj => h j (List.mem_range.1 hj)
  unfold blockRow
  rw [this, h o ho]

/-- The layer types for several variables. -/
def polyNDType (layerType : String) : Prop := layerType = "polynomial_2d" ∨ layerType = "polynomial_3d" ∨ layerType = "polynomial_4d" ∨ layerType = "polynomial_5d"

/-- **C101.** Whatever the weights, the pixel network of examples/block_mnist.py adds up one bounded function of the pixel (colour and position) over the pixels of each image. -/
theorem C101_sum_over_pixels (rng : Rng ℝ) (n segments : ℕ) {layerType key : String} (hl : polyNDType layerType) (hk : key = "max_abs" ∨ key = "max_center") :
    ∃ (N : BlockNet ℝ) (L : PolyNDLayer ℝ), BlockNet.init rng n segments layerType key = .ok N ∧ N.heap[N.layer]? = some (.polyND L) ∧ L.w.shape = [10, 1, 3 * (n * n)] ∧
      ∀ w : Tensor ℝ, w.shape = L.w.shape → ∀ h : Heap ℝ, h.Ordered → h[N.layer]? = some (.polyND { L with w := w }) →
        ∃ g : (Fin 3 → ℝ) → ℕ → ℝ, (∀ c, ∀ o < 10, |g c o| < 1) ∧
          ∀ (B P : ℕ) (x : Tensor ℝ), 1 ≤ B → 1 ≤ P → x.WF → x.shape = [B, P, 3] →
            ∃ y, ({ N with heap := h } : BlockNet ℝ).forward x = .ok y ∧ y.shape = [B, 10] ∧
              ∀ b < B, ∀ o < 10, y.get [b, o] = ∑ p ∈ Finset.range P, g (fun d => x.get [b, p, d]) o := by
  obtain ⟨L, e1, e2, e3⟩ := C62_layer [3, n, n] (by simp) ((2 : ℕ) : ℝ) (by norm_num) 1 10 (rng 0) 1 none
  have hnum : numel [3, n, n] = 3 * (n * n) := by simp [numel]
  obtain ⟨f, hf⟩ : ∃ f : Fwd ℝ, blockNormalization key = .ok f := by
    rcases hk with rfl | rfl <;> exact ⟨_, rfl⟩
  have hkind : ∃ D, fcTable.lookup layerType = some (.leaf (.polynomialND D)) := by
    rcases hl with rfl | rfl | rfl | rfl
    · exact ⟨2, by decide⟩
    · exact ⟨3, by decide⟩
    · exact ⟨4, by decide⟩
    · exact ⟨5, by decide⟩
  obtain ⟨D, hD⟩ := hkind
  refine ⟨⟨[.polyND L], 0, f⟩, L, ?_, rfl, by rw [e2, hnum], ?_⟩
  · unfold BlockNet.init fcLayer
    have : fcMods rng (.leaf (.polynomialND D)) (blockArgs (K := ℝ) n segments) 0 = .ok [.polyND L] := by
      simp only [fcMods, leafMods, blockArgs, e1, bind, Except.bind]
    simp only [hD, List.length_nil, this, hf, bind, Except.bind]
    rfl
  intro w hw h hord hh
  rw [e2] at hw
  have hL := e3 w hw
  refine ⟨fun c o => blockRow key (fun j => ndSign [3, n, n] * ∑ k ∈ Finset.range 1, ∑ q ∈ Finset.range (numel [3, n, n]),
    w.get [j, k, q] * tensorCardinal ((2 : ℕ) : ℝ) [3, n, n] (unravel [3, n, n] q) fun d => if hd : d < 3 then c ⟨d, hd⟩ else 0) o, fun c o ho => blockRow_bound _ _ ho, ?_⟩
  intro B P x hB hP hx hs
  have hnx : numel x.shape = B * P * 3 := by rw [hs]; simp [numel]; ring
  have hdiv : numel x.shape / 3 = B * P := by omega
  have hshape : (x.reshape [B * P, 1, 3]).shape = [B * P, 1, 3] := rfl
  have hwf : (x.reshape [B * P, 1, 3]).WF := Tensor.wf_reshape hx (by rw [hnx]; simp [numel])
  obtain ⟨u, u1, u2, u3, u4⟩ := hL (B * P) 3 _ hshape hwf le_rfl
  obtain ⟨v, v1, v2, v3⟩ := blockNormalization_row hf u3 u2
  have hBP : 0 < B * P := Nat.mul_pos hB hP
  have hcall : h.forward 0 (x.reshape [B * P, 1, 3]) = .ok u := by
    rw [Heap.forward_eq hord hh]
    exact u1
  have hnv : numel v.shape = B * P * 10 := by rw [v2]; simp [numel]
  have hm : B * P * 10 / (B * P) = 10 := Nat.mul_div_cancel_left 10 hBP
  refine ⟨Tensor.tab2 B 10 fun s o => sumL ((List.range P).map fun q => (v.reshape [B, P, 10]).get [s, q, o]), ?_, ?_, ?_⟩
  · unfold BlockNet.forward
    rw [hs] at hnx ⊢
    rw [hs] at hdiv
    dsimp only
    rw [if_neg (by omega), hdiv]
    simp only [hcall, v1, hnv, hm, bind, Except.bind]
    rw [if_neg]
    rw [not_or]
    exact ⟨by omega, by simp⟩
  · rfl
  · intro b hb o ho
    rw [Tensor.get_tab2 hb ho, sumL_range]
    apply Finset.sum_congr rfl
    intro p hp
    have hp' := Finset.mem_range.1 hp
    have hr : b * P + p < B * P := by
      calc b * P + p < b * P + P := by omega
        _ = (b + 1) * P := by ring
        _ ≤ B * P := Nat.mul_le_mul_right _ hb
    have hre : (v.reshape [B, P, 10]).get [b, p, o] = v.get [b * P + p, o] := by
      rw [Tensor.get_reshape (idx' := [b * P + p, o])]
      rw [v2]
      simp [ravel, numel]
      ring
    dsimp only
    rw [hre, v3 _ hr _ ho]
    refine blockRow_congr key (fun j hj => ?_) ho
    rw [u4 _ hr j hj]
    refine congrArg (fun t => ndSign [3, n, n] * t) ?_
    apply Finset.sum_congr rfl
    intro k hk'
    obtain rfl : k = 0 := by simpa using hk'
    apply Finset.sum_congr rfl
    intro q _
    refine congrArg (fun t => w.get [j, 0, q] * t) ?_
    unfold tensorCardinal
    apply Finset.prod_congr rfl
    intro d hd
    have hd' : d < 3 := Finset.mem_range.1 hd
    dsimp only [Option.elim]
    rw [dif_pos hd', Tensor.get_reshape (idx' := [b, p, d])]
    rw [hs]
    simp [ravel, numel]
    ring

/-- **C101 (order).** The logits of an image do not depend on the order of its pixels, nor on the other images, and their absolute values are below the number of pixels. -/
theorem C101_order_and_bound (rng : Rng ℝ) (n segments : ℕ) {layerType key : String} (hl : polyNDType layerType) (hk : key = "max_abs" ∨ key = "max_center") :
    ∃ (N : BlockNet ℝ) (L : PolyNDLayer ℝ), BlockNet.init rng n segments layerType key = .ok N ∧ N.heap[N.layer]? = some (.polyND L) ∧
      ∀ w : Tensor ℝ, w.shape = L.w.shape → ∀ h : Heap ℝ, h.Ordered → h[N.layer]? = some (.polyND { L with w := w }) →
        ∀ (B B' P : ℕ) (x x' : Tensor ℝ) (σ : Equiv.Perm (Fin P)), 1 ≤ P → x.WF → x'.WF → x.shape = [B, P, 3] → x'.shape = [B', P, 3] → ∀ b b', b < B → b' < B' →
          (∀ p : Fin P, ∀ d < 3, x'.get [b', p, d] = x.get [b, σ p, d]) →
          ∃ y y', ({ N with heap := h } : BlockNet ℝ).forward x = .ok y ∧ ({ N with heap := h } : BlockNet ℝ).forward x' = .ok y' ∧
            ∀ o < 10, y'.get [b', o] = y.get [b, o] ∧ |y.get [b, o]| < P := by
  obtain ⟨N, L, e1, e2, -, e3⟩ := C101_sum_over_pixels rng n segments hl hk
  refine ⟨N, L, e1, e2, fun w hw h hord hh B B' P x x' σ hP hx hx' hs hs' b b' hb hb' he => ?_⟩
  obtain ⟨g, g1, g2⟩ := e3 w hw h hord hh
  obtain ⟨y, y1, -, y3⟩ := g2 B P x (by omega) hP hx hs
  obtain ⟨y', y1', -, y3'⟩ := g2 B' P x' (by omega) hP hx' hs'
  refine ⟨y, y', y1, y1', fun o ho => ⟨?_, ?_⟩⟩
  · rw [y3 b hb o ho, y3' b' hb' o ho, Finset.sum_range, Finset.sum_range, ← Equiv.sum_comp σ (fun p : Fin P => g (fun d => x.get [b, p, d]) o)]
    apply Finset.sum_congr rfl
    intro p _
    refine congrArg (fun c => g c o) (funext fun d => he p d d.2)
  · rw [y3 b hb o ho]
    have hne : (Finset.range P).Nonempty := ⟨0, Finset.mem_range.2 hP⟩
    calc |∑ p ∈ Finset.range P, g (fun d => x.get [b, p, d]) o| ≤ ∑ p ∈ Finset.range P, |g (fun d => x.get [b, p, d]) o| := Finset.abs_sum_le_sum_abs _ _
      _ < ∑ _p ∈ Finset.range P, (1 : ℝ) := Finset.sum_lt_sum_of_nonempty hne fun p _ => g1 _ o ho
      _ = P := by simp

/-- **C101 (no interaction).** Changing one pixel changes the logits by an amount that does not depend on the other pixels: if of four images two differ at pixel `p`, the other two
differ in the same way at `p`, and each pair agrees elsewhere, both pairs of logits have the same difference. -/
theorem C101_no_interaction (rng : Rng ℝ) (n segments : ℕ) {layerType key : String} (hl : polyNDType layerType) (hk : key = "max_abs" ∨ key = "max_center") :
    ∃ (N : BlockNet ℝ) (L : PolyNDLayer ℝ), BlockNet.init rng n segments layerType key = .ok N ∧ N.heap[N.layer]? = some (.polyND L) ∧
      ∀ w : Tensor ℝ, w.shape = L.w.shape → ∀ h : Heap ℝ, h.Ordered → h[N.layer]? = some (.polyND { L with w := w }) →
        ∀ (P p : ℕ) (x : Tensor ℝ), p < P → x.WF → x.shape = [4, P, 3] →
          (∀ d < 3, x.get [0, p, d] = x.get [2, p, d] ∧ x.get [1, p, d] = x.get [3, p, d]) →
          (∀ q < P, q ≠ p → ∀ d < 3, x.get [0, q, d] = x.get [1, q, d] ∧ x.get [2, q, d] = x.get [3, q, d]) →
          ∃ y, ({ N with heap := h } : BlockNet ℝ).forward x = .ok y ∧ ∀ o < 10, y.get [1, o] - y.get [0, o] = y.get [3, o] - y.get [2, o] := by
  obtain ⟨N, L, e1, e2, -, e3⟩ := C101_sum_over_pixels rng n segments hl hk
  refine ⟨N, L, e1, e2, fun w hw h hord hh P p x hp hx hs h1 h2 => ?_⟩
  obtain ⟨g, -, g2⟩ := e3 w hw h hord hh
  obtain ⟨y, y1, -, y3⟩ := g2 4 P x (by norm_num) (by omega) hx hs
  refine ⟨y, y1, fun o ho => ?_⟩
  rw [y3 1 (by norm_num) o ho, y3 0 (by norm_num) o ho, y3 3 (by norm_num) o ho, y3 2 (by norm_num) o ho, ← Finset.sum_sub_distrib, ← Finset.sum_sub_distrib]
  apply Finset.sum_congr rfl
  intro q hq
  by_cases hqp : q = p
  · subst hqp
    have a0 : (fun d : Fin 3 => x.get [0, q, d]) = fun d : Fin 3 => x.get [2, q, d] := funext fun d => (h1 d d.2).1
    have a1 : (fun d : Fin 3 => x.get [1, q, d]) = fun d : Fin 3 => x.get [3, q, d] := funext fun d => (h1 d d.2).2
    rw [a0, a1]
  · have a0 : (fun d : Fin 3 => x.get [0, q, d]) = fun d : Fin 3 => x.get [1, q, d] := funext fun d => (h2 q (Finset.mem_range.1 hq) hqp d d.2).1
    have a1 : (fun d : Fin 3 => x.get [2, q, d]) = fun d : Fin 3 => x.get [3, q, d] := funext fun d => (h2 q (Finset.mem_range.1 hq) hqp d d.2).2
    rw [a0, a1, sub_self, sub_self]

theorem collateImage_ok {K : Type} [TorchScalar K] {img : Tensor K} (h : img.shape = [1, 28, 28]) : collateImage img = .ok (Tensor.tab2 (28 * 28) 3 fun p d =>
      if d = 0 then img.get [0, p / 28, p % 28] else if d = 1 then blockGrid (p / 28) else blockGrid (p % 28)) := by
  unfold collateImage
  rw [h]
  rfl

/-- **C101 (input).** The pixel of row `i` and column `j` becomes row `28 i + j`: its colour, its row scaled to [-1, 1], its column scaled to [-1, 1]. Other image sizes and empty batches are rejected. -/
theorem C101_collate (batch : List (Tensor ℝ)) :
    (batch ≠ [] → (∀ img ∈ batch, img.shape = [1, 28, 28]) → ∃ x, collate batch = .ok x ∧ x.WF ∧ x.shape = [batch.length, 784, 3] ∧
      ∀ (b : ℕ) (hb : b < batch.length), ∀ i < 28, ∀ j < 28, x.get [b, 28 * i + j, 0] = batch[b].get [0, i, j] ∧
        x.get [b, 28 * i + j, 1] = 2 * i / 27 - 1 ∧ x.get [b, 28 * i + j, 2] = 2 * j / 27 - 1 ∧ |x.get [b, 28 * i + j, 1]| ≤ 1 ∧ |x.get [b, 28 * i + j, 2]| ≤ 1) ∧
    (batch = [] → collate batch = .error .runtimeError) := by
  refine ⟨fun hne hsh => ?_, fun h => by rw [h]; rfl⟩
  obtain ⟨rows, r1, r2, r3⟩ : ∃ rows : List (Tensor ℝ), batch.mapM collateImage = .ok rows ∧ rows.length = batch.length ∧
      ∀ (b : ℕ) (hb : b < batch.length), rows.getD b ⟨[], []⟩ = Tensor.tab2 (28 * 28) 3 fun p d =>
        if d = 0 then batch[b].get [0, p / 28, p % 28] else if d = 1 then blockGrid (p / 28) else blockGrid (p % 28) := by
    refine ⟨batch.map fun img => Tensor.tab2 (28 * 28) 3 fun p d =>
        if d = 0 then img.get [0, p / 28, p % 28] else if d = 1 then blockGrid (p / 28) else blockGrid (p % 28), ?_, by simp, ?_⟩
    · exact mapM_ok fun img himg => collateImage_ok (hsh img himg)
    · intro b hb
      simp [hb]
  have hrows : rows ≠ [] := by
    intro e
    rw [e] at r2
    exact hne (List.length_eq_zero_iff.1 r2.symm)
  refine ⟨Tensor.tab3 batch.length 784 3 fun b p d => (rows.getD b ⟨[], []⟩).get [p, d], ?_, Tensor.wf_tab3 _ _ _ _, rfl, ?_⟩
  · unfold collate
    simp only [r1, bind, Except.bind, hrows, if_false, r2]
  · intro b hb i hi j hj
    have hp : 28 * i + j < 784 := by omega
    have e1 : (28 * i + j) / 28 = i := by omega
    have e2 : (28 * i + j) % 28 = j := by omega
    have grid : ∀ k : ℕ, k < 28 → (blockGrid k : ℝ) = 2 * k / 27 - 1 ∧ |(2 * k / 27 - 1 : ℝ)| ≤ 1 := by
      intro k hk
      have hk' : (k : ℝ) ≤ 27 := by exact_mod_cast Nat.le_of_lt_succ hk
      have hk0 : (0 : ℝ) ≤ k := Nat.cast_nonneg k
      refine ⟨by unfold blockGrid; push_cast; ring, ?_⟩
      rw [abs_le]
      constructor <;> linarith
    have v : ∀ d < 3, (Tensor.tab3 batch.length 784 3 fun b p d => (rows.getD b ⟨[], []⟩).get [p, d]).get [b, 28 * i + j, d] =
        if d = 0 then batch[b].get [0, i, j] else if d = 1 then blockGrid i else blockGrid j := by
      intro d hd
      rw [Tensor.get_tab3 hb hp hd, r3 b hb, Tensor.get_tab2 hp hd, e1, e2]
    rw [v 0 (by norm_num), v 1 (by norm_num), v 2 (by norm_num)]
    simp only [if_true, one_ne_zero, if_false, OfNat.ofNat_ne_zero, OfNat.ofNat_ne_one]
    rw [(grid i hi).1, (grid j hj).1]
    exact ⟨trivial, rfl, rfl, (grid i hi).2, (grid j hj).2⟩

/-- **C101 (errors).** Unknown layer types raise ValueError, unknown normalizations KeyError, images of another size and inputs without pixels or images RuntimeError. -/
theorem C101_errors (rng : Rng ℝ) (n segments : ℕ) :
    (∀ layerType key, fcTable.lookup layerType = none → BlockNet.init rng n segments layerType key = .error .valueError) ∧
    (∀ layerType key, polyNDType layerType → key ≠ "max_abs" → key ≠ "max_center" → BlockNet.init rng n segments layerType key = .error .keyError) ∧
    (∀ (img : Tensor ℝ) (rest : List (Tensor ℝ)), img.shape ≠ [1, 28, 28] → collate (img :: rest) = .error .runtimeError) ∧
    ∀ (N : BlockNet ℝ) (B P d : ℕ) (x : Tensor ℝ), x.shape = [B, P, d] → B * P * d % 3 ≠ 0 → N.forward x = .error .runtimeError := by
  refine ⟨fun l k h => ?_, fun l k h h1 h2 => ?_, fun img rest h => ?_, fun N B P d x hs hd => ?_⟩
  · unfold BlockNet.init fcLayer
    rw [h]
    rfl
  · obtain ⟨N, L, e1, -⟩ := C101_sum_over_pixels rng n segments h (.inl rfl)
    unfold BlockNet.init at e1 ⊢
    cases hl : fcLayer rng l (blockArgs (K := ℝ) n segments) [] with
    | error e => rw [hl] at e1; cases e1
    | ok v =>
      unfold blockNormalization
      rw [if_neg h1, if_neg h2]
      rfl
  · unfold collate
    rw [List.mapM_cons]
    have : collateImage img = .error .runtimeError := by
      unfold collateImage
      split
      · next e => exact absurd e h
      · rfl
    rw [this]
    rfl
  · unfold BlockNet.forward
    rw [hs]
    dsimp only
    rw [if_pos (by simpa [numel, Nat.mul_assoc] using hd)]

/-! Three identical pixels and one other; 7 nodes per axis. -/

example (rng : Rng ℝ) : ∃ N, BlockNet.init rng 7 5 "polynomial_3d" "max_abs" = .ok N := by
  obtain ⟨N, L, e1, -⟩ := C101_sum_over_pixels rng 7 5 (layerType := "polynomial_3d") (.inr (.inl rfl)) (.inl rfl)
  exact ⟨N, e1⟩

example : ∃ x, collate [Tensor.tab3 1 28 28 fun _ i j => ((i * j : ℕ) : ℝ)] = .ok x ∧ x.get [0, 28 * 27 + 27, 0] = 729 ∧ x.get [0, 28 * 27 + 27, 1] = 1 := by
  obtain ⟨x, h1, -, -, h4⟩ := (C101_collate [Tensor.tab3 1 28 28 fun _ i j => ((i * j : ℕ) : ℝ)]).1 (by simp) (by simp)
  obtain ⟨a, b, -⟩ := h4 0 (by simp) 27 (by norm_num) 27 (by norm_num)
  refine ⟨x, h1, ?_, ?_⟩
  · rw [a]
    simp only [List.getElem_cons_zero]
    rw [Tensor.get_tab3 (by norm_num) (by norm_num) (by norm_num)]
    norm_num
  · rw [b]
    norm_num

end HOL
