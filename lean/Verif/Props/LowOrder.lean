import Verif.Lemmas.LowMLP

/-! # C76: `LowOrderMLP` -/

namespace HOL
open TorchScalar Relation Spec

/-- Width of the input of linear layer `k`; width of the output of layer `k - 1`. -/
def lowWidth (inW outW H hidW k : ℕ) : ℕ := if k = 0 then inW else if k ≤ H + 1 then hidW else outW

theorem lowWidths_getD (inW outW H hidW : ℕ) {k : ℕ} (hk : k ≤ H + 2) :
    (lowWidths inW outW H hidW).getD k 0 = lowWidth inW outW H hidW k := by
  unfold lowWidths lowWidth
  cases k with
  | zero => simp
  | succ k =>
    rw [List.cons_append, List.getD_cons_succ, if_neg (by omega)]
    by_cases h : k + 1 ≤ H + 1
    · rw [if_pos h, List.getD_append _ _ _ _ (by simp; omega)]
      simp [List.getD_replicate, show k < H + 1 by omega]
    · rw [if_neg h, List.getD_append_right _ _ _ _ (by simp; omega)]
      simp [show k - (H + 1) = 0 by omega]

section
variable {K : Type} [TorchScalar K]

/-- Module `j` is `torch.nn.Linear(i, o)` with any weights. -/
def IsLinear (h : Heap K) (j i o : ℕ) : Prop := ∃ w b : Tensor K, h[j]? = some (.linear w b) ∧ w.shape = [o, i] ∧ b.shape = [o]

theorem IsLayer.isLinear {h : Heap K} {j i o : ℕ} (hl : IsLayer (.leaf .linear) (linArgs i o) h j) : IsLinear h j i o := by
  obtain ⟨rng, base, ms, e1, e2, e3⟩ := hl
  simp only [fcMods, leafMods, Except.ok.injEq] at e1
  subst e1
  obtain ⟨m', f1, f2⟩ := e3 0 _ rfl
  have hj : j = base + 0 := by simpa using e2
  rw [hj]
  cases f2 with
  | refl => exact ⟨_, _, f1, rfl, rfl⟩
  | linear _ _ w' b' h1 h2 => exact ⟨_, _, f1, h1, h2⟩

/-- **C76 (structure).** `LowOrderMLP` consists, also after any training, of `hidden_layers + 2` different linear layers with bias with
the given widths; it computes the first one and then for each other one normalization and nonlinearity (those that are asked for) and the
layer; `parameters()` belong to exactly these layers. -/
theorem C76_structure (rng : Rng K) {h0 : Heap K} (hord : h0.Ordered) (inW outW H hidW : ℕ) {nonLinearity : Option ℕ}
    (normalization : Option (Fwd K)) {nl : Fwd K} (hnl : ∀ j ∈ nonLinearity, h0[j]? = some (.other nl)) {net : ℕ} {h1 : Heap K}
    (hb : lowMlpInit rng inW outW H hidW nonLinearity normalization h0 = (net, h1)) :
    (∃ D, h1 = h0 ++ D) ∧ h1.Ordered ∧ ∃ lin : ℕ → ℕ, (∀ k ≤ H + 1, ∀ l ≤ H + 1, lin k = lin l → k = l) ∧
      ∀ h : Heap K, h1.Later h → h.Ordered →
        (∀ k ≤ H + 1, IsLinear h (lin k) (lowWidth inW outW H hidW k) (lowWidth inW outW H hidW (k + 1))) ∧
        h.forward net = compose (normalization.toList ++ if nonLinearity.isSome then [nl] else []) (h.forward (lin 0))
          ((List.range (H + 1)).map fun k => h.forward (lin (k + 1))) ∧
        ∀ j, j ∈ h.parameters net ↔ ∃ k ≤ H + 1, j = lin k := by
  obtain ⟨ids, s, hlen, hs, e⟩ := lowMlpInit_inv rng hord inW outW H hidW normalization hnl
  rw [e] at hb
  cases hb
  obtain ⟨D, hD⟩ := hs.grows
  have ho2 : Heap.Ordered (s.2 ++ [.seq s.1, .wrap s.2.length]) := by
    have h1 := hs.ordered.append_one (m := .seq s.1) (by
      intro j hj
      simp only [Mod.refs, Mod.hidden, Mod.children, List.nil_append] at hj
      exact hs.bound j (by simpa using hj))
    have h2 := h1.append_one (m := .wrap s.2.length) (by
      intro j hj
      have : j = s.2.length := by simpa [Mod.refs, Mod.hidden, Mod.children] using hj
      simp [this])
    simpa using h2
  have hgetD : ∀ k ≤ H + 1, ids[k]? = some (ids.getD k 0) := by
    intro k hk
    have hk' : k < ids.length := by omega
    rw [List.getElem?_eq_getElem hk', List.getD_eq_getElem _ _ hk']
  refine ⟨⟨_, by rw [hD, List.append_assoc]⟩, ho2, fun k => ids.getD k 0, ?_, ?_⟩
  · intro k hk l hl hkl
    have hk' : k < ids.length := by omega
    have hl' : l < ids.length := by omega
    beta_reduce at hkl
    rw [List.getD_eq_getElem _ _ hk', List.getD_eq_getElem _ _ hl'] at hkl
    exact (hs.nodup.getElem_inj_iff).1 hkl
  · intro h hl ho
    have hl0 : s.2.Later h := hl.prefix rfl
    have hlin : ∀ k ≤ H + 1, IsLinear h (ids.getD k 0) (lowWidth inW outW H hidW k) (lowWidth inW outW H hidW (k + 1)) := by
      intro k hk
      have := ((hs.layer k (by omega)).later hl0).isLinear
      rwa [lowWidths_getD _ _ _ _ (by omega), lowWidths_getD _ _ _ _ (by omega)] at this
    have hseq : h[s.2.length]? = some (.seq s.1) := hl.same (by simp) rfl
    have hwrap : h[s.2.length + 1]? = some (.wrap s.2.length) := hl.same (by simp) rfl
    refine ⟨hlin, ?_, ?_⟩
    · rw [Heap.forward_eq ho hwrap]
      have : (Mod.wrap s.2.length : Mod K).forward h.forward = h.forward s.2.length := rfl
      rw [this, Heap.forward_eq ho hseq]
      funext x
      show seqForward (s.1.map h.forward) x = _
      rw [hs.forward h hl0 ho]
      have hids : ids = ids.getD 0 0 :: (List.range (H + 1)).map fun k => ids.getD (k + 1) 0 := by
        apply List.ext_getElem
        · simp [hlen]
        · intro k h1 h2
          cases k with
          | zero => rw [List.getElem_cons_zero, List.getD_eq_getElem _ _ h1]
          | succ k => simp [List.getElem?_eq_getElem h1]
      unfold compose
      congr 1
      rw [hids]
      simp only [withPre, lowPre, List.getD_cons_zero]
      congr 1
      rw [List.flatMap_map, List.flatMap_map]
      rw [← hids]
    · intro j
      rw [mem_parameters ho (List.getElem?_eq_some_iff.1 hwrap).1]
      constructor
      · rintro ⟨hr, m, hm, hw⟩
        have inv : ∀ {j}, ReflTransGen h.Child (s.2.length + 1) j → j = s.2.length + 1 ∨ j = s.2.length ∨ j ∈ s.1 := by
          intro j hr
          induction hr with
          | refl => exact Or.inl rfl
          | tail _ hc ih =>
            obtain ⟨m, hm, hc⟩ := hc
            rcases ih with rfl | rfl | hj
            · rw [hwrap] at hm
              cases hm
              exact Or.inr (Or.inl (by simpa [Mod.children] using hc))
            · rw [hseq] at hm
              cases hm
              exact Or.inr (Or.inr hc)
            · exfalso
              rename_i b _ _
              by_cases hi : b ∈ ids
              · obtain ⟨k, hk, rfl⟩ := List.getElem_of_mem hi
                obtain ⟨w, c, hh, -⟩ := hlin k (by omega)
                rw [List.getD_eq_getElem _ _ hk, hm] at hh
                cases hh
                cases hc
              · obtain ⟨f, hf⟩ := hs.others b hj hi
                rw [(later_other hl0 ho hf).1] at hm
                cases hm
                cases hc
        rcases inv hr with rfl | rfl | hj
        · rw [hwrap] at hm; cases hm; cases hw
        · rw [hseq] at hm; cases hm; cases hw
        · by_cases hi : j ∈ ids
          · obtain ⟨k, hk, rfl⟩ := List.getElem_of_mem hi
            exact ⟨k, by omega, by beta_reduce; rw [List.getD_eq_getElem _ _ hk]⟩
          · obtain ⟨f, hf⟩ := hs.others j hj hi
            rw [(later_other hl0 ho hf).1] at hm
            cases hm
            cases hw
      · rintro ⟨k, hk, rfl⟩
        obtain ⟨w, c, hh, -⟩ := hlin k hk
        refine ⟨?_, _, hh, rfl⟩
        refine ReflTransGen.head ⟨_, hwrap, by simp [Mod.children]⟩ (ReflTransGen.single ⟨_, hseq, ?_⟩)
        exact (hs.fresh _ (List.mem_of_getElem? (hgetD k hk))).2

end

/-- A linear layer computes an affine map. -/
theorem IsLinear.computes {h : Heap ℝ} (ho : h.Ordered) {j i o : ℕ} (hl : IsLinear h j i o) :
    ∃ (w : ℕ → ℕ → ℝ) (b : ℕ → ℝ), Computes (h.forward j) i o fun r v => ∑ q ∈ Finset.range i, v q * w r q + b r := by
  obtain ⟨w, b, hj, h1, -⟩ := hl
  refine ⟨fun r q => w.get [r, q], fun r => b.get [r], ?_⟩
  intro B x hx hwf
  rw [Heap.forward_eq ho hj]
  refine ⟨Tensor.tab2 B o fun s r => sumL ((List.range i).map fun q => x.get [s, q] * w.get [r, q]) + b.get [r], ?_, rfl,
    Tensor.wf_tabulate _ _, ?_⟩
  · simp only [Mod.forward, linearForward, hx, h1, if_true]
  · intro n hn r hr
    rw [Tensor.get_tab2 hn hr, sumL_range]

theorem IsLinear.mapsTo {h : Heap ℝ} (ho : h.Ordered) {j i o : ℕ} (hl : IsLinear h j i o) : MapsTo (h.forward j) i o := by
  obtain ⟨w, b, hc⟩ := hl.computes ho
  intro B x hx hwf
  obtain ⟨y, h1, h2, h3, -⟩ := hc B x hx hwf
  exact ⟨y, h1, h2, h3⟩

theorem IsLinear.affine {h : Heap ℝ} (ho : h.Ordered) {j i o : ℕ} (hl : IsLinear h j i o) : AffineMap (h.forward j) i o := by
  obtain ⟨w, b, hc⟩ := hl.computes ho
  refine ⟨w, b, ?_⟩
  simpa only [mul_comm] using hc

theorem IsLinear.continuous {h : Heap ℝ} (ho : h.Ordered) {j i o : ℕ} (hl : IsLinear h j i o) : ComputesContinuous (h.forward j) i o := by
  obtain ⟨w, b, hc⟩ := hl.computes ho
  refine .of_local hc (fun r _ => by fun_prop) ?_
  intro r _ v v' hv
  beta_reduce
  congr 1
  apply Finset.sum_congr rfl
  intro q hq
  rw [hv q (Finset.mem_range.1 hq)]

section
variable (rng : Rng ℝ) {h0 : Heap ℝ} (hord : h0.Ordered) (inW outW H hidW : ℕ) {nonLinearity : Option ℕ}
    (normalization : Option (Fwd ℝ)) {nl : Fwd ℝ} (hnl : ∀ j ∈ nonLinearity, h0[j]? = some (.other nl)) {net : ℕ} {h1 : Heap ℝ}
    (hb : lowMlpInit rng inW outW H hidW nonLinearity normalization h0 = (net, h1)) {h : Heap ℝ} (hl : h1.Later h) (ho : h.Ordered)

include hord hnl hb hl ho in
/-- **C76 (shapes).** The network takes `[batch, in_width]` to `[batch, out_width]` for all weights and batch sizes, if normalization and nonlinearity keep
`[batch, hidden_width]`. -/
theorem C76_shape (hn : ∀ f ∈ normalization, MapsTo f hidW hidW) (hf : ∀ _ ∈ nonLinearity, MapsTo nl hidW hidW) :
    MapsTo (h.forward net) inW outW := by
  obtain ⟨-, -, lin, -, hall⟩ := C76_structure rng hord inW outW H hidW normalization hnl hb
  obtain ⟨hlin, hfwd, -⟩ := hall h hl ho
  rw [hfwd]
  refine MapsTo.compose (w := hidW) ?_ ?_ ?_ ?_
  · intro f hf'
    rw [List.mem_append, Option.mem_toList] at hf'
    rcases hf' with h' | h'
    · exact hn f h'
    · cases nonLinearity with
      | none => simp at h'
      | some j =>
        simp only [Option.isSome_some, if_true, List.mem_singleton] at h'
        rw [h']
        exact hf j rfl
  · have := (hlin 0 (by omega)).mapsTo ho
    simpa [lowWidth] using this
  · intro i hi
    have := (hlin (i + 1) (by omega)).mapsTo ho
    simpa [lowWidth, show i ≤ H by omega, show i + 1 ≤ H by omega] using this
  · have := (hlin (H + 1) (by omega)).mapsTo ho
    simpa [lowWidth] using this

include hord hnl hb hl ho in
/-- **C76 (continuity).** If normalization and nonlinearity are continuous, so is the network, for all weights. -/
theorem C76_continuous (hn : ∀ f ∈ normalization, ComputesContinuous f hidW hidW) (hf : ∀ _ ∈ nonLinearity, ComputesContinuous nl hidW hidW) :
    ComputesContinuous (h.forward net) inW outW := by
  obtain ⟨-, -, lin, -, hall⟩ := C76_structure rng hord inW outW H hidW normalization hnl hb
  obtain ⟨hlin, hfwd, -⟩ := hall h hl ho
  rw [hfwd]
  refine ComputesContinuous.compose (w := hidW) ?_ ?_ ?_ ?_
  · intro f hf'
    rw [List.mem_append, Option.mem_toList] at hf'
    rcases hf' with h' | h'
    · exact hn f h'
    · cases nonLinearity with
      | none => simp at h'
      | some j =>
        simp only [Option.isSome_some, if_true, List.mem_singleton] at h'
        rw [h']
        exact hf j rfl
  · have := (hlin 0 (by omega)).continuous ho
    simpa [lowWidth] using this
  · intro i hi
    have := (hlin (i + 1) (by omega)).continuous ho
    simpa [lowWidth, show i ≤ H by omega, show i + 1 ≤ H by omega] using this
  · have := (hlin (H + 1) (by omega)).continuous ho
    simpa [lowWidth] using this

include hord hnl hb hl ho in
/-- **C76 (without nonlinearity).** Without normalization and nonlinearity the network is an affine map, however deep and whatever the weights. -/
theorem C76_affine (hn : normalization = none) (hf : nonLinearity = none) : AffineMap (h.forward net) inW outW := by
  obtain ⟨-, -, lin, -, hall⟩ := C76_structure rng hord inW outW H hidW normalization hnl hb
  obtain ⟨hlin, hfwd, -⟩ := hall h hl ho
  subst hn hf
  rw [hfwd]
  refine AffineMap.compose (w := hidW) ?_ ?_ ?_
  · have := (hlin 0 (by omega)).affine ho
    simpa [lowWidth] using this
  · intro i hi
    have := (hlin (i + 1) (by omega)).affine ho
    simpa [lowWidth, show i ≤ H by omega, show i + 1 ≤ H by omega] using this
  · have := (hlin (H + 1) (by omega)).affine ho
    simpa [lowWidth] using this

end

/-- A network `1 → 1 → 1 → 1` with ReLU and all weights 1: the parameters are those of the modules 1, 2, 3, and it takes `-3` to
`relu(relu(-3 + 1) + 1) + 1 = 2`. -/
example : ∃ h1 : Heap ℝ, lowMlpInit (fun _ _ _ => (1 : ℝ)) 1 1 1 1 (some 0) none [.other fun x => .ok (reluT x)] = (5, h1) ∧
    h1.parameters 5 = [1, 2, 3] ∧ h1.forward 5 ⟨[1, 1], [-3]⟩ = .ok ⟨[1, 1], [2]⟩ := by
  refine ⟨_, rfl, ?_, ?_⟩
  · simp [Heap.parameters, Heap.modules, Heap.fold, linearInit, appendPreLow, visitor, Mod.children, Mod.hasParams]
  · simp [Heap.forward, Heap.fold, linearInit, appendPreLow, Mod.forward, seqForward, linearForward, reluT, bind, Except.bind, Tensor.tab2, Tensor.tab1,
      Tensor.tabulate, Tensor.map, Tensor.get, numel, unravel, ravel, sumL, List.range_succ]
    norm_num

end HOL
