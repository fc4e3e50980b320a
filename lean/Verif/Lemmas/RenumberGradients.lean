import Verif.Spec.RenumberTraining
import Verif.Lemmas.Renumber
import Verif.Props.Gradient

/-! # Lemmas: gradients of layers with renumbered units -/

namespace HOL
open TorchScalar Spec

theorem Spec.Renumbers.prod_except {κ : ℕ → ℕ} {n : ℕ} (h : Renumbers κ n) {i : ℕ} (hi : i < n) (f : ℕ → ℝ) :
    prodL (((List.range n).filter (· ≠ i)).map fun j => f (κ j)) = prodL (((List.range n).filter (· ≠ κ i)).map f) := by
  rw [prodL_erase, prodL_erase]
  refine Finset.prod_nbij κ (fun j hj => ?_) (fun j hj k hk hjk => ?_) (fun j hj => ?_) (fun j _ => rfl)
  · obtain ⟨h1, h2⟩ := Finset.mem_erase.1 hj
    have h2 := Finset.mem_range.1 h2
    exact Finset.mem_erase.2 ⟨fun hc => h1 (h.injOn h2 hi hc), Finset.mem_range.2 (h.lt h2)⟩
  · have hj := Finset.mem_range.1 (Finset.mem_erase.1 (Finset.mem_coe.1 hj)).2
    have hk := Finset.mem_range.1 (Finset.mem_erase.1 (Finset.mem_coe.1 hk)).2
    exact h.injOn hj hk hjk
  · obtain ⟨h1, h2⟩ := Finset.mem_erase.1 (Finset.mem_coe.1 hj)
    obtain ⟨k, hk, rfl⟩ := h.surjOn (Finset.mem_range.1 h2)
    exact ⟨k, Finset.mem_coe.2 (Finset.mem_erase.2 ⟨fun hc => h1 (hc ▸ rfl), Finset.mem_range.2 hk⟩), rfl⟩

theorem prod_filter_congr {n i : ℕ} {f g : ℕ → ℝ} (h : ∀ j < n, f j = g j) : prodL (((List.range n).filter (· ≠ i)).map f) = prodL (((List.range n).filter (· ≠ i)).map g) := by
  rw [prodL_erase, prodL_erase]
  exact Finset.prod_congr rfl fun j hj => h j (Finset.mem_range.1 (Finset.mem_erase.1 hj).2)

theorem linkFactor_renumber {L : PwLayer ℝ} {κ : ℕ → ℕ} (hκ : Renumbers κ L.inFeatures) {f g : ℕ → ℝ} (h : ∀ j < L.inFeatures, g j = f (κ j)) {i : ℕ} (hi : i < L.inFeatures) :
    L.linkFactor g i = L.linkFactor f (κ i) := by
  unfold PwLayer.linkFactor
  by_cases hc : L.cls = .continuousProd ∨ L.cls = .discontinuousProd
  · rw [if_pos hc, if_pos hc, ← hκ.prod_except hi fun j => 1 + f j]
    exact prod_filter_congr fun j hj => by rw [h j hj]
  · rw [if_neg hc, if_neg hc]

theorem linkSlope_renumber {L : PwLayer ℝ} (h : L.WF) {κ ρ : ℕ → ℕ} {o i : ℕ} (ho : o < L.outFeatures) (hi : i < L.inFeatures) (v : ℝ) :
    ({ L with w := renumberLinks κ ρ L.w } : PwLayer ℝ).linkSlope o i v = L.linkSlope (ρ o) (κ i) v := by
  show (linkPoly L.n fun k => (renumberLinks κ ρ L.w).get [o, i, L.seg v * L.stride + k]).derivative.eval (L.xIn v) * _ * _ = (linkPoly L.n fun k => L.w.get [ρ o, κ i, L.seg v * L.stride + k]).derivative.eval (L.xIn v) * _ * _
  refine congrArg (fun p : Polynomial ℝ => p.derivative.eval (L.xIn v) * (L.length / 2 * L.segments) * periodizeGrad L.periodicity v) ?_
  refine linkPoly_congr fun k hk => ?_
  exact renumberLinks_get3 h.w_shape ho hi (L.widx_lt h.n_pos (L.seg_lt h.seg_pos _) hk)

/-- The gradients of the layer with renumbered units are the renumbered gradients. -/
structure GradsFollow (l : GLayer ℝ) (κ ρ : ℕ → ℕ) (B I O : ℕ) (x g : Tensor ℝ) : Prop where
  input_shape : (l.inputGrad x g).shape = [B, I]
  input : (l.renumber κ ρ).inputGrad (columns κ x) (columns ρ g) = columns κ (l.inputGrad x g)
  params_shape : (l.paramGrads x g).map Tensor.shape = l.params.map Tensor.shape
  params : (l.renumber κ ρ).paramGrads (columns κ x) (columns ρ g) = (l.paramGrads x g).mapIdx (renumberParam κ ρ)

theorem columns_ext {κ : ℕ → ℕ} {s t : Tensor ℝ} {B I : ℕ} (hs : s.shape = [B, I]) (hw : s.WF) (ht : t.shape = [B, I]) (h : ∀ b < B, ∀ i < I, s.get [b, i] = t.get [b, κ i]) : s = columns κ t := by
  refine Tensor.ext_get hw (columns_wf _ _) (hs.trans ht.symm) fun idx hin => ?_
  rw [hs] at hin
  obtain ⟨b, i, rfl, hb, hi⟩ := inShape2_exists hin
  rw [h b hb i hi, columns_get ht hb hi]

theorem links3_ext {κ ρ : ℕ → ℕ} {s t : Tensor ℝ} {O I S : ℕ} (hs : s.shape = [O, I, S]) (hw : s.WF) (ht : t.shape = [O, I, S]) (h : ∀ o < O, ∀ i < I, ∀ r < S, s.get [o, i, r] = t.get [ρ o, κ i, r]) :
    s = renumberLinks κ ρ t := by
  refine Tensor.ext_get hw (renumberLinks_wf _ _ _) (hs.trans ht.symm) fun idx hin => ?_
  rw [hs] at hin
  obtain ⟨o, i, r, rfl, ho, hi, hr⟩ := inShape3_exists hin
  rw [h o ho i hi r hr, renumberLinks_get3 ht ho hi hr]

theorem links2_ext {κ ρ : ℕ → ℕ} {s t : Tensor ℝ} {O I : ℕ} (hs : s.shape = [O, I]) (hw : s.WF) (ht : t.shape = [O, I]) (h : ∀ o < O, ∀ i < I, s.get [o, i] = t.get [ρ o, κ i]) :
    s = renumberLinks κ ρ t := by
  refine Tensor.ext_get hw (renumberLinks_wf _ _ _) (hs.trans ht.symm) fun idx hin => ?_
  rw [hs] at hin
  obtain ⟨o, i, rfl, ho, hi⟩ := inShape2_exists hin
  rw [h o ho i hi, renumberLinks_get2 ht ho hi]

theorem biasGrad_follows {ρ : ℕ → ℕ} {B O : ℕ} (hρ : Renumbers ρ O) {g : Tensor ℝ} (hg : g.shape = [B, O]) : (biasGrad g).shape = [O] ∧ biasGrad (columns ρ g) = renumberOut ρ (biasGrad g) := by
  have e : ∀ g : Tensor ℝ, g.shape = [B, O] → biasGrad g = Tensor.tab1 O fun o => sumL ((List.range B).map fun b => g.get [b, o]) := by
    intro g hg
    unfold biasGrad
    rw [hg]
  refine ⟨by rw [e g hg]; rfl, ?_⟩
  rw [e g hg, e (columns ρ g) hg]
  refine Tensor.ext_get (Tensor.wf_tabulate _ _) (Tensor.wf_tabulate _ _) rfl fun idx hin => ?_
  obtain ⟨o, rfl, ho⟩ := inShape1_exists (n := O) hin
  rw [renumberOut_get (O := O) rfl ho, Tensor.get_tab1 ho, Tensor.get_tab1 (hρ.lt ho), sumL_range, sumL_range]
  exact Finset.sum_congr rfl fun b hb => columns_get hg (Finset.mem_range.1 hb) ho

theorem pw_grads {L : PwLayer ℝ} (h : L.WF) {κ ρ : ℕ → ℕ} (hκ : Renumbers κ L.inFeatures) (hρ : Renumbers ρ L.outFeatures) {B : ℕ} {x g : Tensor ℝ} (hx : x.shape = [B, L.inFeatures]) (hwx : x.WF)
    (hg : g.shape = [B, L.outFeatures]) : GradsFollow (.pw L) κ ρ B L.inFeatures L.outFeatures x g := by
  have h' : ({ L with w := renumberLinks κ ρ L.w } : PwLayer ℝ).WF := h.withW rfl (renumberLinks_wf _ _ _)
  have ishape : ∀ (M : PwLayer ℝ) (y u : Tensor ℝ), y.shape = [B, L.inFeatures] → (M.inputGrad y u).shape = [B, L.inFeatures] ∧ (M.inputGrad y u).WF := by
    intro M y u hy
    unfold PwLayer.inputGrad
    rw [hy]
    exact ⟨rfl, Tensor.wf_tabulate _ _⟩
  have wshape : ∀ (M : PwLayer ℝ) (_ : M.WF) (y u : Tensor ℝ), y.shape = [B, M.inFeatures] → y.WF → (M.weightGrad y u).shape = M.w.shape ∧ (M.weightGrad y u).WF := by
    intro M hM y u hy hwy
    unfold PwLayer.weightGrad
    simp only [hy]
    exact M.gradW_shape hM hy hwy _
  have hfac : ∀ {b : ℕ}, b < B → ∀ {o : ℕ}, o < L.outFeatures → ∀ {i : ℕ}, i < L.inFeatures →
      ({ L with w := renumberLinks κ ρ L.w } : PwLayer ℝ).linkFactor (fun j => ({ L with w := renumberLinks κ ρ L.w } : PwLayer ℝ).linkFn o j ((columns κ x).get [b, j])) i =
        L.linkFactor (fun j => L.linkFn (ρ o) j (x.get [b, j])) (κ i) := fun {b} hb {o} ho {i} hi =>
    linkFactor_renumber (L := L) hκ (f := fun j => L.linkFn (ρ o) j (x.get [b, j])) (fun j hj => by rw [linkFn_renumber h ho hj, columns_get hx hb hj]) hi
  have hi : ({ L with w := renumberLinks κ ρ L.w } : PwLayer ℝ).inputGrad (columns κ x) (columns ρ g) = columns κ (L.inputGrad x g) := by
    obtain ⟨a1, a2⟩ := ishape { L with w := renumberLinks κ ρ L.w } (columns κ x) (columns ρ g) hx
    refine columns_ext a1 a2 (ishape L x g hx).1 fun b hb i hi => ?_
    refine (PwLayer.inputGrad_get _ h' (x := columns κ x) hx (columns ρ g) hb hi).trans ?_
    refine Eq.trans ?_ (L.inputGrad_get h hx g hb (hκ.lt hi)).symm
    rw [← hρ.sum fun o => g.get [b, o] * (L.linkFactor (fun j => L.linkFn o j (x.get [b, j])) (κ i) * L.linkSlope o (κ i) (x.get [b, κ i]))]
    refine Finset.sum_congr rfl fun o ho => ?_
    have ho := Finset.mem_range.1 ho
    rw [hfac hb ho hi, linkSlope_renumber h ho hi, columns_get hx hb hi, columns_get hg hb ho]
  have hw : ({ L with w := renumberLinks κ ρ L.w } : PwLayer ℝ).weightGrad (columns κ x) (columns ρ g) = renumberLinks κ ρ (L.weightGrad x g) := by
    obtain ⟨a1, a2⟩ := wshape L h x g hx hwx
    obtain ⟨b1, b2⟩ := wshape _ h' (columns κ x) (columns ρ g) hx (columns_wf _ _)
    refine links3_ext (b1.trans h.w_shape) b2 (a1.trans h.w_shape) fun o ho i hi q hq => ?_
    refine (weightGrad_get _ h' (x := columns κ x) hx (columns_wf _ _) (columns ρ g) ho hi hq).trans ?_
    refine Eq.trans ?_ (weightGrad_get L h hx hwx g (hρ.lt ho) (hκ.lt hi) hq).symm
    refine Finset.sum_congr rfl fun b hb => ?_
    have hb := Finset.mem_range.1 hb
    rw [hfac hb ho hi, columns_get hx hb hi, columns_get hg hb ho]
    rfl
  have hs : [(L.weightGrad x g).shape] = [L.w.shape] := by rw [(wshape L h x g hx hwx).1]
  exact ⟨(ishape L x g hx).1, hi, hs, congrArg (fun t => [t]) hw⟩

theorem fn_grads {L : FnLayer ℝ} (h : L.Fits) {κ ρ : ℕ → ℕ} (hκ : Renumbers κ L.inFeatures) (hρ : Renumbers ρ L.outFeatures) {B : ℕ} {x g : Tensor ℝ} (hx : x.shape = [B, L.inFeatures])
    (hg : g.shape = [B, L.outFeatures]) : GradsFollow (.fn L) κ ρ B L.inFeatures L.outFeatures x g := by
  have ei : ∀ (w y u : Tensor ℝ), y.shape = [B, L.inFeatures] → ({ L with w := w } : FnLayer ℝ).inputGrad y u = Tensor.tab2 B L.inFeatures fun b i =>
      sumL ((List.range L.outFeatures).map fun o => u.get [b, o] * sumL ((List.range L.poly.n).map fun p => L.poly.basis.dcall (periodize L.periodicity (y.get [b, i])) p * w.get [o, i, p]))
        * periodizeGrad L.periodicity (y.get [b, i]) := by
    intro w y u hy
    unfold FnLayer.inputGrad
    rw [hy]
  have ew : ∀ (w y u : Tensor ℝ), y.shape = [B, L.inFeatures] → ({ L with w := w } : FnLayer ℝ).weightGrad y u = Tensor.tab3 L.outFeatures L.inFeatures L.poly.n fun o i p =>
      sumL ((List.range B).map fun b => u.get [b, o] * L.poly.basis.call (periodize L.periodicity (y.get [b, i])) p) := by
    intro w y u hy
    unfold FnLayer.weightGrad
    rw [hy]
  have ei' : L.inputGrad x g = _ := ei L.w x g hx
  have ew' : L.weightGrad x g = _ := ew L.w x g hx
  have hi : ({ L with w := renumberLinks κ ρ L.w } : FnLayer ℝ).inputGrad (columns κ x) (columns ρ g) = columns κ (L.inputGrad x g) := by
    rw [ei (renumberLinks κ ρ L.w) (columns κ x) (columns ρ g) hx, ei']
    refine columns_ext rfl (Tensor.wf_tabulate _ _) rfl fun b hb i hi => ?_
    rw [Tensor.get_tab2 hb hi, Tensor.get_tab2 hb (hκ.lt hi), columns_get hx hb hi, sumL_range, sumL_range]
    congr 1
    rw [← hρ.sum fun o => g.get [b, o] * sumL ((List.range L.poly.n).map fun p => L.poly.basis.dcall (periodize L.periodicity (x.get [b, κ i])) p * L.w.get [o, κ i, p])]
    refine Finset.sum_congr rfl fun o ho => ?_
    have ho := Finset.mem_range.1 ho
    rw [columns_get hg hb ho, sumL_range, sumL_range]
    congr 1
    exact Finset.sum_congr rfl fun p hp => by rw [renumberLinks_get3 h.w_shape ho hi (Finset.mem_range.1 hp)]
  have hw : ({ L with w := renumberLinks κ ρ L.w } : FnLayer ℝ).weightGrad (columns κ x) (columns ρ g) = renumberLinks κ ρ (L.weightGrad x g) := by
    rw [ew (renumberLinks κ ρ L.w) (columns κ x) (columns ρ g) hx, ew']
    refine links3_ext rfl (Tensor.wf_tabulate _ _) rfl fun o ho i hi p hp => ?_
    rw [Tensor.get_tab3 ho hi hp, Tensor.get_tab3 (hρ.lt ho) (hκ.lt hi) hp, sumL_range, sumL_range]
    refine Finset.sum_congr rfl fun b hb => ?_
    have hb := Finset.mem_range.1 hb
    rw [columns_get hg hb ho, columns_get hx hb hi]
  have hs : [(L.weightGrad x g).shape] = [L.w.shape] := by rw [ew', h.w_shape]; rfl
  exact ⟨by show (L.inputGrad x g).shape = _; rw [ei']; rfl, hi, hs, congrArg (fun t => [t]) hw⟩

theorem linear_grads {w c : Tensor ℝ} {I O : ℕ} (hw : w.shape = [O, I]) (hc : c.shape = [O]) {κ ρ : ℕ → ℕ} (hκ : Renumbers κ I) (hρ : Renumbers ρ O) {B : ℕ} {x g : Tensor ℝ} (hx : x.shape = [B, I])
    (hg : g.shape = [B, O]) : GradsFollow (.linear w c) κ ρ B I O x g := by
  have ei : ∀ (v y u : Tensor ℝ), v.shape = [O, I] → y.shape = [B, I] → linearInputGrad v y u = Tensor.tab2 B I fun b q => sumL ((List.range O).map fun r => u.get [b, r] * v.get [r, q]) := by
    intro v y u hv hy
    unfold linearInputGrad
    rw [hy, hv]
  have ew : ∀ (v y u : Tensor ℝ), v.shape = [O, I] → y.shape = [B, I] → linearWeightGrad v y u = Tensor.tab2 O I fun r q => sumL ((List.range B).map fun b => u.get [b, r] * y.get [b, q]) := by
    intro v y u hv hy
    unfold linearWeightGrad
    rw [hy, hv]
  have ei' := ei w x g hw hx
  have ew' := ew w x g hw hx
  obtain ⟨b1, b2⟩ := biasGrad_follows hρ hg
  refine ⟨congrArg Tensor.shape ei', ?_, ?_, ?_⟩
  · show linearInputGrad (renumberLinks κ ρ w) (columns κ x) (columns ρ g) = columns κ (linearInputGrad w x g)
    rw [ei (renumberLinks κ ρ w) (columns κ x) (columns ρ g) hw hx, ei']
    refine columns_ext rfl (Tensor.wf_tabulate _ _) rfl fun b hb i hi => ?_
    rw [Tensor.get_tab2 hb hi, Tensor.get_tab2 hb (hκ.lt hi), sumL_range, sumL_range, ← hρ.sum fun o => g.get [b, o] * w.get [o, κ i]]
    refine Finset.sum_congr rfl fun o ho => ?_
    have ho := Finset.mem_range.1 ho
    rw [columns_get hg hb ho, renumberLinks_get2 hw ho hi]
  · show [(linearWeightGrad w x g).shape, (biasGrad g).shape] = [w.shape, c.shape]
    rw [ew', b1, hw, hc]
    rfl
  · show [linearWeightGrad (renumberLinks κ ρ w) (columns κ x) (columns ρ g), biasGrad (columns ρ g)] = [renumberLinks κ ρ (linearWeightGrad w x g), renumberOut ρ (biasGrad g)]
    rw [b2]
    refine congrArg (fun t => [t, renumberOut ρ (biasGrad g)]) ?_
    rw [ew (renumberLinks κ ρ w) (columns κ x) (columns ρ g) hw hx, ew']
    refine links2_ext rfl (Tensor.wf_tabulate _ _) rfl fun o ho i hi => ?_
    rw [Tensor.get_tab2 ho hi, Tensor.get_tab2 (hρ.lt ho) (hκ.lt hi), sumL_range, sumL_range]
    refine Finset.sum_congr rfl fun b hb => ?_
    have hb := Finset.mem_range.1 hb
    rw [columns_get hg hb ho, columns_get hx hb hi]

theorem product_grads {L : ProductLayer ℝ} (h : L.Fits) {κ ρ : ℕ → ℕ} (hκ : Renumbers κ L.inFeatures) (hρ : Renumbers ρ L.outFeatures) {B : ℕ} {x g : Tensor ℝ} (hx : x.shape = [B, L.inFeatures])
    (hg : g.shape = [B, L.outFeatures]) : GradsFollow (.product L) κ ρ B L.inFeatures L.outFeatures x g := by
  obtain ⟨bias, hb0, hbs, hbw⟩ := h.bias
  have ei : ∀ (M : ProductLayer ℝ) (y u : Tensor ℝ), y.shape = [B, L.inFeatures] → M.inputGrad y u = Tensor.tab2 B L.inFeatures fun b i =>
      sumL ((List.range M.outFeatures).map fun o => u.get [b, o] * M.termGrad (fun b i => periodize M.periodicity (y.get [b, i])) b o i * M.weight.get [o, i]) * periodizeGrad M.periodicity (y.get [b, i]) := by
    intro M y u hy
    unfold ProductLayer.inputGrad
    rw [hy]
  have ew : ∀ (M : ProductLayer ℝ) (y u : Tensor ℝ), y.shape = [B, L.inFeatures] → M.weightGrad y u = Tensor.tab2 M.outFeatures M.inFeatures fun o i =>
      sumL ((List.range B).map fun b => u.get [b, o] * M.termGrad (fun b i => periodize M.periodicity (y.get [b, i])) b o i * periodize M.periodicity (y.get [b, i])) := by
    intro M y u hy
    unfold ProductLayer.weightGrad
    rw [hy]
  have ei' := ei L x g hx
  have ew' := ew L x g hx
  obtain ⟨b1, b2⟩ := biasGrad_follows hρ hg
  have ht : ∀ {b : ℕ}, b < B → ∀ {o : ℕ}, o < L.outFeatures → ∀ {i : ℕ}, i < L.inFeatures →
      ({ L with weight := renumberLinks κ ρ L.weight, bias := L.bias.map (renumberOut ρ) } : ProductLayer ℝ).termGrad (fun b i => periodize L.periodicity ((columns κ x).get [b, i])) b o i =
        L.termGrad (fun b i => periodize L.periodicity (x.get [b, i])) b (ρ o) (κ i) := by
    intro b hb o ho i hi
    unfold ProductLayer.termGrad
    refine congrArg (· - (1 - L.alpha)) ?_
    rw [← hκ.prod_except hi fun j => periodize L.periodicity (x.get [b, j]) * L.weight.get [ρ o, j] + 1]
    refine prod_filter_congr fun j hj => ?_
    show periodize L.periodicity ((columns κ x).get [b, j]) * (renumberLinks κ ρ L.weight).get [o, j] + 1 = _
    rw [columns_get hx hb hj, renumberLinks_get2 h.w_shape ho hj]
  have hi : ({ L with weight := renumberLinks κ ρ L.weight, bias := L.bias.map (renumberOut ρ) } : ProductLayer ℝ).inputGrad (columns κ x) (columns ρ g) = columns κ (L.inputGrad x g) := by
    rw [ei { L with weight := renumberLinks κ ρ L.weight, bias := L.bias.map (renumberOut ρ) } (columns κ x) (columns ρ g) hx, ei']
    refine columns_ext rfl (Tensor.wf_tabulate _ _) rfl fun b hb i hi => ?_
    rw [Tensor.get_tab2 hb hi, Tensor.get_tab2 hb (hκ.lt hi), columns_get hx hb hi, sumL_range, sumL_range]
    refine congrArg (· * _) ?_
    rw [← hρ.sum fun o => g.get [b, o] * L.termGrad (fun b i => periodize L.periodicity (x.get [b, i])) b o (κ i) * L.weight.get [o, κ i]]
    refine Finset.sum_congr rfl fun o ho => ?_
    have ho := Finset.mem_range.1 ho
    rw [columns_get hg hb ho, ht hb ho hi, renumberLinks_get2 h.w_shape ho hi]
  have hs : [(L.weightGrad x g).shape, (biasGrad g).shape] = [L.weight.shape, (L.bias.getD (Tensor.tab1 0 fun _ => 0)).shape] := by
    rw [ew', b1, h.w_shape, hb0, Option.getD_some, hbs]
    rfl
  have hw : ({ L with weight := renumberLinks κ ρ L.weight, bias := L.bias.map (renumberOut ρ) } : ProductLayer ℝ).weightGrad (columns κ x) (columns ρ g) = renumberLinks κ ρ (L.weightGrad x g) := by
    rw [ew { L with weight := renumberLinks κ ρ L.weight, bias := L.bias.map (renumberOut ρ) } (columns κ x) (columns ρ g) hx, ew']
    refine links2_ext rfl (Tensor.wf_tabulate _ _) rfl fun o ho i hi => ?_
    rw [Tensor.get_tab2 ho hi, Tensor.get_tab2 (hρ.lt ho) (hκ.lt hi), sumL_range, sumL_range]
    refine Finset.sum_congr rfl fun b hb => ?_
    have hb := Finset.mem_range.1 hb
    rw [columns_get hg hb ho, ht hb ho hi, columns_get hx hb hi]
  exact ⟨by show (L.inputGrad x g).shape = _; rw [ei']; rfl, hi, hs, congrArg₂ (fun t u => [t, u]) hw b2⟩

theorem layer_grads {l : GLayer ℝ} {I O : ℕ} (hf : l.Fits I O) (hn : l ≠ .relu) {κ ρ : ℕ → ℕ} (hκ : Renumbers κ I) (hρ : Renumbers ρ O) {B : ℕ} {x g : Tensor ℝ} (hx : x.shape = [B, I]) (hwx : x.WF)
    (hg : g.shape = [B, O]) : GradsFollow l κ ρ B I O x g := by
  cases l with
  | pw L =>
    obtain ⟨h, -, -, rfl, rfl⟩ := hf
    exact pw_grads h hκ hρ hx hwx hg
  | fn L =>
    obtain ⟨h, rfl, rfl⟩ := hf
    exact fn_grads h hκ hρ hx hg
  | product L =>
    obtain ⟨h, rfl, rfl⟩ := hf
    exact product_grads h hκ hρ hx hg
  | linear w b =>
    obtain ⟨h1, -, h2, -⟩ := hf
    exact linear_grads h1 h2 hκ hρ hx hg
  | relu => exact absurd rfl hn

end HOL
