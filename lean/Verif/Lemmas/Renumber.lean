import Verif.Spec.Renumber
import Verif.Props.Norm
import Verif.Lemmas.Norm

/-! # Lemmas for C131: layers and normalizations with renumbered units -/

namespace HOL
open TorchScalar Spec

theorem Spec.Renumbers.lt {ρ : ℕ → ℕ} {n : ℕ} (h : Renumbers ρ n) {i : ℕ} (hi : i < n) : ρ i < n := h.mapsTo hi

theorem Spec.Renumbers.id (n : ℕ) : Renumbers (fun i => i) n := Set.bijOn_id _

theorem Spec.Renumbers.sum {ρ : ℕ → ℕ} {n : ℕ} (h : Renumbers ρ n) (f : ℕ → ℝ) : ∑ i ∈ Finset.range n, f (ρ i) = ∑ i ∈ Finset.range n, f i := by
  refine Finset.sum_nbij ρ (fun i hi => Finset.mem_range.2 (h.lt (Finset.mem_range.1 hi))) ?_ ?_ fun _ _ => rfl
  · rw [Finset.coe_range]; exact h.injOn
  · rw [Finset.coe_range]; exact h.surjOn

theorem Spec.Renumbers.prod {ρ : ℕ → ℕ} {n : ℕ} (h : Renumbers ρ n) (f : ℕ → ℝ) : ∏ i ∈ Finset.range n, f (ρ i) = ∏ i ∈ Finset.range n, f i := by
  refine Finset.prod_nbij ρ (fun i hi => Finset.mem_range.2 (h.lt (Finset.mem_range.1 hi))) ?_ ?_ fun _ _ => rfl
  · rw [Finset.coe_range]; exact h.injOn
  · rw [Finset.coe_range]; exact h.surjOn

theorem columns_shape (κ : ℕ → ℕ) (x : Tensor ℝ) : (columns κ x).shape = x.shape := rfl
theorem columns_wf (κ : ℕ → ℕ) (x : Tensor ℝ) : (columns κ x).WF := Tensor.wf_tabulate _ _

theorem columns_get {κ : ℕ → ℕ} {x : Tensor ℝ} {B I : ℕ} (hx : x.shape = [B, I]) {b i : ℕ} (hb : b < B) (hi : i < I) : (columns κ x).get [b, i] = x.get [b, κ i] := by
  unfold columns
  rw [Tensor.get_tabulate (by rw [hx]; exact inShape2.2 ⟨hb, hi⟩)]
  rfl

theorem columns_tab2 {ρ : ℕ → ℕ} {B O : ℕ} (h : Renumbers ρ O) (F : ℕ → ℕ → ℝ) : columns ρ (Tensor.tab2 B O F) = Tensor.tab2 B O fun b o => F b (ρ o) := by
  refine Tensor.ext_get (columns_wf _ _) (Tensor.wf_tab2 _ _ _) rfl fun idx hin => ?_
  obtain ⟨b, o, rfl, hb, ho⟩ := inShape2_exists hin
  rw [columns_get (B := B) (I := O) rfl hb ho, Tensor.get_tab2 hb (h.lt ho), Tensor.get_tab2 hb ho]

theorem renumberOut_get {ρ : ℕ → ℕ} {b : Tensor ℝ} {O : ℕ} (hb : b.shape = [O]) {o : ℕ} (ho : o < O) : (renumberOut ρ b).get [o] = b.get [ρ o] := by
  unfold renumberOut
  rw [Tensor.get_tabulate (by rw [hb]; exact inShape1.2 ho)]
  rfl

theorem renumberLinks_get2 {κ ρ : ℕ → ℕ} {w : Tensor ℝ} {O I : ℕ} (hw : w.shape = [O, I]) {o i : ℕ} (ho : o < O) (hi : i < I) : (renumberLinks κ ρ w).get [o, i] = w.get [ρ o, κ i] := by
  unfold renumberLinks
  rw [Tensor.get_tabulate (by rw [hw]; exact inShape2.2 ⟨ho, hi⟩)]
  rfl

theorem renumberLinks_get3 {κ ρ : ℕ → ℕ} {w : Tensor ℝ} {O I S : ℕ} (hw : w.shape = [O, I, S]) {o i r : ℕ} (ho : o < O) (hi : i < I) (hr : r < S) :
    (renumberLinks κ ρ w).get [o, i, r] = w.get [ρ o, κ i, r] := by
  unfold renumberLinks
  rw [Tensor.get_tabulate (by rw [hw]; exact inShape3.2 ⟨ho, hi, hr⟩)]
  rfl

/-- `f'` computes what `f` computes, with inputs renumbered by `κ` and outputs by `ρ`. -/
def Follows (f f' : Fwd ℝ) (κ ρ : ℕ → ℕ) (B I O : ℕ) : Prop :=
  ∀ x : Tensor ℝ, x.shape = [B, I] → x.WF → ∃ y, f x = .ok y ∧ y.shape = [B, O] ∧ y.WF ∧ f' (columns κ x) = .ok (columns ρ y)

theorem follows_of {f f' : Fwd ℝ} {κ ρ : ℕ → ℕ} {B I O : ℕ} (hρ : Renumbers ρ O) (F F' : Tensor ℝ → ℕ → ℕ → ℝ)
    (h1 : ∀ x : Tensor ℝ, x.shape = [B, I] → x.WF → f x = .ok (Tensor.tab2 B O (F x))) (h2 : ∀ x : Tensor ℝ, x.shape = [B, I] → x.WF → f' x = .ok (Tensor.tab2 B O (F' x)))
    (h3 : ∀ x : Tensor ℝ, x.shape = [B, I] → x.WF → ∀ b < B, ∀ o < O, F' (columns κ x) b o = F x b (ρ o)) : Follows f f' κ ρ B I O := by
  intro x hx hwx
  refine ⟨_, h1 x hx hwx, rfl, Tensor.wf_tab2 _ _ _, ?_⟩
  rw [h2 (columns κ x) hx (columns_wf _ _), columns_tab2 hρ]
  congr 1
  exact tab2_congr fun b hb o ho => h3 x hx hwx b hb o ho

theorem linkFn_renumber {L : PwLayer ℝ} (h : L.WF) {κ ρ : ℕ → ℕ} {o i : ℕ} (ho : o < L.outFeatures) (hi : i < L.inFeatures) (v : ℝ) :
    ({ L with w := renumberLinks κ ρ L.w } : PwLayer ℝ).linkFn o i v = L.linkFn (ρ o) (κ i) v := by
  show (linkPoly L.n fun k => (renumberLinks κ ρ L.w).get [o, i, L.seg v * L.stride + k]).eval (L.xIn v) = (linkPoly L.n fun k => L.w.get [ρ o, κ i, L.seg v * L.stride + k]).eval (L.xIn v)
  refine congrArg (Polynomial.eval (L.xIn v)) ?_
  refine linkPoly_congr fun k hk => ?_
  exact renumberLinks_get3 h.w_shape ho hi (L.widx_lt h.n_pos (L.seg_lt h.seg_pos _) hk)

theorem renumberLinks_wf (κ ρ : ℕ → ℕ) (w : Tensor ℝ) : (renumberLinks κ ρ w).WF := Tensor.wf_tabulate _ _

theorem pw_follows {L : PwLayer ℝ} (h : L.WF) {κ ρ : ℕ → ℕ} (hκ : Renumbers κ L.inFeatures) (hρ : Renumbers ρ L.outFeatures) (B : ℕ) :
    Follows L.forward ({ L with w := renumberLinks κ ρ L.w } : PwLayer ℝ).forward κ ρ B L.inFeatures L.outFeatures := by
  have h' : ({ L with w := renumberLinks κ ρ L.w } : PwLayer ℝ).WF := h.withW rfl (renumberLinks_wf _ _ _)
  have hsum : L.cls = .continuous ∨ L.cls = .discontinuous → Follows L.forward ({ L with w := renumberLinks κ ρ L.w } : PwLayer ℝ).forward κ ρ B L.inFeatures L.outFeatures := fun hc =>
    follows_of hρ _ _ (fun x hx hwx => L.forward_sum h hc hx hwx) (fun x hx hwx => PwLayer.forward_sum _ h' hc hx hwx) fun x hx hwx b hb o ho => by
      rw [← hκ.sum fun i => L.linkFn (ρ o) i (x.get [b, i])]
      refine Finset.sum_congr rfl fun i hi => ?_
      have hi := Finset.mem_range.1 hi
      rw [linkFn_renumber h ho hi, columns_get hx hb hi]
  have hprod : L.cls = .continuousProd ∨ L.cls = .discontinuousProd → Follows L.forward ({ L with w := renumberLinks κ ρ L.w } : PwLayer ℝ).forward κ ρ B L.inFeatures L.outFeatures := fun hc =>
    follows_of hρ _ _ (fun x hx hwx => L.forward_prod h hc hx hwx) (fun x hx hwx => PwLayer.forward_prod _ h' hc hx hwx) fun x hx hwx b hb o ho => by
      rw [← hκ.prod fun i => 1 + L.linkFn (ρ o) i (x.get [b, i])]
      congr 1
      refine Finset.prod_congr rfl fun i hi => ?_
      have hi := Finset.mem_range.1 hi
      rw [linkFn_renumber h ho hi, columns_get hx hb hi]
  have hcls : (L.cls = .continuous ∨ L.cls = .discontinuous) ∨ L.cls = .continuousProd ∨ L.cls = .discontinuousProd := by
    cases L.cls <;> simp
  exact hcls.elim hsum hprod

theorem fn_forward (L : FnLayer ℝ) (h : L.Fits) {B : ℕ} {x : Tensor ℝ} (hx : x.shape = [B, L.inFeatures]) (hwx : x.WF) : L.forward x = .ok (Tensor.tab2 B L.outFeatures fun b o =>
    ∑ i ∈ Finset.range L.inFeatures, ∑ p ∈ Finset.range L.poly.n, L.poly.basis.call (periodize L.periodicity (x.get [b, i])) p * L.w.get [o, i, p]) := by
  have hp : L.poly = ⟨.flat, L.poly.n, L.poly.basis⟩ := by
    have := h.flat
    cases hq : L.poly
    rw [hq] at this
    simp only at this
    subst this
    rfl
  unfold FnLayer.forward
  rw [hp, interpolate_flat (x := x.map _) (B := B) h.n_pos L.poly.basis hx h.w_shape]
  congr 1
  refine tab2_congr fun b hb o ho => ?_
  rw [sumL_flatMap_range, Finset.sum_comm]
  refine Finset.sum_congr rfl fun i hi => Finset.sum_congr rfl fun p _ => ?_
  rw [Tensor.get_map hwx (by rw [hx]; exact inShape2.2 ⟨hb, Finset.mem_range.1 hi⟩)]

theorem fn_follows {L : FnLayer ℝ} (h : L.Fits) {κ ρ : ℕ → ℕ} (hκ : Renumbers κ L.inFeatures) (hρ : Renumbers ρ L.outFeatures) (B : ℕ) :
    Follows L.forward ({ L with w := renumberLinks κ ρ L.w } : FnLayer ℝ).forward κ ρ B L.inFeatures L.outFeatures := by
  have h' : ({ L with w := renumberLinks κ ρ L.w } : FnLayer ℝ).Fits := ⟨h.flat, h.n_pos, h.w_shape, renumberLinks_wf _ _ _, h.per⟩
  refine follows_of hρ _ _ (fun x hx hwx => fn_forward L h hx hwx) (fun x hx hwx => fn_forward _ h' hx hwx) fun x hx hwx b hb o ho => ?_
  rw [← hκ.sum fun i => ∑ p ∈ Finset.range L.poly.n, L.poly.basis.call (periodize L.periodicity (x.get [b, i])) p * L.w.get [ρ o, i, p]]
  refine Finset.sum_congr rfl fun i hi => Finset.sum_congr rfl fun p hp => ?_
  have hi := Finset.mem_range.1 hi
  show _ * (renumberLinks κ ρ L.w).get [o, i, p] = _
  rw [renumberLinks_get3 h.w_shape ho hi (Finset.mem_range.1 hp), columns_get hx hb hi]

theorem product_follows {L : ProductLayer ℝ} (h : L.Fits) {κ ρ : ℕ → ℕ} (hκ : Renumbers κ L.inFeatures) (hρ : Renumbers ρ L.outFeatures) (B : ℕ) :
    Follows L.forward ({ L with weight := renumberLinks κ ρ L.weight, bias := L.bias.map (renumberOut ρ) } : ProductLayer ℝ).forward κ ρ B L.inFeatures L.outFeatures := by
  obtain ⟨bias, hb, hbs, hbw⟩ := h.bias
  refine follows_of hρ _ _ (fun x hx hwx => L.forward_eq bias hb h.w_shape hx hwx)
    (fun x hx hwx => ProductLayer.forward_eq { L with weight := renumberLinks κ ρ L.weight, bias := L.bias.map (renumberOut ρ) } (renumberOut ρ bias) (by rw [hb]; rfl) h.w_shape hx hwx) fun x hx hwx b hb o ho => ?_
  rw [prodL_range, prodL_range, sumL_range, sumL_range, renumberOut_get hbs ho,
    ← hκ.sum fun i => periodize L.periodicity (x.get [b, i]) * L.weight.get [ρ o, i], ← hκ.prod fun i => periodize L.periodicity (x.get [b, i]) * L.weight.get [ρ o, i] + 1]
  have e : ∀ i < L.inFeatures, periodize L.periodicity ((columns κ x).get [b, i]) * (renumberLinks κ ρ L.weight).get [o, i] = periodize L.periodicity (x.get [b, κ i]) * L.weight.get [ρ o, κ i] := fun i hi => by
    rw [renumberLinks_get2 h.w_shape ho hi, columns_get hx hb hi]
  rw [Finset.sum_congr rfl fun i hi => e i (Finset.mem_range.1 hi), Finset.prod_congr rfl fun i hi => congrArg (· + 1) (e i (Finset.mem_range.1 hi))]

theorem linear_follows {w b : Tensor ℝ} {I O : ℕ} (hw : w.shape = [O, I]) (hb : b.shape = [O]) {κ ρ : ℕ → ℕ} (hκ : Renumbers κ I) (hρ : Renumbers ρ O) (B : ℕ) :
    Follows (linearForward w b) (linearForward (renumberLinks κ ρ w) (renumberOut ρ b)) κ ρ B I O := by
  have fw : ∀ {w b x : Tensor ℝ}, w.shape = [O, I] → x.shape = [B, I] → linearForward w b x = .ok (Tensor.tab2 B O fun s r => sumL ((List.range I).map fun q => x.get [s, q] * w.get [r, q]) + b.get [r]) := by
    intro w b x hw hx
    unfold linearForward
    simp only [hx, hw]
    rw [if_pos trivial]
  refine follows_of hρ _ _ (fun x hx hwx => fw hw hx) (fun x hx hwx => fw hw hx) fun x hx hwx s hs o ho => ?_
  rw [sumL_range, sumL_range, renumberOut_get hb ho, ← hκ.sum fun i => x.get [s, i] * w.get [ρ o, i]]
  congr 1
  refine Finset.sum_congr rfl fun i hi => ?_
  have hi := Finset.mem_range.1 hi
  rw [renumberLinks_get2 hw ho hi, columns_get hx hs hi]

/-- Layers. -/
theorem layer_follows {l l' : GLayer ℝ} {I O : ℕ} (hf : l.Fits I O) {κ ρ : ℕ → ℕ} (hr : l.Renumbered κ ρ l') (hκ : Renumbers κ I) (hρ : Renumbers ρ O) (B : ℕ) : Follows l.forward l'.forward κ ρ B I O := by
  obtain ⟨hn, rfl⟩ := hr
  cases l with
  | pw L =>
    obtain ⟨h, -, -, rfl, rfl⟩ := hf
    exact pw_follows h hκ hρ B
  | fn L =>
    obtain ⟨h, rfl, rfl⟩ := hf
    exact fn_follows h hκ hρ B
  | product L =>
    obtain ⟨h, rfl, rfl⟩ := hf
    exact product_follows h hκ hρ B
  | linear w b =>
    obtain ⟨h1, -, h2, -⟩ := hf
    exact linear_follows h1 h2 hκ hρ B
  | relu => exact absurd rfl hn

theorem relu_follows {κ : ℕ → ℕ} {I : ℕ} (hκ : Renumbers κ I) (B : ℕ) : Follows (fun x => .ok (reluT x)) (fun x => .ok (reluT x)) κ κ B I I := by
  intro x hx hwx
  refine ⟨_, rfl, hx, Tensor.wf_map hwx _, ?_⟩
  refine congrArg Except.ok (Tensor.ext_get (Tensor.wf_map (columns_wf _ _) _) (columns_wf _ _) rfl fun idx hin => ?_)
  change InShape x.shape idx at hin
  rw [hx] at hin
  obtain ⟨b, i, rfl, hb, hi⟩ := inShape2_exists hin
  unfold reluT
  rw [Tensor.get_map (columns_wf _ _) (by rw [columns_shape, hx]; exact inShape2.2 ⟨hb, hi⟩), columns_get hx hb hi, columns_get (x := x.map _) (B := B) (I := I) hx hb hi,
    Tensor.get_map hwx (by rw [hx]; exact inShape2.2 ⟨hb, hκ.lt hi⟩)]

theorem mem_renumber {κ : ℕ → ℕ} {n : ℕ} (hκ : Renumbers κ n) (f : ℕ → ℝ) (v : ℝ) : v ∈ (List.range n).map (fun i => f (κ i)) ↔ v ∈ (List.range n).map f := by
  simp only [List.mem_map, List.mem_range]
  constructor
  · rintro ⟨i, hi, rfl⟩
    exact ⟨κ i, hκ.lt hi, rfl⟩
  · rintro ⟨i, hi, rfl⟩
    obtain ⟨j, hj, rfl⟩ := hκ.surjOn hi
    exact ⟨j, hj, rfl⟩

/-- Greatest and least entries do not depend on the numbering. -/
theorem maxL_renumber {κ : ℕ → ℕ} {n : ℕ} (hκ : Renumbers κ n) (hn : 0 < n) (f : ℕ → ℝ) : maxL ((List.range n).map fun i => f (κ i)) = maxL ((List.range n).map f) := by
  have e : ∀ v, v ∈ (List.range n).map (fun i => f (κ i)) ↔ v ∈ (List.range n).map f := mem_renumber hκ f
  have ne : ∀ g : ℕ → ℝ, (List.range n).map g ≠ [] := fun g h => by simp at h; omega
  have h1 := maxL_isGreatest (ne fun i => f (κ i))
  have h2 := maxL_isGreatest (ne f)
  exact le_antisymm (h2.2 ((e _).1 h1.1)) (h1.2 ((e _).2 h2.1))

theorem minL_renumber {κ : ℕ → ℕ} {n : ℕ} (hκ : Renumbers κ n) (hn : 0 < n) (f : ℕ → ℝ) : minL ((List.range n).map fun i => f (κ i)) = minL ((List.range n).map f) := by
  have e : ∀ v, v ∈ (List.range n).map (fun i => f (κ i)) ↔ v ∈ (List.range n).map f := mem_renumber hκ f
  have ne : ∀ g : ℕ → ℝ, (List.range n).map g ≠ [] := fun g h => by simp at h; omega
  have h1 := minL_isLeast (ne fun i => f (κ i))
  have h2 := minL_isLeast (ne f)
  exact le_antisymm (h1.2 ((e _).2 h2.1)) (h2.2 ((e _).1 h1.1))

theorem slice_row (x : Tensor ℝ) {B I : ℕ} (hx : x.shape = [B, I]) (b i : ℕ) : slice x 1 [b, i] = (List.range I).map fun q => x.get [b, q] := by
  unfold slice
  rw [hx]
  rfl

theorem slice_columns {κ : ℕ → ℕ} (x : Tensor ℝ) {B I : ℕ} (hx : x.shape = [B, I]) {b : ℕ} (hb : b < B) (i : ℕ) :
    slice (columns κ x) 1 [b, i] = (List.range I).map fun q => x.get [b, κ q] := by
  rw [slice_row (columns κ x) hx]
  exact List.map_congr_left fun q hq => columns_get hx hb (List.mem_range.1 hq)

/-- A function that computes every entry from the entry and its row. -/
theorem rows_follow {f : Fwd ℝ} {κ : ℕ → ℕ} {B I : ℕ} (hκ : Renumbers κ I) (F : ℝ → List ℝ → ℝ)
    (h1 : ∀ x : Tensor ℝ, x.shape = [B, I] → x.WF → f x = .ok (Tensor.tabulate x.shape fun idx => F (x.get idx) (slice x 1 idx)))
    (h2 : ∀ (v : ℝ) (g : ℕ → ℝ), F v ((List.range I).map fun i => g (κ i)) = F v ((List.range I).map g)) : Follows f f κ κ B I I := by
  intro x hx hwx
  refine ⟨_, h1 x hx hwx, hx, Tensor.wf_tabulate _ _, ?_⟩
  rw [h1 (columns κ x) hx (columns_wf _ _)]
  refine congrArg Except.ok (Tensor.ext_get (Tensor.wf_tabulate _ _) (columns_wf _ _) rfl fun idx hin => ?_)
  change InShape x.shape idx at hin
  rw [Tensor.get_tabulate (s := (columns κ x).shape) hin]
  rw [hx] at hin
  obtain ⟨b, i, rfl, hb, hi⟩ := inShape2_exists hin
  have e : (columns κ (Tensor.tabulate x.shape fun idx => F (x.get idx) (slice x 1 idx))).get [b, i] = F (x.get [b, κ i]) (slice x 1 [b, κ i]) := by
    rw [columns_get (x := Tensor.tabulate x.shape fun idx => F (x.get idx) (slice x 1 idx)) (B := B) (I := I) (by exact hx) hb hi, Tensor.get_tabulate (by rw [hx]; exact inShape2.2 ⟨hb, hκ.lt hi⟩)]
  rw [e, columns_get hx hb hi, slice_columns x hx hb, slice_row x hx]
  exact h2 _ fun q => x.get [b, q]

theorem maxAbs_follows {κ : ℕ → ℕ} {B I : ℕ} (hκ : Renumbers κ I) (hI : 0 < I) (eps : ℝ) : Follows (fun x => maxAbsNormalization x eps 1) (fun x => maxAbsNormalization x eps 1) κ κ B I I := by
  refine rows_follow hκ (fun v l => v / (maxL (l.map TorchScalar.abs) + eps)) (fun x hx hwx => maxAbsNormalization_eq x eps hwx (by rw [hx]; simp) (by rw [hx]; exact hI)) fun v g => ?_
  rw [List.map_map, List.map_map]
  exact congrArg (fun z => v / (z + eps)) (maxL_renumber hκ hI fun i => TorchScalar.abs (g i))

theorem maxCenter_follows {κ : ℕ → ℕ} {B I : ℕ} (hκ : Renumbers κ I) (hI : 0 < I) (eps : ℝ) : Follows (fun x => maxCenterNormalization x eps 1) (fun x => maxCenterNormalization x eps 1) κ κ B I I := by
  refine rows_follow hκ (fun v l => (v - 1 / ((2 : ℕ) : ℝ) * (maxL l + minL l)) / (maxL l - 1 / ((2 : ℕ) : ℝ) * (maxL l + minL l) + eps))
    (fun x hx hwx => maxCenterNormalization_eq x eps (by rw [hx]; simp) (by rw [hx]; exact hI)) fun v g => ?_
  rw [maxL_renumber hκ hI, minL_renumber hκ hI]

theorem l2_follows {κ : ℕ → ℕ} {B I : ℕ} (hκ : Renumbers κ I) (hI : 0 < I) (eps : ℝ) : Follows (fun x => l2Normalization x eps) (fun x => l2Normalization x eps) κ κ B I I := by
  refine rows_follow hκ (fun v l => v / (sqrt (sumL (l.map fun a => a * a)) + eps)) (fun x hx hwx => l2Normalization_eq x eps (by rw [hx]; simp) (by rw [hx]; exact hI)) fun v g => ?_
  rw [List.map_map, List.map_map]
  refine congrArg (fun z => v / (sqrt z + eps)) ?_
  exact (sumL_range _ _).trans ((hκ.sum fun i => g i * g i).trans (sumL_range _ _).symm)

theorem reshape_same {x : Tensor ℝ} {B I : ℕ} (hx : x.shape = [B, I]) : x.reshape [B, numel [I]] = x := by
  cases x
  simp only at hx
  subst hx
  simp [Tensor.reshape, numel]

theorem maxAbsND_matrix {x : Tensor ℝ} {B I : ℕ} (hx : x.shape = [B, I]) (hB : 0 < B) (eps : ℝ) : maxAbsNormalizationND x eps = maxAbsNormalization x eps 1 := by
  unfold maxAbsNormalizationND maxAbsNormalization
  rw [flattenRows_ok x hx hB, reshape_same hx]
  show (maxAbs x 1 >>= fun m => Except.ok ((zipDim (fun a c => a / (c + eps)) x m 1).reshape x.shape)) = (maxAbs x 1 >>= fun m => Except.ok (zipDim (fun a c => a / (c + eps)) x m 1))
  rfl

theorem maxCenterND_matrix {x : Tensor ℝ} {B I : ℕ} (hx : x.shape = [B, I]) (hB : 0 < B) (hI : 0 < I) (eps : ℝ) : maxCenterNormalizationND x eps = maxCenterNormalization x eps 1 := by
  unfold maxCenterNormalizationND
  rw [flattenRows_ok x hx hB, reshape_same hx]
  show (maxCenterNormalization x eps 1 >>= fun n => Except.ok (n.reshape x.shape)) = _
  rw [maxCenterNormalization_eq x eps (by rw [hx]; simp) (by rw [hx]; exact hI)]
  rfl

/-- Normalizations that treat all columns alike. -/
theorem norm_follows {N : NormModule ℝ} (hs : N.Symmetric) {κ : ℕ → ℕ} {B I : ℕ} (ht : N.Takes [B, I]) (hκ : Renumbers κ I) : Follows N.apply N.apply κ κ B I I := by
  have drop : ∀ {f g : Fwd ℝ}, (∀ x : Tensor ℝ, x.shape = [B, I] → f x = g x) → Follows g g κ κ B I I → Follows f f κ κ B I I := by
    intro f g hfg hg x hx hwx
    obtain ⟨y, h1, h2, h3, h4⟩ := hg x hx hwx
    exact ⟨y, by rw [hfg x hx, h1], h2, h3, by rw [hfg (columns κ x) hx, h4]⟩
  have ap : ∀ (f : Fwd ℝ) (x : Tensor ℝ), (f x >>= fun y => Except.ok (y, N) >>= fun r => Except.ok r.1) = f x := fun f x => by cases f x <;> rfl
  have two : ∀ x : Tensor ℝ, x.shape = [B, I] → x.shape.length - 1 = 1 := fun x hx => by rw [hx]; rfl
  cases N with
  | maxAbsLast eps =>
    refine drop (fun x hx => ?_) (maxAbs_follows hκ (by simpa using ht.1) eps)
    show (((maxAbsNormalizationLast x eps) >>= fun y => Except.ok (y, _)) >>= fun r => Except.ok r.1) = _
    unfold maxAbsNormalizationLast
    rw [two x hx]
    cases maxAbsNormalization x eps 1 <;> rfl
  | maxCenterLast eps =>
    refine drop (fun x hx => ?_) (maxCenter_follows hκ (by simpa using ht.1) eps)
    show (((maxCenterNormalizationLast x eps) >>= fun y => Except.ok (y, _)) >>= fun r => Except.ok r.1) = _
    unfold maxCenterNormalizationLast
    rw [two x hx]
    cases maxCenterNormalization x eps 1 <;> rfl
  | maxAbs eps dim =>
    obtain rfl : dim = 1 := hs
    refine drop (fun x hx => ?_) (maxAbs_follows hκ (by simpa using ht.1) eps)
    show (((maxAbsNormalization x eps 1) >>= fun y => Except.ok (y, _)) >>= fun r => Except.ok r.1) = _
    cases maxAbsNormalization x eps 1 <;> rfl
  | maxCenter eps =>
    refine drop (fun x hx => ?_) (maxCenter_follows hκ (by simpa using ht.1) eps)
    show (((maxCenterNormalization x eps 1) >>= fun y => Except.ok (y, _)) >>= fun r => Except.ok r.1) = _
    cases maxCenterNormalization x eps 1 <;> rfl
  | maxCenterND eps =>
    obtain ⟨B', R, hR, hB, hI, -⟩ := ht
    obtain ⟨rfl, rfl⟩ := List.cons.inj hR
    have hI' : 0 < I := by simpa [numel] using hI
    refine drop (fun x hx => ?_) (maxCenter_follows hκ hI' eps)
    show (((maxCenterNormalizationND x eps) >>= fun y => Except.ok (y, _)) >>= fun r => Except.ok r.1) = _
    rw [maxCenterND_matrix hx hB hI']
    cases maxCenterNormalization x eps 1 <;> rfl
  | maxAbsND eps =>
    obtain ⟨B', R, hR, hB, hI, -⟩ := ht
    obtain ⟨rfl, rfl⟩ := List.cons.inj hR
    have hI' : 0 < I := by simpa [numel] using hI
    refine drop (fun x hx => ?_) (maxAbs_follows hκ hI' eps)
    show (((maxAbsNormalizationND x eps) >>= fun y => Except.ok (y, _)) >>= fun r => Except.ok r.1) = _
    rw [maxAbsND_matrix hx hB]
    cases maxAbsNormalization x eps 1 <;> rfl
  | l2 eps =>
    refine drop (fun x hx => ?_) (l2_follows hκ (by simpa using ht.1) eps)
    show (((l2Normalization x eps) >>= fun y => Except.ok (y, _)) >>= fun r => Except.ok r.1) = _
    cases l2Normalization x eps <;> rfl
  | layerNorm M => exact hs.elim

end HOL
