import Verif.Props.LinkLevels
import Verif.Props.RenumberLion
import Verif.Props.RenumberTrainingNetwork
import Verif.Props.Identifiability
import Verif.Props.ConvGroups

/-! # C133: what the conserved levels mean for trained networks, and what does not conserve them -/

namespace HOL
open TorchScalar Spec

/-! ## the function determines the trained weights -/

/-- Two sum layers on `[-1, 1]` with the same function and the same differences of levels have the same weights. -/
theorem C133_determined (L L' : PwLayer ℝ) (h : L.WF) (h' : L'.WF) (hc : L.cls = .continuous ∨ L.cls = .discontinuous) (hcls : L'.cls = L.cls) (hn : L'.n = L.n) (hS : L'.segments = L.segments)
    (hI : L'.inFeatures = L.inFeatures) (hO : L'.outFeatures = L.outFeatures) (hl : L.length = 2) (hl' : L'.length = 2) (hp : L.periodicity = none) (hp' : L'.periodicity = none)
    (hlev : ∀ o < L.outFeatures, ∀ i < L.inFeatures, ∀ i' < L.inFeatures, linkSum L'.w o i - linkSum L'.w o i' = linkSum L.w o i - linkSum L.w o i')
    (hfun : ∀ (B : ℕ) (x : Tensor ℝ), x.shape = [B, L.inFeatures] → x.WF → InRange x B L.inFeatures → L'.forward x = L.forward x) : L'.w = L.w := by
  obtain ⟨c, hc0, hw⟩ := (C89_same_function_iff L L' h h' hc hcls hn hS hI hO hl hl' hp hp').1 hfun
  have hsh : L'.w.shape = L.w.shape := by rw [h.w_shape, h'.w_shape, hcls, hn, hS, hI, hO]
  have hpos : 0 < PwLayer.wSize L.cls L.n L.segments := by
    have := L.widx_lt h.n_pos h.seg_pos h.n_pos
    omega
  have hsum : ∀ o < L.outFeatures, ∀ i < L.inFeatures, linkSum L'.w o i = linkSum L.w o i + PwLayer.wSize L.cls L.n L.segments * c o i := by
    intro o ho i hi
    unfold linkSum
    rw [hsh, h.w_shape]
    show ∑ k ∈ Finset.range (PwLayer.wSize L.cls L.n L.segments), _ = ∑ k ∈ Finset.range (PwLayer.wSize L.cls L.n L.segments), _ + _
    rw [Finset.sum_congr rfl fun k hk => hw o ho i hi k (Finset.mem_range.1 hk), Finset.sum_add_distrib, Finset.sum_const, Finset.card_range, nsmul_eq_mul]
  have hz : ∀ o < L.outFeatures, ∀ i < L.inFeatures, c o i = 0 := by
    intro o ho i hi
    have heq : ∀ i' < L.inFeatures, c o i' = c o i := by
      intro i' hi'
      have h1 := hlev o ho i' hi' i hi
      rw [hsum o ho i' hi', hsum o ho i hi] at h1
      have h2 : (PwLayer.wSize L.cls L.n L.segments : ℝ) * (c o i' - c o i) = 0 := by linarith
      rcases mul_eq_zero.1 h2 with h3 | h3
      · exact absurd (Nat.cast_eq_zero.1 h3) hpos.ne'
      · linarith
    have h3 := hc0 o ho
    rw [Finset.sum_congr rfl fun i' hi' => heq i' (Finset.mem_range.1 hi'), Finset.sum_const, Finset.card_range, nsmul_eq_mul] at h3
    rcases mul_eq_zero.1 h3 with h4 | h4
    · exact absurd (Nat.cast_eq_zero.1 h4) h.in_pos.ne'
    · exact h4
  refine Tensor.ext_get h'.w_wf h.w_wf hsh fun idx hin => ?_
  rw [hsh, h.w_shape] at hin
  obtain ⟨o, i, r, rfl, ho, hi, hr⟩ := inShape3_exists hin
  rw [hw o ho i hi r hr, hz o ho i hi, add_zero]

theorem train_pw (P : Picks ℝ) {e : GExpr ℝ} (trained : List ℕ) {j : ℕ} : ∀ {bs : List (Batch ℝ)} {σ σ' : ℕ → GLayer ℝ} {L : PwLayer ℝ}, σ j = .pw L → L.WF → train P e trained σ bs = .ok σ' →
    ∃ w, σ' j = .pw { L with w := w } ∧ ({ L with w := w } : PwLayer ℝ).WF := by
  intro bs
  induction bs with
  | nil =>
    intro σ σ' L hj hw ht
    obtain rfl := Except.ok.inj ht
    exact ⟨L.w, hj, hw⟩
  | cons b bs ih =>
    intro σ σ' L hj hw ht
    change (trainStep P e trained σ b >>= fun σ => train P e trained σ bs) = _ at ht
    unfold trainStep at ht
    cases hy : e.forward σ b.x with
    | error e => rw [hy] at ht; cases ht
    | ok y =>
      rw [hy] at ht
      change ((e.backward P σ b.x (b.lossGrad y) >>= fun r => .ok (sgdStep trained b.lr r.2 σ)) >>= fun σ => train P e trained σ bs) = _ at ht
      cases hr : e.backward P σ b.x (b.lossGrad y) with
      | error e => rw [hr] at ht; cases ht
      | ok r =>
        rw [hr] at ht
        change train P e trained (sgdStep trained b.lr r.2 σ) bs = _ at ht
        have key : ∃ w, sgdStep trained b.lr r.2 σ j = .pw { L with w := w } ∧ ({ L with w := w } : PwLayer ℝ).WF := by
          unfold sgdStep
          rw [hj]
          by_cases hm : j ∈ trained
          · rw [if_pos hm]
            refine ⟨_, rfl, ⟨hw.n_pos, hw.seg_pos, hw.in_pos, hw.out_pos, ?_, ?_⟩⟩
            · show (sgdParam b.lr L.w (accumulated r.2 j 0)).shape = _
              rw [show (sgdParam b.lr L.w (accumulated r.2 j 0)).shape = L.w.shape by cases accumulated r.2 j 0 <;> rfl]
              exact hw.w_shape
            · show (sgdParam b.lr L.w (accumulated r.2 j 0)).WF
              cases accumulated r.2 j 0 with
              | none => exact hw.w_wf
              | some g => exact Tensor.wf_tabulate _ _
          · rw [if_neg hm]
            exact ⟨L.w, rfl, hw⟩
        obtain ⟨w, k1, k2⟩ := key
        obtain ⟨w', a1, a2⟩ := ih k1 k2 ht
        exact ⟨w', a1, a2⟩

/-- **C133 (two runs).** Two runs of gradient descent from the same weights of a layer on `[-1, 1]` that adds its links — in different networks, on other data, with other losses, orders and learning rates —: if at the end the layer
computes the same function, it has the same weights. -/
theorem C133_two_runs (P P' : Picks ℝ) {e e' : GExpr ℝ} {trained trained' : List ℕ} {bs bs' : List (Batch ℝ)} {σ τ σ' τ' : ℕ → GLayer ℝ} {j j' : ℕ} {L : PwLayer ℝ} (h : L.WF) (hc : L.cls = .continuous ∨ L.cls = .discontinuous)
    (hl : L.length = 2) (hp : L.periodicity = none) (hj : σ j = .pw L) (hj' : τ j' = .pw L) (hb : ∀ b ∈ bs, b.x.WF ∧ ∃ T, e.Takes σ b.x.shape T) (hb' : ∀ b ∈ bs', b.x.WF ∧ ∃ T, e'.Takes τ b.x.shape T)
    (ht : train P e trained σ bs = .ok σ') (ht' : train P' e' trained' τ bs' = .ok τ')
    (hfun : ∀ (B : ℕ) (x : Tensor ℝ), x.shape = [B, L.inFeatures] → x.WF → InRange x B L.inFeatures → (τ' j').forward x = (σ' j).forward x) : τ' j' = σ' j := by
  have fits : (GLayer.pw L).Fits L.inFeatures L.outFeatures := ⟨h, by rw [hl]; norm_num, fun p hq => (by rw [hp] at hq; cases hq), rfl, rfl⟩
  obtain ⟨w, w1, w2⟩ := train_pw P trained hj h ht
  obtain ⟨v, v1, v2⟩ := train_pw P' trained' hj' h ht'
  have hlev : ∀ o < L.outFeatures, ∀ i < L.inFeatures, ∀ i' < L.inFeatures, linkSum v o i - linkSum v o i' = linkSum w o i - linkSum w o i' := by
    intro o ho i hi i' hi'
    have a1 := C133_training P (e := e) trained (j := j) (I := L.inFeatures) (O := L.outFeatures) ho hi hi' hb (by rw [hj]; exact fits) (by rw [hj]; exact hc) ht
    have a2 := C133_training P' (e := e') trained' (j := j') (I := L.inFeatures) (O := L.outFeatures) ho hi hi' hb' (by rw [hj']; exact fits) (by rw [hj']; exact hc) ht'
    rw [w1, hj] at a1
    rw [v1, hj'] at a2
    exact a2.trans a1.symm
  rw [w1, v1] at hfun
  have hw := C133_determined { L with w := w } { L with w := v } w2 v2 hc rfl rfl rfl rfl rfl hl hl hp hp hlev hfun
  rw [w1, v1]
  exact congrArg (fun t => GLayer.pw { L with w := t }) hw

/-! ## `HighOrderMLP` -/

/-- Training of the heap is training of its parameters. -/
theorem Heap.train_params (P : Picks ℝ) {net : ℕ} {e : GExpr ℝ} (trained : List ℕ) : ∀ (bs : List (Batch ℝ)) {h hT : Heap ℝ}, h.Ordered → h.ParamsWF →
    (∀ h' : Heap ℝ, h.Later h' → h'.Ordered → h'.ParamsWF → h'.expr = h.expr → h'.forward net = e.forward h'.store) → Heap.train P net e trained h bs = .ok hT → HOL.train P e trained h.store bs = .ok hT.store
  | [], h, hT, ho, hw, _, ht => by
    obtain rfl := Except.ok.inj ht
    rfl
  | b :: bs, h, hT, ho, hw, hf, ht => by
    change (h.forward net b.x >>= fun y => e.backward P h.store b.x (b.lossGrad y) >>= fun r => Heap.train P net e trained (h.sgd trained b.lr r.2) bs) = _ at ht
    rw [hf h (fun j m hj => ⟨m, hj, .refl _⟩) ho hw rfl] at ht
    show (trainStep P e trained h.store b >>= fun σ => HOL.train P e trained σ bs) = _
    unfold trainStep
    cases hy : e.forward h.store b.x with
    | error er => rw [hy] at ht; cases ht
    | ok y =>
      rw [hy] at ht
      change (e.backward P h.store b.x (b.lossGrad y) >>= fun r => Heap.train P net e trained (h.sgd trained b.lr r.2) bs) = _ at ht
      show ((e.backward P h.store b.x (b.lossGrad y) >>= fun r => Except.ok (sgdStep trained b.lr r.2 h.store)) >>= fun σ => HOL.train P e trained σ bs) = _
      cases hr : e.backward P h.store b.x (b.lossGrad y) with
      | error er => rw [hr] at ht; cases ht
      | ok r =>
        rw [hr] at ht
        change Heap.train P net e trained (h.sgd trained b.lr r.2) bs = _ at ht
        obtain ⟨l1, l2, l3⟩ := Heap.sgd_later ho hw trained b.lr r.2
        have hex := Heap.sgd_expr h trained b.lr r.2
        have := Heap.train_params P trained bs l2 l3 (fun h' g1 g2 g3 g4 => hf h' (l1.trans g1) g2 g3 (g4.trans hex)) ht
        rw [Heap.sgd_store] at this
        exact this

/-- **C133 (`HighOrderMLP`).** Any state `h` of a network, with or without normalization, `resnet`, shared layers and non-linearity, trained by gradient descent on batches of inputs of its width: the differences of the levels of the
links to an output stay as they are, in every layer that adds its links. -/
theorem C133_mlp (rng : Rng ℝ) {c : MLPArgs ℝ} {kind kindIn : FcKind} (hk : fcTable.lookup c.layerType = some kind)
    (hki : fcTable.lookup (orStr c.layerTypeIn c.layerType) = some kindIn) (hI : Usable kindIn c.inputArgs)
    (hH : Usable kind c.hiddenArgs) (hO : Usable kind c.outputArgs) (hper : ∀ p, c.periodicity = some p → 0 < p)
    {N : Option (NormModule ℝ)} (hnorm : c.normalization = N.map NormModule.apply) (hdrop : c.dropout ≤ 0) {h0 : Heap ℝ} (hord : h0.Ordered)
    (hnl : ∀ j ∈ c.nonLinearity, h0[j]? = some (.other fun x => .ok (reluT x))) (P : Picks ℝ) :
    ∃ (net : ℕ) (h1 : Heap ℝ) (inp out : ℕ) (hid : ℕ → ℕ), mlpInit rng c h0 = .ok (net, h1) ∧
      ∀ h : Heap ℝ, h1.Later h → h.Ordered → h.ParamsWF → ∀ (trained : List ℕ) (bs : List (Batch ℝ)),
      (∀ b ∈ bs, b.x.WF ∧ ∃ B, b.x.shape = [B, c.inWidth] ∧ ∀ n ∈ N, n.Takes [B, c.hiddenWidth]) → ∀ hT : Heap ℝ, Heap.train P net (h.mlpExpr c N inp out hid) trained h bs = .ok hT →
      ∀ j I O, (h.store j).Fits I O → (h.store j).AddsLinks → ∀ o < O, ∀ i < I, ∀ i' < I,
        linkLevel (hT.store j) o i - linkLevel (hT.store j) o i' = linkLevel (h.store j) o i - linkLevel (h.store j) o i' := by
  obtain ⟨net, h1, inp, out, hid, e1, hall⟩ := C122_mlp rng hk hki hI hH hO hper hnorm hdrop hord hnl
  refine ⟨net, h1, inp, out, hid, e1, fun h hl ho hw trained bs hbs hT ht j I O hf ha o ho' i hi i' hi' => ?_⟩
  have hfwd : ∀ h' : Heap ℝ, h.Later h' → h'.Ordered → h'.ParamsWF → h'.expr = h.expr → h'.forward net = (h.mlpExpr c N inp out hid).forward h'.store := by
    intro h' g1 g2 g3 g4
    have he : h'.mlpExpr c N inp out hid = h.mlpExpr c N inp out hid := by
      unfold Heap.mlpExpr
      rw [g4]
    rw [(hall h' (hl.trans g1) g2 g3).1, he]
  have hs := Heap.train_params P trained bs ho hw hfwd ht
  refine C133_training P trained ho' hi hi' (fun b hb => ?_) hf ha hs
  obtain ⟨b1, B, b2, b3⟩ := hbs b hb
  exact ⟨b1, [B, c.outWidth], by rw [b2]; exact (hall h hl ho hw).2 B b3⟩

/-! ## what does not conserve the levels -/

theorem twoLinks_local (cls : PwClass) (v0 v1 w0 w1 v : ℝ) : (twoLinks cls v0 v1 w0 w1).seg v = 0 ∧ (twoLinks cls v0 v1 w0 w1).xIn v = v := by
  have hs : (twoLinks cls v0 v1 w0 w1).seg v = 0 := by
    have := (twoLinks cls v0 v1 w0 w1).seg_lt (twoLinks_wf cls v0 v1 w0 w1).seg_pos v
    exact Nat.lt_one_iff.1 this
  refine ⟨hs, ?_⟩
  unfold PwLayer.xIn PwLayer.xLocal
  rw [PwLayer.whichSegment_eq_seg _ (twoLinks_wf cls v0 v1 w0 w1).seg_pos, hs]
  simp [PwLayer.eta, PwLayer.half, twoLinks, periodize]
  ring

/-- The gradient of the weights of such a layer for one input. -/
theorem twoLinks_grad {cls : PwClass} (hc : cls = .continuous ∨ cls = .discontinuous) (v0 v1 w0 w1 s t u : ℝ) {i : ℕ} (hi : i < 2) :
    ((twoLinks cls v0 v1 w0 w1).weightGrad ⟨[1, 2], [s, t]⟩ ⟨[1, 1], [u]⟩).get [0, i, 0] = (1 - if i = 0 then s else t) / 2 * u ∧
      ((twoLinks cls v0 v1 w0 w1).weightGrad ⟨[1, 2], [s, t]⟩ ⟨[1, 1], [u]⟩).get [0, i, 1] = (1 + if i = 0 then s else t) / 2 * u := by
  have hsz : PwLayer.wSize (twoLinks cls v0 v1 w0 w1).cls (twoLinks cls v0 v1 w0 w1).n (twoLinks cls v0 v1 w0 w1).segments = 2 := by
    rcases hc with rfl | rfl <;> rfl
  have hfac : ∀ (f : ℕ → ℝ) j, (twoLinks cls v0 v1 w0 w1).linkFactor f j = 1 := by
    intro f j
    unfold PwLayer.linkFactor
    rw [if_neg]
    rcases hc with rfl | rfl <;> simp [twoLinks]
  have hx : (⟨[1, 2], [s, t]⟩ : Tensor ℝ).get [0, i] = if i = 0 then s else t := by
    rcases (by omega : i = 0 ∨ i = 1) with rfl | rfl <;> simp [Tensor.get, ravel, numel]
  have hg : (⟨[1, 1], [u]⟩ : Tensor ℝ).get [0, 0] = u := by simp [Tensor.get, ravel, numel]
  have h2 : (((2 : ℕ) : ℝ)) = 2 := by norm_num
  have key := fun q (hq : q < 2) => weightGrad_get (twoLinks cls v0 v1 w0 w1) (twoLinks_wf cls v0 v1 w0 w1) (B := 1) (x := ⟨[1, 2], [s, t]⟩) rfl rfl ⟨[1, 1], [u]⟩ (o := 0) (i := i) (q := q) Nat.one_pos hi (by rw [hsz]; exact hq)
  refine ⟨(key 0 (by norm_num)).trans ?_, (key 1 (by norm_num)).trans ?_⟩
  · rw [Finset.sum_range_one, hfac, hg, hx, (twoLinks_local cls v0 v1 w0 w1 _).1, (twoLinks_local cls v0 v1 w0 w1 _).2]
    show (∑ k ∈ Finset.range 2, _) * _ * _ = _
    rw [Finset.sum_range_succ, Finset.sum_range_one, h2]
    show ((if 0 * _ + 0 = 0 then (getLagrangeBasis 2 2).call _ 0 else 0) + (if 0 * _ + 1 = 0 then (getLagrangeBasis 2 2).call _ 1 else 0)) * 1 * u = _
    rw [(linear_basis _).1]
    simp
  · rw [Finset.sum_range_one, hfac, hg, hx, (twoLinks_local cls v0 v1 w0 w1 _).1, (twoLinks_local cls v0 v1 w0 w1 _).2]
    show (∑ k ∈ Finset.range 2, _) * _ * _ = _
    rw [Finset.sum_range_succ, Finset.sum_range_one, h2]
    show ((if 0 * _ + 0 = 1 then (getLagrangeBasis 2 2).call _ 0 else 0) + (if 0 * _ + 1 = 1 then (getLagrangeBasis 2 2).call _ 1 else 0)) * 1 * u = _
    rw [(linear_basis _).2]
    simp

/-- **C133 (`SparseLion`).** `SparseLion` moves every weight with a gradient by the learning rate, so links with more of them move further: one step on the input `[-1, 0]` changes the difference of the levels of the two links by the
learning rate. -/
theorem C133_lion (v0 v1 w0 w1 : ℝ) {lr wd β β2 : ℝ} (hβ : β < 1) :
    ∃ l', (GLayer.pw (twoLinks .continuous v0 v1 w0 w1)).lion lr wd β β2 (accumulated [(0, (GLayer.pw (twoLinks .continuous v0 v1 w0 w1)).paramGrads ⟨[1, 2], [-1, 0]⟩ ⟨[1, 1], [1]⟩)] 0) (fun _ => none) = .ok l' ∧
      linkLevel l' 0 0 - linkLevel l' 0 1 = linkLevel (GLayer.pw (twoLinks .continuous v0 v1 w0 w1)) 0 0 - linkLevel (GLayer.pw (twoLinks .continuous v0 v1 w0 w1)) 0 1 + lr := by
  set L := twoLinks .continuous v0 v1 w0 w1 with hL
  set G := L.weightGrad ⟨[1, 2], [-1, 0]⟩ ⟨[1, 1], [1]⟩ with hG
  have hacc : accumulated [(0, (GLayer.pw L).paramGrads ⟨[1, 2], [-1, 0]⟩ ⟨[1, 1], [1]⟩)] 0 0 = some G := rfl
  have hshape : G.shape = [1, 2, 2] ∧ G.WF := by
    have := L.gradW_shape (twoLinks_wf _ v0 v1 w0 w1) (B := 1) (x := ⟨[1, 2], [-1, 0]⟩) rfl rfl
    exact this _
  have hfit : ∀ k p, (GLayer.pw L).params[k]? = some p → LionFits p (accumulated [(0, (GLayer.pw L).paramGrads ⟨[1, 2], [-1, 0]⟩ ⟨[1, 1], [1]⟩)] 0 k) none := by
    intro k p hp
    match k with
    | 0 =>
      obtain rfl : L.w = p := Option.some.inj hp
      rw [hacc]
      rintro g hg
      obtain rfl := Option.some.inj hg
      exact ⟨(twoLinks_wf _ v0 v1 w0 w1).w_wf, hshape.1, hshape.2, fun e he => by cases he⟩
    | k + 1 => cases hp
  refine ⟨_, lion_sgd hfit lr wd β β2, ?_⟩
  have hlev : ∀ (w : Tensor ℝ), w.shape = [1, 2, 2] → ∀ i, linkLevel (.pw { L with w := w }) 0 i = w.get [0, i, 0] + w.get [0, i, 1] := by
    intro w hw i
    show linkSum w 0 i = _
    unfold linkSum
    rw [hw]
    show ∑ k ∈ Finset.range 2, _ = _
    rw [Finset.sum_range_succ, Finset.sum_range_one]
  have hstep : ∀ i < 2, ∀ k < 2, (sgdParam lr L.w (lionPull β (some G) none)).get [0, i, k] = L.w.get [0, i, k] - lr * (if G.get [0, i, k] = 0 then 0 else Real.sign ((1 - β) * G.get [0, i, k])) := by
    intro i hi k hk
    unfold sgdParam lionPull
    dsimp only [Option.map_some]
    rw [Tensor.get_tabulate (show InShape L.w.shape [0, i, k] from (inShape3 (a := 1) (b := 2) (c := 2)).2 ⟨by norm_num, hi, hk⟩), Tensor.get_tabulate (by rw [hshape.1]; exact inShape3.2 ⟨by norm_num, hi, hk⟩)]
    unfold momOr
    dsimp only
    rw [Tensor.get_tabulate (by rw [hshape.1]; exact inShape3.2 ⟨by norm_num, hi, hk⟩), zero_mul, zero_add]
    simp only [eqB_real, sign_real]
  obtain ⟨g00, g01⟩ := twoLinks_grad (cls := .continuous) (Or.inl rfl) v0 v1 w0 w1 (-1) 0 1 (i := 0) (by norm_num)
  obtain ⟨g10, g11⟩ := twoLinks_grad (cls := .continuous) (Or.inl rfl) v0 v1 w0 w1 (-1) 0 1 (i := 1) (by norm_num)
  rw [← hL, ← hG] at g00 g01 g10 g11
  norm_num at g00 g01 g10 g11
  have hs : ∀ a : ℝ, 0 < a → Real.sign ((1 - β) * a) = 1 := fun a ha => Real.sign_of_pos (mul_pos (by linarith) ha)
  show linkLevel (.pw { L with w := sgdParam lr L.w (lionPull β (some G) none) }) 0 0 - linkLevel (.pw { L with w := sgdParam lr L.w (lionPull β (some G) none) }) 0 1 = linkLevel (.pw { L with w := L.w }) 0 0 - linkLevel (.pw { L with w := L.w }) 0 1 + lr
  rw [hlev _ rfl, hlev _ rfl, hlev L.w rfl, hlev L.w rfl, hstep 0 (by norm_num) 0 (by norm_num), hstep 0 (by norm_num) 1 (by norm_num), hstep 1 (by norm_num) 0 (by norm_num), hstep 1 (by norm_num) 1 (by norm_num), g00, g01, g10, g11,
    if_neg one_ne_zero, if_pos rfl, if_neg (by norm_num), hs _ one_pos, hs _ (by norm_num)]
  ring

/-- **C133 (products).** Layers that multiply their links do not conserve the levels: with link values 0 and 1 the gradient of the level is twice as large for the first link. -/
theorem C133_product : let L := twoLinks .continuousProd 0 0 1 1
    linkSum (L.weightGrad ⟨[1, 2], [0, 0]⟩ ⟨[1, 1], [1]⟩) 0 0 = 2 ∧ linkSum (L.weightGrad ⟨[1, 2], [0, 0]⟩ ⟨[1, 1], [1]⟩) 0 1 = 1 := by
  intro L
  have hwf := twoLinks_wf .continuousProd 0 0 1 1
  have hf : ∀ v, L.linkFn 0 0 v = 0 ∧ L.linkFn 0 1 v = 1 := by
    intro v
    have h2 : ∀ i, L.linkFn 0 i v = ∑ k ∈ Finset.range 2, (getLagrangeBasis 2 ((2 : ℕ) : ℝ)).call (L.xIn v) k * L.w.get [0, i, L.seg v * L.stride + k] := fun i => (sum_basis_call_two L.n _ _).symm
    have h1 : (getLagrangeBasis 2 ((2 : ℕ) : ℝ)).call v 0 + (getLagrangeBasis 2 ((2 : ℕ) : ℝ)).call v 1 = 1 := by
      have := C03_partition_of_unity 2 (by norm_num) ((2 : ℕ) : ℝ) (by norm_num) v
      rwa [Finset.sum_range_succ, Finset.sum_range_one] at this
    rw [h2, h2, Finset.sum_range_succ, Finset.sum_range_one, Finset.sum_range_succ, Finset.sum_range_one, (twoLinks_local .continuousProd 0 0 1 1 v).1, (twoLinks_local .continuousProd 0 0 1 1 v).2]
    constructor
    · simp [L, twoLinks, Tensor.get, ravel, numel]
    · simp [L, twoLinks, Tensor.get, ravel, numel] at h1 ⊢
      exact h1
  have hg : (⟨[1, 1], [1]⟩ : Tensor ℝ).get [0, 0] = 1 := by simp [Tensor.get, ravel, numel]
  have key := fun i (hi : i < 2) => (C133_piecewise L hwf (B := 1) (x := ⟨[1, 2], [0, 0]⟩) rfl rfl ⟨[1, 1], [1]⟩ (o := 0) (i := i) Nat.one_pos hi).2
  have hfac : ∀ (f : ℕ → ℝ), L.linkFactor f 0 = 1 + f 1 ∧ L.linkFactor f 1 = 1 + f 0 := by
    intro f
    unfold PwLayer.linkFactor
    rw [if_pos (Or.inl (show L.cls = .continuousProd from rfl)), if_pos (Or.inl (show L.cls = .continuousProd from rfl))]
    have r : List.range L.inFeatures = [0, 1] := rfl
    rw [r]
    simp [prodL]
  rw [key 0 (by norm_num), key 1 (by norm_num), Finset.sum_range_one, Finset.sum_range_one, (hfac _).1, (hfac _).2, hg, (hf _).2, (hf _).1]
  norm_num

/-! ## examples -/

/-- However long a layer with two links is trained by gradient descent, whatever the targets: the difference of the two levels stays `(v0 + v1) - (w0 + w1)`. -/
example (P : Picks ℝ) {B : ℕ} {x t : Tensor ℝ} (hx : x.shape = [B, 2]) (hwx : x.WF) (lr : ℝ) (steps : ℕ) :
    ∃ σ', train P (.leaf 0) [0] (fun _ => .pw (twoLinks .continuous 0 1 5 5)) (List.replicate steps ⟨x, fun y => Tensor.tabulate y.shape fun idx => 2 * (y.get idx - t.get idx) / (B * 1 : ℕ), lr⟩) = .ok σ' ∧
      linkLevel (σ' 0) 0 0 - linkLevel (σ' 0) 0 1 = -9 := by
  have hfit : (GLayer.pw (twoLinks .continuous 0 1 5 5)).Fits 2 1 := ⟨twoLinks_wf _ _ _ _ _, (by norm_num [twoLinks]), (fun p hp => (by cases hp)), rfl, rfl⟩
  have hnum : (GExpr.leaf 0).Numbered (fun _ => GLayer.pw (twoLinks .continuous 0 1 5 5)) (fun _ => some (fun i => i, fun i => i)) (fun i => i) (fun i => i) 2 1 :=
    ⟨hfit, fun h => (nomatch h), rfl, Renumbers.id _, Renumbers.id _⟩
  set b : Batch ℝ := ⟨x, fun y => Tensor.tabulate y.shape fun idx => 2 * (y.get idx - t.get idx) / (B * 1 : ℕ), lr⟩ with hb
  have hf : List.Forall₂ (Batch.Renumbered (fun i => i) (fun i => i) 2 1) (List.replicate steps b) (List.replicate steps b) := by
    refine List.forall₂_same.2 fun c hc => ?_
    obtain rfl := List.eq_of_mem_replicate hc
    refine ⟨rfl, (columns_id hx hwx).symm, hwx, B, hx, fun y hy hwy => ⟨hy, ?_⟩⟩
    rw [columns_id hy hwy, columns_id (show (b.lossGrad y).shape = [B, 1] from hy) (Tensor.wf_tabulate _ _)]
  obtain ⟨σ', t1, -, -⟩ := C132_training P [0] hnum hf
  refine ⟨σ', t1, ?_⟩
  have := C133_training P (e := .leaf 0) [0] (j := 0) (o := 0) (i := 0) (i' := 1) Nat.one_pos (by norm_num : 0 < 2) (by norm_num) (bs := List.replicate steps b) (fun c hc => (by
    obtain rfl := List.eq_of_mem_replicate hc
    exact ⟨hwx, [B, 1], B, 2, 1, hx, rfl, hfit⟩)) hfit (show GLayer.AddsLinks (.pw (twoLinks .continuous 0 1 5 5)) from Or.inl rfl) t1
  rw [this]
  show linkSum ⟨[1, 2, 2], [0, 1, 5, 5]⟩ 0 0 - linkSum ⟨[1, 2, 2], [0, 1, 5, 5]⟩ 0 1 = -9
  unfold linkSum
  show (∑ k ∈ Finset.range 2, _) - (∑ k ∈ Finset.range 2, _) = _
  simp [Finset.sum_range_succ, Tensor.get, ravel, numel]
  norm_num

end HOL
