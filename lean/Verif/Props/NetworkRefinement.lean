import Verif.Lemmas.NetRefine
import Verif.Props.Refinement

/-! # C26, C27: refinement of networks -/

namespace HOL
open TorchScalar

/-- Common part of C26 and C27. -/
theorem network_transfer {op : PwLayer ℝ → PwLayer ℝ → Eff (PwLayer ℝ)} {ca cb : MLPArgs ℝ} {a b : ℕ} {h : Heap ℝ}
    (hnet : TwoNetworks ca cb a b h) (hab : ca.SameArchitecture cb) (hres : ca.resnet = false ∨ ca.hiddenLayers ≤ 1)
    {oa ob : Orders} (hoa : ca.HasOrders oa) (hob : cb.HasOrders ob) {swI sw : Bool} {clsI cls : PwClass}
    (hk : fcTable.lookup ca.layerType = some (kindOf sw cls))
    (hki : fcTable.lookup (orStr ca.layerTypeIn ca.layerType) = some (kindOf swI clsI))
    (hop : ∀ s ta tb, ca.fcInfo oa swI sw clsI cls s = some ta → cb.fcInfo ob swI sw clsI cls s = some tb → Exact op ta tb) :
    ∃ h', transferNetwork op a b h = (.ok (), h') ∧
      (∀ (B : ℕ) (x : Tensor ℝ), x.shape = [B, ca.inWidth] → x.WF → h'.forward b x = h.forward a x) ∧
      h'.forward a = h.forward a := by
  obtain ⟨rng, rng', h0, h1, k0, k1, o1, o2, o3, ea, eb, s1, s2, hseq⟩ := hnet.built
  have hk' : fcTable.lookup cb.layerType = some (kindOf sw cls) := by rw [hab.layerType]; exact hk
  have hki' : fcTable.lookup (orStr cb.layerTypeIn cb.layerType) = some (kindOf swI clsI) := by
    rw [hab.layerType, hab.layerTypeIn]; exact hki
  have hresb : cb.resnet = false ∨ cb.hiddenLayers ≤ 1 := by rw [hab.resnet, hab.hiddenLayers]; exact hres
  -- the nonlinearity
  obtain ⟨nlF, n1, n2, n3⟩ : ∃ nlF : Fwd ℝ, (∀ j ∈ ca.nonLinearity, h0[j]? = some (.other nlF)) ∧
      (∀ j ∈ cb.nonLinearity, k0[j]? = some (.other nlF)) ∧ (ca.nonLinearity.isSome → KeepsShape nlF ca.hiddenWidth) := by
    cases hn : ca.nonLinearity with
    | none =>
      refine ⟨noFwd, (by intro j hj; cases hj), ?_, by simp⟩
      rw [hab.nonLinearity, hn]; intro j hj; cases hj
    | some j =>
      obtain ⟨f, e1, e2⟩ := s1.nonLinearity j hn
      obtain ⟨f', e1', e2'⟩ := s2.nonLinearity j (by rw [hab.nonLinearity]; exact hn)
      have hf : f' = f := by
        obtain ⟨DA, hA, _⟩ := mlpInit_pwNet (rng := rng) (nlF := f) hk hki hoa hres o1 (by
          intro i hi; rw [hn] at hi; cases hi; exact e1)
        obtain ⟨DB, hB, _⟩ := mlpInit_pwNet (rng := rng') (nlF := f') hk' hki' hob hresb o2 (by
          intro i hi; rw [hab.nonLinearity, hn] at hi; cases hi; exact e1')
        rw [ea] at hA; rw [eb] at hB
        cases hA; cases hB
        rcases hseq with ⟨l1, l2⟩ | ⟨l1, l2⟩
        · have := ((Heap.Later.append h0 DA).trans l1).same e1 rfl
          rw [e1'] at this; cases this; rfl
        · have := ((Heap.Later.append k0 DB).trans l1).same e1' rfl
          rw [e1] at this; cases this; rfl
      subst hf
      refine ⟨f', ?_, ?_, fun _ => e2⟩
      · intro i hi; cases hi; exact e1
      · intro i hi; rw [hab.nonLinearity, hn] at hi; cases hi; exact e1'
  obtain ⟨DA, hA, lenA, -, netA⟩ := mlpInit_pwNet (rng := rng) hk hki hoa hres o1 n1
  obtain ⟨DB, hB, lenB, -, netB⟩ := mlpInit_pwNet (rng := rng') hk' hki' hob hresb o2 n2
  rw [ea] at hA
  rw [eb] at hB
  cases hA
  cases hB
  have hsep : ca.netId (geoOf swI sw h0.length) < k0.length ∨ cb.netId (geoOf swI sw k0.length) < h0.length := by
    rcases hseq with ⟨l1, l2⟩ | ⟨l1, l2⟩
    · left; have := l1.length_le; omega
    · right; have := l1.length_le; omega
  have lA : (h0 ++ DA : Heap ℝ).Later h := by
    rcases hseq with ⟨l1, l2⟩ | ⟨l1, l2⟩
    · exact l1.trans ((Heap.Later.append k0 DB).trans l2)
    · exact l2
  have lB : (k0 ++ DB : Heap ℝ).Later h := by
    rcases hseq with ⟨l1, l2⟩ | ⟨l1, l2⟩
    · exact l2
    · exact l1.trans ((Heap.Later.append h0 DA).trans l2)
  obtain ⟨h', t1, t2, t3, t4, t5⟩ := pwNet_transfer (op := op) hab hres o3 (netA.trained lA) (netB.trained lB) hsep
    (by
      intro j hj
      exact ⟨(List.getElem?_eq_some_iff.1 (n1 j hj)).1, (List.getElem?_eq_some_iff.1 (n2 j (by rw [hab.nonLinearity]; exact hj))).1⟩)
    (by
      intro s hs hi
      rcases MLPArgs.mem_plan.1 hs with rfl | ⟨rfl, hn⟩ | ⟨rfl, hn⟩ | ⟨i, hi', rfl, hn⟩ | ⟨i, hi', rfl⟩
      · simp [MLPArgs.fcInfo] at hi
      · exact n3 hn
      · exact s1.dropout
      · obtain ⟨f, hf⟩ := Option.isSome_iff_exists.1 hn
        simp only [MLPArgs.slotFn, hf, Option.getD_some]
        exact s1.normalization f hf
      · simp only [MLPArgs.fcInfo] at hi; split at hi <;> simp at hi)
    hop
  exact ⟨h', t1, fun B x hx hwf => (t5 B x hx hwf).1, t4⟩

theorem PRefinable.kind {t : String} (h : PRefinable t) :
    ∃ sw cls, fcTable.lookup t = some (kindOf sw cls) ∧ (cls = .continuous ∨ cls = .discontinuous) := by
  rcases h with rfl | rfl | rfl | rfl
  · exact ⟨false, .continuous, by decide, Or.inl rfl⟩
  · exact ⟨false, .discontinuous, by decide, Or.inr rfl⟩
  · exact ⟨true, .continuous, by decide, Or.inl rfl⟩
  · exact ⟨true, .discontinuous, by decide, Or.inr rfl⟩

theorem HRefinable.kind {t : String} (h : HRefinable t) :
    ∃ sw cls, fcTable.lookup t = some (kindOf sw cls) ∧ (cls = .continuous ∨ cls = .continuousProd) := by
  rcases h with rfl | rfl | rfl
  · exact ⟨false, .continuous, by decide, Or.inl rfl⟩
  · exact ⟨false, .continuousProd, by decide, Or.inr rfl⟩
  · exact ⟨true, .continuous, by decide, Or.inl rfl⟩

/-- A statement about the parameters of all pairs of layers. -/
theorem exact_of_all {op : PwLayer ℝ → PwLayer ℝ → Eff (PwLayer ℝ)} {ca cb : MLPArgs ℝ} (hab : ca.SameArchitecture cb)
    {oa ob : Orders} {swI sw : Bool} {clsI cls : PwClass} {R : ℕ → ℕ → ℕ → ℕ → Prop} {Q : PwClass → Prop} (hall : oa.All R ob)
    (hQ : Q cls) (hQI : Q clsI)
    (H : ∀ ta tb : FcInfo ℝ, tb.cls = ta.cls → Q ta.cls → tb.I = ta.I → tb.O = ta.O → ta.per = ca.periodicity →
      R ta.n ta.s tb.n tb.s → Exact op ta tb) :
    ∀ s ta tb, ca.fcInfo oa swI sw clsI cls s = some ta → cb.fcInfo ob swI sw clsI cls s = some tb → Exact op ta tb := by
  intro s ta tb h1 h2
  obtain ⟨r1, r2, r3⟩ := hall
  cases s with
  | inp =>
    simp only [MLPArgs.fcInfo, Option.some.injEq] at h1 h2
    subst h1; subst h2
    exact H _ _ rfl hQI hab.inWidth hab.hiddenWidth rfl r1
  | lay i =>
    simp only [MLPArgs.fcInfo, hab.hiddenLayers] at h1 h2
    by_cases hi : i < ca.hiddenLayers
    · rw [if_pos hi, Option.some.injEq] at h1 h2
      subst h1; subst h2
      exact H _ _ rfl hQ hab.hiddenWidth hab.hiddenWidth rfl r2
    · rw [if_neg hi, Option.some.injEq] at h1 h2
      subst h1; subst h2
      exact H _ _ rfl hQ hab.hiddenWidth hab.outWidth rfl r3
  | _ => simp [MLPArgs.fcInfo] at h1

/-- **C26.** `interpolate_high_order_mlp(a, b)`, where `b` has the architecture of `a`, the same numbers of segments and nowhere a smaller
order, succeeds, and afterwards `b` computes on every input what `a` computes; `a` is unchanged. For continuous, discontinuous and
switch layers, any depth, widths, periodicity, normalization, nonlinearity, dropout, all weights; `resnet` only with at most one hidden layer (then it has no effect). -/
theorem C26_network_p_refinement {ca cb : MLPArgs ℝ} {a b : ℕ} {h : Heap ℝ} (hnet : TwoNetworks ca cb a b h)
    (hab : ca.SameArchitecture cb) (ht : PRefinable ca.layerType) (hti : PRefinable (orStr ca.layerTypeIn ca.layerType))
    (hres : ca.resnet = false ∨ ca.hiddenLayers ≤ 1) {oa ob : Orders} (hoa : ca.HasOrders oa) (hob : cb.HasOrders ob)
    (hall : oa.All (fun n s n' s' => n ≤ n' ∧ s' = s) ob) :
    ∃ h', interpolateNetwork a b h = (.ok (), h') ∧
      (∀ (B : ℕ) (x : Tensor ℝ), x.shape = [B, ca.inWidth] → x.WF → h'.forward b x = h.forward a x) ∧
      h'.forward a = h.forward a := by
  obtain ⟨sw, cls, hk, hc⟩ := ht.kind
  obtain ⟨swI, clsI, hki, hci⟩ := hti.kind
  apply network_transfer hnet hab hres hoa hob hk hki
  apply exact_of_all hab (Q := fun c => c = .continuous ∨ c = .discontinuous) hall hc hci
  rintro ta tb e1 hQ e2 e3 e4 ⟨hn, hs⟩ La Lb per hp ⟨a1, a2, a3, a4, a5, a6, a7, a8⟩ ⟨b1, b2, b3, b4, b5, b6, b7, b8⟩
  obtain ⟨L', f1, ⟨w, f2, f3⟩, f4⟩ := C20_p_refinement_exact La Lb a1 b1 (by rw [a2]; exact hQ) (by rw [b2, a2, e1])
    (by rw [b4, a4, hs]) (by rw [b5, a5, e2]) (by rw [b6, a6, e3]) (by rw [b7, a7]) (by rw [b8, a8]) (by rw [a3, b3]; exact hn)
  subst f3
  exact ⟨w, f1, f2, fun B x hx hwf => f4 B x (by rw [a5]; exact hx) hwf⟩

/-- **C27.** `hp_refine_high_order_mlp(a, b)`, where `b` has the architecture of `a`, every number of segments is a multiple and nowhere a smaller order, succeeds,
and afterwards `b` computes what `a` computes; `a` is unchanged. For continuous (sum and product) and switch layers; a periodicity must be at least
the width 2 of the domain. -/
theorem C27_network_hp_refinement {ca cb : MLPArgs ℝ} {a b : ℕ} {h : Heap ℝ} (hnet : TwoNetworks ca cb a b h)
    (hab : ca.SameArchitecture cb) (ht : HRefinable ca.layerType) (hti : HRefinable (orStr ca.layerTypeIn ca.layerType))
    (hres : ca.resnet = false ∨ ca.hiddenLayers ≤ 1) (hper : ∀ p ∈ ca.periodicity, 2 ≤ p)
    {oa ob : Orders} (hoa : ca.HasOrders oa) (hob : cb.HasOrders ob)
    (hall : oa.All (fun n s n' s' => n ≤ n' ∧ s ∣ s' ∧ 0 < s') ob) :
    ∃ h', refineNetwork a b h = (.ok (), h') ∧
      (∀ (B : ℕ) (x : Tensor ℝ), x.shape = [B, ca.inWidth] → x.WF → h'.forward b x = h.forward a x) ∧
      h'.forward a = h.forward a := by
  obtain ⟨sw, cls, hk, hc⟩ := ht.kind
  obtain ⟨swI, clsI, hki, hci⟩ := hti.kind
  apply network_transfer hnet hab hres hoa hob hk hki
  apply exact_of_all hab (Q := fun c => c = .continuous ∨ c = .continuousProd) hall hc hci
  rintro ta tb e1 hQ e2 e3 e4 ⟨hn, ⟨m, hm⟩, hpos⟩ La Lb per hp ⟨a1, a2, a3, a4, a5, a6, a7, a8⟩ ⟨b1, b2, b3, b4, b5, b6, b7, b8⟩
  have hm0 : 0 < m := by
    rcases Nat.eq_zero_or_pos m with rfl | h
    · rw [hm] at hpos; simp at hpos
    · exact h
  have hper' : ∀ p ∈ La.periodicity, 2 ≤ p := by
    intro p hp'
    rw [a8] at hp'
    rcases hp with rfl | rfl
    · rw [e4] at hp'; exact hper p hp'
    · cases hp'
  obtain ⟨L', f1, ⟨w, f2, f3⟩, f4⟩ := C23_h_refinement_exact La Lb a1 b1 (by rw [a2]; exact hQ) (by rw [b2, a2, e1])
    hm0 (by rw [b4, a4, hm, Nat.mul_comm]) (by rw [b5, a5, e2]) (by rw [b6, a6, e3]) (by rw [a7]; norm_num) (by rw [b7]; norm_num)
    (by rw [b8, a8]) hper' (by rw [a3, b3]; exact hn)
  subst f3
  exact ⟨w, f1, f2, fun B x hx hwf => f4 B x (by rw [a5]; exact hx) hwf⟩

end HOL
