import Verif.Lemmas.NetMismatch
import Verif.Props.NetworkRefinement

/-! # C124: refinement between networks of different depth -/

namespace HOL
open TorchScalar Relation

/-- Common part of both refinements. -/
theorem network_depth {op : PwLayer ℝ → PwLayer ℝ → Eff (PwLayer ℝ)} {ca cb : MLPArgs ℝ} {a b : ℕ} {h : Heap ℝ}
    (hnet : TwoNetworks ca cb a b h) (hab : ca.SameBlocks cb) (hlm : ca.LayersMatch cb)
    (hres : ca.resnet = false ∨ ca.hiddenLayers ≤ 1) (hresb : cb.resnet = false ∨ cb.hiddenLayers ≤ 1)
    {oa ob : Orders} (hoa : ca.HasOrders oa) (hob : cb.HasOrders ob) {swI sw : Bool} {clsI cls : PwClass}
    (hk : fcTable.lookup ca.layerType = some (kindOf sw cls))
    (hki : fcTable.lookup (orStr ca.layerTypeIn ca.layerType) = some (kindOf swI clsI))
    (hop : ∀ s ∈ ca.plan, s ∈ cb.plan → ∀ ta tb, ca.fcInfo oa swI sw clsI cls s = some ta → cb.fcInfo ob swI sw clsI cls s = some tb →
      Exact op ta tb) {msA msB : List ℕ} (hmA : h.entriesOf a msA) (hmB : h.entriesOf b msB) :
    ∃ h', transferNetwork op a b h = (.ok (), h') ∧ h'.forward a = h.forward a ∧
      (ca.hiddenLayers ≤ cb.hiddenLayers → ∀ (B : ℕ) (x : Tensor ℝ), x.shape = [B, ca.inWidth] → x.WF →
        h'.forward b x = (h.forward a x >>= seqForward ((msB.drop msA.length).map h.forward))) ∧
      (cb.hiddenLayers ≤ ca.hiddenLayers → ∀ (B : ℕ) (x : Tensor ℝ), x.shape = [B, ca.inWidth] → x.WF →
        h.forward a x = (h'.forward b x >>= seqForward ((msA.drop msB.length).map h.forward))) := by
  obtain ⟨rng, rng', h0, h1, k0, k1, o1, o2, o3, ea, eb, s1, s2, hseq⟩ := hnet.built
  have hk' : fcTable.lookup cb.layerType = some (kindOf sw cls) := by rw [hab.layerType]; exact hk
  have hki' : fcTable.lookup (orStr cb.layerTypeIn cb.layerType) = some (kindOf swI clsI) := by
    rw [hab.layerType, hab.layerTypeIn]; exact hki
  -- the nonlinearity
  obtain ⟨nlF, n1, n2, n3⟩ : ∃ nlF : Fwd ℝ, (∀ j ∈ ca.nonLinearity, h0[j]? = some (.other nlF)) ∧
      (∀ j ∈ cb.nonLinearity, k0[j]? = some (.other nlF)) ∧ (ca.nonLinearity.isSome → KeepsShape nlF ca.hiddenWidth) := by
    cases hn : ca.nonLinearity with
    | none =>
      refine ⟨noFwd, (by intro j hj; cases hj), ?_, by simp⟩
      rw [hab.nonLinearity, hn]; intro j hj; cases hj
    | some j =>
      obtain ⟨f, e1, e2⟩ := s1.nonLinearity j hn
      obtain ⟨f', e1', e2'⟩ := s2.nonLinearity j (by rw [hab.nonLinearity]; exact hn)
      have hf : f' = f := by
        obtain ⟨DA, hA, _⟩ := mlpInit_pwNet (rng := rng) (nlF := f) hk hki hoa hres o1 (by
          intro i hi; rw [hn] at hi; cases hi; exact e1)
        obtain ⟨DB, hB, _⟩ := mlpInit_pwNet (rng := rng') (nlF := f') hk' hki' hob hresb o2 (by
          intro i hi; rw [hab.nonLinearity, hn] at hi; cases hi; exact e1')
        rw [ea] at hA; rw [eb] at hB
        cases hA; cases hB
        rcases hseq with ⟨l1, l2⟩ | ⟨l1, l2⟩
        · have := ((Heap.Later.append h0 DA).trans l1).same e1 rfl
          rw [e1'] at this; cases this; rfl
        · have := ((Heap.Later.append k0 DB).trans l1).same e1' rfl
          rw [e1] at this; cases this; rfl
      subst hf
      refine ⟨f', ?_, ?_, fun _ => e2⟩
      · intro i hi; cases hi; exact e1
      · intro i hi; rw [hab.nonLinearity, hn] at hi; cases hi; exact e1'
  obtain ⟨DA, hA, lenA, -, netA⟩ := mlpInit_pwNet (rng := rng) hk hki hoa hres o1 n1
  obtain ⟨DB, hB, lenB, -, netB⟩ := mlpInit_pwNet (rng := rng') hk' hki' hob hresb o2 n2
  rw [ea] at hA
  rw [eb] at hB
  cases hA
  cases hB
  have hsep : ca.netId (geoOf swI sw h0.length) < k0.length ∨ cb.netId (geoOf swI sw k0.length) < h0.length := by
    rcases hseq with ⟨l1, l2⟩ | ⟨l1, l2⟩
    · left; have := l1.length_le; omega
    · right; have := l1.length_le; omega
  have lA : (h0 ++ DA : Heap ℝ).Later h := by
    rcases hseq with ⟨l1, l2⟩ | ⟨l1, l2⟩
    · exact l1.trans ((Heap.Later.append k0 DB).trans l2)
    · exact l2
  have lB : (k0 ++ DB : Heap ℝ).Later h := by
    rcases hseq with ⟨l1, l2⟩ | ⟨l1, l2⟩
    · exact l2
    · exact l1.trans ((Heap.Later.append h0 DA).trans l2)
  obtain ⟨C, EA, EB, hca, hcb, hE, hEA, hEB⟩ := hab.plans
  have eA : msA = (C ++ EA).map (ca.slotId (geoOf swI sw h0.length)) := by
    obtain ⟨s, m1, m2⟩ := hmA
    unfold Heap.model at m1
    rw [(netA.trained lA).net] at m1
    cases m1
    rw [(netA.trained lA).seq, hca] at m2
    cases m2; rfl
  have eB : msB = (C ++ EB).map (cb.slotId (geoOf swI sw k0.length)) := by
    obtain ⟨s, m1, m2⟩ := hmB
    unfold Heap.model at m1
    rw [(netB.trained lB).net] at m1
    cases m1
    rw [(netB.trained lB).seq, hcb] at m2
    cases m2; rfl
  obtain ⟨h', t1, t2, t3, t4, t5, t6⟩ := pwNet_depth (op := op) hab hlm hres hresb o3 (netA.trained lA) (netB.trained lB) hsep
    (by
      intro j hj
      exact ⟨(List.getElem?_eq_some_iff.1 (n1 j hj)).1, (List.getElem?_eq_some_iff.1 (n2 j (by rw [hab.nonLinearity]; exact hj))).1⟩)
    (by
      intro s hs hi
      rcases MLPArgs.mem_plan.1 hs with rfl | ⟨rfl, hn⟩ | ⟨rfl, hn⟩ | ⟨i, hi', rfl, hn⟩ | ⟨i, hi', rfl⟩
      · simp [MLPArgs.fcInfo] at hi
      · exact n3 hn
      · exact s1.dropout
      · obtain ⟨f, hf⟩ := Option.isSome_iff_exists.1 hn
        simp only [MLPArgs.slotFn, hf, Option.getD_some]
        exact s1.normalization f hf
      · simp only [MLPArgs.fcInfo] at hi; split at hi <;> simp at hi)
    hca hcb hE
    (fun s hs => hop s (by rw [hca]; exact List.mem_append.2 (Or.inl hs)) (by rw [hcb]; exact List.mem_append.2 (Or.inl hs)))
  refine ⟨h', t1, t4, ?_, ?_⟩
  · intro hle B x hx hwf
    have e := hEA hle
    subst e
    rw [t6 B x hx hwf, t5, eA, eB]
    simp only [List.append_nil, List.length_map, List.map_append, List.map_map]
    rw [List.drop_left' (by simp), List.map_map]
    rfl
  · intro hle B x hx hwf
    have e := hEB hle
    subst e
    rw [t6 B x hx hwf, t5, eA, eB]
    simp only [List.append_nil, List.length_map, List.map_append, List.map_map, List.map_nil]
    rw [seqForward_append, List.drop_left' (by simp), List.map_map]
    have : ∀ q : Py (Tensor ℝ), (q >>= seqForward []) = q := by intro q; cases q <;> rfl
    rw [this]
    rfl

/-- The operation is exact for all pairs of layers. -/
theorem exact_of_paired {op : PwLayer ℝ → PwLayer ℝ → Eff (PwLayer ℝ)} {ca cb : MLPArgs ℝ} (hab : ca.SameBlocks cb) (hlm : ca.LayersMatch cb)
    {oa ob : Orders} {swI sw : Bool} {clsI cls : PwClass} {R : ℕ → ℕ → ℕ → ℕ → Prop} {Q : PwClass → Prop}
    (hall : oa.Paired R ca.hiddenLayers cb.hiddenLayers ob) (hQ : Q cls) (hQI : Q clsI)
    (H : ∀ ta tb : FcInfo ℝ, tb.cls = ta.cls → Q ta.cls → tb.I = ta.I → tb.O = ta.O → ta.per = ca.periodicity →
      R ta.n ta.s tb.n tb.s → Exact op ta tb) :
    ∀ s ∈ ca.plan, s ∈ cb.plan → ∀ ta tb, ca.fcInfo oa swI sw clsI cls s = some ta → cb.fcInfo ob swI sw clsI cls s = some tb → Exact op ta tb := by
  intro s hsa hsb ta tb h1 h2
  obtain ⟨r1, r2⟩ := hall
  cases s with
  | inp =>
    simp only [MLPArgs.fcInfo, Option.some.injEq] at h1 h2
    subst h1; subst h2
    exact H _ _ rfl hQI hab.inWidth hab.hiddenWidth rfl r1
  | lay i =>
    have iA := MLPArgs.lay_le hsa
    have iB := MLPArgs.lay_le hsb
    have hw := hlm i iA iB
    have hr := r2 i iA iB
    simp only [MLPArgs.layerOut, Orders.layer] at hw hr
    simp only [MLPArgs.fcInfo] at h1 h2
    by_cases hi : i < ca.hiddenLayers <;> by_cases hj : i < cb.hiddenLayers <;>
      simp only [hi, hj, if_true, if_false, Option.some.injEq] at h1 h2 hw hr <;> subst h1 <;> subst h2 <;>
      exact H _ _ rfl hQ hab.hiddenWidth hw rfl hr
  | _ => simp [MLPArgs.fcInfo] at h1

/-- **C124.** `interpolate_high_order_mlp(a, b)` between networks that differ in their numbers of hidden layers succeeds, as long as layers at the same position
fit (so the output layer of the less deep network has as many outputs as a hidden layer), and leaves `a` as it is. If `b` is deeper, it then computes
the function of `a` followed by its own remaining modules, with the weights they had; if `b` is less deep, it computes `a` without its last modules. -/
theorem C124_interpolate {ca cb : MLPArgs ℝ} {a b : ℕ} {h : Heap ℝ} (hnet : TwoNetworks ca cb a b h) (hab : ca.SameBlocks cb)
    (hlm : ca.LayersMatch cb) (ht : PRefinable ca.layerType) (hti : PRefinable (orStr ca.layerTypeIn ca.layerType))
    (hres : ca.resnet = false ∨ ca.hiddenLayers ≤ 1) (hresb : cb.resnet = false ∨ cb.hiddenLayers ≤ 1)
    {oa ob : Orders} (hoa : ca.HasOrders oa) (hob : cb.HasOrders ob)
    (hall : oa.Paired (fun n s n' s' => n ≤ n' ∧ s' = s) ca.hiddenLayers cb.hiddenLayers ob)
    {msA msB : List ℕ} (hmA : h.entriesOf a msA) (hmB : h.entriesOf b msB) :
    ∃ h', interpolateNetwork a b h = (.ok (), h') ∧ h'.forward a = h.forward a ∧
      (ca.hiddenLayers ≤ cb.hiddenLayers → ∀ (B : ℕ) (x : Tensor ℝ), x.shape = [B, ca.inWidth] → x.WF →
        h'.forward b x = (h.forward a x >>= seqForward ((msB.drop msA.length).map h.forward))) ∧
      (cb.hiddenLayers ≤ ca.hiddenLayers → ∀ (B : ℕ) (x : Tensor ℝ), x.shape = [B, ca.inWidth] → x.WF →
        h.forward a x = (h'.forward b x >>= seqForward ((msA.drop msB.length).map h.forward))) := by
  obtain ⟨sw, cls, hk, hc⟩ := ht.kind
  obtain ⟨swI, clsI, hki, hci⟩ := hti.kind
  refine network_depth hnet hab hlm hres hresb hoa hob hk hki ?_ hmA hmB
  apply exact_of_paired hab hlm (Q := fun c => c = .continuous ∨ c = .discontinuous) hall hc hci
  rintro ta tb e1 hQ e2 e3 e4 ⟨hn, hs⟩ La Lb per hp ⟨a1, a2, a3, a4, a5, a6, a7, a8⟩ ⟨b1, b2, b3, b4, b5, b6, b7, b8⟩
  obtain ⟨L', f1, ⟨w, f2, f3⟩, f4⟩ := C20_p_refinement_exact La Lb a1 b1 (by rw [a2]; exact hQ) (by rw [b2, a2, e1])
    (by rw [b4, a4, hs]) (by rw [b5, a5, e2]) (by rw [b6, a6, e3]) (by rw [b7, a7]) (by rw [b8, a8]) (by rw [a3, b3]; exact hn)
  subst f3
  exact ⟨w, f1, f2, fun B x hx hwf => f4 B x (by rw [a5]; exact hx) hwf⟩

/-- **C124.** The same for `hp_refine_high_order_mlp`. -/
theorem C124_refine {ca cb : MLPArgs ℝ} {a b : ℕ} {h : Heap ℝ} (hnet : TwoNetworks ca cb a b h) (hab : ca.SameBlocks cb)
    (hlm : ca.LayersMatch cb) (ht : HRefinable ca.layerType) (hti : HRefinable (orStr ca.layerTypeIn ca.layerType))
    (hres : ca.resnet = false ∨ ca.hiddenLayers ≤ 1) (hresb : cb.resnet = false ∨ cb.hiddenLayers ≤ 1) (hper : ∀ p ∈ ca.periodicity, 2 ≤ p)
    {oa ob : Orders} (hoa : ca.HasOrders oa) (hob : cb.HasOrders ob)
    (hall : oa.Paired (fun n s n' s' => n ≤ n' ∧ s ∣ s' ∧ 0 < s') ca.hiddenLayers cb.hiddenLayers ob)
    {msA msB : List ℕ} (hmA : h.entriesOf a msA) (hmB : h.entriesOf b msB) :
    ∃ h', refineNetwork a b h = (.ok (), h') ∧ h'.forward a = h.forward a ∧
      (ca.hiddenLayers ≤ cb.hiddenLayers → ∀ (B : ℕ) (x : Tensor ℝ), x.shape = [B, ca.inWidth] → x.WF →
        h'.forward b x = (h.forward a x >>= seqForward ((msB.drop msA.length).map h.forward))) ∧
      (cb.hiddenLayers ≤ ca.hiddenLayers → ∀ (B : ℕ) (x : Tensor ℝ), x.shape = [B, ca.inWidth] → x.WF →
        h.forward a x = (h'.forward b x >>= seqForward ((msA.drop msB.length).map h.forward))) := by
  obtain ⟨sw, cls, hk, hc⟩ := ht.kind
  obtain ⟨swI, clsI, hki, hci⟩ := hti.kind
  refine network_depth hnet hab hlm hres hresb hoa hob hk hki ?_ hmA hmB
  apply exact_of_paired hab hlm (Q := fun c => c = .continuous ∨ c = .continuousProd) hall hc hci
  rintro ta tb e1 hQ e2 e3 e4 ⟨hn, ⟨m, hm⟩, hpos⟩ La Lb per hp ⟨a1, a2, a3, a4, a5, a6, a7, a8⟩ ⟨b1, b2, b3, b4, b5, b6, b7, b8⟩
  have hm0 : 0 < m := by
    rcases Nat.eq_zero_or_pos m with rfl | h
    · rw [hm] at hpos; simp at hpos
    · exact h
  have hper' : ∀ p ∈ La.periodicity, 2 ≤ p := by
    intro p hp'
    rw [a8] at hp'
    rcases hp with rfl | rfl
    · rw [e4] at hp'; exact hper p hp'
    · cases hp'
  obtain ⟨L', f1, ⟨w, f2, f3⟩, f4⟩ := C23_h_refinement_exact La Lb a1 b1 (by rw [a2]; exact hQ) (by rw [b2, a2, e1])
    hm0 (by rw [b4, a4, hm, Nat.mul_comm]) (by rw [b5, a5, e2]) (by rw [b6, a6, e3]) (by rw [a7]; norm_num) (by rw [b7]; norm_num)
    (by rw [b8, a8]) hper' (by rw [a3, b3]; exact hn)
  subst f3
  exact ⟨w, f1, f2, fun B x hx hwf => f4 B x (by rw [a5]; exact hx) hwf⟩

theorem prims_uses {h : Heap ℝ} {p q : ℕ × ℕ} (hq : q ∈ prims h p) : ReflTransGen h.Uses p.2 q.2 := by
  unfold prims at hq
  split at hq
  · rw [List.mem_singleton] at hq; subst hq; exact .refl
  · rename_i e1 e2
    exact ReflTransGen.single ⟨_, e2, Or.inl (by simp [Mod.hidden, (List.of_mem_zip hq).2])⟩
  · cases hq

/-- Common part of both refinements. -/
theorem network_mismatch {op : PwLayer ℝ → PwLayer ℝ → Eff (PwLayer ℝ)} {ca cb : MLPArgs ℝ} {a b : ℕ} {h : Heap ℝ}
    (hnet : TwoNetworks ca cb a b h) (hab : ca.SameLayers cb) (hpa : ca.Plain) (hpb : ¬ cb.Plain)
    (hres : ca.resnet = false ∨ ca.hiddenLayers ≤ 1) (hresb : cb.resnet = false ∨ cb.hiddenLayers ≤ 1)
    {oa ob : Orders} (hoa : ca.HasOrders oa) (hob : cb.HasOrders ob) {swI sw : Bool} {clsI cls : PwClass}
    (hk : fcTable.lookup ca.layerType = some (kindOf sw cls))
    (hki : fcTable.lookup (orStr ca.layerTypeIn ca.layerType) = some (kindOf swI clsI))
    (hop : Exact op ⟨swI, clsI, oa.nIn, oa.sIn, ca.inWidth, ca.hiddenWidth, ca.periodicity⟩
      ⟨swI, clsI, ob.nIn, ob.sIn, cb.inWidth, cb.hiddenWidth, cb.periodicity⟩) :
    ∃ h', transferNetwork op a b h = (.error .attributeError, h') ∧
      ∀ d i o s d' i' o' s', h[a]? = some (.mlp d i o s) → h[b]? = some (.mlp d' i' o' s') →
        (∀ (B : ℕ) (x : Tensor ℝ), x.shape = [B, ca.inWidth] → x.WF → h'.forward i' x = h.forward i x) ∧
        ∀ j, ¬ ReflTransGen h.Uses i' j → h'[j]? = h[j]? := by
  obtain ⟨rng, rng', h0, h1, k0, k1, o1, o2, o3, ea, eb, s1, s2, hseq⟩ := hnet.built
  have hk' : fcTable.lookup cb.layerType = some (kindOf sw cls) := by rw [hab.layerType]; exact hk
  have hki' : fcTable.lookup (orStr cb.layerTypeIn cb.layerType) = some (kindOf swI clsI) := by
    rw [hab.layerType, hab.layerTypeIn]; exact hki
  have n1 : ∀ j ∈ ca.nonLinearity, h0[j]? = some (.other noFwd) := by
    rw [hpa.2.1]; intro j hj; cases hj
  obtain ⟨nlF, n2⟩ : ∃ nlF : Fwd ℝ, ∀ j ∈ cb.nonLinearity, k0[j]? = some (.other nlF) := by
    cases hn : cb.nonLinearity with
    | none => exact ⟨noFwd, by intro j hj; cases hj⟩
    | some j =>
      obtain ⟨f, e1, e2⟩ := s2.nonLinearity j hn
      exact ⟨f, by intro i hi; cases hi; exact e1⟩
  obtain ⟨DA, hA, lenA, -, netA⟩ := mlpInit_pwNet (rng := rng) hk hki hoa hres o1 n1
  obtain ⟨DB, hB, lenB, -, netB⟩ := mlpInit_pwNet (rng := rng') hk' hki' hob hresb o2 n2
  rw [ea] at hA
  rw [eb] at hB
  cases hA
  cases hB
  have hsep : ca.netId (geoOf swI sw h0.length) < k0.length ∨ cb.netId (geoOf swI sw k0.length) < h0.length := by
    rcases hseq with ⟨l1, l2⟩ | ⟨l1, l2⟩
    · left; have := l1.length_le; omega
    · right; have := l1.length_le; omega
  have lA : (h0 ++ DA : Heap ℝ).Later h := by
    rcases hseq with ⟨l1, l2⟩ | ⟨l1, l2⟩
    · exact l1.trans ((Heap.Later.append k0 DB).trans l2)
    · exact l2
  have lB : (k0 ++ DB : Heap ℝ).Later h := by
    rcases hseq with ⟨l1, l2⟩ | ⟨l1, l2⟩
    · exact l2
    · exact l1.trans ((Heap.Later.append h0 DA).trans l2)
  have netA := netA.trained lA
  have netB := netB.trained lB
  obtain ⟨ra, hra⟩ : ∃ ra, ca.plan = .inp :: .lay 0 :: ra := by
    unfold MLPArgs.plan
    rw [List.range_succ_eq_map, List.flatMap_cons]
    unfold MLPArgs.blockPlan MLPArgs.prePlan
    rw [hpa.1, hpa.2.1, hpa.2.2]
    exact ⟨_, rfl⟩
  obtain ⟨p, rb, hrb, hp⟩ : ∃ p rb, cb.plan = .inp :: p :: rb ∧ cb.fcInfo ob swI sw clsI cls p = none ∧ p ≠ .inp := by
    unfold MLPArgs.plan
    rw [List.range_succ_eq_map, List.flatMap_cons]
    unfold MLPArgs.blockPlan MLPArgs.prePlan
    cases c1 : cb.normalization with
    | some f => exact ⟨.norm 0, _, rfl, rfl, by simp⟩
    | none =>
      cases c2 : cb.nonLinearity with
      | some j => exact ⟨.nl, _, rfl, rfl, by simp⟩
      | none =>
        cases c3 : ltB 0 cb.dropout with
        | true => exact ⟨.drop, _, rfl, rfl, by simp⟩
        | false => exact absurd ⟨c1, c2, c3⟩ hpb
  have inA : Slot.inp ∈ ca.plan := by rw [hra]; simp
  have inA' : Slot.lay 0 ∈ ca.plan := by rw [hra]; simp
  have inB : Slot.inp ∈ cb.plan := by rw [hrb]; simp
  have inB' : p ∈ cb.plan := by rw [hrb]; simp
  have hnlA : ∀ j ∈ ca.nonLinearity, j < (geoOf swI sw h0.length).base := fun j hj => (List.getElem?_eq_some_iff.1 (n1 j hj)).1
  have hnlB : ∀ j ∈ cb.nonLinearity, j < (geoOf swI sw k0.length).base := fun j hj => (List.getElem?_eq_some_iff.1 (n2 j hj)).1
  have sA : IsFc h _ _ := netA.slots .inp inA
  have sB : IsFc h _ _ := netB.slots .inp inB
  have sA' : (∃ L, h[ca.slotId (geoOf swI sw h0.length) (.lay 0)]? = some (.pw L)) ∨
      ∃ I las, h[ca.slotId (geoOf swI sw h0.length) (.lay 0)]? = some (.switch I las none) := by
    have key := netA.slots (.lay 0) inA'
    obtain ⟨t, ht⟩ : ∃ t, ca.fcInfo oa swI sw clsI cls (.lay 0) = some t := by
      simp only [MLPArgs.fcInfo]; split <;> exact ⟨_, rfl⟩
    rw [ht] at key
    have key : IsFc h _ t := key
    unfold IsFc at key
    by_cases hw : t.sw = true
    · rw [if_pos hw] at key; exact Or.inr ⟨_, _, key.2.1⟩
    · rw [if_neg hw] at key; obtain ⟨L, hL, -⟩ := key; exact Or.inl ⟨L, hL⟩
  have sB' := netB.slots p inB'
  rw [hp.1] at sB'
  obtain ⟨f1, f2, f3⟩ := isFc_pair hop rfl hab.periodicity sA sB
  have bA := MLPArgs.slotId_lt (c := ca) (g := geoOf swI sw h0.length) (sizeOf_pos swI) (sizeOf_pos sw) (sizeOf_pos sw) hnlA inA
  have bB := MLPArgs.slotId_lt (c := cb) (g := geoOf swI sw k0.length) (sizeOf_pos swI) (sizeOf_pos sw) (sizeOf_pos sw) hnlB inB
  obtain ⟨h', e1, sk, fr, tg⟩ := transfer_mismatch op o3 (na := ca.netId (geoOf swI sw h0.length)) (nb := cb.netId (geoOf swI sw k0.length))
    (by unfold Heap.model; rw [netA.net]) (by unfold Heap.model; rw [netB.net])
    (by rw [netA.seq, hra]; rfl) (by rw [netB.seq, hrb]; rfl)
    (by
      intro c hc
      obtain ⟨s, hs, rfl⟩ := List.mem_map.1 (show c ∈ ca.plan.map (ca.slotId (geoOf swI sw h0.length)) by rw [hra]; exact hc)
      exact netA.childless hs)
    (by
      intro c hc
      obtain ⟨s, hs, rfl⟩ := List.mem_map.1 (show c ∈ cb.plan.map (cb.slotId (geoOf swI sw k0.length)) by rw [hrb]; exact hc)
      exact netB.childless hs)
    (fun e => by
      have := MLPArgs.slotId_inj (sizeOf_pos swI) (sizeOf_pos sw) (sizeOf_pos sw) hnlA inA' inA e
      cases this)
    (fun e => hp.2 (MLPArgs.slotId_inj (sizeOf_pos swI) (sizeOf_pos sw) (sizeOf_pos sw) hnlB inB' inB e))
    f1 f2 (by
      intro s hs t ht
      obtain ⟨u1, u2, u3, u4⟩ := f3 s hs
      obtain ⟨v1, v2, v3, v4⟩ := f3 t ht
      have ga : ca.slotId (geoOf swI sw h0.length) .inp = h0.length + sizeOf swI := rfl
      have gb : cb.slotId (geoOf swI sw k0.length) .inp = k0.length + sizeOf swI := rfl
      simp only [ga, gb] at *
      omega) sA' sB'
  refine ⟨h', e1, ?_⟩
  intro d i o s d' i' o' s' hi hi'
  rw [netA.net] at hi
  rw [netB.net] at hi'
  cases hi
  cases hi'
  refine ⟨fun B x hx hwf => ?_, fun j hj => fr j fun q hq e => hj ?_⟩
  · exact (isFc_sameMap hop rfl hab.periodicity o3 (sk.ordered o3) sk sA sB tg B x hx hwf).1
  · rw [e]; exact prims_uses hq

/-- **C124 (other modules).** If `b` has a normalization, a nonlinearity or dropout and `a` has none of them, `interpolate_high_order_mlp(a, b)` raises
`AttributeError`, and the input layer of `b` has already been overwritten; every other module is as before. -/
theorem C124_attribute_error {ca cb : MLPArgs ℝ} {a b : ℕ} {h : Heap ℝ} (hnet : TwoNetworks ca cb a b h) (hab : ca.SameLayers cb)
    (hpa : ca.Plain) (hpb : ¬ cb.Plain) (ht : PRefinable ca.layerType) (hti : PRefinable (orStr ca.layerTypeIn ca.layerType))
    (hres : ca.resnet = false ∨ ca.hiddenLayers ≤ 1) (hresb : cb.resnet = false ∨ cb.hiddenLayers ≤ 1)
    {oa ob : Orders} (hoa : ca.HasOrders oa) (hob : cb.HasOrders ob) (hn : oa.nIn ≤ ob.nIn) (hs : ob.sIn = oa.sIn) :
    ∃ h', interpolateNetwork a b h = (.error .attributeError, h') ∧
      ∀ d i o s d' i' o' s', h[a]? = some (.mlp d i o s) → h[b]? = some (.mlp d' i' o' s') →
        (∀ (B : ℕ) (x : Tensor ℝ), x.shape = [B, ca.inWidth] → x.WF → h'.forward i' x = h.forward i x) ∧
        ∀ j, ¬ ReflTransGen h.Uses i' j → h'[j]? = h[j]? := by
  obtain ⟨sw, cls, hk, hc⟩ := ht.kind
  obtain ⟨swI, clsI, hki, hci⟩ := hti.kind
  refine network_mismatch hnet hab hpa hpb hres hresb hoa hob hk hki ?_
  rintro La Lb per hp ⟨a1, a2, a3, a4, a5, a6, a7, a8⟩ ⟨b1, b2, b3, b4, b5, b6, b7, b8⟩
  obtain ⟨L', f1, ⟨w, f2, f3⟩, f4⟩ := C20_p_refinement_exact La Lb a1 b1 (by rw [a2]; exact hci) (by rw [b2, a2])
    (by rw [b4, a4, hs]) (by rw [b5, a5, hab.inWidth]) (by rw [b6, a6, hab.hiddenWidth]) (by rw [b7, a7]) (by rw [b8, a8]) (by rw [a3, b3]; exact hn)
  subst f3
  exact ⟨w, f1, f2, fun B x hx hwf => f4 B x (by rw [a5]; exact hx) hwf⟩

end HOL
