import Verif.Lemmas.NetRefine
import Verif.Spec.Depth

/-! # Loops over two networks of different depth -/

namespace HOL
open TorchScalar

section
variable {K : Type} [TorchScalar K]

theorem firsts_append {α : Type} [DecidableEq α] (l l' memo : List α) : firsts memo (l ++ l') = firsts (firsts memo l) l' := by
  unfold firsts
  rw [List.foldl_append]

variable (op : PwLayer K → PwLayer K → Eff (PwLayer K))

/-- What `interpolate_high_order_mlp` / `hp_refine_high_order_mlp` do if one list of modules is longer than the other: `zip` stops. -/
theorem transferNetwork_prefix {h : Heap K} (ho : h.Ordered) {na nb sa sb : ℕ} (hma : h.model na = .ok sa) (hmb : h.model nb = .ok sb)
    {P : List (ℕ × ℕ)} {ea eb : List ℕ} (hab : ea = [] ∨ eb = [])
    (hsa : h[sa]? = some (.seq (P.map Prod.fst ++ ea))) (hsb : h[sb]? = some (.seq (P.map Prod.snd ++ eb)))
    (hea : ∀ c ∈ ea ++ eb, ∃ m, h[c]? = some m ∧ m.children = [] ∧ m.isSeq = false)
    (hfst : ∀ p ∈ P, ∀ q ∈ P, p.1 = q.1 → p = q) (hsnd : ∀ p ∈ P, ∀ q ∈ P, p.2 = q.2 → p = q)
    (hP : ∀ p ∈ P, PairOK op h p) (hnd : ∀ p ∈ P, ((prims h p).map Prod.snd).Nodup)
    (hdisj : ∀ p ∈ P, ∀ q ∈ P, p ≠ q → ∀ s ∈ prims h p, ∀ t ∈ prims h q, s.2 ≠ t.2)
    (hsrc : ∀ p ∈ P, ∀ q ∈ P, ∀ s ∈ prims h p, ∀ t ∈ prims h q, s.1 ≠ t.2) :
    ∃ h', transferNetwork op na nb h = (.ok (), h') ∧ h.Skel h' ∧
      (∀ j, (∀ p ∈ P, ∀ q ∈ prims h p, j ≠ q.2) → h'[j]? = h[j]?) ∧
      ∀ p ∈ P, ∀ q ∈ prims h p, ∀ La Lb, h[q.1]? = some (.pw La) → h[q.2]? = some (.pw Lb) →
        h'[q.2]? = some (.pw (op La Lb).2) := by
  have hA : ∀ c ∈ P.map Prod.fst ++ ea, ∃ m, h[c]? = some m ∧ m.children = [] ∧ m.isSeq = false := by
    intro c hc
    rcases List.mem_append.1 hc with hc | hc
    swap
    · exact hea c (List.mem_append.2 (Or.inl hc))
    obtain ⟨p, hp, rfl⟩ := List.mem_map.1 hc
    exact (hP p hp).children.1
  have hB : ∀ c ∈ P.map Prod.snd ++ eb, ∃ m, h[c]? = some m ∧ m.children = [] ∧ m.isSeq = false := by
    intro c hc
    rcases List.mem_append.1 hc with hc | hc
    swap
    · exact hea c (List.mem_append.2 (Or.inr hc))
    obtain ⟨p, hp, rfl⟩ := List.mem_map.1 hc
    exact (hP p hp).children.2
  have hsa' : ∀ p ∈ P, p.1 ≠ sa := by
    intro p hp e
    have := ho sa _ hsa p.1 (by simp only [Mod.refs, Mod.children, Mod.hidden, List.nil_append]; exact List.mem_append.2 (Or.inl (List.mem_map_of_mem hp)))
    omega
  have hsb' : ∀ p ∈ P, p.2 ≠ sb := by
    intro p hp e
    have := ho sb _ hsb p.2 (by simp only [Mod.refs, Mod.children, Mod.hidden, List.nil_append]; exact List.mem_append.2 (Or.inl (List.mem_map_of_mem hp)))
    omega
  obtain ⟨T, hT⟩ := firsts_prefix P [(sa, sb)]
  rw [List.singleton_append] at hT
  have hTs := firsts_spec P [(sa, sb)] (by simp)
  rw [hT] at hTs
  have hTnd : T.Nodup := (List.nodup_cons.1 hTs.1).2
  have hTP : ∀ p ∈ T, p ∈ P := by
    intro p hp
    have h1 := (hTs.2 p).1 (by simp [hp])
    rcases h1 with h1 | h1
    · rw [List.mem_singleton] at h1
      exact absurd (h1 ▸ hp) (List.nodup_cons.1 hTs.1).1
    · exact h1
  have hPT : ∀ p ∈ P, p ∈ T := by
    intro p hp
    have h1 := (hTs.2 p).2 (Or.inr hp)
    rcases List.mem_cons.1 h1 with h1 | h1
    · exact absurd (by rw [h1]) (hsa' p hp)
    · exact h1
  have fA : firsts [sa] (P.map Prod.fst) = sa :: T.map Prod.fst := by
    have := firsts_map Prod.fst P [(sa, sb)] (by
      intro a ha b hb e
      rw [List.singleton_append, List.mem_cons] at ha hb
      rcases ha with rfl | ha <;> rcases hb with rfl | hb
      · rfl
      · exact absurd e.symm (hsa' b hb)
      · exact absurd e (hsa' a ha)
      · exact hfst a ha b hb e)
    rw [hT] at this
    exact this
  have fB : firsts [sb] (P.map Prod.snd) = sb :: T.map Prod.snd := by
    have := firsts_map Prod.snd P [(sa, sb)] (by
      intro a ha b hb e
      rw [List.singleton_append, List.mem_cons] at ha hb
      rcases ha with rfl | ha <;> rcases hb with rfl | hb
      · rfl
      · exact absurd e.symm (hsb' b hb)
      · exact absurd e (hsb' a ha)
      · exact hsnd a ha b hb e)
    rw [hT] at this
    exact this
  have hzip : (h.layers sa).zip (h.layers sb) = T := by
    obtain ⟨ta, hta⟩ := firsts_prefix ea (sa :: T.map Prod.fst)
    obtain ⟨tb, htb⟩ := firsts_prefix eb (sb :: T.map Prod.snd)
    have gA : firsts [sa] (P.map Prod.fst ++ ea) = sa :: (T.map Prod.fst ++ ta) := by
      rw [firsts_append, fA, hta]; rfl
    have gB : firsts [sb] (P.map Prod.snd ++ eb) = sb :: (T.map Prod.snd ++ tb) := by
      rw [firsts_append, fB, htb]; rfl
    have hz : ta.zip tb = [] := by
      rcases hab with rfl | rfl
      · rw [firsts_nil] at hta
        have : ta = [] := by simpa using hta
        rw [this]; rfl
      · rw [firsts_nil] at htb
        have : tb = [] := by simpa using htb
        rw [this]; simp
    rw [Heap.layers_seq ho hsa hA gA, Heap.layers_seq ho hsb hB gB, List.zip_append (by simp), List.zip_map', hz]
    simp
  have hnet : transferNetwork op na nb h = forEach (transferBody op) T h := by
    unfold transferNetwork
    rw [hma, hmb]
    simp only [hzip]
    rfl
  rw [hnet, forEach_flatMap (transferBody op) (pairBody op) (prims h) h.Skel T
    (fun p hp h' s => transferBody_eq op ho (hP p (hTP p hp)) h' s) (fun q h' s => pairBody_skel op q h' s) h (Heap.Skel.refl h)]
  have q1 : ∀ q ∈ T.flatMap (prims h), ∃ La Lb, h[q.1]? = some (.pw La) ∧ h[q.2]? = some (.pw Lb) ∧ (op La Lb).1 = .ok () := by
    intro q hq
    obtain ⟨p, hp, hqp⟩ := List.mem_flatMap.1 hq
    rcases hP p (hTP p hp) with ⟨La, Lb, a, b, c⟩ | ⟨ia, ib, las, lbs, a, b, c⟩ | ⟨f, a, b⟩
    · have hpr : prims h p = [p] := by unfold prims; rw [a]
      rw [hpr, List.mem_singleton] at hqp
      subst hqp
      exact ⟨La, Lb, a, b, c⟩
    · have hpr : prims h p = las.zip lbs := by unfold prims; rw [a, b]
      rw [hpr] at hqp
      exact c q hqp
    · have hpr : prims h p = [] := by unfold prims; rw [a]
      rw [hpr] at hqp; cases hqp
  have q2 : ((T.flatMap (prims h)).map Prod.snd).Nodup := by
    rw [List.map_flatMap, List.nodup_flatMap]
    refine ⟨fun p hp => hnd p (hTP p hp), ?_⟩
    apply hTnd.imp_of_mem
    intro p q hp hq hne t h1 h2
    obtain ⟨s1, m1, rfl⟩ := List.mem_map.1 h1
    obtain ⟨s2, m2, e⟩ := List.mem_map.1 h2
    exact hdisj p (hTP p hp) q (hTP q hq) hne s1 m1 s2 m2 e.symm
  have q3 : ∀ q ∈ T.flatMap (prims h), ∀ r ∈ T.flatMap (prims h), q.1 ≠ r.2 := by
    intro q hq r hr
    obtain ⟨p, hp, hqp⟩ := List.mem_flatMap.1 hq
    obtain ⟨p', hp', hrp⟩ := List.mem_flatMap.1 hr
    exact hsrc p (hTP p hp) p' (hTP p' hp') q hqp r hrp
  obtain ⟨h', e1, e2, e3, e4⟩ := forEach_pairs op (T.flatMap (prims h)) h q1 q2 q3
  refine ⟨h', e1, e2, ?_, ?_⟩
  · intro j hj
    apply e3
    intro hm
    obtain ⟨q, hq, rfl⟩ := List.mem_map.1 hm
    obtain ⟨p, hp, hqp⟩ := List.mem_flatMap.1 hq
    exact hj p (hTP p hp) q hqp rfl
  · intro p hp q hq
    exact e4 q (List.mem_flatMap.2 ⟨p, hPT p hp, hq⟩)

end

section
variable {K : Type} [TorchScalar K]

theorem MLPArgs.lay_le {c : MLPArgs K} {i : ℕ} (h : Slot.lay i ∈ c.plan) : i ≤ c.hiddenLayers := by
  rcases MLPArgs.mem_plan.1 h with e | ⟨e, _⟩ | ⟨e, _⟩ | ⟨j, _, e, _⟩ | ⟨j, hj, e⟩ <;> cases e
  exact hj

theorem PwNet.childless {c : MLPArgs K} {g : Geo} {o : Orders} {swI sw : Bool} {clsI cls : PwClass} {nlF : Fwd K} {h : Heap K}
    (hn : PwNet c g o swI sw clsI cls nlF h) {s : Slot} (hs : s ∈ c.plan) :
    ∃ m, h[c.slotId g s]? = some m ∧ m.children = [] ∧ m.isSeq = false := by
  have := hn.slots s hs
  cases he : c.fcInfo o swI sw clsI cls s with
  | some t =>
    rw [he] at this
    have key : IsFc h (c.slotId g s) t := this
    unfold IsFc at key
    by_cases hw : t.sw = true
    · rw [if_pos hw] at key
      exact ⟨_, key.2.1, rfl, rfl⟩
    · rw [if_neg hw] at key
      obtain ⟨L, hL, -⟩ := key
      exact ⟨_, hL, rfl, rfl⟩
  | none => rw [he] at this; exact ⟨_, this, rfl, rfl⟩

/-- Input, hidden and output layers. -/
def Slot.holdsLayer : Slot → Bool
  | .inp | .lay _ => true
  | _ => false

/-- A layer occurs once. -/
theorem MLPArgs.plan_lay_nodup {c : MLPArgs K} {C E : List Slot} (h : c.plan = C ++ E) {s : Slot} (h1 : s ∈ C) (h2 : s ∈ E)
    (hs : s = .inp ∨ ∃ i, s = .lay i) : False := by
  have hblock : ∀ i, (c.blockPlan i).filter Slot.holdsLayer = [.lay i] := by
    intro i
    unfold blockPlan prePlan
    split <;> split <;> split <;> rfl
  have hflat : ∀ l : List ℕ, (l.flatMap c.blockPlan).filter Slot.holdsLayer = l.map .lay := by
    intro l
    induction l with
    | nil => rfl
    | cons i l ih => rw [List.flatMap_cons, List.filter_append, hblock, ih]; rfl
  have hnd : (c.plan.filter Slot.holdsLayer).Nodup := by
    have : c.plan.filter Slot.holdsLayer = .inp :: (List.range (c.hiddenLayers + 1)).map .lay := by
      unfold plan
      rw [List.filter_cons, if_pos (by rfl), hflat]
    rw [this, List.nodup_cons]
    refine ⟨by simp, List.Nodup.map (fun a b e => by cases e; rfl) List.nodup_range⟩
  have hl : s.holdsLayer = true := by rcases hs with rfl | ⟨i, rfl⟩ <;> rfl
  rw [h, List.filter_append, List.nodup_append] at hnd
  exact hnd.2.2 s (List.mem_filter.2 ⟨h1, hl⟩) s (List.mem_filter.2 ⟨h2, hl⟩) rfl

end

open MLPArgs in
/-- Refinement of networks that agree on a common part of their lists of modules. -/
theorem pwNet_depth {op : PwLayer ℝ → PwLayer ℝ → Eff (PwLayer ℝ)} {ca cb : MLPArgs ℝ} (hab : ca.SameBlocks cb) (hlm : ca.LayersMatch cb)
    (hres : ca.resnet = false ∨ ca.hiddenLayers ≤ 1) (hresb : cb.resnet = false ∨ cb.hiddenLayers ≤ 1)
    {oa ob : Orders} {swI sw : Bool} {clsI cls : PwClass} {nlF : Fwd ℝ} {baseA baseB : ℕ} {h : Heap ℝ} (ho : h.Ordered)
    (hA : PwNet ca (geoOf swI sw baseA) oa swI sw clsI cls nlF h) (hB : PwNet cb (geoOf swI sw baseB) ob swI sw clsI cls nlF h)
    (hsep : ca.netId (geoOf swI sw baseA) < baseB ∨ cb.netId (geoOf swI sw baseB) < baseA)
    (hnl : ∀ j ∈ ca.nonLinearity, j < baseA ∧ j < baseB)
    (hshape : ∀ s ∈ ca.plan, ca.fcInfo oa swI sw clsI cls s = none → KeepsShape (ca.slotFn nlF s) ca.hiddenWidth)
    {C EA EB : List Slot} (hca : ca.plan = C ++ EA) (hcb : cb.plan = C ++ EB) (hE : EA = [] ∨ EB = [])
    (hop : ∀ s ∈ C, ∀ ta tb, ca.fcInfo oa swI sw clsI cls s = some ta → cb.fcInfo ob swI sw clsI cls s = some tb → Exact op ta tb) :
    ∃ h', transferNetwork op (ca.netId (geoOf swI sw baseA)) (cb.netId (geoOf swI sw baseB)) h = (.ok (), h') ∧
      (∀ j, (j < baseB ∨ cb.netId (geoOf swI sw baseB) ≤ j) → h'[j]? = h[j]?) ∧ h'.Ordered ∧
      h'.forward (ca.netId (geoOf swI sw baseA)) = h.forward (ca.netId (geoOf swI sw baseA)) ∧
      (h.forward (ca.netId (geoOf swI sw baseA)) = seqForward ((C ++ EA).map fun s => h.forward (ca.slotId (geoOf swI sw baseA) s))) ∧
      ∀ (B : ℕ) (x : Tensor ℝ), x.shape = [B, ca.inWidth] → x.WF → h'.forward (cb.netId (geoOf swI sw baseB)) x =
        (seqForward (C.map fun s => h.forward (ca.slotId (geoOf swI sw baseA) s)) x >>=
          seqForward (EB.map fun s => h.forward (cb.slotId (geoOf swI sw baseB) s))) := by
  set ga := geoOf swI sw baseA with hga
  set gb := geoOf swI sw baseB with hgb
  have inA : ∀ s ∈ C, s ∈ ca.plan := fun s hs => by rw [hca]; exact List.mem_append.2 (Or.inl hs)
  have inB : ∀ s ∈ C, s ∈ cb.plan := fun s hs => by rw [hcb]; exact List.mem_append.2 (Or.inl hs)
  have hnlA : ∀ j ∈ ca.nonLinearity, j < ga.base := fun j hj => (hnl j hj).1
  have hidlt : ∀ s ∈ ca.plan, ca.slotId ga s < ca.netId ga - 1 := fun s hs =>
    slotId_lt (sizeOf_pos swI) (sizeOf_pos sw) (sizeOf_pos sw) hnlA hs
  have hnlB : ∀ j ∈ cb.nonLinearity, j < gb.base := by
    intro j hj
    rw [hab.nonLinearity] at hj
    exact (hnl j hj).2
  have hidltB : ∀ s ∈ cb.plan, cb.slotId gb s < cb.netId gb - 1 := fun s hs =>
    slotId_lt (sizeOf_pos swI) (sizeOf_pos sw) (sizeOf_pos sw) hnlB hs
  have hlowA := MLPArgs.slotLow_eq (c := ca) (swI := swI) (sw := sw) (base := baseA) (MLPArgs.extra_zero hres)
  have hexB : ∀ i < cb.hiddenLayers, cb.extra i = 0 :=
    MLPArgs.extra_zero hresb
  have hlowB := MLPArgs.slotLow_eq (c := cb) (swI := swI) (sw := sw) (base := baseB) hexB
  set P := C.map fun s => (ca.slotId ga s, cb.slotId gb s) with hP
  have infoB : ∀ s ∈ C, ∀ ta, ca.fcInfo oa swI sw clsI cls s = some ta → ∃ tb, cb.fcInfo ob swI sw clsI cls s = some tb ∧ tb.sw = ta.sw ∧
      tb.per = ta.per ∧ tb.I = ta.I ∧ tb.O = ta.O := by
    intro s hs ta hta
    cases s with
    | inp =>
      simp only [MLPArgs.fcInfo, Option.some.injEq] at hta ⊢; subst hta
      exact ⟨_, rfl, rfl, hab.periodicity, hab.inWidth, hab.hiddenWidth⟩
    | lay i =>
      have iA : i ≤ ca.hiddenLayers := MLPArgs.lay_le (inA _ hs)
      have iB : i ≤ cb.hiddenLayers := MLPArgs.lay_le (inB _ hs)
      have hw := hlm i iA iB
      simp only [MLPArgs.layerOut] at hw
      simp only [MLPArgs.fcInfo] at hta ⊢
      by_cases hi : i < ca.hiddenLayers <;> by_cases hj : i < cb.hiddenLayers <;> simp only [hi, hj, if_true, if_false, Option.some.injEq] at hta hw ⊢ <;>
        subst hta <;> exact ⟨_, rfl, rfl, hab.periodicity, hab.hiddenWidth, hw⟩
    | _ => simp [MLPArgs.fcInfo] at hta
  have infoB' : ∀ s, ca.fcInfo oa swI sw clsI cls s = none → cb.fcInfo ob swI sw clsI cls s = none := by
    intro s hta
    cases s with
    | inp => simp [MLPArgs.fcInfo] at hta
    | lay i => simp only [MLPArgs.fcInfo] at hta; split at hta <;> simp at hta
    | _ => rfl
  have fnB : ∀ s, cb.slotFn nlF s = ca.slotFn nlF s := by
    intro s
    cases s <;> simp only [MLPArgs.slotFn]
    · exact hab.dropoutFn
    · rw [hab.normalization]
  -- facts about each pair
  have facts : ∀ s ∈ C, PairOK op h (ca.slotId ga s, cb.slotId gb s) ∧
      ((prims h (ca.slotId ga s, cb.slotId gb s)).map Prod.snd).Nodup ∧
      ∀ q ∈ prims h (ca.slotId ga s, cb.slotId gb s), (s = .inp ∨ ∃ i, s = .lay i) ∧ (ca.slotLow ga s ≤ q.1 ∧ q.1 ≤ ca.slotId ga s) ∧
        cb.slotLow gb s ≤ q.2 ∧ q.2 ≤ cb.slotId gb s := by
    intro s hs
    have sA := hA.slots s (inA s hs)
    have sB := hB.slots s (inB s hs)
    cases hta : ca.fcInfo oa swI sw clsI cls s with
    | some ta =>
      obtain ⟨tb, htb, hsw, hper, hI, hO⟩ := infoB s hs ta hta
      rw [hta] at sA
      rw [htb] at sB
      obtain ⟨f1, f2, f3⟩ := isFc_pair (hop s hs ta tb hta htb) hsw hper sA sB
      refine ⟨f1, f2, ?_⟩
      intro q hq
      obtain ⟨g0, g1, g2, g3⟩ := f3 q hq
      refine ⟨?_, ⟨?_, g1⟩, ?_, g3⟩
      · rcases MLPArgs.fcInfo_some hta with ⟨e, _⟩ | ⟨i, e, _⟩
        · exact Or.inl e
        · exact Or.inr ⟨i, e⟩
      · rcases MLPArgs.fcInfo_some htb with ⟨rfl, e⟩ | ⟨i, rfl, e⟩
        · rw [e] at g0
          have := hlowA.1
          rw [← hga] at this
          omega
        · rw [e] at g0
          have := hlowA.2 i
          rw [← hga] at this
          omega
      · rcases MLPArgs.fcInfo_some htb with ⟨rfl, e⟩ | ⟨i, rfl, e⟩
        · rw [e] at g2
          have := hlowB.1
          rw [← hgb] at this
          omega
        · rw [e] at g2
          have := hlowB.2 i
          rw [← hgb] at this
          omega
    | none =>
      rw [hta] at sA
      rw [infoB' s hta] at sB
      simp only at sA sB
      rw [fnB] at sB
      have hpr : prims h (ca.slotId ga s, cb.slotId gb s) = [] := by unfold prims; rw [sA]
      refine ⟨Or.inr (Or.inr ⟨_, sA, sB⟩), by rw [hpr]; simp, ?_⟩
      intro q hq
      rw [hpr] at hq; cases hq
  have hlowbase : ∀ s, (s = .inp ∨ ∃ i, s = .lay i) → baseB ≤ cb.slotLow gb s := by
    rintro s (rfl | ⟨i, rfl⟩)
    · simp only [MLPArgs.slotLow]; exact Nat.le_succ _
    · simp only [MLPArgs.slotLow]
      have := blk_base cb gb i
      have e : gb.base = baseB := rfl
      omega
  have hlowbaseA : ∀ s, (s = .inp ∨ ∃ i, s = .lay i) → baseA ≤ ca.slotLow ga s := by
    rintro s (rfl | ⟨i, rfl⟩)
    · simp only [MLPArgs.slotLow]; exact Nat.le_succ _
    · simp only [MLPArgs.slotLow]
      have := blk_base ca ga i
      have e : ga.base = baseA := rfl
      omega
  have hmemP : ∀ p, p ∈ P ↔ ∃ s ∈ C, (ca.slotId ga s, cb.slotId gb s) = p := by
    intro p; rw [hP]; exact List.mem_map
  have hma : h.model (ca.netId ga) = .ok (ca.netId ga - 1) := by unfold Heap.model; rw [hA.net]
  have hmb : h.model (cb.netId gb) = .ok (cb.netId gb - 1) := by unfold Heap.model; rw [hB.net]
  have hsa : h[ca.netId ga - 1]? = some (.seq (P.map Prod.fst ++ EA.map (ca.slotId ga))) := by
    rw [hA.seq, hP, List.map_map, hca, List.map_append]; rfl
  have hsb : h[cb.netId gb - 1]? = some (.seq (P.map Prod.snd ++ EB.map (cb.slotId gb))) := by
    rw [hB.seq, hP, List.map_map, hcb, List.map_append]; rfl
  have hextra : ∀ c ∈ EA.map (ca.slotId ga) ++ EB.map (cb.slotId gb), ∃ m, h[c]? = some m ∧ m.children = [] ∧ m.isSeq = false := by
    intro c hc
    rcases List.mem_append.1 hc with hc | hc
    · obtain ⟨s, hs, rfl⟩ := List.mem_map.1 hc
      exact hA.childless (by rw [hca]; exact List.mem_append.2 (Or.inr hs))
    · obtain ⟨s, hs, rfl⟩ := List.mem_map.1 hc
      exact hB.childless (by rw [hcb]; exact List.mem_append.2 (Or.inr hs))
  have r1 : ∀ p ∈ P, ∀ q ∈ P, p.1 = q.1 → p = q := by
    intro p hp q hq e
    obtain ⟨s, hs, rfl⟩ := (hmemP p).1 hp
    obtain ⟨t, ht, rfl⟩ := (hmemP q).1 hq
    rw [slotId_inj (sizeOf_pos swI) (sizeOf_pos sw) (sizeOf_pos sw) hnlA (inA s hs) (inA t ht) e]
  have r2 : ∀ p ∈ P, ∀ q ∈ P, p.2 = q.2 → p = q := by
    intro p hp q hq e
    obtain ⟨s, hs, rfl⟩ := (hmemP p).1 hp
    obtain ⟨t, ht, rfl⟩ := (hmemP q).1 hq
    rw [slotId_inj (c := cb) (g := gb) (sizeOf_pos swI) (sizeOf_pos sw) (sizeOf_pos sw) hnlB (inB s hs) (inB t ht) e]
  have r3 : ∀ p ∈ P, PairOK op h p := by
    intro p hp
    obtain ⟨s, hs, rfl⟩ := (hmemP p).1 hp
    exact (facts s hs).1
  have r4 : ∀ p ∈ P, ((prims h p).map Prod.snd).Nodup := by
    intro p hp
    obtain ⟨s, hs, rfl⟩ := (hmemP p).1 hp
    exact (facts s hs).2.1
  have r5 : ∀ p ∈ P, ∀ q ∈ P, p ≠ q → ∀ s ∈ prims h p, ∀ t ∈ prims h q, s.2 ≠ t.2 := by
    intro p hp q hq hne u hu v hv
    obtain ⟨s, hs, rfl⟩ := (hmemP p).1 hp
    obtain ⟨t, ht, rfl⟩ := (hmemP q).1 hq
    obtain ⟨k1, k2, k3, k4⟩ := (facts s hs).2.2 u hu
    obtain ⟨l1, l2, l3, l4⟩ := (facts t ht).2.2 v hv
    exact slot_disjoint (c := cb) (g := gb) (sizeOf_pos sw) (inB s hs) (inB t ht) k1 l1
      (fun e => hne (by rw [e])) k3 k4 l3 l4
  have r6 : ∀ p ∈ P, ∀ q ∈ P, ∀ s ∈ prims h p, ∀ t ∈ prims h q, s.1 ≠ t.2 := by
    intro p hp q hq u hu v hv
    obtain ⟨s, hs, rfl⟩ := (hmemP p).1 hp
    obtain ⟨t, ht, rfl⟩ := (hmemP q).1 hq
    obtain ⟨k1, k2, k3, k4⟩ := (facts s hs).2.2 u hu
    obtain ⟨l1, l2, l3, l4⟩ := (facts t ht).2.2 v hv
    have := hlowbase t l1
    have := hlowbaseA s k1
    have := hidlt s (inA s hs)
    have := hidltB t (inB t ht)
    omega
  obtain ⟨h', e1, sk, fr, tg⟩ := transferNetwork_prefix op ho hma hmb (hE.imp (fun e => by rw [e]; rfl) fun e => by rw [e]; rfl) hsa hsb hextra r1 r2 r3 r4 r5 r6
  have ho' := sk.ordered ho
  have frame : ∀ j, (j < baseB ∨ cb.netId gb ≤ j) → h'[j]? = h[j]? := by
    intro j hj
    apply fr
    intro p hp q hq e
    obtain ⟨s, hs, rfl⟩ := (hmemP p).1 hp
    obtain ⟨k1, k2, k3, k4⟩ := (facts s hs).2.2 q hq
    have := hlowbase s k1
    have := hidltB s (inB s hs)
    omega
  have frameA : ∀ j, baseA ≤ j → j ≤ ca.netId ga → h'[j]? = h[j]? := by
    intro j h1 h2
    exact frame j (by omega)
  have fa' : ∀ {h : Heap ℝ}, h.Ordered → h[ca.netId ga]? = some (.mlp ga.base (ga.base + ga.si) (ca.layId ga ca.hiddenLayers) (ca.netId ga - 1)) →
      h[ca.netId ga - 1]? = some (.seq (ca.plan.map (ca.slotId ga))) →
      h.forward (ca.netId ga) = seqForward (ca.plan.map fun s => h.forward (ca.slotId ga s)) := by
    intro h ho n1 n2
    rw [Heap.forward_eq ho n1]
    funext x
    simp only [Mod.forward]
    rw [Heap.forward_eq ho n2]
    simp only [Mod.forward, List.map_map]
    rfl
  have fa := fa' ho hA.net hA.seq
  refine ⟨h', e1, frame, ho', ?_, by rw [fa, hca], ?_⟩
  · rw [fa, fa' ho' (sk.same hA.net (by simp)) (sk.same hA.seq (by simp))]
    congr 1
    apply List.map_congr_left
    intro s hs
    have sA := hA.slots s hs
    cases hta : ca.fcInfo oa swI sw clsI cls s with
    | some ta =>
      rw [hta] at sA
      apply IsFc.forward_frame ho ho' sA
      intro j j1 j2
      have := hidlt s hs
      rcases MLPArgs.fcInfo_some hta with ⟨rfl, e⟩ | ⟨i, rfl, e⟩
      · have h1 := hlowbaseA .inp (Or.inl rfl)
        have h2 := hlowA.1
        rw [e] at j1
        rw [← hga] at h2
        exact frameA j (by omega) (by omega)
      · have h1 := hlowbaseA (.lay i) (Or.inr ⟨i, rfl⟩)
        have h2 := hlowA.2 i
        rw [e] at j1
        rw [← hga] at h2
        exact frameA j (by omega) (by omega)
    | none =>
      rw [hta] at sA
      rw [Heap.forward_eq ho sA, Heap.forward_eq ho' (sk.same sA (by simp))]
      rfl
  -- forward
  have step : ∀ s ∈ C, SameMap (h.forward (ca.slotId ga s)) (h'.forward (cb.slotId gb s)) (ca.slotW s).1 (ca.slotW s).2 ∧ cb.slotW s = ca.slotW s := by
    intro s hs
    have sA := hA.slots s (inA s hs)
    have sB := hB.slots s (inB s hs)
    cases hta : ca.fcInfo oa swI sw clsI cls s with
    | some ta =>
      obtain ⟨tb, htb, hsw, hper, hI, hO⟩ := infoB s hs ta hta
      rw [hta] at sA
      rw [htb] at sB
      rw [(MLPArgs.fcInfo_dims hta).1, (MLPArgs.fcInfo_dims htb).1]
      refine ⟨?_, by rw [hI, hO]⟩
      exact isFc_sameMap (hop s hs ta tb hta htb) hsw hper ho ho' sk sA sB
        fun q hq La Lb g1 g2 => tg _ ((hmemP _).2 ⟨s, hs, rfl⟩) q hq La Lb g1 g2
    | none =>
      rw [hta] at sA
      rw [infoB' s hta] at sB
      simp only at sA sB
      rw [fnB] at sB
      rw [Heap.forward_eq ho sA, Heap.forward_eq ho' (sk.same sB (by simp))]
      have hw : ca.slotW s = (ca.hiddenWidth, ca.hiddenWidth) := by
        cases s with
        | inp => simp [MLPArgs.fcInfo] at hta
        | lay i => simp only [MLPArgs.fcInfo] at hta; split at hta <;> simp at hta
        | _ => rfl
      have hw' : cb.slotW s = (cb.hiddenWidth, cb.hiddenWidth) := by
        cases s with
        | inp => simp [MLPArgs.fcInfo] at hta
        | lay i => simp only [MLPArgs.fcInfo] at hta; split at hta <;> simp at hta
        | _ => rfl
      rw [hw, hw', hab.hiddenWidth]
      refine ⟨?_, rfl⟩
      intro B x hx hwf
      exact ⟨rfl, fun y hy => hshape s (inA s hs) hta B x y hx hwf hy⟩
  have hall : ∃ w, SameMap (seqForward (C.map fun s => h.forward (ca.slotId ga s))) (seqForward (C.map fun s => h'.forward (cb.slotId gb s)))
      ca.inWidth w := by
    rcases hE with e | e
    · have hC : ca.plan = C := by rw [hca, e, List.append_nil]
      refine ⟨ca.outWidth, ?_⟩
      rw [← hC]
      exact plan_sameMap fun s hs => (step s (hC ▸ hs)).1
    · have hC : cb.plan = C := by rw [hcb, e, List.append_nil]
      refine ⟨cb.outWidth, ?_⟩
      rw [← hC, ← hab.inWidth]
      refine plan_sameMap fun s hs => ?_
      obtain ⟨q1, q2⟩ := step s (hC ▸ hs)
      rw [q2]; exact q1
  have fb : h'.forward (cb.netId gb) = seqForward (C.map (fun s => h'.forward (cb.slotId gb s)) ++ EB.map fun s => h'.forward (cb.slotId gb s)) := by
    rw [Heap.forward_eq ho' (sk.same hB.net (by simp))]
    funext x
    simp only [Mod.forward]
    rw [Heap.forward_eq ho' (sk.same hB.seq (by simp)), hcb]
    simp only [Mod.forward, List.map_map, List.map_append]
    rfl
  have hrest : (EB.map fun s => h'.forward (cb.slotId gb s)) = EB.map fun s => h.forward (cb.slotId gb s) := by
    apply List.map_congr_left
    intro s hs
    have hsB : s ∈ cb.plan := by rw [hcb]; exact List.mem_append.2 (Or.inr hs)
    have sB := hB.slots s hsB
    cases htb : cb.fcInfo ob swI sw clsI cls s with
    | some tb =>
      rw [htb] at sB
      apply IsFc.forward_frame ho ho' sB
      intro j j1 j2
      apply fr
      intro p hp q hq e
      obtain ⟨t, ht, rfl⟩ := (hmemP p).1 hp
      obtain ⟨k1, k2, k3, k4⟩ := (facts t ht).2.2 q hq
      have hsl : s = .inp ∨ ∃ i, s = .lay i := by
        rcases MLPArgs.fcInfo_some htb with ⟨e, _⟩ | ⟨i, e, _⟩
        · exact Or.inl e
        · exact Or.inr ⟨i, e⟩
      have hne : s ≠ t := by
        intro e
        subst e
        have := MLPArgs.plan_lay_nodup hcb ht hs hsl
        exact this
      have hlow : cb.slotLow gb s ≤ j := by
        rcases MLPArgs.fcInfo_some htb with ⟨rfl, e⟩ | ⟨i, rfl, e⟩
        · rw [e] at j1
          have := hlowB.1
          rw [← hgb] at this
          omega
        · rw [e] at j1
          have := hlowB.2 i
          rw [← hgb] at this
          omega
      exact slot_disjoint (c := cb) (g := gb) (sizeOf_pos sw) hsB (inB t ht) hsl k1 hne hlow j2 k3 k4 e
    | none =>
      rw [htb] at sB
      rw [Heap.forward_eq ho sB, Heap.forward_eq ho' (sk.same sB (by simp))]
      rfl
  intro B x hx hwf
  obtain ⟨w, hw⟩ := hall
  rw [fb, hrest, seqForward_append, (hw B x hx hwf).1]

/-- The list of modules of the network with fewer hidden layers is an initial part of that of the other. -/
theorem MLPArgs.SameBlocks.plans {K : Type} [TorchScalar K] {a b : MLPArgs K} (h : a.SameBlocks b) :
    ∃ C EA EB, a.plan = C ++ EA ∧ b.plan = C ++ EB ∧ (EA = [] ∨ EB = []) ∧
      (a.hiddenLayers ≤ b.hiddenLayers → EA = []) ∧ (b.hiddenLayers ≤ a.hiddenLayers → EB = []) := by
  have hb : b.blockPlan = a.blockPlan := by
    funext i
    unfold MLPArgs.blockPlan MLPArgs.prePlan
    rw [h.normalization, h.nonLinearity, h.dropout]
  unfold MLPArgs.plan
  rw [hb]
  rcases Nat.le_total a.hiddenLayers b.hiddenLayers with hle | hle
  · obtain ⟨k, hk⟩ := Nat.exists_eq_add_of_le hle
    refine ⟨_, [], ((List.range k).map (a.hiddenLayers + 1 + ·)).flatMap a.blockPlan, (List.append_nil _).symm, ?_, Or.inl rfl, fun _ => rfl, fun h' => ?_⟩
    swap
    · have : k = 0 := by omega
      subst this; rfl
    rw [hk, show a.hiddenLayers + k + 1 = a.hiddenLayers + 1 + k by omega, List.range_add, List.flatMap_append]
    rfl
  · obtain ⟨k, hk⟩ := Nat.exists_eq_add_of_le hle
    refine ⟨_, ((List.range k).map (b.hiddenLayers + 1 + ·)).flatMap a.blockPlan, [], ?_, (List.append_nil _).symm, Or.inr rfl, fun h' => ?_, fun _ => rfl⟩
    swap
    · have : k = 0 := by omega
      subst this; rfl
    rw [hk, show b.hiddenLayers + k + 1 = b.hiddenLayers + 1 + k by omega, List.range_add, List.flatMap_append]
    rfl

end HOL
