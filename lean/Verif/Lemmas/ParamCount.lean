import Verif.Model.ParamCount
import Verif.Spec.ParamCount
import Verif.Props.Modules

/-! # Counting parameters -/

namespace HOL
open TorchScalar Relation MLPArgs
variable {K : Type} [TorchScalar K]

set_option linter.unusedSectionVars false

/-- The numbers of module `j`. -/
def Heap.numAt (h : Heap K) (j : ℕ) : ℕ := ((h[j]?).map Mod.numParams).getD 0

theorem Heap.parameters_nodup {h : Heap K} (ho : h.Ordered) {i : ℕ} (hi : i < h.length) : (h.parameters i).Nodup :=
  (Heap.modules_nodup ho hi).filter _

theorem Heap.countParameters_eq {h : Heap K} (ho : h.Ordered) {i : ℕ} (hi : i < h.length) :
    h.countParameters i = ∑ j ∈ (h.parameters i).toFinset, h.numAt j := by
  unfold Heap.countParameters
  rw [List.sum_toFinset _ (Heap.parameters_nodup ho hi)]
  rfl

theorem Mod.Trained.numParams {m m' : Mod K} (h : m.Trained m') : m'.numParams = m.numParams := by
  cases h with
  | refl => rfl
  | pw L w hs hw => simp [Mod.numParams, Mod.paramShapes, hs]
  | fn L w hs hw => simp [Mod.numParams, Mod.paramShapes, hs]
  | product L w b hs hb =>
    cases hb' : L.bias with
    | none => simp [Mod.numParams, Mod.paramShapes, hs, hb']
    | some b0 => simp [Mod.numParams, Mod.paramShapes, hs, hb', hb b0 hb']
  | linear w b w' b' hs hb => simp [Mod.numParams, Mod.paramShapes, hs, hb]

/-- A module without submodules. -/
theorem Heap.countParameters_leaf {h : Heap K} (ho : h.Ordered) {j : ℕ} {m : Mod K} (hm : h[j]? = some m) (hc : m.children = []) (hp : m.hasParams = true) :
    h.countParameters j = m.numParams := by
  have hj := (List.getElem?_eq_some_iff.1 hm).1
  have e : (h.parameters j).toFinset = {j} := by
    ext k
    rw [List.mem_toFinset, mem_parameters ho hj, Finset.mem_singleton]
    constructor
    · rintro ⟨hr, -⟩
      rcases ReflTransGen.cases_head hr with rfl | ⟨c, ⟨m', hm', hc'⟩, -⟩
      · rfl
      · rw [hm] at hm'; cases hm'; rw [hc] at hc'; cases hc'
    · rintro rfl
      exact ⟨.refl, m, hm, hp⟩
  rw [Heap.countParameters_eq ho hj, e, Finset.sum_singleton, Heap.numAt, hm]
  rfl

/-- A module without parameters and submodules. -/
theorem Heap.parameters_none {h : Heap K} (ho : h.Ordered) {j : ℕ} {m : Mod K} (hm : h[j]? = some m) (hc : m.children = []) (hp : m.hasParams = false) :
    h.parameters j = [] := by
  have hj := (List.getElem?_eq_some_iff.1 hm).1
  rw [List.eq_nil_iff_forall_not_mem]
  intro k hk
  rw [mem_parameters ho hj] at hk
  obtain ⟨hr, m2, hm2, hp2⟩ := hk
  rcases ReflTransGen.cases_head hr with rfl | ⟨c, ⟨m', hm', hc'⟩, -⟩
  · rw [hm] at hm2; cases hm2; rw [hp] at hp2; cases hp2
  · rw [hm] at hm'; cases hm'; rw [hc] at hc'; cases hc'

/-- A module without parameters: its own are those of its submodules. -/
theorem Heap.mem_parameters_child {h : Heap K} (ho : h.Ordered) {i : ℕ} {m : Mod K} (hm : h[i]? = some m) (hp : m.hasParams = false) (k : ℕ) :
    k ∈ h.parameters i ↔ ∃ c ∈ m.children, k ∈ h.parameters c := by
  have hi := (List.getElem?_eq_some_iff.1 hm).1
  have hlt : ∀ c ∈ m.children, c < h.length := fun c hc => lt_trans (ho i _ hm c (by simp [Mod.refs, hc])) hi
  rw [mem_parameters ho hi]
  constructor
  · rintro ⟨hr, m2, hm2, hp2⟩
    rcases ReflTransGen.cases_head hr with rfl | ⟨c, ⟨m', hm', hc⟩, hcj⟩
    · rw [hm] at hm2; cases hm2; rw [hp] at hp2; cases hp2
    · rw [hm] at hm'; cases hm'
      exact ⟨c, hc, (mem_parameters ho (hlt c hc)).2 ⟨hcj, m2, hm2, hp2⟩⟩
  · rintro ⟨c, hc, hj⟩
    obtain ⟨hr, hm2⟩ := (mem_parameters ho (hlt c hc)).1 hj
    exact ⟨.head ⟨_, hm, hc⟩ hr, hm2⟩


/-- The numbers of a layer. -/
theorem IsLayer.count {kind : FcKind} {a : FcArgs K} (hu : Usable kind a) {h : Heap K} (ho : h.Ordered) {j : ℕ} (hl : IsLayer kind a h j) :
    h.countParameters j = Spec.argCount kind a := by
  obtain ⟨rng, base, ms, e1, e2, e3⟩ := hl
  have leaf1 : ∀ (m : Mod K), ms = [m] → m.children = [] → m.hasParams = true → m.numParams = Spec.argCount kind a →
      h.countParameters j = Spec.argCount kind a := by
    rintro m rfl hc hp hn
    have hj : j = base + 0 := by simpa using e2
    obtain ⟨m', f1, f2⟩ := e3 0 m rfl
    obtain ⟨-, g2, g3⟩ := f2.hidden
    rw [hj, Heap.countParameters_leaf ho f1 (by rw [g2]; exact hc) (by rw [g3]; exact hp), f2.numParams, hn]
  match kind, hu with
  | .leaf .linear, _ =>
    cases e1
    exact leaf1 _ rfl rfl rfl (by simp [Mod.numParams, Mod.paramShapes, Spec.argCount, Spec.layerCount, Tensor.tab2, Tensor.tab1, Tensor.tabulate, numel])
  | .leaf .product, _ =>
    cases e1
    exact leaf1 _ rfl rfl rfl (by simp [Mod.numParams, Mod.paramShapes, Spec.argCount, Spec.layerCount, Tensor.tab2, Tensor.tab1, Tensor.tabulate, numel])
  | .leaf .linearRelu, _ =>
    cases e1
    have hj : j = base + 1 := by simp at e2; omega
    obtain ⟨m0, f1, f2⟩ := e3 0 _ rfl
    obtain ⟨m1, f3, f4⟩ := e3 1 _ rfl
    cases f4
    obtain ⟨-, g2, g3⟩ := f2.hidden
    have hjl := (List.getElem?_eq_some_iff.1 f3).1
    have hbl := (List.getElem?_eq_some_iff.1 f1).1
    have e : (h.parameters (base + 1)).toFinset = (h.parameters (base + 0)).toFinset := by
      ext k
      rw [List.mem_toFinset, List.mem_toFinset, Heap.mem_parameters_child ho f3 rfl]
      simp [Mod.children]
    rw [hj, Heap.countParameters_eq ho hjl, e, ← Heap.countParameters_eq ho hbl, Heap.countParameters_leaf ho f1 (by rw [g2]; rfl) (by rw [g3]; rfl), f2.numParams]
    simp [Mod.numParams, Mod.paramShapes, Spec.argCount, Spec.layerCount, Tensor.tab2, Tensor.tab1, Tensor.tabulate, numel]
  | .leaf (.pw cls), ⟨n, s, hn, hs, _⟩ =>
    simp only [fcMods, leafMods, hn, hs] at e1
    cases e1
    refine leaf1 _ rfl rfl rfl ?_
    cases cls <;> simp [Mod.numParams, Mod.paramShapes, Spec.argCount, Spec.layerCount, Tensor.tab3, Tensor.tabulate, numel, PwLayer.init, constantRandomInit, PwLayer.wSize, PwClass.shared,
      hn, hs, Spec.intOf] <;> ring
  | .switch cls, ⟨⟨n, s, hn, hs, _⟩, hnum⟩ =>
    have hb := pwF_builds rng true cls a hn hs hnum
    have e1' : fcMods rng (.switch cls) a base = .ok (pwF rng true cls a n s base) := hb.ok base
    rw [e1'] at e1
    cases e1
    have hj : j = base + 2 := by simp [pwF] at e2; omega
    obtain ⟨m2, f5, f6⟩ := e3 2 _ rfl
    cases f6
    have := Heap.parameters_none ho f5 rfl rfl
    rw [hj, Heap.countParameters, this]
    rfl
  | .leaf .polynomial, ⟨n, hn, hpos⟩ =>
    simp only [fcMods, leafMods, hn, polynomialInit, FnLayer.init] at e1
    rw [lagrangePolyFlat_numBasis hpos] at e1
    cases e1
    exact leaf1 _ rfl rfl rfl (by simp [Mod.numParams, Mod.paramShapes, Spec.argCount, Spec.layerCount, Tensor.tab3, Tensor.tabulate, numel, constantRandomInit, hn, Spec.intOf, Nat.mul_assoc])
  | .leaf .fourier, ⟨n, hn, hpos⟩ =>
    simp only [fcMods, leafMods, hn, fourierSeriesInit, FnLayer.init] at e1
    cases e1
    exact leaf1 _ rfl rfl rfl (by simp [Mod.numParams, Mod.paramShapes, Spec.argCount, Spec.layerCount, Tensor.tab3, Tensor.tabulate, numel, constantRandomInit, fourierSeriesFlat, hn, Spec.intOf, Nat.mul_assoc])


/-- The modules of a layer that own parameters. -/
theorem IsLayer.params_bounds {kind : FcKind} {a : FcArgs K} (hu : Usable kind a) {h : Heap K} (ho : h.Ordered) {j : ℕ} (hl : IsLayer kind a h j) {k : ℕ}
    (hk : k ∈ h.parameters j) : j < k + kindSize kind ∧ k ≤ j := by
  have hh := hl.hered hu
  have hj : j < h.length := by
    cases hh with
    | mk hm _ _ => exact (List.getElem?_eq_some_iff.1 hm).1
  rw [mem_parameters ho hj] at hk
  obtain ⟨m, -, q1, q2, -⟩ := hh.children.child hk.1
  exact ⟨q1, q2⟩

/-- The numbers of a network. -/
theorem Net.count {c : MLPArgs K} {kind kindIn : FcKind} {g : Geo} {nlF : Fwd K} {h : Heap K} (hn : Net c kind kindIn g nlF h) (ho : h.Ordered)
    (hI : Usable kindIn c.inputArgs) (hH : Usable kind c.hiddenArgs) (hO : Usable kind c.outputArgs)
    (hg : g.si = kindSize kindIn ∧ g.sh = kindSize kind ∧ g.so = kindSize kind) (hsh : 0 < g.sh) :
    h.countParameters (c.netId g) = Spec.argCount kindIn c.inputArgs +
      (if c.resnet then min 1 c.hiddenLayers else c.hiddenLayers) * Spec.argCount kind c.hiddenArgs + Spec.argCount kind c.outputArgs := by
  have hlay : ∀ i, i ≤ c.hiddenLayers → Slot.lay i ∈ c.plan := fun i hi => MLPArgs.mem_plan.2 (Or.inr (Or.inr (Or.inr (Or.inr ⟨i, hi, rfl⟩))))
  -- hidden entries
  have hid : ∀ i < c.hiddenLayers, (c.resnet = true ∧ 0 < i ∧ h.parameters (c.layId g i) = []) ∨
      (¬ (c.resnet = true ∧ 0 < i) ∧ c.layId g i = c.coreId g i) := by
    intro i hi
    by_cases hr : c.resnet = true ∧ 0 < i
    · exact Or.inl ⟨hr.1, hr.2, Heap.parameters_none ho (hn.sums hr.1 i hr.2 hi) rfl rfl⟩
    · refine Or.inr ⟨hr, MLPArgs.layId_eq g ?_⟩
      rcases Nat.eq_zero_or_pos i with h0 | h0
      · exact Or.inr (Or.inl h0)
      · refine Or.inl ?_
        cases hr' : c.resnet with
        | false => rfl
        | true => exact absurd ⟨hr', h0⟩ hr
  have bounds : ∀ s ∈ c.plan, (s = .inp ∨ ∃ i, s = .lay i) → ∀ k ∈ h.parameters (c.slotId g s), c.slotLow g s ≤ k ∧ k ≤ c.slotId g s := by
    rintro s hs (rfl | ⟨i, rfl⟩) k hk
    · have := hn.inp.params_bounds hI ho hk
      simp only [slotId, slotLow] at this ⊢
      omega
    · have hi : i ≤ c.hiddenLayers := by
        rcases MLPArgs.mem_plan.1 hs with e | ⟨e, _⟩ | ⟨e, _⟩ | ⟨i', _, e, _⟩ | ⟨i', hi', e⟩
        · cases e
        · cases e
        · cases e
        · cases e
        · cases e; exact hi'
      rcases Nat.lt_or_ge i c.hiddenLayers with hlt | hge
      · rcases hid i hlt with ⟨-, -, e⟩ | ⟨-, e⟩
        · change k ∈ h.parameters (c.layId g i) at hk
          rw [e] at hk; cases hk
        · change k ∈ h.parameters (c.layId g i) at hk
          rw [e] at hk
          have := (hn.hid i hlt).params_bounds hH ho hk
          simp only [slotId, slotLow, e]
          simp only [coreId, size, if_pos hlt] at this ⊢
          omega
      · have : i = c.hiddenLayers := by omega
        subst this
        have := hn.out.params_bounds hO ho hk
        simp only [slotId, slotLow, layId, coreId, size, lt_irrefl, if_false] at this ⊢
        omega
  set S : Finset Slot := insert .inp ((Finset.range (c.hiddenLayers + 1)).image Slot.lay) with hS
  have hSplan : ∀ s ∈ S, s ∈ c.plan ∧ (s = .inp ∨ ∃ i, s = .lay i) := by
    intro s hs
    rw [hS, Finset.mem_insert, Finset.mem_image] at hs
    rcases hs with rfl | ⟨i, hi, rfl⟩
    · exact ⟨MLPArgs.mem_plan.2 (Or.inl rfl), Or.inl rfl⟩
    · exact ⟨hlay i (by rw [Finset.mem_range] at hi; omega), Or.inr ⟨i, rfl⟩⟩
  have hset : (h.parameters (c.netId g)).toFinset = S.biUnion fun s => (h.parameters (c.slotId g s)).toFinset := by
    ext k
    simp only [List.mem_toFinset, Finset.mem_biUnion]
    rw [Heap.mem_parameters_child ho hn.net rfl]
    constructor
    · rintro ⟨c', hc', hk⟩
      have hslot : ∀ s ∈ c.plan, k ∈ h.parameters (c.slotId g s) → ∃ s ∈ S, k ∈ h.parameters (c.slotId g s) := by
        intro s hs hk
        by_cases hl : s.isLayer = false
        · exact absurd hk (parameters_other ho (hn.fns s hs hl) k)
        · refine ⟨s, ?_, hk⟩
          rcases MLPArgs.mem_plan.1 hs with rfl | ⟨rfl, _⟩ | ⟨rfl, _⟩ | ⟨i', _, rfl, _⟩ | ⟨i', hi', rfl⟩
          · exact Finset.mem_insert_self _ _
          · exact absurd rfl hl
          · exact absurd rfl hl
          · exact absurd rfl hl
          · exact Finset.mem_insert_of_mem (Finset.mem_image_of_mem _ (Finset.mem_range.2 (by omega)))
      simp only [Mod.children, List.mem_cons, List.not_mem_nil, or_false] at hc'
      rcases hc' with rfl | rfl | rfl | rfl
      · exact absurd hk (parameters_other ho hn.drop k)
      · exact hslot .inp (MLPArgs.mem_plan.2 (Or.inl rfl)) hk
      · exact hslot (.lay c.hiddenLayers) (hlay _ le_rfl) hk
      · rw [parameters_seq ho hn.seq] at hk
        obtain ⟨j, hj, hk⟩ := hk
        rw [List.mem_map] at hj
        obtain ⟨s, hs, rfl⟩ := hj
        exact hslot s hs hk
    · rintro ⟨s, hs, hk⟩
      refine ⟨c.netId g - 1, by simp [Mod.children], ?_⟩
      rw [parameters_seq ho hn.seq]
      exact ⟨_, List.mem_map_of_mem (hSplan s hs).1, hk⟩
  have hlt : ∀ s ∈ S, c.slotId g s < h.length := by
    intro s hs
    have h1 := ho _ _ hn.seq (c.slotId g s) (by simpa [Mod.refs, Mod.hidden, Mod.children] using List.mem_map_of_mem (f := c.slotId g) (hSplan s hs).1)
    have h2 := hn.length_lt
    omega
  have hsum : h.countParameters (c.netId g) = ∑ s ∈ S, h.countParameters (c.slotId g s) := by
    rw [Heap.countParameters_eq ho hn.length_lt, hset, Finset.sum_biUnion]
    · exact Finset.sum_congr rfl fun s hs => (Heap.countParameters_eq ho (hlt s hs)).symm
    · intro s hs t ht hst
      rw [Function.onFun, Finset.disjoint_left]
      intro k h1 h2
      rw [List.mem_toFinset] at h1 h2
      obtain ⟨p1, p2⟩ := hSplan s hs
      obtain ⟨q1, q2⟩ := hSplan t ht
      obtain ⟨b1, b2⟩ := bounds s p1 p2 k h1
      obtain ⟨b3, b4⟩ := bounds t q1 q2 k h2
      exact slot_disjoint hsh p1 q1 p2 q2 hst b1 b2 b3 b4 rfl
  rw [hsum, hS, Finset.sum_insert (by simp), Finset.sum_image (by intro a _ b _ e; cases e; rfl), Finset.sum_range_succ]
  have e1 : h.countParameters (c.slotId g .inp) = Spec.argCount kindIn c.inputArgs := hn.inp.count hI ho
  have e2 : h.countParameters (c.slotId g (.lay c.hiddenLayers)) = Spec.argCount kind c.outputArgs := hn.out.count hO ho
  have e3 : ∑ i ∈ Finset.range c.hiddenLayers, h.countParameters (c.slotId g (.lay i)) =
      (if c.resnet then min 1 c.hiddenLayers else c.hiddenLayers) * Spec.argCount kind c.hiddenArgs := by
    have key : ∀ i ∈ Finset.range c.hiddenLayers, h.countParameters (c.slotId g (.lay i)) =
        if c.resnet = true ∧ 0 < i then 0 else Spec.argCount kind c.hiddenArgs := by
      intro i hi
      rw [Finset.mem_range] at hi
      show h.countParameters (c.layId g i) = _
      rcases hid i hi with ⟨h1, h2, e⟩ | ⟨h1, e⟩
      · rw [if_pos ⟨h1, h2⟩, Heap.countParameters, e]; rfl
      · rw [if_neg h1, e]; exact (hn.hid i hi).count hH ho
    rw [Finset.sum_congr rfl key]
    cases hr : c.resnet with
    | false => simp
    | true =>
      cases hH' : c.hiddenLayers with
      | zero => simp
      | succ n => rw [Finset.sum_range_succ']; simp
  rw [e1, e2, e3]
  ring

end HOL
