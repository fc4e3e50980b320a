import Verif.Props.Trainable
import Verif.Props.Smoothing

/-! # C31, C71: initialization and smoothing of networks -/

namespace HOL
open TorchScalar Relation Spec

/-- `h'` is `h` with the modules in `S` replaced by `u`. -/
def Updated {K : Type} (u : ℕ → Mod K → Mod K) (h : Heap K) (S : ℕ → Prop) (h' : Heap K) : Prop :=
  ∀ j, (S j → h'[j]? = (h[j]?).map (u j)) ∧ (¬ S j → h'[j]? = h[j]?)

theorem Updated.congr {K : Type} {u : ℕ → Mod K → Mod K} {h h' : Heap K} {S T : ℕ → Prop} (hu : Updated u h S h')
    (hST : ∀ j, S j ↔ T j) : Updated u h T h' := by
  intro j
  rw [← hST j]
  exact hu j

/-- The layer an initialization makes of `L`. -/
noncomputable def initMod (ms mo : ℝ) (scale : ℕ → ℝ) (r1 r2 : Rng ℝ) (j : ℕ) : Mod ℝ → Mod ℝ
  | .pw L => .pw (initializePolynomialLayer L (ms * scale L.inFeatures) mo (r1 j) (r2 j)).2
  | m => m

/-- The result does not depend on the previous weights. -/
theorem initialize_indep {L L1 : PwLayer ℝ} (h : L.WF) (hl : L.length = 2) (hn : 2 ≤ L.n) (hf : Frame L L1) (ms mo : ℝ)
    (r1 r2 : ℕ → ℕ → ℝ) (hc : L.cls ≠ .continuousProd) :
    ∃ L', initializePolynomialLayer L ms mo r1 r2 = (.ok (), L') ∧ initializePolynomialLayer L1 ms mo r1 r2 = (.ok (), L') ∧ Frame L L' := by
  have hgen := fun o i => lift_nodes (n := L.n) h.n_pos L.cls.shared (fun s k =>
    ms * (r1 o i * 2 - 1) * nodePos L.n L.segments s k + mo * (r2 o i * 2 - 1)) (by
      intro _ s
      rw [nodePos_shared hn])
  choose V hV using hgen
  have eC : L1.cls = L.cls := by rw [hf.eq]
  have eN : L1.n = L.n := by rw [hf.eq]
  have eS : L1.segments = L.segments := by rw [hf.eq]
  have eO : L1.outFeatures = L.outFeatures := by rw [hf.eq]
  have eI : L1.inFeatures = L.inFeatures := by rw [hf.eq]
  have eL : L1.length = 2 := by rw [hf.eq]; exact hl
  have eSt : L1.stride = L.stride := by unfold PwLayer.stride; rw [eC, eN]
  obtain ⟨A, a1, a2, a3⟩ := initializeLayer_weights h hc hl ms mo r1 r2 V (fun o i s k hk => hV o i s k hk)
  obtain ⟨B, b1, b2, b3⟩ := initializeLayer_weights (hf.wf' h) (by rw [eC]; exact hc) eL ms mo r1 r2 V (fun o i s k hk => by
    rw [eN] at hk; rw [eSt, eN, eS]; exact hV o i s k hk)
  have hAB : A.w = B.w := by
    apply Tensor.ext_get a2.wf b2.wf (by rw [a2.shape, b2.shape, hf.shape])
    intro idx hidx
    rw [a2.shape, h.w_shape] at hidx
    obtain ⟨o, i, r, rfl, ho, hi, hr⟩ := inShape3_exists hidx
    rw [a3 o ho i hi r hr, b3 o (by rw [eO]; exact ho) i (by rw [eI]; exact hi) r (by rw [eC, eN, eS]; exact hr)]
  refine ⟨A, a1, ?_, a2⟩
  rw [b1, b2.eq, hf.eq, a2.eq, hAB]

/-- What holds in practice: the piecewise layers that are registered in the network or in the list of a registered switch layer have
weights of the right shape, the default length and at least two nodes; the sublayers of a switch layer are piecewise layers with its
number of input features. `regular_network` below: so it is in the networks that `HighOrderMLP` builds. -/
structure Regular (h : Heap ℝ) (net : ℕ) : Prop where
  ordered : h.Ordered
  pw : ∀ (j : ℕ) (L : PwLayer ℝ), ReflTransGen h.Child net j → h[j]? = some (Mod.pw L) → L.WF ∧ L.length = 2 ∧ 2 ≤ L.n
  switch : ∀ (i I : ℕ) (ls : List ℕ) (nm : Option ℕ), ReflTransGen h.Child net i → h[i]? = some (Mod.switch I ls nm) →
    ∀ l ∈ ls, ∃ L : PwLayer ℝ, h[l]? = some (Mod.pw L) ∧ L.inFeatures = I ∧ L.WF ∧ L.length = 2 ∧ 2 ≤ L.n

/-- The layers `initialize_network_polynomial_layers` is to initialize: piecewise layers, other than continuous product
layers, that are registered in the network or belong to a registered switch layer. -/
def InitTarget (h : Heap ℝ) (net j : ℕ) : Prop :=
  ∃ L : PwLayer ℝ, h[j]? = some (.pw L) ∧ L.cls ≠ .continuousProd ∧
    (ReflTransGen h.Child net j ∨ ∃ i I ls nm, ReflTransGen h.Child net i ∧ h[i]? = some (.switch I ls nm) ∧ j ∈ ls)

section
variable (ms mo : ℝ) (scale : ℕ → ℝ) (r1 r2 : Rng ℝ)

theorem initUpdate_step {h : Heap ℝ} {S : ℕ → Prop} {h' : Heap ℝ} (hu : Updated (initMod ms mo scale r1 r2) h S h')
    {j : ℕ} {L0 : PwLayer ℝ} (hj : h[j]? = some (.pw L0)) (hW : L0.WF ∧ L0.length = 2 ∧ 2 ≤ L0.n) {I : ℕ} (hI : L0.inFeatures = I) :
    ∃ h'', pwUpdate (fun i L => initializePolynomialLayer L (ms * scale I) mo (r1 i) (r2 i)) j h' = (.ok (), h'') ∧
      Updated (initMod ms mo scale r1 r2) h (fun k => S k ∨ k = j) h'' := by
  subst hI
  obtain ⟨wf, hl, hn⟩ := hW
  -- the layer now
  obtain ⟨L1, e1, e2, e3⟩ : ∃ L1, h'[j]? = some (.pw L1) ∧ L1.inFeatures = L0.inFeatures ∧
      ∃ L', initializePolynomialLayer L0 (ms * scale L0.inFeatures) mo (r1 j) (r2 j) = (.ok (), L') ∧
        initializePolynomialLayer L1 (ms * scale L0.inFeatures) mo (r1 j) (r2 j) = (.ok (), L') := by
    by_cases hc : L0.cls = .continuousProd
    · have hid : ∀ a b c d, initializePolynomialLayer L0 a b c d = (.ok (), L0) := fun a b c d => C30_product_layer_unchanged L0 hc a b c d
      refine ⟨L0, ?_, rfl, L0, hid _ _ _ _, hid _ _ _ _⟩
      by_cases hS : S j
      · rw [(hu j).1 hS, hj]
        simp only [Option.map_some, initMod, hid]
      · rw [(hu j).2 hS, hj]
    · by_cases hS : S j
      · obtain ⟨A, a1, -, a3⟩ := initialize_indep wf hl hn (Frame.refl wf.w_wf) (ms * scale L0.inFeatures) mo (r1 j) (r2 j) hc
        obtain ⟨B, b1, b2, b3⟩ := initialize_indep wf hl hn a3 (ms * scale L0.inFeatures) mo (r1 j) (r2 j) hc
        refine ⟨A, ?_, by rw [a3.eq], B, b1, b2⟩
        rw [(hu j).1 hS, hj]
        simp only [Option.map_some, initMod, a1]
      · obtain ⟨A, a1, -, a3⟩ := initialize_indep wf hl hn (Frame.refl wf.w_wf) (ms * scale L0.inFeatures) mo (r1 j) (r2 j) hc
        exact ⟨L0, by rw [(hu j).2 hS, hj], rfl, A, a1, a1⟩
  obtain ⟨L', f1, f2⟩ := e3
  have hlt : j < h'.length := (List.getElem?_eq_some_iff.1 e1).1
  refine ⟨h'.set j (.pw L'), ?_, ?_⟩
  · simp only [pwUpdate, e1, f2]
  · intro k
    by_cases hk : k = j
    · subst hk
      refine ⟨fun _ => ?_, fun hn => absurd (Or.inr rfl) hn⟩
      rw [List.getElem?_set_self hlt, hj]
      simp only [Option.map_some, initMod, f1]
    · rw [List.getElem?_set_ne (Ne.symm hk)]
      refine ⟨fun hS => (hu k).1 (hS.resolve_right hk), fun hS => (hu k).2 fun h => hS (Or.inl h)⟩

theorem initUpdate_list {h : Heap ℝ} {I : ℕ} : ∀ (ls : List ℕ) {S : ℕ → Prop} {h' : Heap ℝ},
    Updated (initMod ms mo scale r1 r2) h S h' → (∀ l ∈ ls, ∃ L : PwLayer ℝ, h[l]? = some (.pw L) ∧ L.inFeatures = I ∧ L.WF ∧ L.length = 2 ∧ 2 ≤ L.n) →
    ∃ h'', forEach (pwUpdate fun i L => initializePolynomialLayer L (ms * scale I) mo (r1 i) (r2 i)) ls h' = (.ok (), h'') ∧
      Updated (initMod ms mo scale r1 r2) h (fun k => S k ∨ k ∈ ls) h''
  | [], S, h', hu, _ => ⟨h', rfl, hu.congr fun j => by simp⟩
  | l :: ls, S, h', hu, hls => by
    obtain ⟨L, hL, hI, hW⟩ := hls l (by simp)
    obtain ⟨h1, e1, e2⟩ := initUpdate_step ms mo scale r1 r2 hu hL hW hI
    obtain ⟨h2, f1, f2⟩ := initUpdate_list ls e2 fun k hk => hls k (by simp [hk])
    refine ⟨h2, by simp only [forEach, e1, f1], f2.congr fun j => by simp [or_assoc]⟩

/-- The layers that the loop body touches at module `i`. -/
def Touch (h : Heap ℝ) (i k : ℕ) : Prop :=
  (∃ L, h[i]? = some (.pw L) ∧ k = i) ∨ ∃ I ls nm, h[i]? = some (.switch I ls nm) ∧ k ∈ ls

theorem initializeBody_step {h : Heap ℝ} {net : ℕ} (hr : Regular h net) {S : ℕ → Prop} {h' : Heap ℝ} (hu : Updated (initMod ms mo scale r1 r2) h S h') (i : ℕ)
    (hi : ReflTransGen h.Child net i) : ∃ h'', initializeBody ms mo scale r1 r2 i h' = (.ok (), h'') ∧
      Updated (initMod ms mo scale r1 r2) h (fun k => S k ∨ Touch h i k) h'' := by
  have same : ∀ m, h[i]? = some m → (∀ L, m ≠ .pw L) → h'[i]? = some m := by
    intro m hm hne
    by_cases hS : S i
    · rw [(hu i).1 hS, hm]
      cases m <;> first | rfl | exact absurd rfl (hne _)
    · rw [(hu i).2 hS, hm]
  cases hm : h[i]? with
  | none =>
    have : h'[i]? = none := by
      by_cases hS : S i
      · rw [(hu i).1 hS, hm]; rfl
      · rw [(hu i).2 hS, hm]
    refine ⟨h', by simp only [initializeBody, this], hu.congr fun j => ?_⟩
    constructor
    · exact Or.inl
    · rintro (h | ⟨L, h, _⟩ | ⟨I, ls, nm, h, _⟩)
      · assumption
      · rw [hm] at h; cases h
      · rw [hm] at h; cases h
  | some m =>
    by_cases hpw : ∃ L, m = .pw L
    · obtain ⟨L0, rfl⟩ := hpw
      obtain ⟨L1, e1, e2, e3⟩ : ∃ L1, h'[i]? = some (.pw L1) ∧ L1.inFeatures = L0.inFeatures ∧ L1.cls = L0.cls := by
        by_cases hS : S i
        · obtain ⟨wf, hl, hn⟩ := hr.pw i L0 hi hm
          rw [(hu i).1 hS, hm]
          by_cases hc : L0.cls = .continuousProd
          · refine ⟨L0, ?_, rfl, rfl⟩
            simp only [Option.map_some, initMod, C30_product_layer_unchanged L0 hc]
          · obtain ⟨A, a1, -, a3⟩ := initialize_indep wf hl hn (Frame.refl wf.w_wf) (ms * scale L0.inFeatures) mo (r1 i) (r2 i) hc
            refine ⟨A, ?_, by rw [a3.eq], by rw [a3.eq]⟩
            simp only [Option.map_some, initMod, a1]
        · exact ⟨L0, by rw [(hu i).2 hS, hm], rfl, rfl⟩
      obtain ⟨h1, f1, f2⟩ := initUpdate_step ms mo scale r1 r2 hu hm (hr.pw i L0 hi hm) rfl
      have htouch : ∀ k, Touch h i k ↔ k = i := by
        intro k
        constructor
        · rintro (⟨L, _, h⟩ | ⟨I, ls, nm, h, _⟩)
          · exact h
          · rw [hm] at h; cases h
        · rintro rfl; exact Or.inl ⟨L0, hm, rfl⟩
      by_cases hc : L0.cls = .continuousProd
      · -- nothing happens, and nothing would
        refine ⟨h', ?_, ?_⟩
        · simp only [initializeBody, e1, e3, hc]
          rw [if_neg (by simp [PwClass.isDiscontinuous])]
        · intro k
          have hk0 := hu k
          by_cases hk : k = i
          · subst hk
            have hid : (h[k]?).map (initMod ms mo scale r1 r2 k) = h[k]? := by
              rw [hm]
              simp only [Option.map_some, initMod, C30_product_layer_unchanged L0 hc]
            refine ⟨fun _ => ?_, fun hn => absurd (Or.inr ((htouch k).2 rfl)) hn⟩
            by_cases hS : S k
            · exact hk0.1 hS
            · rw [hk0.2 hS, hid]
          · exact ⟨fun h => hk0.1 (h.resolve_right fun ht => hk ((htouch k).1 ht)), fun h => hk0.2 fun hs => h (Or.inl hs)⟩
      · refine ⟨h1, ?_, f2.congr fun j => by rw [htouch]⟩
        simp only [initializeBody, e1]
        rw [if_pos (by rw [e3]; cases hcl : L0.cls <;> simp [PwClass.isDiscontinuous] at hc ⊢; exact hc hcl)]
        rw [← f1]
        simp only [pwUpdate, e1, e2]
    · have hm' := same m hm fun L hL => hpw ⟨L, hL⟩
      by_cases hsw : ∃ I ls nm, m = .switch I ls nm
      · obtain ⟨I, ls, nm, rfl⟩ := hsw
        obtain ⟨h1, f1, f2⟩ := initUpdate_list ms mo scale r1 r2 (I := I) ls hu (hr.switch i I ls nm hi hm)
        refine ⟨h1, by simp only [initializeBody, hm', f1], f2.congr fun j => ?_⟩
        have : Touch h i j ↔ j ∈ ls := by
          constructor
          · rintro (⟨L, h, _⟩ | ⟨I', ls', nm', h, hj⟩)
            · rw [hm] at h; cases h
            · rw [hm] at h; cases h; exact hj
          · intro hj; exact Or.inr ⟨I, ls, nm, hm, hj⟩
        rw [this]
      · refine ⟨h', ?_, hu.congr fun j => ?_⟩
        · cases m <;> first | exact absurd ⟨_, rfl⟩ hpw | exact absurd ⟨_, _, _, rfl⟩ hsw | (simp only [initializeBody, hm'])
        · constructor
          · exact Or.inl
          · rintro (h | ⟨L, h, _⟩ | ⟨I, ls, nm, h, _⟩)
            · assumption
            · rw [hm] at h; cases h; exact absurd ⟨_, rfl⟩ hpw
            · rw [hm] at h; cases h; exact absurd ⟨_, _, _, rfl⟩ hsw

theorem initializeLoop {h : Heap ℝ} {net : ℕ} (hr : Regular h net) : ∀ (l : List ℕ) {S : ℕ → Prop} {h' : Heap ℝ},
    (∀ i ∈ l, ReflTransGen h.Child net i) →
    Updated (initMod ms mo scale r1 r2) h S h' →
    ∃ h'', forEach (initializeBody ms mo scale r1 r2) l h' = (.ok (), h'') ∧
      Updated (initMod ms mo scale r1 r2) h (fun k => S k ∨ ∃ i ∈ l, Touch h i k) h''
  | [], S, h', _, hu => ⟨h', rfl, hu.congr fun j => by simp⟩
  | i :: l, S, h', hl, hu => by
    obtain ⟨h1, e1, e2⟩ := initializeBody_step ms mo scale r1 r2 hr hu i (hl i (by simp))
    obtain ⟨h2, f1, f2⟩ := initializeLoop hr l (fun k hk => hl k (by simp [hk])) e2
    refine ⟨h2, by simp only [forEach, e1, f1], f2.congr fun j => by simp [or_assoc]⟩

end

/-- **C31.** `initialize_network_polynomial_layers(network, max_slope, max_offset, scale_slope)` succeeds and replaces every piecewise layer
that is registered in the network or in the list of a registered switch layer, except continuous product layers, by its linear initialization (C30) with slope at
most `max_slope * scale_slope(in_features)`; it changes nothing else in the program. -/
theorem C31_network_initialization {h : Heap ℝ} {net : ℕ} (hr : Regular h net) (hnet : net < h.length) (ms mo : ℝ) (scale : ℕ → ℝ) (r1 r2 : Rng ℝ) :
    ∃ h', initializeNetwork net ms mo scale r1 r2 h = (.ok (), h') ∧ h'.length = h.length ∧
      ∀ j, (InitTarget h net j → ∃ L L' : PwLayer ℝ, h[j]? = some (.pw L) ∧
          initializePolynomialLayer L (ms * scale L.inFeatures) mo (r1 j) (r2 j) = (.ok (), L') ∧ h'[j]? = some (.pw L')) ∧
        (¬ InitTarget h net j → h'[j]? = h[j]?) := by
  have hmem : ∀ i, i ∈ h.layers net ↔ ReflTransGen h.Child net i ∧ ((h[i]?).map Mod.isSeq).getD false = false := by
    intro i
    unfold Heap.layers
    rw [List.mem_filter, Heap.mem_modules hr.ordered hnet]
    simp
  obtain ⟨h', e1, e2⟩ := initializeLoop ms mo scale r1 r2 hr (h.layers net) (S := fun _ => False) (h' := h)
    (fun i hi => ((hmem i).1 hi).1) (fun j => ⟨False.elim, fun _ => rfl⟩)
  have htarget : ∀ j, InitTarget h net j → ∃ i ∈ h.layers net, Touch h i j := by
    rintro j ⟨L, hL, hc, h1 | ⟨i, I, ls, nm, h1, h2, h3⟩⟩
    · exact ⟨j, (hmem j).2 ⟨h1, by rw [hL]; rfl⟩, Or.inl ⟨L, hL, rfl⟩⟩
    · exact ⟨i, (hmem i).2 ⟨h1, by rw [h2]; rfl⟩, Or.inr ⟨I, ls, nm, h2, h3⟩⟩
  have hfix : ∀ j, ¬ InitTarget h net j → (∃ i ∈ h.layers net, Touch h i j) →
      (h[j]?).map (initMod ms mo scale r1 r2 j) = h[j]? := by
    rintro j hj ⟨i, hi, ht⟩
    have hreach := ((hmem i).1 hi).1
    obtain ⟨L, hL⟩ : ∃ L : PwLayer ℝ, h[j]? = some (.pw L) := by
      rcases ht with ⟨L, h1, rfl⟩ | ⟨I, ls, nm, h1, h2⟩
      · exact ⟨L, h1⟩
      · obtain ⟨L, hL, -⟩ := hr.switch i I ls nm hreach h1 j h2
        exact ⟨L, hL⟩
    have hc : L.cls = .continuousProd := by
      by_contra hc
      apply hj
      refine ⟨L, hL, hc, ?_⟩
      rcases ht with ⟨_, _, rfl⟩ | ⟨I, ls, nm, h1, h2⟩
      · exact Or.inl hreach
      · exact Or.inr ⟨i, I, ls, nm, hreach, h1, h2⟩
    rw [hL]
    simp only [Option.map_some, initMod, C30_product_layer_unchanged L hc]
  have hsome : ∀ j : ℕ, (h'[j]?).isSome = (h[j]?).isSome := by
    intro j
    by_cases hS : False ∨ ∃ i ∈ h.layers net, Touch h i j
    · rw [(e2 j).1 hS]; cases h[j]? <;> rfl
    · rw [(e2 j).2 hS]
  have hlen : h'.length = h.length := by
    have key : ∀ (a b : Heap ℝ), (∀ j : ℕ, (a[j]?).isSome = (b[j]?).isSome) → a.length ≤ b.length := by
      intro a b hab
      by_contra hlt
      push Not at hlt
      have := hab b.length
      rw [List.getElem?_eq_getElem hlt, List.getElem?_eq_none (le_refl _)] at this
      cases this
    exact le_antisymm (key _ _ hsome) (key _ _ fun j => (hsome j).symm)
  refine ⟨h', e1, hlen, fun j => ⟨fun hT => ?_, fun hT => ?_⟩⟩
  · have hu := (e2 j).1 (Or.inr (htarget j hT))
    obtain ⟨L, hL, hc, hsc⟩ := hT
    obtain ⟨wf, hl, hn⟩ : L.WF ∧ L.length = 2 ∧ 2 ≤ L.n := by
      rcases hsc with hs | ⟨i, I, ls, nm, h1, h2, h3⟩
      · exact hr.pw j L hs hL
      · obtain ⟨L', g1, -, g2⟩ := hr.switch i I ls nm h1 h2 j h3
        rw [hL] at g1
        cases g1
        exact g2
    obtain ⟨A, a1, -, -⟩ := initialize_indep wf hl hn (Frame.refl wf.w_wf) (ms * scale L.inFeatures) mo (r1 j) (r2 j) hc
    refine ⟨L, A, hL, a1, ?_⟩
    rw [hu, hL]
    simp only [Option.map_some, initMod, a1]
  · by_cases ht : ∃ i ∈ h.layers net, Touch h i j
    · rw [(e2 j).1 (Or.inr ht), hfix j hT ht]
    · exact (e2 j).2 (by simpa using ht)

/-! ## networks built by `HighOrderMLP` -/

/-- A registered layer of type `pw`. -/
theorem IsLayer.pwLayer {K : Type} [TorchScalar K] {cls : PwClass} {a : FcArgs K} (hu : Usable (.leaf (.pw cls)) a) {h : Heap K} {j : ℕ}
    (hl : IsLayer (.leaf (.pw cls)) a h j) : ∃ L : PwLayer K, h[j]? = some (.pw L) ∧ L.WF ∧ L.cls = cls ∧ L.length = ((2 : ℕ) : K) ∧
      a.n = .int L.n ∧ L.inFeatures = a.inFeatures ∧ L.outFeatures = a.outFeatures ∧ L.periodicity = a.periodicity := by
  obtain ⟨rng, base, ms, e1, e2, e3⟩ := hl
  obtain ⟨n, s, hn, hs, h1, h2, h3, h4⟩ := hu
  simp only [fcMods, leafMods, hn, hs] at e1
  cases e1
  have hj : j = base + 0 := by simpa using e2
  obtain ⟨m', f1, f2⟩ := e3 0 _ rfl
  have hwf := PwLayer.init_wf cls h1 h3 h4 h2 ((2 : ℕ) : K) (rng base) 1 a.periodicity
  rw [hj, f1]
  cases f2 with
  | refl => exact ⟨_, rfl, hwf, rfl, rfl, hn, rfl, rfl, rfl⟩
  | pw L w hs' hw => exact ⟨_, rfl, hwf.withW hs' hw, rfl, rfl, hn, rfl, rfl, rfl⟩

/-- What `Regular` asks of a module. -/
def RegularMod (h : Heap ℝ) (m : Mod ℝ) : Prop :=
  (∀ L : PwLayer ℝ, m = .pw L → L.WF ∧ L.length = 2 ∧ 2 ≤ L.n) ∧
  ∀ I ls nm, m = .switch I ls nm → ∀ l ∈ ls, ∃ L : PwLayer ℝ, h[l]? = some (Mod.pw L) ∧ L.inFeatures = I ∧ L.WF ∧ L.length = 2 ∧ 2 ≤ L.n

theorem IsLayer.regular {kind : FcKind} {a : FcArgs ℝ} (hu : Usable kind a) (h2 : ∀ n, a.n = .int n → 2 ≤ n) {h : Heap ℝ} {j : ℕ}
    (hl : IsLayer kind a h j) : Hered Mod.children (fun _ m => RegularMod h m) h j := by
  have hpw : ∀ {cls : PwClass} {n s : ℕ} {r : ℕ → ℕ → ℝ} {p : Option ℝ} {m' : Mod ℝ}, a.n = .int n → 0 < n → 0 < s → 0 < a.inFeatures → 0 < a.outFeatures →
      (Mod.pw (PwLayer.init cls n a.inFeatures a.outFeatures s ((2 : ℕ) : ℝ) r 1 p)).Trained m' →
      ∃ L, m' = .pw L ∧ L.inFeatures = a.inFeatures ∧ L.WF ∧ L.length = 2 ∧ 2 ≤ L.n := by
    intro cls n s r p m' hn h0 hs hI hO ht
    have hwf := PwLayer.init_wf cls h0 hI hO hs ((2 : ℕ) : ℝ) r 1 p
    have e2 : ((2 : ℕ) : ℝ) = 2 := by norm_num
    cases ht with
    | refl => exact ⟨_, rfl, rfl, hwf, e2, h2 n hn⟩
    | pw L w hs' hw => exact ⟨_, rfl, rfl, hwf.withW hs' hw, e2, h2 n hn⟩
  obtain ⟨rng, base, ms, e1, e2, e3⟩ := hl
  -- modules of another kind without submodules
  have other : ∀ (m : Mod ℝ), ms = [m] → m.children = [] → (∀ L, m ≠ .pw L) → (∀ I ls nm, m ≠ .switch I ls nm) →
      Hered Mod.children (fun _ m => RegularMod h m) h j := by
    rintro m rfl hc n1 n2
    have hj : j = base + 0 := by simpa using e2
    obtain ⟨m', f1, f2⟩ := e3 0 m rfl
    rw [hj]
    refine .mk f1 ⟨?_, ?_⟩ ?_
    · rintro L rfl
      cases f2 <;> exact absurd rfl (n1 _)
    · rintro I ls nm rfl
      cases f2; exact absurd rfl (n2 _ _ _)
    · intro i hi
      rw [f2.hidden.2.1, hc] at hi
      cases hi
  match kind, hu with
  | .leaf .linear, _ => cases e1; exact other _ rfl rfl (by simp) (by simp)
  | .leaf .product, _ => cases e1; exact other _ rfl rfl (by simp) (by simp)
  | .leaf .linearRelu, _ =>
    cases e1
    have hj : j = base + 1 := by simp at e2; omega
    obtain ⟨m0, f1, f2⟩ := e3 0 _ rfl
    obtain ⟨m1, f3, f4⟩ := e3 1 _ rfl
    cases f4
    refine .mk (by rw [hj]; exact f3) ⟨by simp, by simp⟩ ?_
    intro i hi
    have : i = base + 0 := by simpa [Mod.children] using hi
    subst this
    refine .mk f1 ⟨?_, ?_⟩ ?_
    · rintro L rfl; cases f2
    · rintro I ls nm rfl; cases f2
    · intro i hi
      rw [f2.hidden.2.1] at hi
      cases hi
  | .leaf (.pw cls), ⟨n, s, hn, hs, p1, p2, p3, p4⟩ =>
    simp only [fcMods, leafMods, hn, hs] at e1
    cases e1
    have hj : j = base + 0 := by simpa using e2
    obtain ⟨m', f1, f2⟩ := e3 0 _ rfl
    obtain ⟨L, rfl, q1, q2⟩ := hpw hn p1 p2 p3 p4 f2
    rw [hj]
    refine .mk f1 ⟨?_, by simp⟩ (fun i hi => by cases hi)
    rintro L' hL'
    cases hL'
    exact q2
  | .switch cls, ⟨⟨n, s, hn, hs, p1, p2, p3, p4⟩, hnum⟩ =>
    have hb := pwF_builds rng true cls a hn hs hnum
    have e1' : fcMods rng (.switch cls) a base = .ok (pwF rng true cls a n s base) := hb.ok base
    rw [e1'] at e1
    cases e1
    have hj : j = base + 2 := by simp [pwF] at e2; omega
    obtain ⟨m0, f1, f2⟩ := e3 0 _ rfl
    obtain ⟨m1, f3, f4⟩ := e3 1 _ rfl
    obtain ⟨m2, f5, f6⟩ := e3 2 _ rfl
    cases f6
    obtain ⟨L0, rfl, a1, a2⟩ := hpw hn p1 p2 p3 p4 f2
    obtain ⟨L1, rfl, b1, b2⟩ := hpw hn p1 p2 p3 p4 f4
    refine .mk (by rw [hj]; exact f5) ⟨by simp, ?_⟩ (fun i hi => by cases hi)
    rintro I ls nm hm l hl
    cases hm
    have : l = base + 0 ∨ l = base + 1 := by simpa using hl
    rcases this with rfl | rfl
    · exact ⟨L0, f1, a1, a2⟩
    · exact ⟨L1, f3, b1, b2⟩
  | .leaf .polynomial, ⟨n, hn, hpos⟩ =>
    simp only [fcMods, leafMods, hn, polynomialInit, FnLayer.init] at e1
    rw [lagrangePolyFlat_numBasis hpos] at e1
    cases e1; exact other _ rfl rfl (by simp) (by simp)
  | .leaf .fourier, ⟨n, hn, hpos⟩ =>
    simp only [fcMods, leafMods, hn, fourierSeriesInit, FnLayer.init] at e1
    cases e1; exact other _ rfl rfl (by simp) (by simp)

/-- The networks of `HighOrderMLP` with at least two nodes per segment, trained or not, are as C31 asks. -/
theorem regular_network (rng : Rng ℝ) {c : MLPArgs ℝ} {kind kindIn : FcKind} (hk : fcTable.lookup c.layerType = some kind)
    (hki : fcTable.lookup (orStr c.layerTypeIn c.layerType) = some kindIn) (hI : Usable kindIn c.inputArgs)
    (hH : Usable kind c.hiddenArgs) (hO : Usable kind c.outputArgs) (h2I : ∀ n, c.inputArgs.n = .int n → 2 ≤ n)
    (h2H : ∀ n, c.hiddenArgs.n = .int n → 2 ≤ n) (h2O : ∀ n, c.outputArgs.n = .int n → 2 ≤ n) {h0 : Heap ℝ} (hord : h0.Ordered) {nl : Fwd ℝ}
    (hnl : ∀ j ∈ c.nonLinearity, h0[j]? = some (.other nl)) {net : ℕ} {h1 h : Heap ℝ} (hb : mlpInit rng c h0 = .ok (net, h1))
    (hl : h1.Later h) (ho : h.Ordered) : Regular h net ∧ net < h.length := by
  obtain ⟨g, D, -, -, -, -, e1, -, -, hn⟩ := mlpInit_net rng hk hki hI hH hO hord hnl
  rw [hb] at e1
  cases e1
  have hn := hn.later hl
  have key : Hered Mod.children (fun _ m => RegularMod h m) h (c.netId g) := by
    apply hn.hered (fun m hm => rfl) (fun _ _ _ _ => ⟨by simp, by simp⟩) (fun _ => ⟨by simp, by simp⟩) (fun _ => ⟨by simp, by simp⟩)
    intro s hs
    rcases MLPArgs.mem_plan.1 hs with rfl | ⟨rfl, h1⟩ | ⟨rfl, h1⟩ | ⟨i, hi, rfl, h1⟩ | ⟨i, hi, rfl⟩
    · exact hn.inp.regular hI h2I
    · exact hn.hered_fn (fun m hm => rfl) hs rfl fun _ => ⟨by simp, by simp⟩
    · exact hn.hered_fn (fun m hm => rfl) hs rfl fun _ => ⟨by simp, by simp⟩
    · exact hn.hered_fn (fun m hm => rfl) hs rfl fun _ => ⟨by simp, by simp⟩
    · by_cases hlt : i < c.hiddenLayers
      · by_cases hs' : c.resnet = true ∧ 0 < i
        · exact .mk (hn.sums hs'.1 i hs'.2 hlt) ⟨by simp, by simp⟩ fun j hj => by cases hj
        · have e : c.slotId g (.lay i) = c.coreId g i := MLPArgs.layId_eq g (by
            rcases Nat.eq_zero_or_pos i with h | h
            · exact Or.inr (Or.inl h)
            · refine Or.inl ?_
              cases hr : c.resnet with
              | false => rfl
              | true => exact absurd ⟨hr, h⟩ hs')
          rw [e]
          exact (hn.hid i hlt).regular hH h2H
      · have : i = c.hiddenLayers := by omega
        subst this
        exact hn.out.regular hO h2O
  refine ⟨⟨ho, ?_, ?_⟩, hn.length_lt⟩
  · intro j L hj hL
    obtain ⟨m, hm, hP⟩ := key.child hj
    rw [hL] at hm
    cases hm
    exact hP.1 L rfl
  · intro i I ls nm hi hL l hl
    obtain ⟨m, hm, hP⟩ := key.child hi
    rw [hL] at hm
    cases hm
    exact hP.2 I ls nm rfl l hl

/-- `f` takes every row `r` of `w` numbers to the row of the `w'` numbers `∑ i, A o i * r i + b o`. -/
def AffineMap (f : Fwd ℝ) (w w' : ℕ) : Prop :=
  ∃ (A : ℕ → ℕ → ℝ) (b : ℕ → ℝ), Computes f w w' fun o r => ∑ i ∈ Finset.range w, A o i * r i + b o

theorem AffineMap.nil (w : ℕ) : AffineMap (seqForward ([] : List (Fwd ℝ))) w w := by
  refine ⟨fun o i => if o = i then 1 else 0, fun _ => 0, fun B x hx hwf => ⟨x, rfl, hx, hwf, ?_⟩⟩
  intro b hb o ho
  simp [ho]

theorem AffineMap.cons {f : Fwd ℝ} {fs : List (Fwd ℝ)} {w w' w'' : ℕ} (h : AffineMap f w w') (hs : AffineMap (seqForward fs) w' w'') :
    AffineMap (seqForward (f :: fs)) w w'' := by
  obtain ⟨A, a, hA⟩ := h
  obtain ⟨B, b, hB⟩ := hs
  refine ⟨fun o i => ∑ k ∈ Finset.range w', B o k * A k i, fun o => ∑ k ∈ Finset.range w', B o k * a k + b o, fun N x hx hwf => ?_⟩
  obtain ⟨y, y1, y2, y3, y4⟩ := hA N x hx hwf
  obtain ⟨z, z1, z2, z3, z4⟩ := hB N y y2 y3
  refine ⟨z, by simp only [seqForward, y1]; exact z1, z2, z3, ?_⟩
  intro n hn o ho
  beta_reduce at y4 z4 ⊢
  rw [z4 n hn o ho, ← add_assoc]
  congr 1
  simp only [Finset.sum_mul]
  rw [Finset.sum_comm, ← Finset.sum_add_distrib]
  apply Finset.sum_congr rfl
  intro k hk
  rw [y4 n hn k (Finset.mem_range.1 hk), mul_add, Finset.mul_sum]
  congr 1
  apply Finset.sum_congr rfl
  intro i _
  ring

theorem AffineMap.append {fs gs : List (Fwd ℝ)} {w w' w'' : ℕ} (h : AffineMap (seqForward fs) w w') (hs : AffineMap (seqForward gs) w' w'') :
    AffineMap (seqForward (fs ++ gs)) w w'' := by
  have : seqForward (fs ++ gs) = seqForward [seqForward fs, seqForward gs] := by
    funext x
    rw [seqForward_append]
    simp only [seqForward]
    cases seqForward fs x with
    | error e => rfl
    | ok y =>
      simp only [bind, Except.bind]
      cases seqForward gs y <;> rfl
  rw [this]
  exact h.cons (hs.cons (AffineMap.nil w''))

theorem AffineMap.compose {input : Fwd ℝ} {E : ℕ → Fwd ℝ} {H w0 w w1 : ℕ}
    (hin : AffineMap input w0 w) (hE : ∀ i < H, AffineMap (E i) w w) (hO : AffineMap (E H) w w1) :
    AffineMap (compose [] input ((List.range (H + 1)).map E)) w0 w1 := by
  unfold HOL.compose
  apply AffineMap.cons hin
  rw [List.range_succ, List.map_append, List.flatMap_append, List.map_singleton, List.flatMap_singleton]
  have blocks : ∀ k ≤ H, AffineMap (seqForward (((List.range k).map E).flatMap fun l => [] ++ [l])) w w := by
    intro k
    induction k with
    | zero => intro _; exact AffineMap.nil w
    | succ k ih =>
      intro hk
      rw [List.range_succ, List.map_append, List.flatMap_append, List.map_singleton, List.flatMap_singleton]
      exact (ih (by omega)).append (AffineMap.cons (hE k (by omega)) (AffineMap.nil w))
  exact (blocks H le_rfl).append (AffineMap.cons hO (AffineMap.nil w1))

/-- **C31 (per layer).** After the call every initialized layer of the sum classes without periodicity computes, at every real input,
`∑ i, (a o i * x i + b o i)` with `|a| ≤ max_slope * scale_slope(in_features)` and `|b| ≤ max_offset`. -/
theorem C31_layers_affine {h : Heap ℝ} {net : ℕ} (hr : Regular h net) (hnet : net < h.length) (ms mo : ℝ) (hms : 0 ≤ ms) (hmo : 0 ≤ mo)
    (scale : ℕ → ℝ) (hsc : ∀ k, 0 ≤ scale k) (r1 r2 : Rng ℝ) (hr1 : ∀ j o i, 0 ≤ r1 j o i ∧ r1 j o i < 1) (hr2 : ∀ j o i, 0 ≤ r2 j o i ∧ r2 j o i < 1) :
    ∃ h', initializeNetwork net ms mo scale r1 r2 h = (.ok (), h') ∧
      ∀ (j : ℕ) (L : PwLayer ℝ), h[j]? = some (.pw L) → (L.cls = .continuous ∨ L.cls = .discontinuous) → L.periodicity = none →
        (ReflTransGen h.Child net j ∨ ∃ i I ls nm, ReflTransGen h.Child net i ∧ h[i]? = some (.switch I ls nm) ∧ j ∈ ls) →
        ∃ (L' : PwLayer ℝ) (a b : ℕ → ℕ → ℝ), h'[j]? = some (.pw L') ∧ (∀ o i, |a o i| ≤ ms * scale L.inFeatures ∧ |b o i| ≤ mo) ∧
          Computes L'.forward L.inFeatures L.outFeatures fun o r => ∑ i ∈ Finset.range L.inFeatures, (a o i * r i + b o i) := by
  obtain ⟨h', e1, -, e2⟩ := C31_network_initialization hr hnet ms mo scale r1 r2
  refine ⟨h', e1, fun j L hL hc hp hsc' => ?_⟩
  obtain ⟨wf, hl, hn⟩ : L.WF ∧ L.length = 2 ∧ 2 ≤ L.n := by
    rcases hsc' with hs | ⟨i, I, ls, nm, h1, h2, h3⟩
    · exact hr.pw j L hs hL
    · obtain ⟨L', g1, -, g2⟩ := hr.switch i I ls nm h1 h2 j h3
      rw [hL] at g1
      cases g1
      exact g2
  obtain ⟨L0, L', q1, q2, q3⟩ := (e2 j).1 ⟨L, hL, by rcases hc with h | h <;> rw [h] <;> simp, hsc'⟩
  rw [hL] at q1
  cases q1
  obtain ⟨L'', a, b, p1, -, p2, p3⟩ := C30_linear_initialization L wf hc hl hp hn (ms * scale L.inFeatures) mo
    (mul_nonneg hms (hsc _)) hmo (r1 j) (r2 j) (hr1 j) (hr2 j)
  rw [q2] at p1
  cases p1
  exact ⟨L', a, b, q3, p2, p3⟩

/-- **C31 (network).** A `HighOrderMLP` of continuous or discontinuous layers, without periodicity, normalization, nonlinearity, dropout and sums,
trained or not, is an affine function of its input after the call. -/
theorem C31_network_affine (rng : Rng ℝ) {c : MLPArgs ℝ} {cls clsIn : PwClass} (hk : fcTable.lookup c.layerType = some (.leaf (.pw cls)))
    (hki : fcTable.lookup (orStr c.layerTypeIn c.layerType) = some (.leaf (.pw clsIn))) (hcls : cls = .continuous ∨ cls = .discontinuous)
    (hclsIn : clsIn = .continuous ∨ clsIn = .discontinuous) (hI : Usable (.leaf (.pw clsIn)) c.inputArgs)
    (hH : Usable (.leaf (.pw cls)) c.hiddenArgs) (hO : Usable (.leaf (.pw cls)) c.outputArgs) (h2I : ∀ n, c.inputArgs.n = .int n → 2 ≤ n)
    (h2H : ∀ n, c.hiddenArgs.n = .int n → 2 ≤ n) (h2O : ∀ n, c.outputArgs.n = .int n → 2 ≤ n) (hper : c.periodicity = none)
    (hpre : preFns c noFwd = []) (hnl : c.nonLinearity = none) (hres : c.resnet = false ∨ c.hiddenLayers ≤ 1) {h0 : Heap ℝ} (hord : h0.Ordered)
    {net : ℕ} {h1 h : Heap ℝ} (hb : mlpInit rng c h0 = .ok (net, h1)) (hl : h1.Later h) (ho : h.Ordered) (ms mo : ℝ) (hms : 0 ≤ ms) (hmo : 0 ≤ mo)
    (scale : ℕ → ℝ) (hsc : ∀ k, 0 ≤ scale k) (r1 r2 : Rng ℝ) (hr1 : ∀ j o i, 0 ≤ r1 j o i ∧ r1 j o i < 1) (hr2 : ∀ j o i, 0 ≤ r2 j o i ∧ r2 j o i < 1) :
    ∃ h', initializeNetwork net ms mo scale r1 r2 h = (.ok (), h') ∧ AffineMap (h'.forward net) c.inWidth c.outWidth := by
  have hnl' : ∀ j ∈ c.nonLinearity, h0[j]? = some (.other (noFwd : Fwd ℝ)) := by
    intro j hj
    rw [hnl] at hj
    cases hj
  obtain ⟨hr, hlt⟩ := regular_network rng hk hki hI hH hO h2I h2H h2O hord hnl' hb hl ho
  obtain ⟨h', e1, e2⟩ := C31_layers_affine hr hlt ms mo hms hmo scale hsc r1 r2 hr1 hr2
  obtain ⟨h'', f1, -, f2⟩ := C31_network_initialization hr hlt ms mo scale r1 r2
  rw [e1] at f1
  cases f1
  obtain ⟨g, D, -, -, -, -, e3, -, -, hn⟩ := mlpInit_net rng hk hki hI hH hO hord hnl'
  rw [hb] at e3
  cases e3
  have hn := hn.later hl
  -- the heap afterwards
  have hlater : h.Later h' := by
    intro j m hm
    by_cases ht : InitTarget h (c.netId g) j
    · obtain ⟨L, L', p1, p2, p3⟩ := (f2 j).1 ht
      rw [hm] at p1
      cases p1
      obtain ⟨L0, q1, q2, q3⟩ := ht
      rw [hm] at q1
      cases q1
      obtain ⟨wf, hl', hn'⟩ : L.WF ∧ L.length = 2 ∧ 2 ≤ L.n := by
        rcases q3 with hs | ⟨i, I, ls, nm, h1, h2, h3⟩
        · exact hr.pw j L hs hm
        · obtain ⟨L', g1, -, g2⟩ := hr.switch i I ls nm h1 h2 j h3
          rw [hm] at g1
          cases g1
          exact g2
      obtain ⟨A, a1, -, a3⟩ := initialize_indep wf hl' hn' (Frame.refl wf.w_wf) (ms * scale L.inFeatures) mo (r1 j) (r2 j) q2
      rw [p2] at a1
      cases a1
      refine ⟨_, p3, ?_⟩
      rw [a3.eq]
      exact .pw L L'.w a3.shape a3.wf
    · exact ⟨m, by rw [(f2 j).2 ht, hm], .refl m⟩
  have ho' : h'.Ordered := by
    intro i m hm k hk'
    by_cases ht : InitTarget h (c.netId g) i
    · obtain ⟨L, L', p1, p2, p3⟩ := (f2 i).1 ht
      rw [hm] at p3
      cases p3
      cases hk'
    · rw [(f2 i).2 ht] at hm
      exact ho i m hm k hk'
  have hn' := hn.later hlater
  refine ⟨h', e1, ?_⟩
  rw [hn'.forward_compose ho', hpre]
  have layer : ∀ {cl : PwClass} {a : FcArgs ℝ} {s : Slot}, (cl = .continuous ∨ cl = .discontinuous) → Usable (.leaf (.pw cl)) a → a.periodicity = none →
      IsLayer (.leaf (.pw cl)) a h (c.slotId g s) → s ∈ c.plan → AffineMap (h'.forward (c.slotId g s)) a.inFeatures a.outFeatures := by
    intro cl a s hcl hu hp hlay hs
    obtain ⟨L, p1, -, p2, -, -, p3, p4, p5⟩ := hlay.pwLayer hu
    have hreach : ReflTransGen h.Child (c.netId g) (c.slotId g s) := by
      refine ReflTransGen.head ⟨_, hn.net, by simp [Mod.children]; exact Or.inr (Or.inr (Or.inr rfl))⟩ ?_
      exact ReflTransGen.single ⟨_, hn.seq, List.mem_map_of_mem hs⟩
    obtain ⟨L', A, b, q1, -, q2⟩ := e2 _ L p1 (by rw [p2]; exact hcl) (by rw [p5]; exact hp) (Or.inl hreach)
    rw [Heap.forward_eq ho' q1]
    rw [p3, p4] at q2
    refine ⟨A, fun o => ∑ i ∈ Finset.range a.inFeatures, b o i, q2.congr fun o _ r => ?_⟩
    rw [Finset.sum_add_distrib]
  have hplan : ∀ i ≤ c.hiddenLayers, Slot.lay i ∈ c.plan := fun i hi =>
    MLPArgs.mem_plan.2 (Or.inr (Or.inr (Or.inr (Or.inr ⟨i, hi, rfl⟩))))
  apply AffineMap.compose
  · exact layer hclsIn hI hper hn.inp (MLPArgs.mem_plan.2 (Or.inl rfl))
  · intro i hi
    have e : c.layId g i = c.coreId g i := MLPArgs.layId_eq g (by
      rcases hres with h | h
      · exact Or.inl h
      · exact Or.inr (Or.inl (by omega)))
    have hlay := hn.hid i hi
    rw [← e] at hlay
    exact layer (s := .lay i) hcls hH hper hlay (hplan i (le_of_lt hi))
  · exact layer (s := .lay c.hiddenLayers) hcls hO hper hn.out (hplan _ le_rfl)

end HOL
