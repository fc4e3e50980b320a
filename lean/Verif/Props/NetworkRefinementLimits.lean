import Verif.Props.NetworkRefinement
import Verif.Props.Trainable

/-! # C26, C27: what the refinement of networks does not reach -/

namespace HOL
open TorchScalar Relation
variable {K : Type} [TorchScalar K]

/-- The modules not reached from `b` are the same in both heaps. -/
def SameOutside (h : Heap K) (b : ℕ) (h1 h2 : Heap K) : Prop := ∀ j : ℕ, ¬ ReflTransGen h.Enters b j → h2[j]? = h1[j]?

theorem method_frame (op : PwLayer K → PwLayer K → Eff (PwLayer K)) {h h0 : Heap K} : ∀ (i b : ℕ) (h1 : Heap K), h.Skel h1 →
    h.Skel (((h0.fold (fun _ h => (.error .attributeError, h)) (methodOp op)).getD i (fun _ h => (.error .attributeError, h))) b h1).2 ∧
    SameOutside h b h1 (((h0.fold (fun _ h => (.error .attributeError, h)) (methodOp op)).getD i (fun _ h => (.error .attributeError, h))) b h1).2 := by
  intro i
  induction i using Nat.strong_induction_on with
  | _ i ih =>
    intro b h1 s
    cases hm : h0[i]? with
    | none =>
      rw [Heap.fold_getD_none _ _ h0 hm]
      exact ⟨s, fun _ _ => rfl⟩
    | some m =>
      rw [Heap.fold_getD _ _ h0 hm]
      have triv : h.Skel h1 ∧ SameOutside h b h1 h1 := ⟨s, fun _ _ => rfl⟩
      cases m with
      | pw L =>
        refine ⟨pairBody_skel op (i, b) h1 s, ?_⟩
        intro j hj
        have hne : b ≠ j := fun e => hj (e ▸ ReflTransGen.refl)
        simp only [methodOp, pairOp]
        split
        · exact List.getElem?_set_ne hne
        · rfl
      | «switch» inF las nm =>
        simp only [methodOp]
        split
        · rename_i ib lbs nb hb
          have hb' : h[b]? = some (.switch ib lbs nb) := by
            rcases s.2 b with e | ⟨L, L', e1, e2⟩
            · rw [← e]; exact hb
            · rw [hb] at e2; cases e2
          have key := forEach_inv (fun (p : ℕ × ℕ) h' => (if p.1 < i then
              (h0.fold (fun _ h => (.error .attributeError, h)) (methodOp op)).getD p.1 (fun _ h => (.error .attributeError, h))
              else (fun _ h => (.error .attributeError, h))) p.2 h') (fun h2 => h.Skel h2 ∧ SameOutside h b h1 h2) (las.zip lbs) (by
            rintro p hp h2 ⟨s2, o2⟩
            beta_reduce
            split
            · rename_i hlt
              obtain ⟨q1, q2⟩ := ih p.1 hlt p.2 h2 s2
              refine ⟨q1, fun j hj => ?_⟩
              rw [q2 j, o2 j hj]
              intro hr
              exact hj (ReflTransGen.head ⟨_, hb', Or.inr (List.of_mem_zip hp).2⟩ hr)
            · exact ⟨s2, o2⟩) h1 triv
          exact key
        · exact triv
      | _ => exact triv

/-- Refinement of networks changes only modules registered in `b.model` or in the list of such a switch layer. -/
theorem transferNetwork_frame (op : PwLayer K → PwLayer K → Eff (PwLayer K)) {h : Heap K} (ho : h.Ordered) (a b : ℕ) {mo : ℕ}
    (hb : h.model b = .ok mo) (hmo : mo < h.length) {j : ℕ} (hj : ¬ ReflTransGen h.Enters mo j) :
    (transferNetwork op a b h).2[j]? = h[j]? := by
  unfold transferNetwork
  rw [hb]
  cases h.model a with
  | error e => rfl
  | ok mi =>
    dsimp only
    refine (forEach_inv _ (fun h2 => h.Skel h2 ∧ h2[j]? = h[j]?) _ ?_ h ⟨Heap.Skel.refl h, rfl⟩).2
    rintro p hp h2 ⟨s2, e2⟩
    beta_reduce
    split
    · obtain ⟨q1, q2⟩ := method_frame op (h := h) (h0 := h2) p.1 p.2 h2 s2
      refine ⟨q1, ?_⟩
      unfold Heap.method
      rw [q2 j, e2]
      intro hr
      apply hj
      have hp2 := (List.mem_filter.1 (List.of_mem_zip hp).2).1
      rw [Heap.mem_modules ho hmo] at hp2
      refine ReflTransGen.trans (ReflTransGen.mono (r := h.Child) ?_ _ _ hp2) hr
      rintro x y ⟨m, hm, hc⟩
      exact ⟨m, hm, Or.inl hc⟩
    · exact ⟨s2, e2⟩

/-- **C26, C27 (resnet, negative).** If `b` is a `resnet` network, neither `interpolate_high_order_mlp(a, b)` nor
`hp_refine_high_order_mlp(a, b)` changes any weight of its hidden layers after the first, whatever `a` is. -/
theorem C26_resnet_limit (rng : Rng K) {c : MLPArgs K} {kind kindIn : FcKind} (hk : fcTable.lookup c.layerType = some kind)
    (hki : fcTable.lookup (orStr c.layerTypeIn c.layerType) = some kindIn) (hI : Usable kindIn c.inputArgs)
    (hH : Usable kind c.hiddenArgs) (hO : Usable kind c.outputArgs) {h0 : Heap K} (hord : h0.Ordered) {nl : Fwd K}
    (hnl : ∀ j ∈ c.nonLinearity, h0[j]? = some (.other nl)) (hr : c.resnet = true) {b : ℕ} {h1 : Heap K}
    (hb : mlpInit rng c h0 = .ok (b, h1)) :
    ∃ hid : ℕ → ℕ, ∀ h : Heap K, h1.Later h → h.Ordered → ∀ i, 0 < i → i < c.hiddenLayers →
      IsLayer kind c.hiddenArgs h (hid i) ∧ ReflTransGen h.Uses b (hid i) ∧
      ∀ (a : ℕ) (j : ℕ), ReflTransGen h.Uses (hid i) j →
        (interpolateNetwork a b h).2[j]? = h[j]? ∧ (refineNetwork a b h).2[j]? = h[j]? := by
  obtain ⟨g, D, rfl, hsi, hsh, hso, e1, -, -, hn⟩ := mlpInit_net rng hk hki hI hH hO hord hnl
  rw [hb] at e1
  cases e1
  refine ⟨c.coreId ⟨h0.length, kindSize kindIn, kindSize kind, kindSize kind⟩, fun h hl ho i hi hiH => ?_⟩
  have hn := hn.later hl
  have hip : Slot.lay i ∈ c.plan := MLPArgs.mem_plan.2 (Or.inr (Or.inr (Or.inr (Or.inr ⟨i, le_of_lt hiH, rfl⟩))))
  refine ⟨hn.hid i hiH, ?_, ?_⟩
  · refine ReflTransGen.head ⟨_, hn.net, Or.inr (by simp [Mod.children]; exact Or.inr (Or.inr (Or.inr rfl)))⟩ ?_
    refine ReflTransGen.head ⟨_, hn.seq, Or.inr (List.mem_map_of_mem hip)⟩ ?_
    exact ReflTransGen.single ⟨_, hn.sums hr i hi hiH, Or.inl (by simp [Mod.hidden])⟩
  · intro a j hj
    obtain ⟨m, hm, q1, q2, -⟩ := ((hn.hid i hiH).hered hH).uses hj
    have key := hn.resnet_unreached (next := fun m => m.children ++ m.switchList)
      (by intro m hm; cases m <;> simp_all [Mod.hidden, Mod.switchList])
      (by intro m j hj; cases m <;> simp_all [Mod.hidden, Mod.switchList, Mod.refs, or_comm])
      (by intro l; rfl) hI hH hO ⟨rfl, rfl, rfl⟩ hsi hsh hso
      (fun j hj => (List.getElem?_eq_some_iff.1 (hnl j hj)).1) hr hi hiH
    have hnot : ¬ ReflTransGen h.Enters (c.netId ⟨h0.length, kindSize kindIn, kindSize kind, kindSize kind⟩ - 1) j := by
      intro hreach
      have hfull : ReflTransGen h.Enters (c.netId ⟨h0.length, kindSize kindIn, kindSize kind, kindSize kind⟩) j :=
        ReflTransGen.head ⟨_, hn.net, Or.inl (by simp [Mod.children])⟩ hreach
      have : Hered (fun m => m.children ++ m.switchList) (fun k _ => ¬ (c.blk ⟨h0.length, kindSize kindIn, kindSize kind, kindSize kind⟩ i + c.nu ≤ k ∧ k ≤ c.coreId ⟨h0.length, kindSize kindIn, kindSize kind, kindSize kind⟩ i)) h j := by
        clear hm q1 q2 hj hreach
        induction hfull with
        | refl => exact key
        | tail _ hc ih =>
          obtain ⟨m, hm, hj⟩ := hc
          cases ih with
          | mk hm' hP hc' => rw [hm] at hm'; cases hm'; exact hc' _ (by simpa using hj)
      cases this with
      | mk _ hP _ =>
        apply hP
        refine ⟨?_, q2⟩
        simp only [MLPArgs.coreId, MLPArgs.size, if_pos hiH] at q1
        omega
    have hmod : h.model (c.netId ⟨h0.length, kindSize kindIn, kindSize kind, kindSize kind⟩)
        = .ok (c.netId ⟨h0.length, kindSize kindIn, kindSize kind, kindSize kind⟩ - 1) := by
      unfold Heap.model; rw [hn.net]
    have hlt := (List.getElem?_eq_some_iff.1 hn.seq).1
    exact ⟨transferNetwork_frame _ ho a _ hmod hlt hnot, transferNetwork_frame _ ho a _ hmod hlt hnot⟩

/-! ## Layer types without the methods -/

/-- Types of layers that have neither `interpolate` nor `refine`. -/
def FcKind.NoMethods (k : FcKind) : Prop :=
  k = .leaf .linear ∨ k = .leaf .linearRelu ∨ k = .leaf .product ∨ k = .leaf .polynomial ∨ k = .leaf .fourier

theorem IsLayer.noMethod {kind : FcKind} (hk : kind.NoMethods) {a : FcArgs K} (hu : Usable kind a) {h : Heap K} {j : ℕ} (hl : IsLayer kind a h j) :
    Hered Mod.children (fun _ m => m.hasMethod = false) h j := by
  obtain ⟨rng, base, ms, e1, e2, e3⟩ := hl
  have tr : ∀ {m m' : Mod K}, m.Trained m' → m'.hasMethod = m.hasMethod := by intro m m' h; cases h <;> rfl
  have leaf1 : ∀ m : Mod K, ms = [m] → m.children = [] → m.hasMethod = false → Hered Mod.children (fun _ m => m.hasMethod = false) h j := by
    rintro m rfl hr hm
    have hj : j = base + 0 := by simpa using e2
    obtain ⟨m', f1, f2⟩ := e3 0 m rfl
    refine .mk (by rw [hj]; exact f1) (by rw [tr f2]; exact hm) fun i hi => ?_
    rw [f2.hidden.2.1, hr] at hi
    cases hi
  rcases hk with rfl | rfl | rfl | rfl | rfl
  · cases e1; exact leaf1 _ rfl rfl rfl
  · cases e1
    have hj : j = base + 1 := by simp at e2; omega
    obtain ⟨m0, f1, f2⟩ := e3 0 _ rfl
    obtain ⟨m1, f3, f4⟩ := e3 1 _ rfl
    cases f4
    refine .mk (by rw [hj]; exact f3) rfl fun i hi => ?_
    have : i = base + 0 := by simpa [Mod.children] using hi
    subst this
    refine .mk f1 (by rw [tr f2]; rfl) fun i hi => ?_
    rw [f2.hidden.2.1] at hi
    cases hi
  · cases e1; exact leaf1 _ rfl rfl rfl
  · obtain ⟨n, hn, hpos⟩ := hu
    simp only [fcMods, leafMods, hn, polynomialInit, FnLayer.init] at e1
    rw [lagrangePolyFlat_numBasis hpos] at e1
    cases e1; exact leaf1 _ rfl rfl rfl
  · obtain ⟨n, hn, hpos⟩ := hu
    simp only [fcMods, leafMods, hn, fourierSeriesInit, FnLayer.init] at e1
    cases e1; exact leaf1 _ rfl rfl rfl

/-- **C26, C27 (layers without refinement).** If `a` consists of polynomial, Fourier, product, linear or relu layers, both functions
return normally and change nothing at all, whatever `b` is. -/
theorem C26_unsupported_types (rng : Rng K) {c : MLPArgs K} {kind kindIn : FcKind} (hk : fcTable.lookup c.layerType = some kind)
    (hki : fcTable.lookup (orStr c.layerTypeIn c.layerType) = some kindIn) (hkm : kind.NoMethods) (hkmi : kindIn.NoMethods)
    (hI : Usable kindIn c.inputArgs)
    (hH : Usable kind c.hiddenArgs) (hO : Usable kind c.outputArgs) {h0 : Heap K} (hord : h0.Ordered) {nl : Fwd K}
    (hnl : ∀ j ∈ c.nonLinearity, h0[j]? = some (.other nl)) {a : ℕ} {h1 : Heap K} (hb : mlpInit rng c h0 = .ok (a, h1))
    (h : Heap K) (hl : h1.Later h) (ho : h.Ordered) (b mo : ℕ) (hmo : h.model b = .ok mo) :
    interpolateNetwork a b h = (.ok (), h) ∧ refineNetwork a b h = (.ok (), h) := by
  obtain ⟨g, D, -, -, -, -, e1, -, -, hn⟩ := mlpInit_net rng hk hki hI hH hO hord hnl
  rw [hb] at e1
  cases e1
  have hn := hn.later hl
  have key : Hered Mod.children (fun _ m => m.hasMethod = false) h (c.netId g) := by
    apply hn.hered (fun m _ => rfl) (fun _ _ _ _ => rfl) (fun _ => rfl) (fun _ => rfl)
    intro s hs
    rcases MLPArgs.mem_plan.1 hs with rfl | ⟨rfl, h1⟩ | ⟨rfl, h1⟩ | ⟨i, hi, rfl, h1⟩ | ⟨i, hi, rfl⟩
    · exact hn.inp.noMethod hkmi hI
    · exact hn.hered_fn (fun m _ => rfl) hs rfl fun _ => rfl
    · exact hn.hered_fn (fun m _ => rfl) hs rfl fun _ => rfl
    · exact hn.hered_fn (fun m _ => rfl) hs rfl fun _ => rfl
    · by_cases hlt : i < c.hiddenLayers
      · by_cases hs' : c.resnet = true ∧ 0 < i
        · exact .mk (hn.sums hs'.1 i hs'.2 hlt) rfl fun j hj => by cases hj
        · have e : c.slotId g (.lay i) = c.coreId g i := MLPArgs.layId_eq g (by
            rcases Nat.eq_zero_or_pos i with h | h
            · exact Or.inr (Or.inl h)
            · refine Or.inl ?_
              cases hr : c.resnet with
              | false => rfl
              | true => exact absurd ⟨hr, h⟩ hs')
          rw [e]
          exact (hn.hid i hlt).noMethod hkm hH
      · have : i = c.hiddenLayers := by omega
        subst this
        exact hn.out.noMethod hkm hO
  have hmod : h.model (c.netId g) = .ok (c.netId g - 1) := by unfold Heap.model; rw [hn.net]
  have hlt := (List.getElem?_eq_some_iff.1 hn.seq).1
  have none : ∀ op : PwLayer K → PwLayer K → Eff (PwLayer K), transferNetwork op (c.netId g) b h = (.ok (), h) := by
    intro op
    unfold transferNetwork
    rw [hmod, hmo]
    dsimp only
    have hall : ∀ p ∈ (h.layers (c.netId g - 1)).zip (h.layers mo), ((h[p.1]?).map Mod.hasMethod).getD false = false := by
      intro p hp
      have hp1 := (List.mem_filter.1 (List.of_mem_zip hp).1).1
      rw [Heap.mem_modules ho hlt] at hp1
      obtain ⟨m, hm, hP⟩ := key.child (ReflTransGen.head ⟨_, hn.net, by simp [Mod.children]⟩ hp1)
      rw [hm]
      exact hP
    generalize (h.layers (c.netId g - 1)).zip (h.layers mo) = l at hall
    induction l with
    | nil => rfl
    | cons p l ih =>
      simp only [forEach]
      rw [hall p (by simp)]
      exact ih fun q hq => hall q (by simp [hq])
  exact ⟨none _, none _⟩

/-- The linear network of C35, refined into itself. -/
example (W : ℕ → ℝ) : interpolateNetwork 7 7 (exHeap W) = (.ok (), exHeap W) :=
  (C26_unsupported_types (exRng W) (c := exArgs true) (kind := .leaf .linear) (kindIn := .leaf .linear) (by show List.lookup "baseline" _ = _; decide)
    (by show List.lookup "baseline" _ = _; decide) (Or.inl rfl) (Or.inl rfl) trivial trivial trivial
    (by intro i m hm; simp at hm) (nl := noFwd) (by intro j hj; cases hj) (exHeap_built W) _ (fun _ m hm => ⟨m, hm, .refl m⟩) (exHeap_ordered W) 7 6 rfl).1

/-! ## Two concrete `resnet` networks -/

section
open Spec

noncomputable def exRes : MLPArgs ℝ :=
  { exArgs true with layerType := "discontinuous", inSegments := some (.int 2), outSegments := some (.int 2), hiddenSegments := some (.int 2) }

noncomputable def exL0 : PwLayer ℝ := PwLayer.init .discontinuous 1 1 1 2 ((2 : ℕ) : ℝ) (fun _ _ => 0) 1 none

/-- A layer with one input and one output: `u` for negative, `v` for other numbers. -/
noncomputable def exStep (u v : ℝ) : PwLayer ℝ := { exL0 with w := Tensor.tab3 1 1 2 fun _ _ k => if k = 0 then u else v }

/-- Modules of the networks `a` (7) and `b` (15). -/
noncomputable def exResHeap (A1 A2 A3 A5 B1 B2 B3 B5 : PwLayer ℝ) : Heap ℝ :=
  [.other fun x => .ok x, .pw A1, .pw A2, .pw A3, .sum [3, 2], .pw A5, .seq [1, 2, 4, 5], .mlp 0 1 5 6,
   .other fun x => .ok x, .pw B1, .pw B2, .pw B3, .sum [11, 10], .pw B5, .seq [9, 10, 12, 13], .mlp 8 9 13 14]

theorem exStep_wf (u v : ℝ) : (exStep u v).WF :=
  ⟨by norm_num [exStep, exL0, PwLayer.init], by norm_num [exStep, exL0, PwLayer.init], by norm_num [exStep, exL0, PwLayer.init],
    by norm_num [exStep, exL0, PwLayer.init], rfl, Tensor.wf_tabulate _ _⟩

theorem exStep_forward (u v y : ℝ) : (exStep u v).forward (one y) = .ok (one (if y < 0 then u else v)) := by
  rw [(exStep u v).forward_combine (exStep_wf u v) (x := one y) (B := 1) rfl (Tensor.wf_tabulate _ _)]
  congr 1
  apply tab2_congr
  intro b hb o ho
  have hb0 : b = 0 := by omega
  have ho0 : o = 0 := by change o < 1 at ho; omega
  subst hb0; subst ho0
  change ∑ i ∈ Finset.range 1, _ = _
  rw [Finset.sum_range_one]
  have hy : (one y).get [0, 0] = y := Tensor.get_tab2 (by norm_num) (by norm_num)
  rw [hy]
  have hw : ∀ k, k < 2 → (exStep u v).w.get [0, 0, k] = if k = 0 then u else v := by
    intro k hk
    exact Tensor.get_tab3 (by norm_num) (by norm_num) hk
  have key := (exStep u v).linkFn_isPiecewise (by norm_num [exStep, exL0, PwLayer.init]) (by norm_num [exStep, exL0, PwLayer.init]) rfl 0 0
  split
  · rename_i h
    have := key 0 y ⟨by norm_num [exStep, exL0, PwLayer.init], Or.inl rfl, Or.inr (by norm_num [segLeft, exStep, exL0, PwLayer.init]; exact h)⟩
    rw [this]
    change (linkPoly 1 _).eval _ = _
    rw [linkPoly_one_eval]
    exact hw 0 (by norm_num)
  · rename_i h
    have := key 1 y ⟨by norm_num [exStep, exL0, PwLayer.init], Or.inr (by norm_num [segLeft, exStep, exL0, PwLayer.init]; exact not_lt.1 h), Or.inl rfl⟩
    rw [this]
    change (linkPoly 1 _).eval _ = _
    rw [linkPoly_one_eval]
    exact hw 1 (by norm_num)

theorem exRes_built (h : Heap ℝ) : mlpInit (fun _ _ _ => 0) exRes h = .ok (h.length + 7, h ++ [.other fun x => .ok x, .pw exL0, .pw exL0, .pw exL0,
    .sum [h.length + 3, h.length + 2], .pw exL0, .seq [h.length + 1, h.length + 2, h.length + 4, h.length + 5],
    .mlp h.length (h.length + 1) (h.length + 5) (h.length + 6)]) := by
  have hlt : ltB (0 : ℝ) 0 = false := by simp [ltB]
  have hl : fcTable.lookup "discontinuous" = some (.leaf (.pw .discontinuous)) := by decide
  simp only [mlpInit, fcLayer, exRes, exArgs, orStr, hl, bind, Except.bind, fcMods, leafMods, hiddenLoop, hiddenStep, appendPre, hlt,
    MLPArgs.inputArgs, MLPArgs.hiddenArgs, MLPArgs.outputArgs, orElse]
  simp [exL0]

theorem exResHeap_ordered (A1 A2 A3 A5 B1 B2 B3 B5 : PwLayer ℝ) : (exResHeap A1 A2 A3 A5 B1 B2 B3 B5).Ordered := by
  intro i m hm j hj
  rcases i with _ | _ | _ | _ | _ | _ | _ | _ | _ | _ | _ | _ | _ | _ | _ | _ | i <;> simp [exResHeap] at hm <;> subst hm <;>
    simp [Mod.refs, Mod.hidden, Mod.children] at hj <;> omega

/-- Both networks compute `out (hid1 y + hid0 y)` with `y = inp x`. -/
theorem exRes_forward {h : Heap ℝ} (ho : h.Ordered) {d s q : ℕ} {A1 A2 A3 A5 : PwLayer ℝ} (h1 : h[d + 1]? = some (.pw A1)) (h2 : h[d + 2]? = some (.pw A2))
    (h3 : h[d + 3]? = some (.pw A3)) (h4 : h[d + 4]? = some (.sum [d + 3, d + 2])) (h5 : h[d + 5]? = some (.pw A5))
    (h6 : h[s]? = some (.seq [d + 1, d + 2, d + 4, d + 5])) (h7 : h[q]? = some (.mlp d (d + 1) (d + 5) s))
    {x y z u v t : ℝ} (e1 : A1.forward (one x) = .ok (one y)) (e2 : A2.forward (one y) = .ok (one z)) (e3 : A3.forward (one z) = .ok (one u))
    (e4 : A2.forward (one z) = .ok (one v)) (e5 : A5.forward (one (u + v)) = .ok (one t)) : h.forward q (one x) = .ok (one t) := by
  rw [Heap.forward_eq ho h7]
  simp only [Mod.forward]
  rw [Heap.forward_eq ho h6]
  have f1 : h.forward (d + 1) (one x) = .ok (one y) := by rw [Heap.forward_eq ho h1]; exact e1
  have f2 : h.forward (d + 2) (one y) = .ok (one z) := by rw [Heap.forward_eq ho h2]; exact e2
  have f3 : h.forward (d + 4) (one z) = .ok (one (u + v)) := by
    have g3 : h.forward (d + 3) (one z) = .ok (one u) := by rw [Heap.forward_eq ho h3]; exact e3
    have g2 : h.forward (d + 2) (one z) = .ok (one v) := by rw [Heap.forward_eq ho h2]; exact e4
    rw [Heap.forward_eq ho h4]
    simp only [Mod.forward, List.mapM_cons, List.mapM_nil, g3, g2, bind, Except.bind, pure, Except.pure, addStar]
    rw [zipBcast_same _ (B := 1) (O := 1) rfl rfl]
    unfold one
    congr 1
  have f5 : h.forward (d + 5) (one (u + v)) = .ok (one t) := by rw [Heap.forward_eq ho h5]; exact e5
  simp only [Mod.forward, List.map, seqForward, f1, f2, f3, f5, bind, Except.bind]

theorem exRes_transfer (op : PwLayer ℝ → PwLayer ℝ → Eff (PwLayer ℝ)) (A1 A2 A3 A5 B1 B2 B3 B5 C1 C2 C5 : PwLayer ℝ)
    (e1 : op A1 B1 = (.ok (), C1)) (e2 : op A2 B2 = (.ok (), C2)) (e5 : op A5 B5 = (.ok (), C5)) :
    transferNetwork op 7 15 (exResHeap A1 A2 A3 A5 B1 B2 B3 B5) = (.ok (), exResHeap A1 A2 A3 A5 C1 C2 B3 C5) := by
  have step : ∀ (p : ℕ × ℕ) (ps : List (ℕ × ℕ)) (h h' : Heap ℝ), transferBody op p h = (.ok (), h') →
      forEach (transferBody op) (p :: ps) h = forEach (transferBody op) ps h' := by
    intro p ps h h' e
    simp only [forEach, e]
  have pw : ∀ (p : ℕ × ℕ) (h : Heap ℝ) (La Lb Lc : PwLayer ℝ), h[p.1]? = some (.pw La) → h[p.2]? = some (.pw Lb) → op La Lb = (.ok (), Lc) →
      transferBody op p h = (.ok (), h.set p.2 (.pw Lc)) := by
    intro p h La Lb Lc h1 h2 e
    unfold transferBody Heap.method
    rw [h1, method_pw op h1]
    simp only [Option.map_some, Mod.hasMethod, Option.getD_some, if_true, pairOp, h1, h2, e]
  have hmi : (exResHeap A1 A2 A3 A5 B1 B2 B3 B5).model 7 = .ok 6 := rfl
  have hmo : (exResHeap A1 A2 A3 A5 B1 B2 B3 B5).model 15 = .ok 14 := rfl
  have hl1 : (exResHeap A1 A2 A3 A5 B1 B2 B3 B5).layers 6 = [1, 2, 4, 5] := by
    simp [Heap.layers, Heap.modules, Heap.fold, exResHeap, visitor, Mod.children, Mod.isSeq]
  have hl2 : (exResHeap A1 A2 A3 A5 B1 B2 B3 B5).layers 14 = [9, 10, 12, 13] := by
    simp [Heap.layers, Heap.modules, Heap.fold, exResHeap, visitor, Mod.children, Mod.isSeq]
  unfold transferNetwork
  rw [hmi, hmo]
  dsimp only
  rw [hl1, hl2]
  change forEach (transferBody op) [(1, 9), (2, 10), (4, 12), (5, 13)] _ = _
  rw [step _ _ _ (exResHeap A1 A2 A3 A5 C1 B2 B3 B5) (pw (1, 9) _ A1 B1 C1 rfl rfl e1),
    step _ _ _ (exResHeap A1 A2 A3 A5 C1 C2 B3 B5) (pw (2, 10) _ A2 B2 C2 rfl rfl e2),
    step _ _ _ (exResHeap A1 A2 A3 A5 C1 C2 B3 B5) (by rfl),
    step _ _ _ (exResHeap A1 A2 A3 A5 C1 C2 B3 C5) (pw (5, 13) _ A5 B5 C5 rfl rfl e5)]
  rfl

/-- **C26 (counterexample).** Two `resnet` networks of the same architecture with two hidden layers, trained to some weights: after
`interpolate_high_order_mlp(a, b)` network `a` gives 1 and network `b` gives 0 for the input 0. -/
theorem C26_resnet_counterexample : ∃ (h1 h2 h h' : Heap ℝ), mlpInit (fun _ _ _ => 0) exRes [] = .ok (7, h1) ∧
    mlpInit (fun _ _ _ => 0) exRes h1 = .ok (15, h2) ∧ h2.Later h ∧ interpolateNetwork 7 15 h = (.ok (), h') ∧
    h.forward 7 (one 0) = .ok (one 1) ∧ h'.forward 7 (one 0) = .ok (one 1) ∧ h'.forward 15 (one 0) = .ok (one 0) := by
  have tr : ∀ u v, (Mod.pw exL0 : Mod ℝ).Trained (.pw (exStep u v)) := fun u v => .pw exL0 _ rfl (Tensor.wf_tabulate _ _)
  have c20 : ∀ u v u' v', ∃ L', interpolateLayer (exStep u v) (exStep u' v') = (.ok (), L') ∧ ∀ y, L'.forward (one y) = (exStep u v).forward (one y) := by
    intro u v u' v'
    obtain ⟨L', q1, -, q3⟩ := C20_p_refinement_exact (exStep u v) (exStep u' v') (exStep_wf _ _) (exStep_wf _ _) (Or.inr rfl) rfl rfl rfl rfl rfl rfl le_rfl
    exact ⟨L', q1, fun y => q3 1 _ rfl (Tensor.wf_tabulate _ _)⟩
  obtain ⟨C1, p1, q1⟩ := c20 0 0 0 0
  obtain ⟨C5, p5, q5⟩ := c20 0 1 0 0
  refine ⟨_, _, exResHeap (exStep 0 0) (exStep 0 0) (exStep 1 1) (exStep 0 1) (exStep 0 0) (exStep 0 0) (exStep (-1) (-1)) (exStep 0 0), _,
    exRes_built [], exRes_built _, ?_, exRes_transfer _ _ _ _ _ _ _ _ _ C1 C1 C5 p1 p1 p5, ?_, ?_, ?_⟩
  · intro i m hm
    rcases i with _ | _ | _ | _ | _ | _ | _ | _ | _ | _ | _ | _ | _ | _ | _ | _ | i <;> simp at hm <;> subst hm <;>
      first
      | exact ⟨_, rfl, tr _ _⟩
      | exact ⟨_, rfl, .refl _⟩
  · exact exRes_forward (exResHeap_ordered _ _ _ _ _ _ _ _) (d := 0) (s := 6) rfl rfl rfl rfl rfl rfl rfl (exStep_forward _ _ _) (exStep_forward _ _ _)
      (exStep_forward _ _ _) (exStep_forward _ _ _) (by rw [exStep_forward]; norm_num)
  · exact exRes_forward (exResHeap_ordered _ _ _ _ _ _ _ _) (d := 0) (s := 6) rfl rfl rfl rfl rfl rfl rfl (exStep_forward _ _ _) (exStep_forward _ _ _)
      (exStep_forward _ _ _) (exStep_forward _ _ _) (by rw [exStep_forward]; norm_num)
  · refine exRes_forward (exResHeap_ordered _ _ _ _ _ _ _ _) (d := 8) (s := 14) rfl rfl rfl rfl rfl rfl rfl ((q1 _).trans (exStep_forward _ _ _))
      ((q1 _).trans (exStep_forward _ _ _)) (exStep_forward _ _ _) ((q1 _).trans (exStep_forward _ _ _)) ((q5 _).trans ?_)
    rw [exStep_forward]; norm_num

/-- The weights of module 11, the second hidden layer of `b`, do not change. -/
example (A1 A2 A3 A5 B1 B2 B3 B5 C1 C2 C5 : PwLayer ℝ) (e1 : interpolateLayer A1 B1 = (.ok (), C1)) (e2 : interpolateLayer A2 B2 = (.ok (), C2))
    (e5 : interpolateLayer A5 B5 = (.ok (), C5)) :
    (interpolateNetwork 7 15 (exResHeap A1 A2 A3 A5 B1 B2 B3 B5)).2[11]? = some (.pw B3) := by
  unfold interpolateNetwork
  rw [exRes_transfer _ _ _ _ _ _ _ _ _ _ _ _ e1 e2 e5]
  rfl

end

end HOL
