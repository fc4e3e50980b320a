import Verif.Lemmas.PwNet

/-! # Refinement of whole networks -/

namespace HOL
open TorchScalar MLPArgs
variable {K : Type} [TorchScalar K]

set_option linter.unusedSectionVars false

/-! ## positions are distinct -/

namespace MLPArgs

theorem blk_strict (c : MLPArgs K) {g : Geo} {i j : ℕ} (h : i < j) : c.blk g i + c.nu + g.sh ≤ c.blk g j := by
  have := blk_mono c g (Nat.succ_le_of_lt h)
  have e : c.blk g i.succ = c.blk g i + c.nu + g.sh + c.extra i := rfl
  omega

theorem size_pos (c : MLPArgs K) {g : Geo} (hsh : 0 < g.sh) (hso : 0 < g.so) (i : ℕ) : 0 < c.size g i := by
  unfold size; split <;> assumption

theorem layId_bounds (c : MLPArgs K) {g : Geo} (hsh : 0 < g.sh) (hso : 0 < g.so) (i : ℕ) :
    c.blk g i + c.nu + c.size g i ≤ c.layId g i + 1 := by
  have := c.size_pos hsh hso i
  unfold layId coreId; omega

theorem slotId_inj {c : MLPArgs K} {g : Geo} (hsi : 0 < g.si) (hsh : 0 < g.sh) (hso : 0 < g.so)
    (hnl : ∀ j ∈ c.nonLinearity, j < g.base) {s t : Slot} (hs : s ∈ c.plan) (ht : t ∈ c.plan)
    (e : c.slotId g s = c.slotId g t) : s = t := by
  have hlay : ∀ i, c.blk g i + c.nu ≤ c.layId g i := fun i => by
    have := layId_bounds c hsh hso i; have := c.size_pos hsh hso i; omega
  have hbase := fun i => blk_base c g i
  have key : ∀ i j, i ≤ c.hiddenLayers → j ≤ c.hiddenLayers → i < j → c.layId g i < c.blk g j := by
    intro i j hi hj hij
    have h1 := layId_lt c hsh (i := i) (by omega)
    have h2 := blk_mono c g (Nat.succ_le_of_lt hij)
    exact lt_of_lt_of_le h1 h2
  have keyb : ∀ i j, i < j → c.blk g i < c.blk g j := by
    intro i j hij
    have := blk_strict c (g := g) hij
    omega
  have hnu : c.normalization.isSome → c.nu = 1 := fun h => by simp [nu, h]
  have hn : c.nonLinearity.isSome → c.nonLinearity.getD 0 < g.base := by
    intro h
    obtain ⟨j, hj⟩ := Option.isSome_iff_exists.1 h
    rw [hj]; exact hnl j hj
  rcases mem_plan.1 hs with rfl | ⟨rfl, h1⟩ | ⟨rfl, h1⟩ | ⟨i, hi, rfl, h1⟩ | ⟨i, hi, rfl⟩ <;>
    rcases mem_plan.1 ht with rfl | ⟨rfl, h2⟩ | ⟨rfl, h2⟩ | ⟨j, hj, rfl, h2⟩ | ⟨j, hj, rfl⟩ <;>
    simp only [slotId] at e
  · rfl
  · have := hn h2; omega
  · omega
  · have := hbase j; omega
  · have := hbase j; have := hlay j; omega
  · have := hn h1; omega
  · rfl
  · have := hn h1; omega
  · have := hn h1; have := hbase j; omega
  · have := hn h1; have := hbase j; have := hlay j; omega
  · omega
  · have := hn h2; omega
  · rfl
  · have := hbase j; omega
  · have := hbase j; have := hlay j; omega
  · have := hbase i; omega
  · have := hn h2; have := hbase i; omega
  · have := hbase i; omega
  · rcases Nat.lt_trichotomy i j with h | h | h
    · have := keyb i j h; omega
    · rw [h]
    · have := keyb j i h; omega
  · have := hnu h1
    have := hlay j
    rcases Nat.lt_trichotomy i j with h | h | h
    · have := keyb i j h; omega
    · subst h; omega
    · have := key j i hj hi h; omega
  · have := hbase i; have := hlay i; omega
  · have := hn h2; have := hbase i; have := hlay i; omega
  · have := hbase i; have := hlay i; omega
  · have := hnu h2
    have := hlay i
    rcases Nat.lt_trichotomy i j with h | h | h
    · have := key i j hi hj h; omega
    · subst h; omega
    · have := keyb j i h; omega
  · have h1 := hlay i
    have h2 := hlay j
    rcases Nat.lt_trichotomy i j with h | h | h
    · have := key i j hi hj h; omega
    · rw [h]
    · have := key j i hj hi h; omega

/-- First module of the layer at an entry. -/
def slotLow (c : MLPArgs K) (g : Geo) : Slot → ℕ
  | .inp => g.base + 1
  | .lay i => c.blk g i + c.nu
  | s => c.slotId g s

/-- The modules of different layers are different. -/
theorem slot_disjoint {c : MLPArgs K} {g : Geo} (hsh : 0 < g.sh) {s t : Slot}
    (hs : s ∈ c.plan) (ht : t ∈ c.plan) (hs' : s = .inp ∨ ∃ i, s = .lay i) (ht' : t = .inp ∨ ∃ i, t = .lay i) (hne : s ≠ t) {a b : ℕ}
    (ha : c.slotLow g s ≤ a) (ha' : a ≤ c.slotId g s) (hb : c.slotLow g t ≤ b) (hb' : b ≤ c.slotId g t) : a ≠ b := by
  have hbase := fun i => blk_base c g i
  have key : ∀ i j, i ≤ c.hiddenLayers → j ≤ c.hiddenLayers → i < j → c.layId g i < c.blk g j := by
    intro i j hi hj hij
    have h1 := layId_lt c hsh (i := i) (by omega)
    have h2 := blk_mono c g (Nat.succ_le_of_lt hij)
    exact lt_of_lt_of_le h1 h2
  have hle : ∀ i, Slot.lay i ∈ c.plan → i ≤ c.hiddenLayers := by
    intro i hi
    rcases mem_plan.1 hi with h | ⟨h, _⟩ | ⟨h, _⟩ | ⟨i', hi', h, _⟩ | ⟨i', hi', h⟩
    · cases h
    · cases h
    · cases h
    · cases h
    · cases h; exact hi'
  rcases hs' with rfl | ⟨i, rfl⟩ <;> rcases ht' with rfl | ⟨j, rfl⟩ <;> simp only [slotLow, slotId] at *
  · exact absurd rfl hne
  · have := hbase j; omega
  · have := hbase i; omega
  · rcases Nat.lt_trichotomy i j with h | h | h
    · have := key i j (hle i hs) (hle j ht) h; omega
    · subst h; exact absurd rfl hne
    · have := key j i (hle j ht) (hle i hs) h; omega

end MLPArgs

/-! ## equal functions -/

/-- `g` gives the same as `f` on `[batch, w]` inputs, and results have width `w'`. -/
def SameMap (f g : Fwd K) (w w' : ℕ) : Prop :=
  ∀ (B : ℕ) (x : Tensor K), x.shape = [B, w] → x.WF → g x = f x ∧ ∀ y, f x = .ok y → y.shape = [B, w'] ∧ y.WF

theorem SameMap.nil (w : ℕ) : SameMap (seqForward ([] : List (Fwd K))) (seqForward []) w w := by
  intro B x hx hwf
  refine ⟨rfl, ?_⟩
  intro y hy
  cases hy
  exact ⟨hx, hwf⟩

theorem SameMap.cons {f g : Fwd K} {fs gs : List (Fwd K)} {w w' w'' : ℕ} (h : SameMap f g w w')
    (hs : SameMap (seqForward fs) (seqForward gs) w' w'') : SameMap (seqForward (f :: fs)) (seqForward (g :: gs)) w w'' := by
  intro B x hx hwf
  obtain ⟨h1, h2⟩ := h B x hx hwf
  simp only [seqForward, h1]
  cases hf : f x with
  | error e => exact ⟨rfl, by intro y hy; cases hy⟩
  | ok y =>
    obtain ⟨h3, h4⟩ := h2 y hf
    exact hs B y h3 h4

theorem seqForward_append (fs gs : List (Fwd K)) (x : Tensor K) :
    seqForward (fs ++ gs) x = seqForward fs x >>= seqForward gs := by
  induction fs generalizing x with
  | nil => rfl
  | cons f fs ih =>
    simp only [List.cons_append, seqForward]
    cases hf : f x with
    | error e => rfl
    | ok y => exact ih y

theorem SameMap.append {fs gs fs' gs' : List (Fwd K)} {w w' w'' : ℕ} (h : SameMap (seqForward fs) (seqForward gs) w w')
    (hs : SameMap (seqForward fs') (seqForward gs') w' w'') :
    SameMap (seqForward (fs ++ fs')) (seqForward (gs ++ gs')) w w'' := by
  intro B x hx hwf
  obtain ⟨h1, h2⟩ := h B x hx hwf
  simp only [seqForward_append, h1]
  cases hf : seqForward fs x with
  | error e => exact ⟨rfl, by intro y hy; cases hy⟩
  | ok y =>
    obtain ⟨h3, h4⟩ := h2 y hf
    exact hs B y h3 h4

/-- The widths of `layer_list` fit together. -/
theorem plan_sameMap {c : MLPArgs K} {F G : Slot → Fwd K}
    (h : ∀ s ∈ c.plan, SameMap (F s) (G s) (c.slotW s).1 (c.slotW s).2) :
    SameMap (seqForward (c.plan.map F)) (seqForward (c.plan.map G)) c.inWidth c.outWidth := by
  have pre : ∀ i ≤ c.hiddenLayers, SameMap (seqForward ((c.prePlan i).map F)) (seqForward ((c.prePlan i).map G))
      c.hiddenWidth c.hiddenWidth := by
    intro i hi
    have : ∀ l : List Slot, (∀ s ∈ l, s ∈ c.plan ∧ c.slotW s = (c.hiddenWidth, c.hiddenWidth)) →
        SameMap (seqForward (l.map F)) (seqForward (l.map G)) c.hiddenWidth c.hiddenWidth := by
      intro l
      induction l with
      | nil => intro _; exact SameMap.nil _
      | cons s l ih =>
        intro hl
        obtain ⟨h1, h2⟩ := hl s (by simp)
        have h3 := h s h1
        rw [h2] at h3
        exact SameMap.cons h3 (ih fun t ht => hl t (by simp [ht]))
    apply this
    intro s hs
    constructor
    · unfold plan blockPlan
      simp only [List.mem_cons, List.mem_flatMap, List.mem_range, List.mem_append]
      exact Or.inr ⟨i, by omega, Or.inl hs⟩
    · unfold prePlan at hs
      simp only [List.mem_append] at hs
      rcases hs with (hs | hs) | hs <;> split at hs <;> simp at hs <;> subst hs <;> rfl
  have lay : ∀ i ≤ c.hiddenLayers, Slot.lay i ∈ c.plan := fun i hi => mem_plan.2 (by simp [hi])
  have blocks : ∀ k ≤ c.hiddenLayers, SameMap (seqForward (((List.range k).flatMap c.blockPlan).map F))
      (seqForward (((List.range k).flatMap c.blockPlan).map G)) c.hiddenWidth c.hiddenWidth := by
    intro k
    induction k with
    | zero => intro _; exact SameMap.nil _
    | succ k ih =>
      intro hk
      rw [List.range_succ, List.flatMap_append, List.flatMap_singleton, blockPlan, List.map_append, List.map_append,
        List.map_append, List.map_append]
      apply (ih (by omega)).append
      apply (pre k (by omega)).append
      have h1 := h _ (lay k (by omega))
      simp only [slotW, if_pos (show k < c.hiddenLayers by omega)] at h1
      exact SameMap.cons h1 (SameMap.nil _)
  unfold plan
  rw [List.map_cons, List.map_cons]
  apply SameMap.cons (h .inp (mem_plan.2 (Or.inl rfl)))
  simp only [slotW]
  rw [List.range_succ, List.flatMap_append, List.flatMap_singleton, blockPlan, List.map_append, List.map_append,
        List.map_append, List.map_append]
  apply (blocks _ le_rfl).append
  apply (pre _ le_rfl).append
  have h1 := h _ (lay c.hiddenLayers le_rfl)
  simp only [slotW, lt_irrefl, if_false] at h1
  exact SameMap.cons h1 (SameMap.nil _)

/-! ## product of two layers -/

theorem zipBcast_same (f : K → K → K) {s t : Tensor K} {B O : ℕ} (hs : s.shape = [B, O]) (ht : t.shape = [B, O]) :
    zipBcast f s t = .ok (Tensor.tab2 B O fun b o => f (s.get [b, o]) (t.get [b, o])) := by
  unfold zipBcast
  simp only [hs, ht, bcast_self, bind, Except.bind]
  congr 1
  apply tab2_congr
  intro b hb o ho
  rw [bidx_of_lt hb, bidx_of_lt ho]

theorem switch2_forward {call : ℕ → Fwd K} {I i j : ℕ} {x y z : Tensor K} {B O : ℕ} (hi : call i x = .ok y) (hj : call j x = .ok z)
    (hy : y.shape = [B, O]) (hz : z.shape = [B, O]) :
    (Mod.switch I [i, j] none : Mod K).forward call x = .ok (Tensor.tab2 B O fun b o => y.get [b, o] * z.get [b, o]) := by
  simp only [Mod.forward, List.mapM_cons, List.mapM_nil, hi, hj, bind, Except.bind, pure, Except.pure, mulAll]
  rw [zipBcast_same _ hy hz]
  simp only [hy]
  rw [if_pos (by rfl)]

/-! ## one layer -/

/-- The piecewise layer has these parameters. -/
def FcInfo.Is (t : FcInfo K) (L : PwLayer K) (per : Option K) : Prop :=
  L.WF ∧ L.cls = t.cls ∧ L.n = t.n ∧ L.segments = t.s ∧ L.inFeatures = t.I ∧ L.outFeatures = t.O ∧ L.length = ((2 : ℕ) : K) ∧
    L.periodicity = per

/-- The operation makes a layer with parameters `tb` compute what a layer with parameters `ta` computes. -/
def Exact (op : PwLayer K → PwLayer K → Eff (PwLayer K)) (ta tb : FcInfo K) : Prop :=
  ∀ La Lb per, (per = ta.per ∨ per = none) → ta.Is La per → tb.Is Lb per →
    ∃ w, op La Lb = (.ok (), { Lb with w := w }) ∧ w.shape = Lb.w.shape ∧
      ∀ (B : ℕ) (x : Tensor K), x.shape = [B, ta.I] → x.WF → ({ Lb with w := w } : PwLayer K).forward x = La.forward x

theorem isFc_pair {op : PwLayer K → PwLayer K → Eff (PwLayer K)} {ta tb : FcInfo K} (hop : Exact op ta tb) (hsw : tb.sw = ta.sw)
    (hper : tb.per = ta.per) {h : Heap K} {ia ib : ℕ} (ha : IsFc h ia ta) (hb : IsFc h ib tb) :
    PairOK op h (ia, ib) ∧ ((prims h (ia, ib)).map Prod.snd).Nodup ∧
      ∀ q ∈ prims h (ia, ib), ia + 1 ≤ q.1 + sizeOf tb.sw ∧ q.1 ≤ ia ∧ ib + 1 ≤ q.2 + sizeOf tb.sw ∧ q.2 ≤ ib := by
  unfold IsFc at ha hb
  have one : ∀ {i j per}, IsPw h i ta per → IsPw h j tb per → (per = ta.per ∨ per = none) →
      ∃ La Lb, h[i]? = some (.pw La) ∧ h[j]? = some (.pw Lb) ∧ (op La Lb).1 = .ok () := by
    rintro i j per ⟨La, e, ia⟩ ⟨Lb, e', ib⟩ hp
    obtain ⟨w, e1, _⟩ := hop La Lb per hp ia ib
    exact ⟨La, Lb, e, e', by rw [e1]⟩
  cases hs : ta.sw with
  | false =>
    rw [hs] at ha hsw
    rw [hsw] at hb ⊢
    simp only [Bool.false_eq_true, if_false] at ha hb
    rw [hper] at hb
    obtain ⟨La, Lb, e, e', ok⟩ := one ha hb (Or.inl rfl)
    have hpr : prims h (ia, ib) = [(ia, ib)] := by unfold prims; rw [e]
    refine ⟨Or.inl ⟨La, Lb, e, e', ok⟩, by rw [hpr]; simp, ?_⟩
    intro q hq
    rw [hpr, List.mem_singleton] at hq
    subst hq
    simp [sizeOf]
  | true =>
    rw [hs] at ha hsw
    rw [hsw] at hb ⊢
    simp only [if_true] at ha hb
    obtain ⟨a1, a2, a3, a4⟩ := ha
    obtain ⟨b1, b2, b3, b4⟩ := hb
    have hpr : prims h (ia, ib) = [(ia - 2, ib - 2), (ia - 1, ib - 1)] := by
      unfold prims; simp only [a2, b2]; rfl
    refine ⟨Or.inr (Or.inl ⟨_, _, _, _, a2, b2, ?_⟩), ?_, ?_⟩
    · intro q hq
      have hq' : q ∈ [(ia - 2, ib - 2), (ia - 1, ib - 1)] := hq
      simp only [List.mem_cons, List.not_mem_nil, or_false] at hq'
      rcases hq' with rfl | rfl
      · exact one a3 b3 (Or.inr rfl)
      · exact one a4 b4 (Or.inr rfl)
    · rw [hpr]
      simp only [List.map_cons, List.map_nil, List.nodup_cons, List.mem_singleton, List.not_mem_nil, not_false_eq_true, List.nodup_nil,
        and_true]
      omega
    · intro q hq
      rw [hpr] at hq
      simp only [List.mem_cons, List.not_mem_nil, or_false] at hq
      rcases hq with rfl | rfl <;> simp only [sizeOf, if_true] <;> omega

theorem PwLayer.forward_shape (L : PwLayer ℝ) (h : L.WF) {x : Tensor ℝ} {B : ℕ} (hx : x.shape = [B, L.inFeatures]) (hwf : x.WF) :
    ∃ y, L.forward x = .ok y ∧ y.shape = [B, L.outFeatures] ∧ y.WF :=
  ⟨_, L.forward_combine h hx hwf, rfl, Tensor.wf_tabulate _ _⟩

theorem isFc_sameMap {op : PwLayer ℝ → PwLayer ℝ → Eff (PwLayer ℝ)} {ta tb : FcInfo ℝ} (hop : Exact op ta tb) (hsw : tb.sw = ta.sw)
    (hper : tb.per = ta.per) {h h' : Heap ℝ} (ho : h.Ordered) (ho' : h'.Ordered) (sk : h.Skel h')
    {ia ib : ℕ} (ha : IsFc h ia ta) (hb : IsFc h ib tb)
    (htgt : ∀ q ∈ prims h (ia, ib), ∀ La Lb, h[q.1]? = some (.pw La) → h[q.2]? = some (.pw Lb) → h'[q.2]? = some (.pw (op La Lb).2)) :
    SameMap (h.forward ia) (h'.forward ib) ta.I ta.O := by
  unfold IsFc at ha hb
  have one : ∀ {i j per}, IsPw h i ta per → IsPw h j tb per → (per = ta.per ∨ per = none) → (i, j) ∈ prims h (ia, ib) →
      ∀ (B : ℕ) (x : Tensor ℝ), x.shape = [B, ta.I] → x.WF → ∃ y, h.forward i x = .ok y ∧ h'.forward j x = .ok y ∧
        y.shape = [B, ta.O] ∧ y.WF := by
    rintro i j per ⟨La, e, ia⟩ ⟨Lb, e', ib⟩ hp hq B x hx hwf
    obtain ⟨w, e1, e2, e3⟩ := hop La Lb per hp ia ib
    have e4 := htgt _ hq La Lb e e'
    rw [e1] at e4
    obtain ⟨y, y1, y2, y3⟩ := La.forward_shape ia.1 (B := B) (x := x) (by rw [ia.2.2.2.2.1]; exact hx) hwf
    refine ⟨y, ?_, ?_, by rw [y2, ia.2.2.2.2.2.1], y3⟩
    · rw [Heap.forward_eq ho e]; exact y1
    · rw [Heap.forward_eq ho' e4]; exact (e3 B x hx hwf).trans y1
  cases hs : ta.sw with
  | false =>
    rw [hs] at ha hsw
    rw [hsw] at hb
    simp only [Bool.false_eq_true, if_false] at ha hb
    rw [hper] at hb
    have hpr : prims h (ia, ib) = [(ia, ib)] := by obtain ⟨La, e, _⟩ := ha; unfold prims; rw [e]
    intro B x hx hwf
    obtain ⟨y, y1, y2, y3⟩ := one ha hb (Or.inl rfl) (by rw [hpr]; simp) B x hx hwf
    refine ⟨y2.trans y1.symm, ?_⟩
    intro z hz
    rw [y1] at hz; cases hz; exact y3
  | true =>
    rw [hs] at ha hsw
    rw [hsw] at hb
    simp only [if_true] at ha hb
    obtain ⟨a1, a2, a3, a4⟩ := ha
    obtain ⟨b1, b2, b3, b4⟩ := hb
    have hpr : prims h (ia, ib) = [(ia - 2, ib - 2), (ia - 1, ib - 1)] := by
      unfold prims; simp only [a2, b2]; rfl
    intro B x hx hwf
    obtain ⟨y, y1, y2, y3⟩ := one a3 b3 (Or.inr rfl) (by rw [hpr]; simp) B x hx hwf
    obtain ⟨z, z1, z2, z3⟩ := one a4 b4 (Or.inr rfl) (by rw [hpr]; simp) B x hx hwf
    have ea := switch2_forward (I := ta.I) y1 z1 y3.1 z3.1
    have eb := switch2_forward (I := tb.I) y2 z2 y3.1 z3.1
    rw [← Heap.forward_eq ho a2] at ea
    rw [← Heap.forward_eq ho' (sk.same b2 (by simp))] at eb
    refine ⟨eb.trans ea.symm, ?_⟩
    intro u hu
    rw [ea] at hu; cases hu
    exact ⟨rfl, Tensor.wf_tabulate _ _⟩

/-- A layer whose modules have not changed. -/
theorem IsFc.forward_frame {h h' : Heap K} (ho : h.Ordered) (ho' : h'.Ordered) {i : ℕ} {t : FcInfo K} (hi : IsFc h i t)
    (hs : ∀ j, i + 1 ≤ j + sizeOf t.sw → j ≤ i → h'[j]? = h[j]?) : h'.forward i = h.forward i := by
  symm
  apply Heap.forward_frame ho ho' (fun j => i + 1 ≤ j + sizeOf t.sw ∧ j ≤ i)
  · intro j hj; exact (hs j hj.1 hj.2).symm
  · intro j m hj hm k hk
    unfold IsFc at hi
    have pw : ∀ {j per}, IsPw h j t per → h[j]? = some m → False := by
      rintro j per ⟨L, e, _⟩ e'
      rw [e] at e'; cases e'
      simp [Mod.refs, Mod.hidden, Mod.children] at hk
    cases hsw : t.sw with
    | false =>
      rw [hsw] at hi hj
      simp only [Bool.false_eq_true, if_false, sizeOf] at hi hj
      have : j = i := by omega
      subst this
      exact absurd hm (pw hi)
    | true =>
      rw [hsw] at hi hj
      simp only [if_true, sizeOf] at hi hj ⊢
      obtain ⟨a1, a2, a3, a4⟩ := hi
      have : j = i ∨ j = i - 1 ∨ j = i - 2 := by omega
      rcases this with rfl | rfl | rfl
      · rw [a2] at hm; cases hm
        simp [Mod.refs, Mod.hidden, Mod.children] at hk
        omega
      · exact absurd hm (pw a4)
      · exact absurd hm (pw a3)
  · have := sizeOf_pos t.sw
    constructor <;> omega

/-! ## the whole network -/

theorem MLPArgs.SameArchitecture.plan {a b : MLPArgs K} (h : a.SameArchitecture b) : b.plan = a.plan := by
  unfold MLPArgs.plan MLPArgs.blockPlan MLPArgs.prePlan
  rw [h.hiddenLayers, h.normalization, h.nonLinearity, h.dropout]

theorem MLPArgs.fcInfo_some {c : MLPArgs K} {o : Orders} {swI sw : Bool} {clsI cls : PwClass} {s : Slot} {t : FcInfo K}
    (h : c.fcInfo o swI sw clsI cls s = some t) : (s = .inp ∧ t.sw = swI) ∨ ∃ i, s = .lay i ∧ t.sw = sw := by
  cases s with
  | inp => simp only [fcInfo, Option.some.injEq] at h; subst h; exact Or.inl ⟨rfl, rfl⟩
  | lay i =>
    right
    simp only [fcInfo] at h
    split at h <;> simp only [Option.some.injEq] at h <;> subst h <;> exact ⟨i, rfl, rfl⟩
  | _ => simp [fcInfo] at h

theorem MLPArgs.fcInfo_dims {c : MLPArgs K} {o : Orders} {swI sw : Bool} {clsI cls : PwClass} {s : Slot} {t : FcInfo K}
    (h : c.fcInfo o swI sw clsI cls s = some t) : c.slotW s = (t.I, t.O) ∧ t.per = c.periodicity := by
  cases s with
  | inp => simp only [fcInfo, Option.some.injEq] at h; subst h; exact ⟨rfl, rfl⟩
  | lay i =>
    simp only [fcInfo] at h
    split at h <;> simp only [Option.some.injEq] at h <;> subst h <;> rename_i hi <;> simp [slotW, hi]
  | _ => simp [fcInfo] at h

theorem MLPArgs.slotLow_eq {c : MLPArgs K} {swI sw : Bool} {base : ℕ} (hex : ∀ i < c.hiddenLayers, c.extra i = 0) :
    c.slotLow (geoOf swI sw base) .inp + sizeOf swI = c.slotId (geoOf swI sw base) .inp + 1 ∧
    ∀ i, c.slotLow (geoOf swI sw base) (.lay i) + sizeOf sw = c.slotId (geoOf swI sw base) (.lay i) + 1 := by
  have := sizeOf_pos sw
  constructor
  · simp only [slotLow, slotId, geoOf]; omega
  · intro i
    simp only [slotLow, slotId, layId, coreId, size, geoOf]
    by_cases hi : i < c.hiddenLayers
    · simp only [if_pos hi, hex i hi]; omega
    · simp only [if_neg hi]; omega

theorem MLPArgs.extra_zero {c : MLPArgs K} (hres : c.resnet = false ∨ c.hiddenLayers ≤ 1) : ∀ i < c.hiddenLayers, c.extra i = 0 := by
  intro i hi
  unfold extra
  rw [if_neg]
  rintro ⟨h1, h2⟩
  rcases hres with h3 | h3
  · rw [h3] at h1; cases h1
  · omega

/-- Refinement of a network by an operation that is exact for each pair of layers. -/
theorem pwNet_transfer {op : PwLayer ℝ → PwLayer ℝ → Eff (PwLayer ℝ)} {ca cb : MLPArgs ℝ} (hab : ca.SameArchitecture cb)
    (hres : ca.resnet = false ∨ ca.hiddenLayers ≤ 1)
    {oa ob : Orders} {swI sw : Bool} {clsI cls : PwClass} {nlF : Fwd ℝ} {baseA baseB : ℕ} {h : Heap ℝ} (ho : h.Ordered)
    (hA : PwNet ca (geoOf swI sw baseA) oa swI sw clsI cls nlF h) (hB : PwNet cb (geoOf swI sw baseB) ob swI sw clsI cls nlF h)
    (hsep : ca.netId (geoOf swI sw baseA) < baseB ∨ cb.netId (geoOf swI sw baseB) < baseA)
    (hnl : ∀ j ∈ ca.nonLinearity, j < baseA ∧ j < baseB)
    (hshape : ∀ s ∈ ca.plan, ca.fcInfo oa swI sw clsI cls s = none → KeepsShape (ca.slotFn nlF s) ca.hiddenWidth)
    (hop : ∀ s ta tb, ca.fcInfo oa swI sw clsI cls s = some ta → cb.fcInfo ob swI sw clsI cls s = some tb → Exact op ta tb) :
    ∃ h', transferNetwork op (ca.netId (geoOf swI sw baseA)) (cb.netId (geoOf swI sw baseB)) h = (.ok (), h') ∧
      (∀ j, (j < baseB ∨ cb.netId (geoOf swI sw baseB) ≤ j) → h'[j]? = h[j]?) ∧ h'.Ordered ∧
      h'.forward (ca.netId (geoOf swI sw baseA)) = h.forward (ca.netId (geoOf swI sw baseA)) ∧
      SameMap (h.forward (ca.netId (geoOf swI sw baseA))) (h'.forward (cb.netId (geoOf swI sw baseB))) ca.inWidth ca.outWidth := by
  set ga := geoOf swI sw baseA with hga
  set gb := geoOf swI sw baseB with hgb
  have hplan := hab.plan
  have hnlA : ∀ j ∈ ca.nonLinearity, j < ga.base := fun j hj => (hnl j hj).1
  have hidlt : ∀ s ∈ ca.plan, ca.slotId ga s < ca.netId ga - 1 := fun s hs =>
    slotId_lt (sizeOf_pos swI) (sizeOf_pos sw) (sizeOf_pos sw) hnlA hs
  have hnlB : ∀ j ∈ cb.nonLinearity, j < gb.base := by
    intro j hj
    rw [hab.nonLinearity] at hj
    exact (hnl j hj).2
  have hidltB : ∀ s ∈ ca.plan, cb.slotId gb s < cb.netId gb - 1 := fun s hs =>
    slotId_lt (sizeOf_pos swI) (sizeOf_pos sw) (sizeOf_pos sw) hnlB (by rw [hplan]; exact hs)
  have hlowA := MLPArgs.slotLow_eq (c := ca) (swI := swI) (sw := sw) (base := baseA) (MLPArgs.extra_zero hres)
  have hexB : ∀ i < cb.hiddenLayers, cb.extra i = 0 :=
    MLPArgs.extra_zero (by rw [hab.resnet, hab.hiddenLayers]; exact hres)
  have hlowB := MLPArgs.slotLow_eq (c := cb) (swI := swI) (sw := sw) (base := baseB) hexB
  set P := ca.plan.map fun s => (ca.slotId ga s, cb.slotId gb s) with hP
  have infoB : ∀ s ta, ca.fcInfo oa swI sw clsI cls s = some ta → ∃ tb, cb.fcInfo ob swI sw clsI cls s = some tb ∧ tb.sw = ta.sw ∧
      tb.per = ta.per := by
    intro s ta hta
    cases s with
    | inp => simp only [MLPArgs.fcInfo, Option.some.injEq] at hta ⊢; subst hta; exact ⟨_, rfl, rfl, hab.periodicity⟩
    | lay i =>
      simp only [MLPArgs.fcInfo] at hta ⊢
      rw [hab.hiddenLayers]
      split at hta <;> rename_i hi <;> simp only [Option.some.injEq] at hta <;> subst hta
      · rw [if_pos hi]; exact ⟨_, rfl, rfl, hab.periodicity⟩
      · rw [if_neg hi]; exact ⟨_, rfl, rfl, hab.periodicity⟩
    | _ => simp [MLPArgs.fcInfo] at hta
  have infoB' : ∀ s, ca.fcInfo oa swI sw clsI cls s = none → cb.fcInfo ob swI sw clsI cls s = none := by
    intro s hta
    cases s with
    | inp => simp [MLPArgs.fcInfo] at hta
    | lay i => simp only [MLPArgs.fcInfo] at hta; split at hta <;> simp at hta
    | _ => rfl
  have fnB : ∀ s, cb.slotFn nlF s = ca.slotFn nlF s := by
    intro s
    cases s <;> simp only [MLPArgs.slotFn]
    · exact hab.dropoutFn
    · rw [hab.normalization]
  -- facts about each pair
  have facts : ∀ s ∈ ca.plan, PairOK op h (ca.slotId ga s, cb.slotId gb s) ∧
      ((prims h (ca.slotId ga s, cb.slotId gb s)).map Prod.snd).Nodup ∧
      ∀ q ∈ prims h (ca.slotId ga s, cb.slotId gb s), (s = .inp ∨ ∃ i, s = .lay i) ∧ (ca.slotLow ga s ≤ q.1 ∧ q.1 ≤ ca.slotId ga s) ∧
        cb.slotLow gb s ≤ q.2 ∧ q.2 ≤ cb.slotId gb s := by
    intro s hs
    have sA := hA.slots s hs
    have sB := hB.slots s (by rw [hplan]; exact hs)
    cases hta : ca.fcInfo oa swI sw clsI cls s with
    | some ta =>
      obtain ⟨tb, htb, hsw, hper⟩ := infoB s ta hta
      rw [hta] at sA
      rw [htb] at sB
      obtain ⟨f1, f2, f3⟩ := isFc_pair (hop s ta tb hta htb) hsw hper sA sB
      refine ⟨f1, f2, ?_⟩
      intro q hq
      obtain ⟨g0, g1, g2, g3⟩ := f3 q hq
      refine ⟨?_, ⟨?_, g1⟩, ?_, g3⟩
      · rcases MLPArgs.fcInfo_some hta with ⟨e, _⟩ | ⟨i, e, _⟩
        · exact Or.inl e
        · exact Or.inr ⟨i, e⟩
      · rcases MLPArgs.fcInfo_some htb with ⟨rfl, e⟩ | ⟨i, rfl, e⟩
        · rw [e] at g0
          have := hlowA.1
          rw [← hga] at this
          omega
        · rw [e] at g0
          have := hlowA.2 i
          rw [← hga] at this
          omega
      · rcases MLPArgs.fcInfo_some htb with ⟨rfl, e⟩ | ⟨i, rfl, e⟩
        · rw [e] at g2
          have := hlowB.1
          rw [← hgb] at this
          omega
        · rw [e] at g2
          have := hlowB.2 i
          rw [← hgb] at this
          omega
    | none =>
      rw [hta] at sA
      rw [infoB' s hta] at sB
      simp only at sA sB
      rw [fnB] at sB
      have hpr : prims h (ca.slotId ga s, cb.slotId gb s) = [] := by unfold prims; rw [sA]
      refine ⟨Or.inr (Or.inr ⟨_, sA, sB⟩), by rw [hpr]; simp, ?_⟩
      intro q hq
      rw [hpr] at hq; cases hq
  have hlowbase : ∀ s, (s = .inp ∨ ∃ i, s = .lay i) → baseB ≤ cb.slotLow gb s := by
    rintro s (rfl | ⟨i, rfl⟩)
    · simp only [MLPArgs.slotLow]; exact Nat.le_succ _
    · simp only [MLPArgs.slotLow]
      have := blk_base cb gb i
      have e : gb.base = baseB := rfl
      omega
  have hlowbaseA : ∀ s, (s = .inp ∨ ∃ i, s = .lay i) → baseA ≤ ca.slotLow ga s := by
    rintro s (rfl | ⟨i, rfl⟩)
    · simp only [MLPArgs.slotLow]; exact Nat.le_succ _
    · simp only [MLPArgs.slotLow]
      have := blk_base ca ga i
      have e : ga.base = baseA := rfl
      omega
  have hmemP : ∀ p, p ∈ P ↔ ∃ s ∈ ca.plan, (ca.slotId ga s, cb.slotId gb s) = p := by
    intro p; rw [hP]; exact List.mem_map
  have hma : h.model (ca.netId ga) = .ok (ca.netId ga - 1) := by unfold Heap.model; rw [hA.net]
  have hmb : h.model (cb.netId gb) = .ok (cb.netId gb - 1) := by unfold Heap.model; rw [hB.net]
  have hsa : h[ca.netId ga - 1]? = some (.seq (P.map Prod.fst)) := by
    rw [hA.seq, hP, List.map_map]; rfl
  have hsb : h[cb.netId gb - 1]? = some (.seq (P.map Prod.snd)) := by
    rw [hB.seq, hP, List.map_map, hplan]; rfl
  have r1 : ∀ p ∈ P, ∀ q ∈ P, p.1 = q.1 → p = q := by
    intro p hp q hq e
    obtain ⟨s, hs, rfl⟩ := (hmemP p).1 hp
    obtain ⟨t, ht, rfl⟩ := (hmemP q).1 hq
    rw [slotId_inj (sizeOf_pos swI) (sizeOf_pos sw) (sizeOf_pos sw) hnlA hs ht e]
  have r2 : ∀ p ∈ P, ∀ q ∈ P, p.2 = q.2 → p = q := by
    intro p hp q hq e
    obtain ⟨s, hs, rfl⟩ := (hmemP p).1 hp
    obtain ⟨t, ht, rfl⟩ := (hmemP q).1 hq
    rw [slotId_inj (c := cb) (g := gb) (sizeOf_pos swI) (sizeOf_pos sw) (sizeOf_pos sw) hnlB (by rw [hplan]; exact hs)
      (by rw [hplan]; exact ht) e]
  have r3 : ∀ p ∈ P, PairOK op h p := by
    intro p hp
    obtain ⟨s, hs, rfl⟩ := (hmemP p).1 hp
    exact (facts s hs).1
  have r4 : ∀ p ∈ P, ((prims h p).map Prod.snd).Nodup := by
    intro p hp
    obtain ⟨s, hs, rfl⟩ := (hmemP p).1 hp
    exact (facts s hs).2.1
  have r5 : ∀ p ∈ P, ∀ q ∈ P, p ≠ q → ∀ s ∈ prims h p, ∀ t ∈ prims h q, s.2 ≠ t.2 := by
    intro p hp q hq hne u hu v hv
    obtain ⟨s, hs, rfl⟩ := (hmemP p).1 hp
    obtain ⟨t, ht, rfl⟩ := (hmemP q).1 hq
    obtain ⟨k1, k2, k3, k4⟩ := (facts s hs).2.2 u hu
    obtain ⟨l1, l2, l3, l4⟩ := (facts t ht).2.2 v hv
    exact slot_disjoint (c := cb) (g := gb) (sizeOf_pos sw) (by rw [hplan]; exact hs) (by rw [hplan]; exact ht) k1 l1
      (fun e => hne (by rw [e])) k3 k4 l3 l4
  have r6 : ∀ p ∈ P, ∀ q ∈ P, ∀ s ∈ prims h p, ∀ t ∈ prims h q, s.1 ≠ t.2 := by
    intro p hp q hq u hu v hv
    obtain ⟨s, hs, rfl⟩ := (hmemP p).1 hp
    obtain ⟨t, ht, rfl⟩ := (hmemP q).1 hq
    obtain ⟨k1, k2, k3, k4⟩ := (facts s hs).2.2 u hu
    obtain ⟨l1, l2, l3, l4⟩ := (facts t ht).2.2 v hv
    have := hlowbase t l1
    have := hlowbaseA s k1
    have := hidlt s hs
    have := hidltB t ht
    omega
  obtain ⟨h', e1, sk, fr, tg⟩ := transferNetwork_spec op ho hma hmb hsa hsb r1 r2 r3 r4 r5 r6
  have ho' := sk.ordered ho
  have frame : ∀ j, (j < baseB ∨ cb.netId gb ≤ j) → h'[j]? = h[j]? := by
    intro j hj
    apply fr
    intro p hp q hq e
    obtain ⟨s, hs, rfl⟩ := (hmemP p).1 hp
    obtain ⟨k1, k2, k3, k4⟩ := (facts s hs).2.2 q hq
    have := hlowbase s k1
    have := hidltB s hs
    omega
  have frameA : ∀ j, baseA ≤ j → j ≤ ca.netId ga → h'[j]? = h[j]? := by
    intro j h1 h2
    exact frame j (by omega)
  have fa' : ∀ {h : Heap ℝ}, h.Ordered → h[ca.netId ga]? = some (.mlp ga.base (ga.base + ga.si) (ca.layId ga ca.hiddenLayers) (ca.netId ga - 1)) →
      h[ca.netId ga - 1]? = some (.seq (ca.plan.map (ca.slotId ga))) →
      h.forward (ca.netId ga) = seqForward (ca.plan.map fun s => h.forward (ca.slotId ga s)) := by
    intro h ho n1 n2
    rw [Heap.forward_eq ho n1]
    funext x
    simp only [Mod.forward]
    rw [Heap.forward_eq ho n2]
    simp only [Mod.forward, List.map_map]
    rfl
  have fa := fa' ho hA.net hA.seq
  refine ⟨h', e1, frame, ho', ?_, ?_⟩
  · rw [fa, fa' ho' (sk.same hA.net (by simp)) (sk.same hA.seq (by simp))]
    congr 1
    apply List.map_congr_left
    intro s hs
    have sA := hA.slots s hs
    cases hta : ca.fcInfo oa swI sw clsI cls s with
    | some ta =>
      rw [hta] at sA
      apply IsFc.forward_frame ho ho' sA
      intro j j1 j2
      have := hidlt s hs
      rcases MLPArgs.fcInfo_some hta with ⟨rfl, e⟩ | ⟨i, rfl, e⟩
      · have h1 := hlowbaseA .inp (Or.inl rfl)
        have h2 := hlowA.1
        rw [e] at j1
        rw [← hga] at h2
        exact frameA j (by omega) (by omega)
      · have h1 := hlowbaseA (.lay i) (Or.inr ⟨i, rfl⟩)
        have h2 := hlowA.2 i
        rw [e] at j1
        rw [← hga] at h2
        exact frameA j (by omega) (by omega)
    | none =>
      rw [hta] at sA
      rw [Heap.forward_eq ho sA, Heap.forward_eq ho' (sk.same sA (by simp))]
      rfl
  -- forward
  have step : ∀ s ∈ ca.plan, SameMap (h.forward (ca.slotId ga s)) (h'.forward (cb.slotId gb s)) (ca.slotW s).1 (ca.slotW s).2 := by
    intro s hs
    have sA := hA.slots s hs
    have sB := hB.slots s (by rw [hplan]; exact hs)
    cases hta : ca.fcInfo oa swI sw clsI cls s with
    | some ta =>
      obtain ⟨tb, htb, hsw, hper⟩ := infoB s ta hta
      rw [hta] at sA
      rw [htb] at sB
      rw [(MLPArgs.fcInfo_dims hta).1]
      exact isFc_sameMap (hop s ta tb hta htb) hsw hper ho ho' sk sA sB
        fun q hq La Lb g1 g2 => tg _ ((hmemP _).2 ⟨s, hs, rfl⟩) q hq La Lb g1 g2
    | none =>
      rw [hta] at sA
      rw [infoB' s hta] at sB
      simp only at sA sB
      rw [fnB] at sB
      rw [Heap.forward_eq ho sA, Heap.forward_eq ho' (sk.same sB (by simp))]
      have hw : ca.slotW s = (ca.hiddenWidth, ca.hiddenWidth) := by
        cases s with
        | inp => simp [MLPArgs.fcInfo] at hta
        | lay i => simp only [MLPArgs.fcInfo] at hta; split at hta <;> simp at hta
        | _ => rfl
      rw [hw]
      intro B x hx hwf
      exact ⟨rfl, fun y hy => hshape s hs hta B x y hx hwf hy⟩
  have hall := plan_sameMap (F := fun s => h.forward (ca.slotId ga s)) (G := fun s => h'.forward (cb.slotId gb s)) step
  have fb : h'.forward (cb.netId gb) = seqForward (ca.plan.map fun s => h'.forward (cb.slotId gb s)) := by
    rw [Heap.forward_eq ho' (sk.same hB.net (by simp))]
    funext x
    simp only [Mod.forward]
    rw [Heap.forward_eq ho' (sk.same hB.seq (by simp)), hplan]
    simp only [Mod.forward, List.map_map]
    rfl
  rw [fa, fb]
  exact hall

end HOL
