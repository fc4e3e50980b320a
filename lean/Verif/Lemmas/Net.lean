import Verif.Lemmas.Shapes
import Verif.Lemmas.Reach

/-! # Networks built by `HighOrderMLP` -/

namespace HOL
open TorchScalar MLPArgs
variable {K : Type} [TorchScalar K]

set_option linter.unusedSectionVars false

/-- Is the entry of `layer_list` a layer? -/
def Slot.isLayer : Slot → Bool
  | .inp | .lay _ => true
  | _ => false

/-- A (trained) network. -/
structure Net (c : MLPArgs K) (kind kindIn : FcKind) (g : Geo) (nlF : Fwd K) (h : Heap K) : Prop where
  net : h[c.netId g]? = some (.mlp g.base (g.base + g.si) (c.layId g c.hiddenLayers) (c.netId g - 1))
  seq : h[c.netId g - 1]? = some (.seq (c.plan.map (c.slotId g)))
  drop : h[g.base]? = some (.other c.dropoutFn)
  inp : IsLayer kindIn c.inputArgs h (c.slotId g .inp)
  hid : ∀ i < c.hiddenLayers, IsLayer kind c.hiddenArgs h (c.coreId g i)
  out : IsLayer kind c.outputArgs h (c.layId g c.hiddenLayers)
  fns : ∀ s ∈ c.plan, s.isLayer = false → h[c.slotId g s]? = some (.other (c.slotFn nlF s))
  sums : c.resnet = true → ∀ i, 0 < i → i < c.hiddenLayers →
    h[c.layId g i]? = some (.sum [c.coreId g i, c.slotId g (c.prevSlot i)])

theorem Net.later {c : MLPArgs K} {kind kindIn : FcKind} {g : Geo} {nlF : Fwd K} {h h' : Heap K} (hn : Net c kind kindIn g nlF h)
    (ht : h.Later h') : Net c kind kindIn g nlF h' where
  net := ht.same hn.net rfl
  seq := ht.same hn.seq rfl
  drop := ht.same hn.drop rfl
  inp := hn.inp.later ht
  hid := fun i hi => (hn.hid i hi).later ht
  out := hn.out.later ht
  fns := fun s hs hl => ht.same (hn.fns s hs hl) rfl
  sums := fun hr i h1 h2 => ht.same (hn.sums hr i h1 h2) rfl

/-- The constructor builds such a network. -/
theorem mlpInit_net (rng : Rng K) {c : MLPArgs K} {kind kindIn : FcKind} (hk : fcTable.lookup c.layerType = some kind)
    (hki : fcTable.lookup (orStr c.layerTypeIn c.layerType) = some kindIn) (hI : Usable kindIn c.inputArgs)
    (hH : Usable kind c.hiddenArgs) (hO : Usable kind c.outputArgs) {h : Heap K} (hord : h.Ordered) {nlF : Fwd K}
    (hnl : ∀ j ∈ c.nonLinearity, h[j]? = some (.other nlF)) :
    ∃ g D, g = ⟨h.length, kindSize kindIn, kindSize kind, kindSize kind⟩ ∧ 0 < g.si ∧ 0 < g.sh ∧ 0 < g.so ∧ mlpInit rng c h = .ok (c.netId g, h ++ D) ∧
      (h ++ D).length = c.netId g + 1 ∧ (h ++ D : Heap K).Ordered ∧ Net c kind kindIn g nlF (h ++ D) := by
  obtain ⟨FI, bI⟩ := hI.builds rng
  obtain ⟨FH, bH⟩ := hH.builds rng
  obtain ⟨FO, bO⟩ := hO.builds rng
  obtain ⟨D, e1, e2, lay, e3⟩ := mlpInit_layout hk hki bI bH bO h
  have hnl' : ∀ j ∈ c.nonLinearity, j < h.length := fun j hj => (List.getElem?_eq_some_iff.1 (hnl j hj)).1
  refine ⟨⟨h.length, kindSize kindIn, kindSize kind, kindSize kind⟩, D, rfl, bI.pos, bH.pos, bO.pos, e1, e2, e3 hord hnl', ?_⟩
  set g : Geo := ⟨h.length, kindSize kindIn, kindSize kind, kindSize kind⟩ with hg
  refine ⟨lay.net, lay.model, lay.drop, ?_, ?_, ?_, ?_, lay.sums⟩
  · have := IsLayer.of_lookup bI (h := h ++ D) (base := h.length + 1) (fun k hk' => lay.inp k hk')
    have e : h.length + 1 + kindSize kindIn - 1 = c.slotId g .inp := by simp only [slotId, hg]; omega
    rw [e] at this
    exact this
  · intro i hi
    have := IsLayer.of_lookup bH (h := h ++ D) (base := c.blk g i + c.nu) (fun k hk' => lay.hid i hi k hk')
    have e : c.blk g i + c.nu + kindSize kind - 1 = c.coreId g i := by simp only [coreId, size, if_pos hi, hg]
    rw [e] at this
    exact this
  · have := IsLayer.of_lookup bO (h := h ++ D) (base := c.blk g c.hiddenLayers + c.nu) (fun k hk' => lay.out k hk')
    have e : c.blk g c.hiddenLayers + c.nu + kindSize kind - 1 = c.layId g c.hiddenLayers := by
      simp only [layId, coreId, size, lt_irrefl, if_false, hg]; omega
    rw [e] at this
    exact this
  · intro s hs hl
    rcases mem_plan.1 hs with rfl | ⟨rfl, hn⟩ | ⟨rfl, hn⟩ | ⟨i, hi, rfl, hn⟩ | ⟨i, hi, rfl⟩
    · cases hl
    · obtain ⟨j, hj⟩ := Option.isSome_iff_exists.1 hn
      simp only [slotId, hj, Option.getD_some, slotFn]
      rw [List.getElem?_append_left (hnl' j hj)]
      exact hnl j hj
    · exact lay.drop
    · obtain ⟨f, hf⟩ := Option.isSome_iff_exists.1 hn
      simp only [slotId, slotFn, hf, Option.getD_some]
      exact lay.norm f hf i hi
    · cases hl

/-! ## forward -/

theorem Net.forward_plan {c : MLPArgs K} {kind kindIn : FcKind} {g : Geo} {nlF : Fwd K} {h : Heap K} (hn : Net c kind kindIn g nlF h)
    (ho : h.Ordered) : h.forward (c.netId g) = seqForward (c.plan.map fun s => h.forward (c.slotId g s)) := by
  rw [Heap.forward_eq ho hn.net]
  funext x
  simp only [Mod.forward]
  rw [Heap.forward_eq ho hn.seq]
  simp only [Mod.forward, List.map_map]
  rfl

theorem Net.pre {c : MLPArgs K} {kind kindIn : FcKind} {g : Geo} {nlF : Fwd K} {h : Heap K} (hn : Net c kind kindIn g nlF h)
    (ho : h.Ordered) {i : ℕ} (hi : i ≤ c.hiddenLayers) : (c.prePlan i).map (fun s => h.forward (c.slotId g s)) = preFns c nlF := by
  have key : ∀ s ∈ c.prePlan i, h.forward (c.slotId g s) = c.slotFn nlF s := by
    intro s hs
    have hp : s ∈ c.plan := by
      unfold plan blockPlan
      simp only [List.mem_cons, List.mem_flatMap, List.mem_range, List.mem_append]
      exact Or.inr ⟨i, by omega, Or.inl hs⟩
    have hl : s.isLayer = false := by
      unfold prePlan at hs
      simp only [List.mem_append] at hs
      rcases hs with (hs | hs) | hs <;> split at hs <;> simp at hs <;> subst hs <;> rfl
    rw [Heap.forward_eq ho (hn.fns s hp hl)]
    rfl
  rw [List.map_congr_left key]
  unfold prePlan preFns
  cases hn0 : c.normalization <;> cases c.nonLinearity <;> by_cases hd : ltB 0 c.dropout = true <;> simp [hd, slotFn, hn0]

/-- The network as a composition. -/
theorem Net.forward_compose {c : MLPArgs K} {kind kindIn : FcKind} {g : Geo} {nlF : Fwd K} {h : Heap K} (hn : Net c kind kindIn g nlF h)
    (ho : h.Ordered) : h.forward (c.netId g) = compose (preFns c nlF) (h.forward (c.slotId g .inp))
      ((List.range (c.hiddenLayers + 1)).map fun i => h.forward (c.layId g i)) := by
  rw [hn.forward_plan ho]
  unfold plan compose
  rw [List.map_cons]
  congr 2
  rw [List.map_flatMap, List.flatMap_map, List.flatMap_def, List.flatMap_def]
  congr 1
  apply List.map_congr_left
  intro i hi
  rw [List.mem_range] at hi
  simp only [blockPlan, List.map_append, hn.pre ho (by omega : i ≤ c.hiddenLayers)]
  rfl

/-- Without `resnet` an entry is the layer itself. -/
theorem MLPArgs.layId_eq {c : MLPArgs K} (g : Geo) {i : ℕ} (hi : c.resnet = false ∨ i = 0 ∨ c.hiddenLayers ≤ i) : c.layId g i = c.coreId g i := by
  unfold layId extra
  split
  · rename_i hlt
    rw [if_neg]; · rfl
    rintro ⟨h1, h2⟩
    rcases hi with h | h | h
    · rw [h] at h1; cases h1
    · omega
    · omega
  · rfl

/-- The previous entry, as a function. -/
def prevFn (c : MLPArgs K) (g : Geo) (nlF : Fwd K) (h : Heap K) (i : ℕ) : Fwd K :=
  (preFns c nlF).getLastD (h.forward (c.layId g (i - 1)))

theorem Net.forward_prev {c : MLPArgs K} {kind kindIn : FcKind} {g : Geo} {nlF : Fwd K} {h : Heap K} (hn : Net c kind kindIn g nlF h)
    (ho : h.Ordered) {i : ℕ} (hi : 0 < i) (hi' : i < c.hiddenLayers) : h.forward (c.slotId g (c.prevSlot i)) = prevFn c g nlF h i := by
  unfold prevFn prevSlot
  rw [← hn.pre ho (le_of_lt hi'), if_neg (by omega)]
  rw [← getLastD_map (fun s => h.forward (c.slotId g s))]
  rfl

/-- With `resnet`, entry `i > 0` adds the hidden layer and the previous entry, both applied to the same input. -/
theorem Net.forward_sum {c : MLPArgs K} {kind kindIn : FcKind} {g : Geo} {nlF : Fwd K} {h : Heap K} (hn : Net c kind kindIn g nlF h)
    (ho : h.Ordered) (hr : c.resnet = true) {i : ℕ} (hi : 0 < i) (hi' : i < c.hiddenLayers) (y : Tensor K) :
    h.forward (c.layId g i) y = (do
      let u ← h.forward (c.coreId g i) y
      let v ← prevFn c g nlF h i y
      zipBcast (· + ·) u v) := by
  rw [Heap.forward_eq ho (hn.sums hr i hi hi')]
  simp only [Mod.forward, List.mapM_cons, List.mapM_nil]
  rw [hn.forward_prev ho hi hi']
  cases h.forward (c.coreId g i) y with
  | error e => rfl
  | ok u =>
    cases prevFn c g nlF h i y with
    | error e => rfl
    | ok v => rfl

theorem Net.forward_resEntry {c : MLPArgs K} {kind kindIn : FcKind} {g : Geo} {nlF : Fwd K} {h : Heap K} (hn : Net c kind kindIn g nlF h)
    (ho : h.Ordered) (hr : c.resnet = true) : ∀ i < c.hiddenLayers,
      h.forward (c.layId g i) = resEntry (preFns c nlF) (fun j => h.forward (c.coreId g j)) i := by
  intro i
  induction i with
  | zero =>
    intro hi
    rw [MLPArgs.layId_eq g (Or.inr (Or.inl rfl))]
    rfl
  | succ i ih =>
    intro hi
    funext y
    rw [hn.forward_sum ho hr (Nat.succ_pos i) hi]
    unfold prevFn
    rw [show i.succ - 1 = i from rfl, ih (by omega)]
    rfl

/-! ## shapes -/

theorem MapsTo.nil (w : ℕ) : MapsTo (seqForward ([] : List (Fwd K))) w w := fun _ x hx hwf => ⟨x, rfl, hx, hwf⟩

theorem MapsTo.cons {f : Fwd K} {fs : List (Fwd K)} {w w' w'' : ℕ} (h : MapsTo f w w') (hs : MapsTo (seqForward fs) w' w'') :
    MapsTo (seqForward (f :: fs)) w w'' := by
  intro B x hx hwf
  obtain ⟨y, y1, y2, y3⟩ := h B x hx hwf
  obtain ⟨z, z1, z2, z3⟩ := hs B y y2 y3
  exact ⟨z, by simp only [seqForward, y1]; exact z1, z2, z3⟩

theorem MapsTo.append {fs gs : List (Fwd K)} {w w' w'' : ℕ} (h : MapsTo (seqForward fs) w w') (hs : MapsTo (seqForward gs) w' w'') :
    MapsTo (seqForward (fs ++ gs)) w w'' := by
  intro B x hx hwf
  obtain ⟨y, y1, y2, y3⟩ := h B x hx hwf
  obtain ⟨z, z1, z2, z3⟩ := hs B y y2 y3
  exact ⟨z, by rw [seqForward_append, y1]; exact z1, z2, z3⟩

theorem MapsTo.all {fs : List (Fwd K)} {w : ℕ} (h : ∀ f ∈ fs, MapsTo f w w) : MapsTo (seqForward fs) w w := by
  induction fs with
  | nil => exact MapsTo.nil w
  | cons f fs ih => exact MapsTo.cons (h f (by simp)) (ih fun g hg => h g (by simp [hg]))

theorem MapsTo.compose {pre : List (Fwd K)} {input : Fwd K} {E : ℕ → Fwd K} {H w0 w w1 : ℕ} (hpre : ∀ f ∈ pre, MapsTo f w w)
    (hin : MapsTo input w0 w) (hE : ∀ i < H, MapsTo (E i) w w) (hO : MapsTo (E H) w w1) :
    MapsTo (compose pre input ((List.range (H + 1)).map E)) w0 w1 := by
  unfold HOL.compose
  apply MapsTo.cons hin
  rw [List.range_succ, List.map_append, List.flatMap_append, List.map_singleton, List.flatMap_singleton]
  have blocks : ∀ k ≤ H, MapsTo (seqForward (((List.range k).map E).flatMap fun l => pre ++ [l])) w w := by
    intro k
    induction k with
    | zero => intro _; exact MapsTo.nil w
    | succ k ih =>
      intro hk
      rw [List.range_succ, List.map_append, List.flatMap_append, List.map_singleton, List.flatMap_singleton]
      exact (ih (by omega)).append ((MapsTo.all hpre).append (MapsTo.cons (hE k (by omega)) (MapsTo.nil w)))
  exact (blocks H le_rfl).append ((MapsTo.all hpre).append (MapsTo.cons hO (MapsTo.nil w1)))

theorem MapsTo.sum {f g : Fwd K} {w w' : ℕ} (hf : MapsTo f w w') (hg : MapsTo g w w') :
    MapsTo (fun y => do
      let u ← f y
      let v ← g y
      zipBcast (· + ·) u v) w w' := by
  intro B x hx hwf
  obtain ⟨y, y1, y2, y3⟩ := hf B x hx hwf
  obtain ⟨z, z1, z2, z3⟩ := hg B x hx hwf
  refine ⟨Tensor.tab2 B w' fun b o => y.get [b, o] + z.get [b, o], ?_, rfl, Tensor.wf_tab2 _ _ _⟩
  simp only [y1, z1, bind, Except.bind]
  exact zipBcast_same _ y2 z2

/-- Entries keep the width. -/
theorem Net.entry_mapsTo {c : MLPArgs ℝ} {kind kindIn : FcKind} {g : Geo} {nlF : Fwd ℝ} {h : Heap ℝ} (hn : Net c kind kindIn g nlF h)
    (ho : h.Ordered) (hH : Usable kind c.hiddenArgs) (hpre : ∀ f ∈ preFns c nlF, MapsTo f c.hiddenWidth c.hiddenWidth) :
    ∀ i < c.hiddenLayers, MapsTo (h.forward (c.layId g i)) c.hiddenWidth c.hiddenWidth := by
  intro i
  induction i with
  | zero =>
    intro hi
    rw [MLPArgs.layId_eq g (Or.inr (Or.inl rfl))]
    exact (hn.hid 0 hi).mapsTo hH ho
  | succ i ih =>
    intro hi
    cases hr : c.resnet with
    | false =>
      rw [MLPArgs.layId_eq g (Or.inl hr)]
      exact (hn.hid _ hi).mapsTo hH ho
    | true =>
      have h1 := (hn.hid _ hi).mapsTo hH ho
      have h2 : MapsTo (prevFn c g nlF h (i + 1)) c.hiddenWidth c.hiddenWidth := by
        unfold prevFn
        rcases hl : (preFns c nlF).getLast? with _ | f
        · rw [List.getLast?_eq_none_iff] at hl
          rw [hl]
          exact ih (by omega)
        · rw [List.getLastD_eq_getLast?, hl]
          exact hpre f (List.mem_of_getLast? hl)
      have := MapsTo.sum h1 h2
      intro B x hx hwf
      obtain ⟨y, y1, y2⟩ := this B x hx hwf
      exact ⟨y, by rw [hn.forward_sum ho hr (Nat.succ_pos i) hi]; exact y1, y2⟩

theorem Net.mapsTo {c : MLPArgs ℝ} {kind kindIn : FcKind} {g : Geo} {nlF : Fwd ℝ} {h : Heap ℝ} (hn : Net c kind kindIn g nlF h)
    (ho : h.Ordered) (hI : Usable kindIn c.inputArgs) (hH : Usable kind c.hiddenArgs) (hO : Usable kind c.outputArgs)
    (hpre : ∀ f ∈ preFns c nlF, MapsTo f c.hiddenWidth c.hiddenWidth) :
    MapsTo (h.forward (c.netId g)) c.inWidth c.outWidth := by
  rw [hn.forward_compose ho]
  exact MapsTo.compose hpre (hn.inp.mapsTo hI ho) (hn.entry_mapsTo ho hH hpre) (hn.out.mapsTo hO ho)

/-! ## distinct layers -/

theorem MLPArgs.coreId_bounds (c : MLPArgs K) {g : Geo} (hsh : 0 < g.sh) {i : ℕ} (hi : i < c.hiddenLayers) :
    g.base + g.si < c.coreId g i ∧ c.coreId g i < c.blk g (i + 1) := by
  have := blk_base c g i
  rw [blk_succ]; simp only [coreId, size, if_pos hi]
  omega

theorem MLPArgs.layers_nodup (c : MLPArgs K) {g : Geo} (hsh : 0 < g.sh) (hso : 0 < g.so) :
    (c.slotId g .inp :: c.layId g c.hiddenLayers :: (List.range c.hiddenLayers).map (c.coreId g)).Nodup := by
  have hb := blk_base c g c.hiddenLayers
  have hl : c.blk g c.hiddenLayers ≤ c.layId g c.hiddenLayers := by
    have := layId_bounds c hsh hso c.hiddenLayers; have := c.size_pos hsh hso c.hiddenLayers; omega
  have hlt : ∀ i j, i < j → j ≤ c.hiddenLayers → c.coreId g i < c.blk g j := fun i j hij hj =>
    lt_of_lt_of_le (c.coreId_bounds hsh (by omega)).2 (blk_mono c g hij)
  refine List.nodup_cons.2 ⟨?_, List.nodup_cons.2 ⟨?_, ?_⟩⟩
  · simp only [List.mem_cons, List.mem_map, List.mem_range, not_or, not_exists, not_and, slotId]
    refine ⟨by omega, fun i hi e => ?_⟩
    have := (c.coreId_bounds hsh hi).1
    omega
  · simp only [List.mem_map, List.mem_range, not_exists, not_and]
    intro i hi e
    have := hlt i _ hi le_rfl
    omega
  · apply List.Nodup.map_on _ List.nodup_range
    intro i hi j hj e
    rw [List.mem_range] at hi hj
    have hge : ∀ k < c.hiddenLayers, c.blk g k ≤ c.coreId g k := fun k hk => by
      simp only [coreId, size, if_pos hk]; omega
    rcases Nat.lt_trichotomy i j with h | h | h
    · have := hlt i j h (by omega); have := hge j hj; omega
    · exact h
    · have := hlt j i h (by omega); have := hge i hi; omega

/-! ## closed sets of modules -/

/-- Everything reached from `i` through `next` satisfies `P`. -/
inductive Hered (next : Mod K → List ℕ) (P : ℕ → Mod K → Prop) (h : Heap K) : ℕ → Prop
  | mk {i : ℕ} {m : Mod K} (hm : h[i]? = some m) (hP : P i m) (hc : ∀ j ∈ next m, Hered next P h j) : Hered next P h i

theorem Hered.mono {next : Mod K → List ℕ} {P Q : ℕ → Mod K → Prop} {h : Heap K} {i : ℕ} (hh : Hered next P h i)
    (hPQ : ∀ j m, P j m → Q j m) : Hered next Q h i := by
  induction hh with
  | mk hm hP hc ih => exact .mk hm (hPQ _ _ hP) ih

theorem Hered.sub {next : Mod K → List ℕ} (hsub : ∀ m : Mod K, ∀ j ∈ next m, j ∈ m.refs) {P : ℕ → Mod K → Prop} {h : Heap K} {i : ℕ}
    (hh : Hered Mod.refs P h i) : Hered next P h i := by
  induction hh with
  | mk hm hP hc ih => exact .mk hm hP fun j hj => ih j (hsub _ j hj)

/-- Registered modules are used. -/
theorem Hered.children {P : ℕ → Mod K → Prop} {h : Heap K} {i : ℕ} (hh : Hered Mod.refs P h i) : Hered Mod.children P h i := by
  induction hh with
  | mk hm hP hc ih => exact .mk hm hP fun j hj => ih j (by simp [Mod.refs, hj])

theorem Hered.child {P : ℕ → Mod K → Prop} {h : Heap K} {i j : ℕ} (hh : Hered Mod.children P h i)
    (hr : Relation.ReflTransGen h.Child i j) : ∃ m, h[j]? = some m ∧ P j m := by
  have key : Hered Mod.children P h j := by
    induction hr with
    | refl => exact hh
    | tail _ hc ih =>
      obtain ⟨m, hm, hj⟩ := hc
      cases ih with
      | mk hm' hP hc' => rw [hm] at hm'; cases hm'; exact hc' _ hj
  cases key with
  | mk hm hP _ => exact ⟨_, hm, hP⟩

theorem Hered.uses {P : ℕ → Mod K → Prop} {h : Heap K} {i j : ℕ} (hh : Hered Mod.refs P h i)
    (hr : Relation.ReflTransGen h.Uses i j) : ∃ m, h[j]? = some m ∧ P j m := by
  have key : Hered Mod.refs P h j := by
    induction hr with
    | refl => exact hh
    | tail _ hc ih =>
      obtain ⟨m, hm, hj⟩ := hc
      cases ih with
      | mk hm' hP hc' => rw [hm] at hm'; cases hm'; exact hc' _ (by simpa [Mod.refs] using hj)
  cases key with
  | mk hm hP _ => exact ⟨_, hm, hP⟩

/-- If nothing used is hidden, what is used is registered. -/
theorem Hered.reach {h : Heap K} {i j : ℕ} (hh : Hered Mod.refs (fun _ m => m.hidden = []) h i)
    (hr : Relation.ReflTransGen h.Uses i j) : Relation.ReflTransGen h.Child i j := by
  induction hr with
  | refl => exact .refl
  | tail hr hc ih =>
    refine ih.tail ?_
    obtain ⟨m, hm, hj⟩ := hc
    obtain ⟨m', hm', hP⟩ := hh.uses hr
    rw [hm] at hm'
    cases hm'
    rw [hP] at hj
    exact ⟨m, hm, by simpa using hj⟩

theorem Mod.Trained.hidden {m m' : Mod K} (h : m.Trained m') : m'.hidden = m.hidden ∧ m'.children = m.children ∧ m'.hasParams = m.hasParams := by
  cases h <;> exact ⟨rfl, rfl, rfl⟩

/-- The modules of a layer. -/
theorem IsLayer.hered {kind : FcKind} {a : FcArgs K} (hu : Usable kind a) {h : Heap K} {j : ℕ} (hl : IsLayer kind a h j) :
    Hered Mod.refs (fun k m => j < k + kindSize kind ∧ k ≤ j ∧ ((∀ cls, kind ≠ .switch cls) → m.hidden = []) ∧
      (k = j → (∃ cls, kind = .switch cls) → m.hasParams = false ∧ m.children = [])) h j := by
  obtain ⟨rng, base, ms, e1, e2, e3⟩ := hl
  have leaf1 : ∀ (k : LeafKind) (m : Mod K), kind = .leaf k → ms = [m] → m.refs = [] →
      Hered Mod.refs (fun k m => j < k + kindSize kind ∧ k ≤ j ∧ ((∀ cls, kind ≠ .switch cls) → m.hidden = []) ∧
        (k = j → (∃ cls, kind = .switch cls) → m.hasParams = false ∧ m.children = [])) h j := by
    rintro k m rfl rfl hr
    have hj : j = base + 0 := by simpa using e2
    obtain ⟨m', f1, f2⟩ := e3 0 m rfl
    obtain ⟨g1, g2, -⟩ := f2.hidden
    have hr' : m'.refs = [] := by unfold Mod.refs; rw [g1, g2]; exact hr
    refine .mk (by rw [hj]; exact f1) ⟨?_, le_rfl, fun _ => ?_, ?_⟩ ?_
    · have : 0 < kindSize (.leaf k) := by unfold kindSize; split <;> omega
      omega
    · exact (List.append_eq_nil_iff.1 hr').1
    · rintro - ⟨cls, hc⟩; cases hc
    · intro i hi; rw [hr'] at hi; cases hi
  match kind, hu with
  | .leaf .linear, _ => cases e1; exact leaf1 _ _ rfl rfl rfl
  | .leaf .product, _ => cases e1; exact leaf1 _ _ rfl rfl rfl
  | .leaf .linearRelu, _ =>
    cases e1
    have hj : j = base + 1 := by simp at e2; omega
    obtain ⟨m0, f1, f2⟩ := e3 0 _ rfl
    obtain ⟨m1, f3, f4⟩ := e3 1 _ rfl
    cases f4
    refine .mk (by rw [hj]; exact f3) ⟨by simp only [kindSize]; omega, le_rfl, fun _ => rfl, ?_⟩ ?_
    · rintro - ⟨cls, hc⟩; cases hc
    · intro i hi
      have : i = base + 0 := by simpa [Mod.refs, Mod.hidden, Mod.children] using hi
      subst this
      obtain ⟨g1, g2, -⟩ := f2.hidden
      refine .mk f1 ⟨by simp only [kindSize]; omega, by omega, fun _ => by rw [g1]; rfl, ?_⟩ ?_
      · rintro - ⟨cls, hc⟩; cases hc
      · intro i hi
        rw [Mod.refs, g1, g2] at hi
        cases hi
  | .leaf (.pw cls), ⟨n, s, hn, hs, _⟩ =>
    simp only [fcMods, leafMods, hn, hs] at e1
    cases e1; exact leaf1 _ _ rfl rfl rfl
  | .switch cls, ⟨⟨n, s, hn, hs, _⟩, hnum⟩ =>
    have hb := pwF_builds rng true cls a hn hs hnum
    have e1' : fcMods rng (.switch cls) a base = .ok (pwF rng true cls a n s base) := hb.ok base
    rw [e1'] at e1
    cases e1
    have hj : j = base + 2 := by simp [pwF] at e2; omega
    obtain ⟨m0, f1, f2⟩ := e3 0 _ rfl
    obtain ⟨m1, f3, f4⟩ := e3 1 _ rfl
    obtain ⟨m2, f5, f6⟩ := e3 2 _ rfl
    cases f6
    refine .mk (by rw [hj]; exact f5) ⟨by simp only [kindSize]; omega, le_rfl, fun hc => absurd rfl (hc cls), fun _ _ => ⟨rfl, rfl⟩⟩ ?_
    intro i hi
    have : i = base + 0 ∨ i = base + 1 := by simpa [Mod.refs, Mod.hidden, Mod.children] using hi
    rcases this with rfl | rfl
    · obtain ⟨g1, g2, -⟩ := f2.hidden
      refine .mk f1 ⟨by simp only [kindSize]; omega, by omega, fun hc => absurd rfl (hc cls), fun he => by omega⟩ ?_
      intro i hi
      rw [Mod.refs, g1, g2] at hi
      cases hi
    · obtain ⟨g1, g2, -⟩ := f4.hidden
      refine .mk f3 ⟨by simp only [kindSize]; omega, by omega, fun hc => absurd rfl (hc cls), fun he => by omega⟩ ?_
      intro i hi
      rw [Mod.refs, g1, g2] at hi
      cases hi
  | .leaf .polynomial, ⟨n, hn, hpos⟩ =>
    simp only [fcMods, leafMods, hn, polynomialInit, FnLayer.init] at e1
    rw [lagrangePolyFlat_numBasis hpos] at e1
    cases e1; exact leaf1 _ _ rfl rfl rfl
  | .leaf .fourier, ⟨n, hn, hpos⟩ =>
    obtain ⟨F, hF⟩ := Usable.builds (K := K) rng (kind := .leaf .fourier) (a := a) ⟨n, hn, hpos⟩
    simp only [fcMods, leafMods, hn, fourierSeriesInit, FnLayer.init] at e1
    cases e1; exact leaf1 _ _ rfl rfl rfl

theorem Net.hered {c : MLPArgs K} {kind kindIn : FcKind} {g : Geo} {nlF : Fwd K} {h : Heap K} (hn : Net c kind kindIn g nlF h)
    {next : Mod K → List ℕ} (hnx : ∀ m : Mod K, m.hidden = [] → next m = m.children) {P : ℕ → Mod K → Prop}
    (hnet : ∀ a b c' d, P (c.netId g) (.mlp a b c' d)) (hseq : ∀ cs, P (c.netId g - 1) (.seq cs)) (hdrop : ∀ f, P g.base (.other f))
    (hslot : ∀ s ∈ c.plan, Hered next P h (c.slotId g s)) : Hered next P h (c.netId g) := by
  refine .mk hn.net (hnet _ _ _ _) ?_
  intro j hj
  rw [hnx _ rfl] at hj
  simp only [Mod.children, List.mem_cons, List.not_mem_nil, or_false] at hj
  rcases hj with rfl | rfl | rfl | rfl
  · refine .mk hn.drop (hdrop _) ?_
    intro j hj
    rw [hnx _ rfl] at hj
    cases hj
  · exact hslot .inp (MLPArgs.mem_plan.2 (Or.inl rfl))
  · exact hslot (.lay c.hiddenLayers) (MLPArgs.mem_plan.2 (Or.inr (Or.inr (Or.inr (Or.inr ⟨_, le_rfl, rfl⟩)))))
  · refine .mk hn.seq (hseq _) ?_
    intro j hj
    rw [hnx _ rfl] at hj
    simp only [Mod.children, List.mem_map] at hj
    obtain ⟨s, hs, rfl⟩ := hj
    exact hslot s hs

/-- An entry that is not a layer. -/
theorem Net.hered_fn {c : MLPArgs K} {kind kindIn : FcKind} {g : Geo} {nlF : Fwd K} {h : Heap K} (hn : Net c kind kindIn g nlF h)
    {next : Mod K → List ℕ} (hnx : ∀ m : Mod K, m.hidden = [] → next m = m.children) {P : ℕ → Mod K → Prop} {s : Slot}
    (hs : s ∈ c.plan) (hl : s.isLayer = false) (hP : ∀ f, P (c.slotId g s) (.other f)) : Hered next P h (c.slotId g s) := by
  refine .mk (hn.fns s hs hl) (hP _) ?_
  intro j hj
  rw [hnx _ rfl] at hj
  cases hj

/-- Without sums everything used is registered, unless there are switch layers. -/
theorem Net.plain {c : MLPArgs K} {kind kindIn : FcKind} {g : Geo} {nlF : Fwd K} {h : Heap K} (hn : Net c kind kindIn g nlF h)
    (hI : Usable kindIn c.inputArgs) (hH : Usable kind c.hiddenArgs) (hO : Usable kind c.outputArgs)
    (hk : ∀ cls, kind ≠ .switch cls) (hki : ∀ cls, kindIn ≠ .switch cls) (hres : c.resnet = false ∨ c.hiddenLayers ≤ 1) :
    Hered Mod.refs (fun _ m => m.hidden = []) h (c.netId g) := by
  apply hn.hered (fun m hm => by rw [Mod.refs, hm]; rfl) (fun _ _ _ _ => rfl) (fun _ => rfl) (fun _ => rfl)
  intro s hs
  rcases MLPArgs.mem_plan.1 hs with rfl | ⟨rfl, h1⟩ | ⟨rfl, h1⟩ | ⟨i, hi, rfl, h1⟩ | ⟨i, hi, rfl⟩
  · exact (hn.inp.hered hI).mono fun _ _ h => h.2.2.1 hki
  · exact hn.hered_fn (fun m hm => by rw [Mod.refs, hm]; rfl) hs rfl fun _ => rfl
  · exact hn.hered_fn (fun m hm => by rw [Mod.refs, hm]; rfl) hs rfl fun _ => rfl
  · exact hn.hered_fn (fun m hm => by rw [Mod.refs, hm]; rfl) hs rfl fun _ => rfl
  · by_cases hlt : i < c.hiddenLayers
    · have e : c.slotId g (.lay i) = c.coreId g i := MLPArgs.layId_eq g (by
        rcases hres with h | h
        · exact Or.inl h
        · exact Or.inr (Or.inl (by omega)))
      rw [e]
      exact ((hn.hid i hlt).hered hH).mono fun _ _ h => h.2.2.1 hk
    · have : i = c.hiddenLayers := by omega
      subst this
      exact (hn.out.hered hO).mono fun _ _ h => h.2.2.1 hk

/-- All layers switch layers: nothing registered has parameters. -/
theorem Net.noParams {c : MLPArgs K} {kind kindIn : FcKind} {g : Geo} {nlF : Fwd K} {h : Heap K} (hn : Net c kind kindIn g nlF h)
    (hI : Usable kindIn c.inputArgs) (hH : Usable kind c.hiddenArgs) (hO : Usable kind c.outputArgs)
    (hk : ∃ cls, kind = .switch cls) (hki : ∃ cls, kindIn = .switch cls) :
    Hered Mod.children (fun _ m => m.hasParams = false) h (c.netId g) := by
  have layer : ∀ {kd : FcKind} {a : FcArgs K} {j : ℕ}, (∃ cls, kd = .switch cls) → Usable kd a → IsLayer kd a h j →
      Hered Mod.children (fun _ m => m.hasParams = false) h j := by
    intro kd a j hc hu hl
    cases hl.hered hu with
    | mk hm hP _ =>
      obtain ⟨q1, q2⟩ := hP.2.2.2 rfl hc
      exact .mk hm q1 fun i hi => by rw [q2] at hi; cases hi
  apply hn.hered (fun m hm => rfl) (fun _ _ _ _ => rfl) (fun _ => rfl) (fun _ => rfl)
  intro s hs
  rcases MLPArgs.mem_plan.1 hs with rfl | ⟨rfl, h1⟩ | ⟨rfl, h1⟩ | ⟨i, hi, rfl, h1⟩ | ⟨i, hi, rfl⟩
  · exact layer hki hI hn.inp
  · exact hn.hered_fn (fun m hm => rfl) hs rfl fun _ => rfl
  · exact hn.hered_fn (fun m hm => rfl) hs rfl fun _ => rfl
  · exact hn.hered_fn (fun m hm => rfl) hs rfl fun _ => rfl
  · by_cases hlt : i < c.hiddenLayers
    · by_cases hs' : c.resnet = true ∧ 0 < i
      · exact .mk (hn.sums hs'.1 i hs'.2 hlt) rfl fun j hj => by cases hj
      · have e : c.slotId g (.lay i) = c.coreId g i := MLPArgs.layId_eq g (by
          rcases Nat.eq_zero_or_pos i with h | h
          · exact Or.inr (Or.inl h)
          · refine Or.inl ?_
            cases hr : c.resnet with
            | false => rfl
            | true => exact absurd ⟨hr, h⟩ hs')
        rw [e]
        exact layer hk hH (hn.hid i hlt)
    · have : i = c.hiddenLayers := by omega
      subst this
      exact layer hk hO hn.out

/-- With `resnet` the modules of hidden layer `i > 0` are not reached by a traversal that does not enter sums. -/
theorem Net.resnet_unreached {c : MLPArgs K} {kind kindIn : FcKind} {g : Geo} {nlF : Fwd K} {h : Heap K} (hn : Net c kind kindIn g nlF h)
    {next : Mod K → List ℕ} (hnx : ∀ m : Mod K, m.hidden = [] → next m = m.children) (hsub : ∀ m : Mod K, ∀ j ∈ next m, j ∈ m.refs)
    (hsum : ∀ l : List ℕ, next (.sum l) = [])
    (hI : Usable kindIn c.inputArgs) (hH : Usable kind c.hiddenArgs) (hO : Usable kind c.outputArgs)
    (hg : g.si = kindSize kindIn ∧ g.sh = kindSize kind ∧ g.so = kindSize kind) (hsi : 0 < g.si) (hsh : 0 < g.sh) (hso : 0 < g.so)
    (hnl : ∀ j ∈ c.nonLinearity, j < g.base) (hr : c.resnet = true)
    {i : ℕ} (hi : 0 < i) (hiH : i < c.hiddenLayers) :
    Hered next (fun k _ => ¬ (c.blk g i + c.nu ≤ k ∧ k ≤ c.coreId g i)) h (c.netId g) := by
  have hbase := blk_base c g i
  have hcore := c.coreId_bounds hsh hiH
  have hcH : c.coreId g i < c.blk g c.hiddenLayers := lt_of_lt_of_le hcore.2 (blk_mono c g hiH)
  have hnet : c.blk g c.hiddenLayers < c.netId g - 1 := by unfold netId; omega
  have hexi : c.layId g i = c.coreId g i + 1 := by
    unfold layId extra
    rw [if_pos hiH, if_pos ⟨hr, hi⟩]
  have hip : Slot.lay i ∈ c.plan := MLPArgs.mem_plan.2 (Or.inr (Or.inr (Or.inr (Or.inr ⟨i, le_of_lt hiH, rfl⟩))))
  have other : ∀ t ∈ c.plan, (t = .inp ∨ ∃ i, t = .lay i) → t ≠ .lay i → ∀ k, c.slotLow g t ≤ k → k ≤ c.slotId g t →
      ¬ (c.blk g i + c.nu ≤ k ∧ k ≤ c.coreId g i) := by
    rintro t ht ht' hne k h1 h2 ⟨h3, h4⟩
    refine slot_disjoint hsh ht hip ht' (Or.inr ⟨i, rfl⟩) hne h1 h2 (b := k) h3 ?_ rfl
    show k ≤ c.layId g i
    omega
  apply hn.hered hnx (fun _ _ _ _ => by omega) (fun _ => by omega) (fun _ => by omega)
  intro s hs
  rcases MLPArgs.mem_plan.1 hs with rfl | ⟨rfl, h1⟩ | ⟨rfl, h1⟩ | ⟨j, hj, rfl, h1⟩ | ⟨j, hj, rfl⟩
  · refine ((hn.inp.hered hI).sub hsub).mono fun k m hk => ?_
    apply other .inp hs (Or.inl rfl) (by simp) k _ hk.2.1
    have := hk.1
    simp only [slotId, slotLow] at this ⊢
    omega
  · obtain ⟨j, hj⟩ := Option.isSome_iff_exists.1 h1
    have := hnl j hj
    refine hn.hered_fn hnx hs rfl fun _ => ?_
    simp only [slotId, hj, Option.getD_some]
    omega
  · refine hn.hered_fn hnx hs rfl fun _ => ?_
    simp only [slotId]
    omega
  · refine hn.hered_fn hnx hs rfl fun _ => ?_
    have hnu : c.nu = 1 := by simp [nu, h1]
    simp only [slotId]
    rcases Nat.lt_trichotomy j i with hji | hji | hji
    · have := blk_mono c g (le_of_lt hji)
      omega
    · subst hji; omega
    · have := blk_mono c g hji
      have : c.blk g i.succ = c.blk g (i + 1) := rfl
      omega
  · by_cases hji : j = i
    · subst hji
      refine .mk (hn.sums hr j hi hiH) ?_ fun j hj => by rw [hsum] at hj; cases hj
      show ¬ (_ ∧ c.layId g j ≤ _)
      omega
    · have hne : Slot.lay j ≠ .lay i := by simpa using hji
      by_cases hlt : j < c.hiddenLayers
      · by_cases hj0 : 0 < j
        · refine .mk (hn.sums hr j hj0 hlt) ?_ fun j hj => by rw [hsum] at hj; cases hj
          apply other _ hs (Or.inr ⟨j, rfl⟩) hne _ _ le_rfl
          have := layId_bounds c hsh hso j
          have := c.size_pos hsh hso j
          simp only [slotLow, slotId]; omega
        · have e : c.slotId g (.lay j) = c.coreId g j := MLPArgs.layId_eq g (Or.inr (Or.inl (by omega)))
          rw [e]
          refine (((hn.hid j hlt).hered hH).sub hsub).mono fun k m hk => ?_
          apply other _ hs (Or.inr ⟨j, rfl⟩) hne k _ (by rw [e]; exact hk.2.1)
          have := hk.1
          simp only [coreId, size, if_pos hlt, slotLow] at this ⊢
          omega
      · have hjH : j = c.hiddenLayers := by omega
        subst hjH
        refine ((hn.out.hered hO).sub hsub).mono fun k m hk => ?_
        apply other _ hs (Or.inr ⟨_, rfl⟩) hne k _ hk.2.1
        have := hk.1
        simp only [layId, coreId, size, lt_irrefl, if_false, slotLow] at this ⊢
        omega

/-- With `resnet` the modules of hidden layer `i > 0` are not registered. -/
theorem Net.resnet_unregistered {c : MLPArgs K} {kind kindIn : FcKind} {g : Geo} {nlF : Fwd K} {h : Heap K} (hn : Net c kind kindIn g nlF h)
    (hI : Usable kindIn c.inputArgs) (hH : Usable kind c.hiddenArgs) (hO : Usable kind c.outputArgs)
    (hg : g.si = kindSize kindIn ∧ g.sh = kindSize kind ∧ g.so = kindSize kind) (hsi : 0 < g.si) (hsh : 0 < g.sh) (hso : 0 < g.so)
    (hnl : ∀ j ∈ c.nonLinearity, j < g.base) (hr : c.resnet = true)
    {i : ℕ} (hi : 0 < i) (hiH : i < c.hiddenLayers) :
    Hered Mod.children (fun k _ => ¬ (c.blk g i + c.nu ≤ k ∧ k ≤ c.coreId g i)) h (c.netId g) :=
  hn.resnet_unreached (fun m _ => rfl) (fun m j hj => by simp [Mod.refs, hj]) (fun _ => rfl) hI hH hO hg hsi hsh hso hnl hr hi hiH

theorem Net.length_lt {c : MLPArgs K} {kind kindIn : FcKind} {g : Geo} {nlF : Fwd K} {h : Heap K} (hn : Net c kind kindIn g nlF h) :
    c.netId g < h.length := (List.getElem?_eq_some_iff.1 hn.net).1

end HOL
