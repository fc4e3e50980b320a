import Verif.Lemmas.MLP

/-! # Layout of a `HighOrderMLP` in the heap -/

namespace HOL
open TorchScalar
variable {K : Type} [TorchScalar K]

set_option linter.unusedSectionVars false

/-- Entries of `layer_list`: input layer, the dropout module, the nonlinearity, the `i`-th normalization, the `i`-th
hidden layer (or `SumLayer`); the last `lay` is the output layer. -/
inductive Slot where
  | inp | drop | nl
  | norm (i : ℕ)
  | lay (i : ℕ)
  deriving DecidableEq

/-- Heap position before the constructor ran, number of modules per input, hidden and output layer. -/
structure Geo where
  base : ℕ
  si : ℕ
  sh : ℕ
  so : ℕ

namespace MLPArgs

/-- Start of block `i`. -/
def blk (c : MLPArgs K) (g : Geo) (i : ℕ) : ℕ := c.bs g.sh (g.base + 1 + g.si) i

def size (c : MLPArgs K) (g : Geo) (i : ℕ) : ℕ := if i < c.hiddenLayers then g.sh else g.so

/-- Position of the `i`-th hidden layer proper (of the output layer for `i = hidden_layers`). -/
def coreId (c : MLPArgs K) (g : Geo) (i : ℕ) : ℕ := c.blk g i + c.nu + c.size g i - 1

def layId (c : MLPArgs K) (g : Geo) (i : ℕ) : ℕ := c.coreId g i + (if i < c.hiddenLayers then c.extra i else 0)

def slotId (c : MLPArgs K) (g : Geo) : Slot → ℕ
  | .inp => g.base + g.si
  | .drop => g.base
  | .nl => c.nonLinearity.getD 0
  | .norm i => c.blk g i
  | .lay i => c.layId g i

def prePlan (c : MLPArgs K) (i : ℕ) : List Slot :=
  (if c.normalization.isSome then [.norm i] else []) ++ (if c.nonLinearity.isSome then [.nl] else [])
    ++ (if ltB 0 c.dropout then [.drop] else [])

def blockPlan (c : MLPArgs K) (i : ℕ) : List Slot := c.prePlan i ++ [.lay i]

/-- `layer_list` -/
def plan (c : MLPArgs K) : List Slot := .inp :: (List.range (c.hiddenLayers + 1)).flatMap c.blockPlan

/-- The entry of `layer_list` before hidden layer `i`. -/
def prevSlot (c : MLPArgs K) (i : ℕ) : Slot := (c.prePlan i).getLastD (if i = 0 then .inp else .lay (i - 1))

/-- Position of the network. -/
def netId (c : MLPArgs K) (g : Geo) : ℕ := c.blk g c.hiddenLayers + c.nu + g.so + 1

theorem preIds_eq (c : MLPArgs K) (g : Geo) (i : ℕ) :
    c.preIds g.base (c.blk g i) = (c.prePlan i).map (c.slotId g) := by
  unfold preIds prePlan
  cases h1 : c.normalization <;> cases h2 : c.nonLinearity <;> by_cases hd : ltB 0 c.dropout = true <;>
    simp [hd, slotId, h2]

theorem blk_succ (c : MLPArgs K) (g : Geo) (i : ℕ) : c.blk g (i + 1) = c.blk g i + c.nu + g.sh + c.extra i := rfl

theorem blk_mono (c : MLPArgs K) (g : Geo) {i j : ℕ} (h : i ≤ j) : c.blk g i ≤ c.blk g j := by
  induction j with
  | zero => have : i = 0 := by omega
            subst this; exact le_rfl
  | succ j ih =>
    rcases Nat.lt_or_ge j i with h' | h'
    · have : i = j + 1 := by omega
      subst this; exact le_rfl
    · have := ih h'
      rw [blk_succ]; omega

theorem blk_base (c : MLPArgs K) (g : Geo) (i : ℕ) : g.base + 1 + g.si ≤ c.blk g i :=
  (blk_mono c g (Nat.zero_le i) : c.blk g 0 ≤ _)

/-- A layer lies inside its block. -/
theorem layId_lt (c : MLPArgs K) {g : Geo} (hsh : 0 < g.sh) {i : ℕ} (hi : i < c.hiddenLayers) :
    c.layId g i < c.blk g (i + 1) := by
  rw [blk_succ]; simp only [layId, coreId, size, if_pos hi]; omega

theorem mem_plan {c : MLPArgs K} {s : Slot} : s ∈ c.plan ↔ s = .inp ∨ (s = .nl ∧ c.nonLinearity.isSome) ∨
    (s = .drop ∧ ltB 0 c.dropout = true) ∨ (∃ i ≤ c.hiddenLayers, s = .norm i ∧ c.normalization.isSome) ∨
    ∃ i ≤ c.hiddenLayers, s = .lay i := by
  unfold plan blockPlan prePlan
  simp only [List.mem_cons, List.mem_flatMap, List.mem_range, List.mem_append]
  constructor
  · rintro (h | ⟨i, hi, ((h | h) | h) | h⟩)
    · exact Or.inl h
    · split at h
      · rename_i hn
        simp at h
        exact Or.inr (Or.inr (Or.inr (Or.inl ⟨i, by omega, h, hn⟩)))
      · simp at h
    · split at h
      · rename_i hn
        simp at h
        exact Or.inr (Or.inl ⟨h, hn⟩)
      · simp at h
    · split at h
      · rename_i hn
        simp at h
        exact Or.inr (Or.inr (Or.inl ⟨h, hn⟩))
      · simp at h
    · simp at h
      exact Or.inr (Or.inr (Or.inr (Or.inr ⟨i, by omega, h⟩)))
  · rintro (h | ⟨h, hn⟩ | ⟨h, hn⟩ | ⟨i, hi, h, hn⟩ | ⟨i, hi, h⟩)
    · exact Or.inl h
    · exact Or.inr ⟨0, by omega, by simp [h, hn]⟩
    · exact Or.inr ⟨0, by omega, by simp [h, hn]⟩
    · exact Or.inr ⟨i, by omega, by simp [h, hn]⟩
    · exact Or.inr ⟨i, by omega, by simp [h]⟩

/-- Every entry of the model is older than the model. -/
theorem slotId_lt {c : MLPArgs K} {g : Geo} (hsi : 0 < g.si) (hsh : 0 < g.sh) (hso : 0 < g.so) (hnl : ∀ j ∈ c.nonLinearity, j < g.base)
    {s : Slot} (hs : s ∈ c.plan) : c.slotId g s < c.netId g - 1 := by
  have hb := blk_base c g c.hiddenLayers
  unfold netId
  rcases mem_plan.1 hs with rfl | ⟨rfl, hn⟩ | ⟨rfl, hn⟩ | ⟨i, hi, rfl, hn⟩ | ⟨i, hi, rfl⟩
  · simp only [slotId]; omega
  · obtain ⟨j, hj⟩ := Option.isSome_iff_exists.1 hn
    have := hnl j hj
    simp only [slotId, hj, Option.getD_some]; omega
  · simp only [slotId]; omega
  · have := blk_mono c g hi
    simp only [slotId]; omega
  · rcases Nat.lt_or_eq_of_le hi with h | h
    · have h1 := layId_lt c hsh h
      have h2 := blk_mono c g (Nat.succ_le_of_lt h)
      simp only [slotId]
      have : i + 1 = i.succ := rfl
      rw [this] at h1
      omega
    · subst h
      simp only [slotId, layId, coreId, size, lt_irrefl, if_false]; omega

/-- The previous entry is older than hidden layer `i`. -/
theorem prevSlot_lt {c : MLPArgs K} {g : Geo} (hsi : 0 < g.si) (hsh : 0 < g.sh) (hnl : ∀ j ∈ c.nonLinearity, j < g.base)
    {i : ℕ} (hi : i < c.hiddenLayers) : c.slotId g (c.prevSlot i) < c.blk g i + c.nu := by
  have hb := blk_base c g i
  have hd : c.slotId g (if i = 0 then .inp else .lay (i - 1)) < c.blk g i := by
    split
    · simp only [slotId]; omega
    · have := layId_lt c hsh (show i - 1 < c.hiddenLayers by omega)
      rw [Nat.sub_add_cancel (by omega)] at this
      exact this
  unfold prevSlot prePlan
  by_cases h3 : ltB 0 c.dropout = true
  · simp only [h3, if_true]
    rw [getLastD_append]
    simp only [slotId, List.getLastD_cons, List.getLastD_nil]; omega
  · simp only [h3, Bool.false_eq_true, if_false, List.append_nil]
    cases h2 : c.nonLinearity with
    | some j =>
      have := hnl j h2
      simp only [Option.isSome_some, if_true]
      rw [getLastD_append]
      simp only [List.getLastD_cons, List.getLastD_nil, slotId, h2, Option.getD_some]; omega
    | none =>
      simp only [Option.isSome_none, Bool.false_eq_true, if_false, List.append_nil]
      cases h1 : c.normalization with
      | some f =>
        have : c.nu = 1 := by simp [nu, h1]
        simp only [Option.isSome_some, if_true, List.getLastD_cons, List.getLastD_nil, slotId]; omega
      | none =>
        simp only [Option.isSome_none, Bool.false_eq_true, if_false, List.getLastD_nil]
        omega

end MLPArgs

open MLPArgs

theorem getElem?_mid {α : Type} {A X B : List α} {a k : ℕ} (ha : A.length = a) (hk : k < X.length) :
    (A ++ (X ++ B))[a + k]? = X[k]? := by
  rw [List.getElem?_append_right (by omega), List.getElem?_append_left (by omega)]
  congr 1
  omega

/-- What is where. -/
structure Layout (c : MLPArgs K) (FI FH FO : ℕ → List (Mod K)) (g : Geo) (h : Heap K) : Prop where
  net : h[c.netId g]? = some (.mlp g.base (g.base + g.si) (c.layId g c.hiddenLayers) (c.netId g - 1))
  model : h[c.netId g - 1]? = some (.seq (c.plan.map (c.slotId g)))
  drop : h[g.base]? = some (.other c.dropoutFn)
  inp : ∀ k < g.si, h[g.base + 1 + k]? = (FI (g.base + 1))[k]?
  norm : ∀ f, c.normalization = some f → ∀ i ≤ c.hiddenLayers, h[c.blk g i]? = some (.other f)
  hid : ∀ i < c.hiddenLayers, ∀ k < g.sh, h[c.blk g i + c.nu + k]? = (FH (c.blk g i + c.nu))[k]?
  out : ∀ k < g.so, h[c.blk g c.hiddenLayers + c.nu + k]? = (FO (c.blk g c.hiddenLayers + c.nu))[k]?
  sums : c.resnet = true → ∀ i, 0 < i → i < c.hiddenLayers →
    h[c.layId g i]? = some (.sum [c.coreId g i, c.slotId g (c.prevSlot i)])

theorem getLastD_map {α β : Type} (f : α → β) (l : List α) (d : α) : (l.map f).getLastD (f d) = f (l.getLastD d) := by
  induction l using List.reverseRecOn with
  | nil => rfl
  | append_singleton l a _ => simp

theorem mlpInit_layout {rng : Rng K} {c : MLPArgs K} {kind kindIn : FcKind} (hk : fcTable.lookup c.layerType = some kind)
    (hki : fcTable.lookup (orStr c.layerTypeIn c.layerType) = some kindIn)
    {FI FH FO : ℕ → List (Mod K)} {si sh so : ℕ} (hI : Builds rng kindIn c.inputArgs FI si)
    (hH : Builds rng kind c.hiddenArgs FH sh) (hO : Builds rng kind c.outputArgs FO so) (h : Heap K) :
    ∃ D, mlpInit rng c h = .ok (c.netId ⟨h.length, si, sh, so⟩, h ++ D) ∧
      (h ++ D).length = c.netId ⟨h.length, si, sh, so⟩ + 1 ∧
      Layout c FI FH FO ⟨h.length, si, sh, so⟩ (h ++ D) ∧
      (h.Ordered → (∀ j ∈ c.nonLinearity, j < h.length) → (h ++ D : Heap K).Ordered) := by
  have e := mlpInit_eq hk hki hI hH hO h
  set g : Geo := ⟨h.length, si, sh, so⟩ with hg
  dsimp only at e
  set b0 := h.length + 1 + si with hb0
  set blocks := c.block FH sh b0 h.length (h.length + si) with hblocks
  have hbs : ∀ i, c.bs sh b0 i = c.blk g i := fun i => rfl
  have hsi := hI.pos
  have hsh := hH.pos
  have hso := hO.pos
  have hlenflat : ∀ k, b0 + ((List.range k).flatMap blocks).length = c.blk g k := fun k =>
    block_flat_length c hH.len b0 h.length (h.length + si) k
  have hb0flat := hlenflat c.hiddenLayers
  have hnl : c.normMods.length = c.nu := normMods_length c
  -- the model's list
  have hitem : ∀ i < c.hiddenLayers, c.itemId sh b0 i = c.layId g i := by
    intro i hi
    simp only [itemId, hidId, layId, coreId, size, if_pos hi, hbs, hg]
  have hlist : [h.length + si] ++ (List.range c.hiddenLayers).flatMap (c.blockIds sh b0 h.length)
      ++ c.preIds h.length (c.bs sh b0 c.hiddenLayers) ++ [c.bs sh b0 c.hiddenLayers + c.nu + so - 1]
      = c.plan.map (c.slotId g) := by
    unfold plan
    rw [List.map_cons, List.range_succ, List.flatMap_append, List.flatMap_singleton, List.map_append, blockPlan,
      List.map_append, ← preIds_eq, List.map_singleton]
    have h1 : (List.range c.hiddenLayers).flatMap (c.blockIds sh b0 h.length)
        = ((List.range c.hiddenLayers).flatMap c.blockPlan).map (c.slotId g) := by
      rw [List.map_flatMap]
      rw [List.flatMap_def, List.flatMap_def]
      congr 1
      apply List.map_congr_left
      intro i hi
      rw [List.mem_range] at hi
      rw [blockPlan, List.map_append, ← preIds_eq, blockIds, hitem i hi]
      rfl
    have h2 : c.bs sh b0 c.hiddenLayers + c.nu + so - 1 = c.slotId g (.lay c.hiddenLayers) := by
      simp [slotId, layId, coreId, size, hbs, hg]
    rw [h1, h2]
    simp only [hbs, List.append_assoc]
    rfl
  have hout : c.bs sh b0 c.hiddenLayers + c.nu + so - 1 = c.layId g c.hiddenLayers := by
    simp [layId, coreId, size, hbs, hg]
  rw [hlist, hout] at e
  simp only [hbs] at e
  have hnet : c.netId g = c.blk g c.hiddenLayers + c.nu + so + 1 := rfl
  -- lookups inside a block
  have hblk : ∀ i < c.hiddenLayers, ∀ j < (blocks i).length,
      ((List.range c.hiddenLayers).flatMap blocks)[c.blk g i - b0 + j]? = (blocks i)[j]? := by
    intro i hi j hj
    refine (getElem?_flatMap_blocks blocks (fun i => c.blk g i - b0) (by simp [blk, bs, hg, hb0]) ?_ c.hiddenLayers).2 i hi j hj
    intro i
    rw [hblocks, blocks_eq c hH.len]
    have h1 := hlenflat i
    have h2 : c.blk g (i + 1) = c.blk g i + c.nu + sh + c.extra i := rfl
    simp only [h2]
    omega
  have hblkle : ∀ i, b0 ≤ c.blk g i := fun i => by rw [← hlenflat i]; omega
  have hbl : ∀ i, (blocks i).length = c.nu + sh + c.extra i := fun i => blocks_eq c hH.len b0 h.length (h.length + si) i
  refine ⟨_, e, ?_, ?_, ?_⟩
  · simp only [List.length_append, List.length_cons, List.length_nil, hI.len, hO.len, hnl]
    rw [hnet]; omega
  · have hflat : ∀ i < c.hiddenLayers, ∀ j < (blocks i).length,
        (h ++ ([Mod.other c.dropoutFn] ++ FI (h.length + 1) ++ (List.range c.hiddenLayers).flatMap blocks ++ c.normMods
          ++ FO (c.blk g c.hiddenLayers + c.nu) ++ [Mod.seq (c.plan.map (c.slotId g)),
            Mod.mlp h.length (h.length + si) (c.layId g c.hiddenLayers) (c.blk g c.hiddenLayers + c.nu + so)]))[c.blk g i + j]?
          = (blocks i)[j]? := by
      intro i hi j hj
      rw [← hblk i hi j hj]
      have hlt : c.blk g i - b0 + j < ((List.range c.hiddenLayers).flatMap blocks).length := by
        by_contra hcon
        have := hblk i hi j hj
        rw [List.getElem?_eq_none (by omega), eq_comm, List.getElem?_eq_none_iff] at this
        omega
      have := getElem?_mid (A := h ++ ([Mod.other c.dropoutFn] ++ FI (h.length + 1)))
        (X := (List.range c.hiddenLayers).flatMap blocks)
        (B := c.normMods ++ FO (c.blk g c.hiddenLayers + c.nu) ++ [Mod.seq (c.plan.map (c.slotId g)),
            Mod.mlp h.length (h.length + si) (c.layId g c.hiddenLayers) (c.blk g c.hiddenLayers + c.nu + so)])
        (a := b0) (by simp [hI.len, hb0]; omega) hlt
      rw [show b0 + (c.blk g i - b0 + j) = c.blk g i + j by have := hblkle i; omega] at this
      rw [← this]
      simp [List.append_assoc]
    constructor
    · have := getElem?_mid (A := h ++ ([Mod.other c.dropoutFn] ++ FI (h.length + 1) ++ (List.range c.hiddenLayers).flatMap blocks
          ++ c.normMods ++ FO (c.blk g c.hiddenLayers + c.nu))) (X := [Mod.seq (c.plan.map (c.slotId g)),
            Mod.mlp h.length (h.length + si) (c.layId g c.hiddenLayers) (c.blk g c.hiddenLayers + c.nu + so)])
        (B := []) (a := c.blk g c.hiddenLayers + c.nu + so) (k := 1)
        (by simp only [List.length_append, List.length_cons, List.length_nil, hI.len, hO.len, hnl]; omega) (by simp)
      rw [hnet]
      simpa [List.append_assoc, hg] using this
    · have := getElem?_mid (A := h ++ ([Mod.other c.dropoutFn] ++ FI (h.length + 1) ++ (List.range c.hiddenLayers).flatMap blocks
          ++ c.normMods ++ FO (c.blk g c.hiddenLayers + c.nu))) (X := [Mod.seq (c.plan.map (c.slotId g)),
            Mod.mlp h.length (h.length + si) (c.layId g c.hiddenLayers) (c.blk g c.hiddenLayers + c.nu + so)])
        (B := []) (a := c.blk g c.hiddenLayers + c.nu + so) (k := 0)
        (by simp only [List.length_append, List.length_cons, List.length_nil, hI.len, hO.len, hnl]; omega) (by simp)
      rw [hnet]
      simpa [List.append_assoc] using this
    · have := getElem?_mid (A := h) (X := [Mod.other c.dropoutFn])
        (B := FI (h.length + 1) ++ (List.range c.hiddenLayers).flatMap blocks
          ++ c.normMods ++ FO (c.blk g c.hiddenLayers + c.nu) ++ [Mod.seq (c.plan.map (c.slotId g)),
            Mod.mlp h.length (h.length + si) (c.layId g c.hiddenLayers) (c.blk g c.hiddenLayers + c.nu + so)])
        (a := h.length) (k := 0) rfl (by simp)
      simp [List.append_assoc, hg]
    · intro k hk'
      have := getElem?_mid (A := h ++ [Mod.other c.dropoutFn]) (X := FI (h.length + 1))
        (B := (List.range c.hiddenLayers).flatMap blocks
          ++ c.normMods ++ FO (c.blk g c.hiddenLayers + c.nu) ++ [Mod.seq (c.plan.map (c.slotId g)),
            Mod.mlp h.length (h.length + si) (c.layId g c.hiddenLayers) (c.blk g c.hiddenLayers + c.nu + so)])
        (a := h.length + 1) (k := k) (by simp) (by rw [hI.len]; exact hk')
      simpa [List.append_assoc, hg] using this
    · intro f hf i hi
      have hn : c.normMods = [.other f] := by unfold normMods; rw [hf]
      have hnu : c.nu = 1 := by unfold nu; rw [hf]; rfl
      rcases Nat.lt_or_eq_of_le hi with hi | hi
      · have := hflat i hi 0 (by rw [hbl]; omega)
        simp only [Nat.add_zero] at this
        rw [this, hblocks, block, hn]
        simp
      · subst hi
        have := getElem?_mid (A := h ++ ([Mod.other c.dropoutFn] ++ FI (h.length + 1) ++ (List.range c.hiddenLayers).flatMap blocks))
          (X := c.normMods) (B := FO (c.blk g c.hiddenLayers + c.nu) ++ [Mod.seq (c.plan.map (c.slotId g)),
            Mod.mlp h.length (h.length + si) (c.layId g c.hiddenLayers) (c.blk g c.hiddenLayers + c.nu + so)])
          (a := c.blk g c.hiddenLayers) (k := 0)
          (by simp only [List.length_append, List.length_cons, List.length_nil, hI.len]; omega) (by rw [hnl]; omega)
        simp only [Nat.add_zero] at this
        have h2 : c.normMods[0]? = some (.other f) := by rw [hn]; rfl
        rw [h2] at this
        rw [← this]
        simp [List.append_assoc]
    · intro i hi k hk'
      have := hflat i hi (c.nu + k) (by rw [hbl]; simp only [hg] at hk'; omega)
      rw [← Nat.add_assoc] at this
      rw [this, hblocks, block, List.append_assoc]
      have h2 := getElem?_mid (A := c.normMods) (X := FH (c.bs sh b0 i + c.nu))
        (B := if c.resnet = true ∧ 0 < i then [.sum [c.hidId sh b0 i, c.prevId sh b0 h.length (h.length + si) i]] else [])
        (a := c.nu) (k := k) hnl (by rw [hH.len]; exact hk')
      rw [h2]
      rfl
    · intro k hk'
      have := getElem?_mid (A := h ++ ([Mod.other c.dropoutFn] ++ FI (h.length + 1) ++ (List.range c.hiddenLayers).flatMap blocks
          ++ c.normMods))
        (X := FO (c.blk g c.hiddenLayers + c.nu)) (B := [Mod.seq (c.plan.map (c.slotId g)),
            Mod.mlp h.length (h.length + si) (c.layId g c.hiddenLayers) (c.blk g c.hiddenLayers + c.nu + so)])
        (a := c.blk g c.hiddenLayers + c.nu) (k := k)
        (by simp only [List.length_append, List.length_cons, List.length_nil, hI.len, hnl]; omega) (by rw [hO.len]; exact hk')
      rw [← this]
      simp [List.append_assoc]
    · intro hr i hi0 hi
      have hex : c.extra i = 1 := by unfold extra; rw [if_pos ⟨hr, hi0⟩]
      have hl : c.layId g i = c.blk g i + (c.nu + sh) := by
        simp only [layId, coreId, size, if_pos hi, hex, hg]
        omega
      rw [hl, hflat i hi _ (by rw [hbl, hex]; omega), hblocks, block, if_pos ⟨hr, hi0⟩]
      rw [List.getElem?_append_right (by rw [List.length_append, hnl, hH.len])]
      rw [List.length_append, hnl, hH.len, Nat.sub_self]
      have h3 : c.hidId sh b0 i = c.coreId g i := by
        simp only [hidId, coreId, size, if_pos hi, hbs, hg]
      have h4 : c.prevId sh b0 h.length (h.length + si) i = c.slotId g (c.prevSlot i) := by
        unfold prevId prevSlot
        rw [← getLastD_map (c.slotId g), hbs, ← preIds_eq]
        rw [if_neg (by omega), if_neg (by omega), hitem (i - 1) (by omega)]
        rfl
      rw [h3, h4]
      rfl
  · intro ho hnlin
    have o1 : Heap.Ordered (h ++ [Mod.other c.dropoutFn]) := ho.append_one (by simp [Mod.refs, Mod.hidden, Mod.children])
    have o2 : Heap.Ordered (h ++ [Mod.other c.dropoutFn] ++ FI (h.length + 1)) := by
      apply o1.append
      intro k m hm j hj
      have := hI.ord _ k m hm j hj
      simpa using this
    have onorm : ∀ (hh : Heap K), hh.Ordered → Heap.Ordered (hh ++ c.normMods) := by
      intro hh h1
      unfold normMods
      cases c.normalization with
      | none => simpa using h1
      | some f => exact h1.append_one (by simp [Mod.refs, Mod.hidden, Mod.children])
    have o3 : ∀ k ≤ c.hiddenLayers, Heap.Ordered (h ++ [Mod.other c.dropoutFn] ++ FI (h.length + 1) ++ (List.range k).flatMap blocks) := by
      intro k
      induction k with
      | zero => intro _; simpa using o2
      | succ k ih =>
        intro hk1
        have ih := ih (by omega)
        rw [List.range_succ, List.flatMap_append, List.flatMap_singleton, hblocks, block, ← hblocks, ← List.append_assoc,
          ← List.append_assoc, ← List.append_assoc]
        have hlen : (h ++ [Mod.other c.dropoutFn] ++ FI (h.length + 1) ++ (List.range k).flatMap blocks ++ c.normMods).length
            = c.blk g k + c.nu := by
          have := hlenflat k
          simp only [List.length_append, List.length_cons, List.length_nil, hI.len, hnl]; omega
        have o4 : Heap.Ordered (h ++ [Mod.other c.dropoutFn] ++ FI (h.length + 1) ++ (List.range k).flatMap blocks ++ c.normMods
            ++ FH (c.bs sh b0 k + c.nu)) := by
          apply (onorm _ ih).append
          intro i m hm j hj
          rw [hlen]
          exact hH.ord _ i m hm j hj
        split
        · rename_i hr
          apply o4.append_one
          intro j hj
          rw [List.length_append, hlen, hH.len]
          simp only [Mod.refs, Mod.hidden, Mod.children, List.append_nil, List.mem_cons, List.not_mem_nil, or_false] at hj
          rcases hj with rfl | rfl
          · simp only [hidId, hbs]; omega
          · have h4 : c.prevId sh b0 h.length (h.length + si) k = c.slotId g (c.prevSlot k) := by
              unfold prevId prevSlot
              rw [← getLastD_map (c.slotId g), hbs, ← preIds_eq]
              rw [if_neg (by omega), if_neg (by omega), hitem (k - 1) (by omega)]
              rfl
            rw [h4]
            have := prevSlot_lt (c := c) (g := g) hsi hsh hnlin (i := k) (by omega)
            omega
        · rw [List.append_nil]; exact o4
    have o5 : Heap.Ordered (h ++ [Mod.other c.dropoutFn] ++ FI (h.length + 1) ++ (List.range c.hiddenLayers).flatMap blocks ++ c.normMods
        ++ FO (c.blk g c.hiddenLayers + c.nu)) := by
      apply (onorm _ (o3 _ le_rfl)).append
      intro i m hm j hj
      have := hO.ord _ i m hm j hj
      simp only [List.length_append, List.length_cons, List.length_nil, hI.len, hnl]; omega
    have hlen5 : (h ++ [Mod.other c.dropoutFn] ++ FI (h.length + 1) ++ (List.range c.hiddenLayers).flatMap blocks ++ c.normMods
        ++ FO (c.blk g c.hiddenLayers + c.nu)).length = c.netId g - 1 := by
      simp only [List.length_append, List.length_cons, List.length_nil, hI.len, hnl, hO.len]; omega
    have hlay : c.layId g c.hiddenLayers < c.netId g - 1 := by
      have : Slot.lay c.hiddenLayers ∈ c.plan := mem_plan.2 (by simp)
      exact slotId_lt (c := c) (g := g) hsi hsh hso hnlin this
    have o6 := o5.append (l := [Mod.seq (c.plan.map (c.slotId g)),
            Mod.mlp h.length (h.length + si) (c.layId g c.hiddenLayers) (c.blk g c.hiddenLayers + c.nu + so)]) (by
      intro k m hm j hj
      rw [hlen5]
      match k, hm with
      | 0, hm =>
        simp at hm
        subst hm
        simp only [Mod.refs, Mod.hidden, Mod.children, List.nil_append, List.mem_map] at hj
        obtain ⟨s, hs, rfl⟩ := hj
        exact slotId_lt (c := c) (g := g) hsi hsh hso hnlin hs
      | 1, hm =>
        simp at hm
        subst hm
        simp only [Mod.refs, Mod.hidden, Mod.children, List.nil_append, List.mem_cons, List.not_mem_nil, or_false] at hj
        have := hblkle c.hiddenLayers
        rcases hj with rfl | rfl | rfl | rfl <;> omega
      | k + 2, hm => simp at hm)
    simpa [List.append_assoc] using o6

end HOL
