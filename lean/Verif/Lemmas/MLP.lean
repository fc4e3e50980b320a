import Verif.Lemmas.Heap
import Mathlib.Order.Monotone.Basic

/-! # What the constructor of `HighOrderMLP` leaves in the heap -/

namespace HOL
open TorchScalar
variable {K : Type} [TorchScalar K]

set_option linter.unusedSectionVars false

/-- Position of an entry in concatenated blocks. -/
theorem getElem?_flatMap_blocks {α : Type} (blocks : ℕ → List α) (start : ℕ → ℕ) (h0 : start 0 = 0)
    (hs : ∀ i, start (i + 1) = start i + (blocks i).length) (k : ℕ) :
    ((List.range k).flatMap blocks).length = start k ∧
    ∀ i < k, ∀ j < (blocks i).length, ((List.range k).flatMap blocks)[start i + j]? = (blocks i)[j]? := by
  induction k with
  | zero => simp [h0]
  | succ k ih =>
    obtain ⟨hl, hg⟩ := ih
    rw [List.range_succ, List.flatMap_append, List.flatMap_singleton]
    refine ⟨by rw [List.length_append, hl, hs], ?_⟩
    intro i hi j hj
    rcases Nat.lt_or_ge i k with h | h
    · have hlt : start i + j < ((List.range k).flatMap blocks).length := by
        rw [hl]
        have hm : ∀ d, start (i + 1) ≤ start (i + 1 + d) := by
          intro d
          induction d with
          | zero => exact le_rfl
          | succ d ih => have := hs (i + 1 + d); rw [← Nat.add_assoc]; omega
        have h1 := hm (k - (i + 1))
        rw [Nat.add_sub_cancel' (by omega), hs] at h1
        omega
      rw [List.getElem?_append_left hlt]
      exact hg i h j hj
    · have : i = k := by omega
      subst this
      rw [List.getElem?_append_right (by omega), hl]
      congr 1
      omega

namespace MLPArgs

/-- Number of normalization modules per block. -/
def nu (c : MLPArgs K) : ℕ := if c.normalization.isSome then 1 else 0
/-- Number of `SumLayer`s in block `i`. -/
def extra (c : MLPArgs K) (i : ℕ) : ℕ := if c.resnet = true ∧ 0 < i then 1 else 0
/-- Heap position where block `i` starts; `sz` modules per hidden layer. -/
def bs (c : MLPArgs K) (sz b0 : ℕ) : ℕ → ℕ
  | 0 => b0
  | i + 1 => c.bs sz b0 i + c.nu + sz + c.extra i

def preIds (c : MLPArgs K) (drop base : ℕ) : List ℕ :=
  (if c.normalization.isSome then [base] else []) ++ c.nonLinearity.toList ++ (if ltB 0 c.dropout then [drop] else [])

def normMods (c : MLPArgs K) : List (Mod K) :=
  match c.normalization with
  | some f => [.other f]
  | none => []

theorem normMods_length (c : MLPArgs K) : c.normMods.length = c.nu := by
  unfold normMods nu; cases c.normalization <;> rfl

def hidId (c : MLPArgs K) (sz b0 i : ℕ) : ℕ := c.bs sz b0 i + c.nu + sz - 1
def itemId (c : MLPArgs K) (sz b0 i : ℕ) : ℕ := c.hidId sz b0 i + c.extra i
/-- The entry before hidden layer `i` in `layer_list`; `inp` is the input layer. -/
def prevId (c : MLPArgs K) (sz b0 drop inp : ℕ) (i : ℕ) : ℕ :=
  (c.preIds drop (c.bs sz b0 i)).getLastD (if i = 0 then inp else c.itemId sz b0 (i - 1))

/-- Modules created for hidden block `i`. -/
def block (c : MLPArgs K) (F : ℕ → List (Mod K)) (sz b0 drop inp i : ℕ) : List (Mod K) :=
  c.normMods ++ F (c.bs sz b0 i + c.nu) ++
    (if c.resnet = true ∧ 0 < i then [.sum [c.hidId sz b0 i, c.prevId sz b0 drop inp i]] else [])

/-- Entries of `layer_list` for hidden block `i`. -/
def blockIds (c : MLPArgs K) (sz b0 drop i : ℕ) : List ℕ :=
  c.preIds drop (c.bs sz b0 i) ++ [c.itemId sz b0 i]

end MLPArgs

open MLPArgs

theorem appendPre_eq (c : MLPArgs K) (drop : ℕ) (l : List ℕ) (h : Heap K) :
    appendPre c drop (l, h) = (l ++ c.preIds drop h.length, h ++ c.normMods) := by
  unfold appendPre preIds normMods
  cases c.normalization <;> cases c.nonLinearity <;> by_cases hd : ltB 0 c.dropout = true <;> simp [hd]

theorem fcLayer_eq {rng : Rng K} {t : String} {a : FcArgs K} {kind : FcKind} (hk : fcTable.lookup t = some kind)
    {h : Heap K} {ms : List (Mod K)} (hm : fcMods rng kind a h.length = .ok ms) :
    fcLayer rng t a h = .ok (h.length + ms.length - 1, h ++ ms) := by
  unfold fcLayer
  rw [hk]
  simp only [hm]
  rfl

/-- A constructor that always succeeds and creates `sz` modules. -/
structure Builds (rng : Rng K) (kind : FcKind) (a : FcArgs K) (F : ℕ → List (Mod K)) (sz : ℕ) : Prop where
  ok : ∀ base, fcMods rng kind a base = .ok (F base)
  len : ∀ base, (F base).length = sz
  pos : 0 < sz
  ord : ∀ base k (m : Mod K), (F base)[k]? = some m → ∀ j ∈ m.refs, j < base + k

theorem hiddenStep_eq {rng : Rng K} {c : MLPArgs K} {kind : FcKind} (hk : fcTable.lookup c.layerType = some kind)
    {F : ℕ → List (Mod K)} {sz : ℕ} (hF : Builds rng kind c.hiddenArgs F sz) (drop i : ℕ) (l : List ℕ) (h : Heap K) :
    hiddenStep rng c drop i (l, h)
      = .ok (l ++ c.preIds drop h.length ++ [h.length + c.nu + sz - 1 + c.extra i],
          h ++ (c.normMods ++ F (h.length + c.nu) ++
            (if c.resnet = true ∧ 0 < i then [.sum [h.length + c.nu + sz - 1, (l ++ c.preIds drop h.length).getLastD 0]]
              else []))) := by
  unfold hiddenStep
  rw [appendPre_eq]
  have hlen : (h ++ c.normMods).length = h.length + c.nu := by rw [List.length_append, normMods_length]
  dsimp only
  rw [fcLayer_eq hk (hF.ok _), hlen, hF.len]
  simp only [bind, Except.bind]
  have hp := hF.pos
  by_cases hr : c.resnet = true ∧ 0 < i
  · rw [if_pos hr, if_pos hr]
    congr 2
    · congr 2
      rw [List.length_append, hlen, hF.len, extra, if_pos hr]
      omega
    · simp [List.append_assoc]
  · rw [if_neg hr, if_neg hr, extra, if_neg hr]
    simp [List.append_assoc]

theorem blocks_eq (c : MLPArgs K) {F : ℕ → List (Mod K)} {sz : ℕ} (hlen : ∀ b, (F b).length = sz) (b0 drop inp i : ℕ) :
    (c.block F sz b0 drop inp i).length = c.nu + sz + c.extra i := by
  unfold block extra
  rw [List.length_append, List.length_append, normMods_length, hlen]
  split <;> rfl

theorem block_flat_length (c : MLPArgs K) {F : ℕ → List (Mod K)} {sz : ℕ} (hlen : ∀ b, (F b).length = sz) (b0 drop inp k : ℕ) :
    b0 + ((List.range k).flatMap (c.block F sz b0 drop inp)).length = c.bs sz b0 k := by
  induction k with
  | zero => simp [bs]
  | succ k ih =>
    rw [List.range_succ, List.flatMap_append, List.length_append, List.flatMap_singleton, ← Nat.add_assoc, ih, blocks_eq c hlen]
    rw [bs]; omega

theorem getLastD_append {α : Type} (l l' : List α) (d : α) : (l ++ l').getLastD d = l'.getLastD (l.getLastD d) := by
  induction l' using List.reverseRecOn with
  | nil => simp
  | append_singleton l' a _ => rw [← List.append_assoc]; simp

theorem hiddenLoop_eq {rng : Rng K} {c : MLPArgs K} {kind : FcKind} (hk : fcTable.lookup c.layerType = some kind)
    {F : ℕ → List (Mod K)} {sz : ℕ} (hF : Builds rng kind c.hiddenArgs F sz) (drop inp : ℕ) (h : Heap K) (k : ℕ) :
    hiddenLoop rng c drop k ([inp], h)
      = .ok ([inp] ++ (List.range k).flatMap (c.blockIds sz h.length drop),
          h ++ (List.range k).flatMap (c.block F sz h.length drop inp)) := by
  induction k with
  | zero => simp [hiddenLoop]
  | succ k ih =>
    rw [hiddenLoop, ih]
    simp only [bind, Except.bind]
    rw [hiddenStep_eq hk hF]
    have hb : (h ++ (List.range k).flatMap (c.block F sz h.length drop inp)).length = c.bs sz h.length k := by
      rw [List.length_append, block_flat_length c hF.len]
    rw [hb]
    congr 2
    · rw [List.range_succ, List.flatMap_append, List.flatMap_singleton]
      simp only [blockIds, itemId, hidId, List.append_assoc]
    · rw [List.range_succ, List.flatMap_append, List.flatMap_singleton, List.append_assoc h]
      congr 2
      unfold block
      by_cases hr : c.resnet = true ∧ 0 < k
      · rw [if_pos hr, if_pos hr]
        congr 3
        unfold hidId prevId
        congr 1
        congr 1
        rw [getLastD_append]
        congr 1
        obtain ⟨k, rfl⟩ : ∃ k', k = k' + 1 := ⟨k - 1, by omega⟩
        rw [if_neg (by omega), List.range_succ, List.flatMap_append, List.flatMap_singleton, ← List.append_assoc]
        rw [getLastD_append, blockIds, getLastD_append]
        rfl
      · rw [if_neg hr, if_neg hr]

/-- Everything `HighOrderMLP.__init__` does, when the three kinds of layers can be built. -/
theorem mlpInit_eq {rng : Rng K} {c : MLPArgs K} {kind kindIn : FcKind} (hk : fcTable.lookup c.layerType = some kind)
    (hki : fcTable.lookup (orStr c.layerTypeIn c.layerType) = some kindIn)
    {FI FH FO : ℕ → List (Mod K)} {si sh so : ℕ} (hI : Builds rng kindIn c.inputArgs FI si)
    (hH : Builds rng kind c.hiddenArgs FH sh) (hO : Builds rng kind c.outputArgs FO so) (h : Heap K) :
    let b0 := h.length + 1 + si
    let inp := h.length + si
    let bH := c.bs sh b0 c.hiddenLayers
    let out := bH + c.nu + so - 1
    let model := bH + c.nu + so
    mlpInit rng c h = .ok (model + 1,
      h ++ ([.other c.dropoutFn] ++ FI (h.length + 1)
        ++ (List.range c.hiddenLayers).flatMap (c.block FH sh b0 h.length inp)
        ++ c.normMods ++ FO (bH + c.nu)
        ++ [.seq ([inp] ++ (List.range c.hiddenLayers).flatMap (c.blockIds sh b0 h.length) ++ c.preIds h.length bH ++ [out]),
            .mlp h.length inp out model])) := by
  intro b0 inp bH out model
  unfold mlpInit
  have hl1 : (h ++ [Mod.other c.dropoutFn]).length = h.length + 1 := by simp
  have hI1 : fcMods rng kindIn c.inputArgs (h ++ [Mod.other c.dropoutFn]).length = .ok (FI (h.length + 1)) := by
    rw [hl1]; exact hI.ok _
  dsimp only
  rw [fcLayer_eq hki hI1]
  simp only [bind, Except.bind]
  rw [hl1, hI.len]
  have hinp : h.length + 1 + si - 1 = inp := by have := hI.pos; omega
  have hb0 : (h ++ [Mod.other c.dropoutFn] ++ FI (h.length + 1)).length = b0 := by
    rw [List.length_append, hl1, hI.len]
  rw [hinp, hiddenLoop_eq hk hH, hb0]
  simp only
  rw [appendPre_eq]
  have hbH : (h ++ [Mod.other c.dropoutFn] ++ FI (h.length + 1)
      ++ (List.range c.hiddenLayers).flatMap (c.block FH sh b0 h.length inp)).length = bH := by
    rw [List.length_append, hb0, block_flat_length c hH.len]
  have hbN : (h ++ [Mod.other c.dropoutFn] ++ FI (h.length + 1)
      ++ (List.range c.hiddenLayers).flatMap (c.block FH sh b0 h.length inp) ++ c.normMods).length = bH + c.nu := by
    rw [List.length_append, hbH, normMods_length]
  have hO1 : fcMods rng kind c.outputArgs (h ++ [Mod.other c.dropoutFn] ++ FI (h.length + 1)
      ++ (List.range c.hiddenLayers).flatMap (c.block FH sh b0 h.length inp) ++ c.normMods).length = .ok (FO (bH + c.nu)) := by
    rw [hbN]; exact hO.ok _
  rw [hbH, fcLayer_eq hk hO1, hbN, hO.len]
  have hm : (h ++ [Mod.other c.dropoutFn] ++ FI (h.length + 1)
      ++ (List.range c.hiddenLayers).flatMap (c.block FH sh b0 h.length inp) ++ c.normMods ++ FO (bH + c.nu)).length = model := by
    rw [List.length_append, hbN, hO.len]
  simp only [hm]
  simp only [List.append_assoc]
  rfl

end HOL
