import Verif.Model.ConvNet
import Verif.Lemmas.ConvReal
import Verif.Lemmas.SparseLion
import Mathlib.Data.List.GetD

/-! # Networks of convolutions: construction and shapes -/

namespace HOL
open TorchScalar Spec

set_option linter.unusedSectionVars false
variable {K : Type} [TorchScalar K]

/-- `f` maps batches of shape `s` to batches of shape `s'`. -/
def MapsShape (f : Fwd K) (s s' : List ℕ) : Prop :=
  ∀ (B : ℕ) (x : Tensor K), x.WF → x.shape = B :: s → ∃ y, f x = .ok y ∧ y.WF ∧ y.shape = B :: s'

/-- `f` accepts batches of this shape and keeps it. -/
def KeepsBatch (f : Fwd K) (s : List ℕ) : Prop := ∀ y : Tensor K, y.WF → y.shape = s → ∃ z, f y = .ok z ∧ z.WF ∧ z.shape = s

theorem MapsShape.keeps {f : Fwd K} {s : List ℕ} (h : MapsShape f s s) (B : ℕ) : KeepsBatch f (B :: s) := fun y hy hs => h B y hy hs

/-- Shape of one image. -/
def imageShape (r : Rank) (c h w : ℕ) : List ℕ :=
  match r with
  | .two => [c, h, w]
  | .one => [c, h]

/-- Size of an axis after a convolution with kernel `k`, stride `s`, padding `p`. -/
def convOut (k s p w : ℕ) : ℕ := (w + 2 * p - k) / s + 1

/-- A convolution from `C` to `O` channels. -/
structure ConvLayer.Between (L : ConvLayer K) (r : Rank) (C O k s p : ℕ) : Prop where
  kind : L.kind = if r = .two then .conv2d else .conv1d
  expander : L.expander.Fits r
  geometry : L.geometry = ⟨k, s, p, 1, 0⟩
  weight : L.weight.shape = if r = .two then [O, C * L.expander.variables, k, k] else [O, C * L.expander.variables, k]

theorem ConvLayer.Between.withWeight {L : ConvLayer K} {r : Rank} {C O k s p : ℕ} (h : L.Between r C O k s p) {w : Tensor K}
    (hw : w.shape = L.weight.shape) : ({ L with weight := w } : ConvLayer K).Between r C O k s p :=
  ⟨h.kind, h.expander, h.geometry, hw.trans h.weight⟩

theorem convSize_plain {k s p w : ℕ} (hk : 1 ≤ k) (hs : 1 ≤ s) (hw : k ≤ w + 2 * p) : convSize ⟨k, s, p, 1, 0⟩ w = .ok (convOut k s p w) := by
  have h : (k - 1) * 1 + 1 ≤ w + 2 * p := by omega
  have := convSize_ok (g := ⟨k, s, p, 1, 0⟩) hs hk Nat.one_pos h
  rw [this]
  unfold convOut
  have e : (k - 1) * 1 + 1 = k := by omega
  simp only [e]

theorem ConvLayer.Between.mapsShape {L : ConvLayer K} {r : Rank} {C O k s p : ℕ} (h : L.Between r C O k s p) (hk : 1 ≤ k) (hs : 1 ≤ s)
    {H W : ℕ} (hH : k ≤ H + 2 * p) (hW : r = .two → k ≤ W + 2 * p) :
    MapsShape L.forward (imageShape r C H W) (imageShape r O (convOut k s p H) (convOut k s p W)) := by
  intro B x hx hsh
  have hg := h.geometry
  cases r with
  | two =>
    refine ⟨_, L.forward2_ok (by simpa using h.kind) h.expander hx hsh (by rw [hg]; simpa using h.weight)
      (by rw [hg]; exact convSize_plain hk hs hH) (by rw [hg]; exact convSize_plain hk hs (hW rfl)), Tensor.wf_tab4 _ _ _ _ _, rfl⟩
  | one =>
    refine ⟨_, L.forward1_ok (by simpa using h.kind) h.expander hx hsh (by rw [hg]; simpa using h.weight)
      (by rw [hg]; exact convSize_plain hk hs hH), Tensor.wf_tab3 _ _ _ _, rfl⟩

/-! ## configurations -/

namespace ConvNetArgs

def chan (a : ConvNetArgs K) (i : ℕ) : ℕ := a.channels.getD i 0
def kern (a : ConvNetArgs K) (i : ℕ) : ℕ := a.kernelSize.getD i 0
/-- Stride of layer `i`. -/
def step (a : ConvNetArgs K) (size i : ℕ) : ℕ :=
  match (a.lists size).stride with
  | none => 1
  | some l => l.getD i 0

/-- Size of an axis before layer `i`. -/
def widthAt (a : ConvNetArgs K) (size w : ℕ) : ℕ → ℕ
  | 0 => w
  | i + 1 => convOut (a.kern i) (a.step size i) a.padding (a.widthAt size w i)

/-- A usable configuration of `m` layers of classes `cls i` for images of rank `r`: every list has at least `m` entries (more are allowed). -/
structure Fine (a : ConvNetArgs K) (size : ℕ) (r : Rank) (cls : ℕ → ConvClass) (m : ℕ) : Prop where
  layers : 1 ≤ m
  channels : a.channels.length = m + 1
  positive : ∀ i < m, 1 ≤ a.chan i
  key : ∀ i < m, ∃ key, (a.lists size).layerType[i]? = some key ∧ convTable.lookup key = some (some (cls i))
  rank : ∀ i < m, (cls i).rank = r ∧ cls i ≠ .fourier .one
  n : ∀ i < m, i < (a.lists size).n.length ∧ 1 ≤ (a.lists size).n.getD i 0
  segments : ∀ i < m, i < (a.lists size).segments.length ∧ 1 ≤ (a.lists size).segments.getD i 0
  kernel : ∀ i < m, i < a.kernelSize.length ∧ 1 ≤ a.kern i
  stride : ∀ i < m, (∀ l ∈ (a.lists size).stride, i < l.length) ∧ 1 ≤ a.step size i

end ConvNetArgs

theorem pyIndex_ok {α : Type} {l : List α} {i : ℕ} (h : i < l.length) (d : α) : pyIndex l i = .ok (l.getD i d) := by
  unfold pyIndex
  rw [List.getElem?_eq_getElem h, List.getD_eq_getElem _ _ h]

theorem pyIndex_error {α : Type} {l : List α} {i : ℕ} (h : l.length ≤ i) : pyIndex l i = .error .indexError := by
  unfold pyIndex
  rw [List.getElem?_eq_none h]

theorem mapM_prefix_error {α β : Type} {f : α → Py β} {l₁ l₂ : List α} {a : α} {e : PyErr} (h : ∀ b ∈ l₁, ∃ c, f b = .ok c) (ha : f a = .error e) :
    (l₁ ++ a :: l₂).mapM f = .error e := by
  induction l₁ with
  | nil => rw [List.nil_append, List.mapM_cons, ha]; rfl
  | cons b l ih =>
    obtain ⟨c, hc⟩ := h b (by simp)
    rw [List.cons_append, List.mapM_cons, hc, ih fun b hb => h b (by simp [hb])]
    rfl

theorem range_split {n j : ℕ} (h : j < n) : List.range n = List.range j ++ j :: ((List.range (n - j - 1)).map fun i => j + 1 + i) := by
  have : n = j + 1 + (n - j - 1) := by omega
  conv_lhs => rw [this, List.range_add, List.range_succ]
  simp

theorem convInit_between (cls : ConvClass) (a : ConvArgs K) (rand : ConvRng K) (hf : cls ≠ .fourier .one) (hn : 1 ≤ a.n) (hs : 1 ≤ a.segments)
    (hc : 1 ≤ a.inChannels) {k s p : ℕ} (hg : a.geometry = ⟨k, s, p, 1, 0⟩) (hk : 1 ≤ k) :
    ∃ L, convInit cls a rand = .ok L ∧ L.Between cls.rank a.inChannels a.outChannels k s p := by
  have hfit : (cls.expander a).Fits cls.rank := by
    match cls with
    | .polynomial _ | .fourier _ => exact hn
    | .piecewise _ _ => exact ⟨rfl, hn, hs⟩
  have hch : cls.channels a = a.inChannels * (cls.expander a).variables := by
    match cls with
    | .polynomial _ | .piecewise true _ | .piecewise false _ | .fourier _ => exact Nat.mul_comm _ _
  have hpos := hfit.variables_pos
  have hz : ¬ cls.channels a * a.geometry.kernel * a.geometry.kernel = 0 := by
    rw [hch, hg]
    positivity
  match cls, hf, hfit, hch, hz with
  | .polynomial .two, _, hfit, hch, hz | .piecewise true .two, _, hfit, hch, hz | .piecewise false .two, _, hfit, hch, hz
  | .fourier .two, _, hfit, hch, hz =>
    simp only [convInit, hz, if_false]
    refine ⟨_, rfl, rfl, hfit, hg, ?_⟩
    simp [constantRandomConv_shape, hch, hg, ConvClass.rank]
  | .polynomial .one, _, hfit, hch, hz | .piecewise true .one, _, hfit, hch, hz | .piecewise false .one, _, hfit, hch, hz =>
    simp only [convInit, hz, if_false]
    refine ⟨_, rfl, rfl, hfit, hg, ?_⟩
    simp [hch, hg, ConvClass.rank]

theorem convRound_ok {a : ConvNetArgs K} {size : ℕ} {r : Rank} {cls : ℕ → ConvClass} {m : ℕ} (h : a.Fine size r cls m) (rand : ℕ → ConvRng K) {i : ℕ}
    (hi : i < m) :
    ∃ L, convRound convLayer a (a.lists size) rand i
        = .ok (.conv L :: (a.normalization.map fun f => ConvStage.normal (f i (a.chan (i + 1)))).toList) ∧
      L.Between r (a.chan i) (a.chan (i + 1)) (a.kern i) (a.step size i) a.padding := by
  obtain ⟨key, hk1, hk2⟩ := h.key i hi
  obtain ⟨hr, hf⟩ := h.rank i hi
  have hs : (a.lists size).strideAt i = .ok (a.step size i) := by
    have := (h.stride i hi).1
    unfold ConvNetArgs.step ConvLists.strideAt
    cases hst : (a.lists size).stride with
    | none => rfl
    | some l => exact pyIndex_ok (this l (by rw [hst]; rfl)) 0
  obtain ⟨L, hL, hb⟩ := convInit_between (cls i)
    { n := (a.lists size).n.getD i 0, segments := (a.lists size).segments.getD i 0, inChannels := a.chan i, outChannels := a.chan (i + 1)
      length := ((2 : ℕ) : K), rescaleOutput := a.rescaleOutput, periodicity := a.periodicity, weightMagnitude := 1
      geometry := { kernel := a.kern i, stride := a.step size i, padding := a.padding, dilation := 1, outputPadding := 0 } } (rand i) hf
    (h.n i hi).2 (h.segments i hi).2 (h.positive i hi) rfl (h.kernel i hi).2
  refine ⟨L, ?_, hr ▸ hb⟩
  have e1 : pyIndex (a.lists size).layerType i = .ok key := by unfold pyIndex; rw [hk1]
  have hlen := h.channels
  unfold convRound
  simp only [bind, Except.bind, e1, pyIndex_ok (h.n i hi).1 0, pyIndex_ok (h.segments i hi).1 0, pyIndex_ok (h.kernel i hi).1 0,
    pyIndex_ok (l := a.channels) (i := i) (by omega) 0, pyIndex_ok (l := a.channels) (i := i + 1) (by omega) 0, hs, convLayer, hk2]
  unfold ConvNetArgs.chan ConvNetArgs.kern at hL
  rw [hL]
  unfold ConvNetArgs.chan
  cases a.normalization <;> rfl

/-- The stages made of layers `Ls i` and, if present, normalizations `g i`. -/
def stagesOf (m : ℕ) (Ls : ℕ → ConvLayer K) (g : Option (ℕ → Fwd K)) : List (ConvStage K) :=
  (List.range m).flatMap fun i => .conv (Ls i) :: (g.map fun g => ConvStage.normal (g i)).toList

theorem convStages_ok {a : ConvNetArgs K} {size : ℕ} {r : Rank} {cls : ℕ → ConvClass} {m : ℕ} (h : a.Fine size r cls m) (rand : ℕ → ConvRng K) :
    ∃ Ls : ℕ → ConvLayer K, convStages convLayer a size rand
        = .ok (stagesOf m Ls (a.normalization.map fun f i => f i (a.chan (i + 1)))) ∧
      ∀ i < m, (Ls i).Between r (a.chan i) (a.chan (i + 1)) (a.kern i) (a.step size i) a.padding := by
  have : Nonempty (ConvLayer K) := ⟨(convRound_ok h rand (i := 0) h.layers).choose⟩
  choose! Ls h1 h2 using fun i (hi : i < m) => convRound_ok h rand hi
  refine ⟨Ls, ?_, h2⟩
  unfold convStages
  have hlen := h.channels
  have hm := h.layers
  have e : (List.range (a.channels.length - 1)).mapM (convRound convLayer a (a.lists size) rand)
      = .ok ((List.range (a.channels.length - 1)).map fun i =>
        .conv (Ls i) :: (a.normalization.map fun f => ConvStage.normal (f i (a.chan (i + 1)))).toList) := by
    apply mapM_ok
    intro i hi
    rw [List.mem_range] at hi
    exact h1 i (by omega)
  have c1 : unequalLengths (a.lists size).segments.length a.kernelSize.length (a.lists size).layerType.length (a.lists size).n.length = false := by
    simp [unequalLengths, intIsFalse]
  have c2 : wrongChannels a.channels.length (a.lists size).n.length = false := by simp [wrongChannels, intIsFalse]
  simp only [c1, c2, bind, Except.bind, e]
  rw [if_neg (by omega)]
  simp only [Bool.false_eq_true, if_false]
  congr 1
  unfold stagesOf
  rw [hlen, Nat.add_sub_cancel, ← List.flatMap_def]
  apply List.flatMap_congr
  intro i _
  cases a.normalization <;> rfl

/-! ## forward -/

theorem runStages_append (s t : List (ConvStage K)) (x : Tensor K) :
    runStages (s ++ t) x = (do let y ← runStages s x; runStages t y) := by
  induction s generalizing x with
  | nil => rfl
  | cons a s ih =>
    simp only [List.cons_append, runStages, bind, Except.bind]
    cases a.call x with
    | error e => rfl
    | ok y => exact ih y

theorem stagesOf_succ (m : ℕ) (Ls : ℕ → ConvLayer K) (g : Option (ℕ → Fwd K)) :
    stagesOf (m + 1) Ls g = stagesOf m Ls g ++ (.conv (Ls m) :: (g.map fun g => ConvStage.normal (g m)).toList) := by
  unfold stagesOf
  rw [List.range_succ, List.flatMap_append]
  simp

/-- Shapes along a chain of layers, each followed by a normalization that keeps the shape of batches of this size. -/
theorem runStages_keeps {m : ℕ} {Ls : ℕ → ConvLayer K} {g : Option (ℕ → Fwd K)} {S : ℕ → List ℕ} {B : ℕ}
    (hL : ∀ i < m, MapsShape (Ls i).forward (S i) (S (i + 1))) (hg : ∀ f ∈ g, ∀ i < m, KeepsBatch (f i) (B :: S (i + 1))) {x : Tensor K} (hx : x.WF)
    (hs : x.shape = B :: S 0) : ∃ y, runStages (stagesOf m Ls g) x = .ok y ∧ y.WF ∧ y.shape = B :: S m := by
  induction m with
  | zero => exact ⟨x, rfl, hx, hs⟩
  | succ m ih =>
    obtain ⟨y, h1, h2, h3⟩ := ih (fun i hi => hL i (by omega)) (fun f hf i hi => hg f hf i (by omega))
    obtain ⟨z, k1, k2, k3⟩ := hL m (by omega) B y h2 h3
    rw [stagesOf_succ, runStages_append, h1]
    cases g with
    | none =>
      refine ⟨z, ?_, k2, k3⟩
      simp only [bind, Except.bind, Option.map_none, Option.toList_none, runStages, ConvStage.call, k1]
    | some f =>
      obtain ⟨u, l1, l2, l3⟩ := hg f rfl m (by omega) z k2 k3
      refine ⟨u, ?_, l2, l3⟩
      simp only [bind, Except.bind, Option.map_some, Option.toList_some, runStages, ConvStage.call, k1, l1]

theorem stagesOf_keeps {a : ConvNetArgs K} {size : ℕ} {r : Rank} {cls : ℕ → ConvClass} {m : ℕ} (h : a.Fine size r cls m) {Ls : ℕ → ConvLayer K}
    (hL : ∀ i < m, (Ls i).Between r (a.chan i) (a.chan (i + 1)) (a.kern i) (a.step size i) a.padding) {g : Option (ℕ → Fwd K)} {B H W : ℕ}
    (hg : ∀ f ∈ g, ∀ i < m, KeepsBatch (f i) (B :: imageShape r (a.chan (i + 1)) (a.widthAt size H (i + 1)) (a.widthAt size W (i + 1))))
    (hH : ∀ i < m, a.kern i ≤ a.widthAt size H i + 2 * a.padding) (hW : r = .two → ∀ i < m, a.kern i ≤ a.widthAt size W i + 2 * a.padding)
    {x : Tensor K} (hx : x.WF) (hxs : x.shape = B :: imageShape r (a.chan 0) H W) :
    ∃ y, runStages (stagesOf m Ls g) x = .ok y ∧ y.WF ∧ y.shape = B :: imageShape r (a.chan m) (a.widthAt size H m) (a.widthAt size W m) :=
  runStages_keeps (m := m) (Ls := Ls) (g := g) (S := fun i => imageShape r (a.chan i) (a.widthAt size H i) (a.widthAt size W i))
    (fun i hi => (hL i hi).mapsShape (h.kernel i hi).2 (h.stride i hi).2 (hH i hi) (fun hr => hW hr i hi)) hg hx hxs

theorem convOut_pos (k s p w : ℕ) : 1 ≤ convOut k s p w := Nat.le_add_left _ _

theorem widthAt_pos (a : ConvNetArgs K) (size : ℕ) {w m : ℕ} (hm : 1 ≤ m) : 1 ≤ a.widthAt size w m := by
  cases m with
  | zero => omega
  | succ m => exact convOut_pos _ _ _ _

end HOL
