import Verif.Lemmas.Layout
import Verif.Lemmas.Transfer
import Verif.Lemmas.Layers
import Verif.Spec.Refinement

/-! # Networks of piecewise layers -/

namespace HOL
open TorchScalar MLPArgs
variable {K : Type} [TorchScalar K]

set_option linter.unusedSectionVars false

theorem Mod.Trained.trans {K : Type} {a b c : Mod K} (h : a.Trained b) (h' : b.Trained c) : a.Trained c := by
  cases h with
  | refl => exact h'
  | pw L w hs hw =>
    generalize hm : Mod.pw { L with w := w } = m at h'
    cases h' with
    | refl => subst hm; exact .pw L w hs hw
    | pw L' w' hs' hw' => cases hm; exact .pw L w' (hs'.trans hs) hw'
    | fn => cases hm
    | product => cases hm
    | linear => cases hm
  | fn L w hs hw =>
    generalize hm : Mod.fn { L with w := w } = m at h'
    cases h' with
    | refl => subst hm; exact .fn L w hs hw
    | fn L' w' hs' hw' => cases hm; exact .fn L w' (hs'.trans hs) hw'
    | pw => cases hm
    | product => cases hm
    | linear => cases hm
  | product L w b hs hb =>
    generalize hm : Mod.product { L with weight := w, bias := L.bias.map fun _ => b } = m at h'
    cases h' with
    | refl => subst hm; exact .product L w b hs hb
    | product L' w' b' hs' hb' =>
      cases hm
      have e : (L.bias.map fun _ => b).map (fun _ => b') = L.bias.map fun _ => b' := by cases L.bias <;> rfl
      simp only [e]
      refine .product L w' b' (hs'.trans hs) ?_
      intro b0 h0
      rw [hb' b (by simp only [Option.mem_def] at h0 ⊢; rw [h0]; rfl), hb b0 h0]
    | pw => cases hm
    | fn => cases hm
    | linear => cases hm
  | linear w b w' b' hs hb =>
    generalize hm : Mod.linear w' b' = m at h'
    cases h' with
    | refl => subst hm; exact .linear w b w' b' hs hb
    | linear w1 b1 w2 b2 hs' hb' => cases hm; exact .linear w b w2 b2 (hs'.trans hs) (hb'.trans hb)
    | pw => cases hm
    | fn => cases hm
    | product => cases hm

theorem Heap.Later.trans {K : Type} {a b c : Heap K} (h : a.Later b) (h' : b.Later c) : a.Later c := by
  intro i m hm
  obtain ⟨m', e, t⟩ := h i m hm
  obtain ⟨m'', e', t'⟩ := h' i m' e
  exact ⟨m'', e', t.trans t'⟩

theorem Heap.Later.length_le {K : Type} {a b : Heap K} (h : a.Later b) : a.length ≤ b.length := by
  by_contra hc
  push Not at hc
  obtain ⟨m', e, _⟩ := h b.length _ (List.getElem?_eq_getElem hc)
  have := (List.getElem?_eq_some_iff.1 e).1
  omega

theorem Heap.Later.append {K : Type} (h D : Heap K) : h.Later (h ++ D) := by
  intro i m hm
  have hi : i < h.length := (List.getElem?_eq_some_iff.1 hm).1
  exact ⟨m, by rw [List.getElem?_append_left hi]; exact hm, .refl m⟩

def kindOf (sw : Bool) (cls : PwClass) : FcKind := if sw then .switch cls else .leaf (.pw cls)
def sizeOf (sw : Bool) : ℕ := if sw then 3 else 1

theorem sizeOf_pos (sw : Bool) : 0 < sizeOf sw := by cases sw <;> simp [sizeOf]

/-- The modules of a piecewise or switch layer. -/
def pwF (rng : Rng K) (sw : Bool) (cls : PwClass) (a : FcArgs K) (n s base : ℕ) : List (Mod K) :=
  if sw then
    [.pw (PwLayer.init cls n a.inFeatures a.outFeatures s ((2 : ℕ) : K) (rng base) 1 none),
     .pw (PwLayer.init cls n a.inFeatures a.outFeatures s ((2 : ℕ) : K) (rng (base + 1)) 1 none),
     .switch a.inFeatures [base, base + 1] none]
  else [.pw (PwLayer.init cls n a.inFeatures a.outFeatures s ((2 : ℕ) : K) (rng base) 1 a.periodicity)]

theorem pwF_builds (rng : Rng K) (sw : Bool) (cls : PwClass) (a : FcArgs K) {n s : ℕ} (hn : a.n = .int n)
    (hs : a.segments = some (.int s)) (hnum : a.numInputLayers = 2) :
    Builds rng (kindOf sw cls) a (pwF rng sw cls a n s) (sizeOf sw) := by
  constructor
  · intro base
    cases sw with
    | false =>
      simp only [kindOf, Bool.false_eq_true, if_false, fcMods, leafMods, hn, hs, pwF]
    | true =>
      simp only [kindOf, if_true, fcMods, switchMods, hnum, sublayers, leafMods, hn, hs, pwF, bind, Except.bind]
      simp
  · intro base; cases sw <;> rfl
  · exact sizeOf_pos sw
  · intro base k m hm j hj
    cases sw with
    | false =>
      simp only [pwF, Bool.false_eq_true, if_false] at hm
      match k, hm with
      | 0, hm => simp at hm; subst hm; simp [Mod.refs, Mod.hidden, Mod.children] at hj
      | k + 1, hm => simp at hm
    | true =>
      simp only [pwF, if_true] at hm
      match k, hm with
      | 0, hm => simp at hm; subst hm; simp [Mod.refs, Mod.hidden, Mod.children] at hj
      | 1, hm => simp at hm; subst hm; simp [Mod.refs, Mod.hidden, Mod.children] at hj
      | 2, hm =>
        simp at hm; subst hm
        simp [Mod.refs, Mod.hidden, Mod.children] at hj
        omega
      | k + 3, hm => simp at hm

/-- Parameters of a layer of a network. -/
structure FcInfo (K : Type) where
  sw : Bool
  cls : PwClass
  n : ℕ
  s : ℕ
  I : ℕ
  O : ℕ
  per : Option K

/-- Module `j` is a piecewise layer with these parameters. -/
def IsPw (h : Heap K) (j : ℕ) (t : FcInfo K) (per : Option K) : Prop :=
  ∃ L : PwLayer K, h[j]? = some (.pw L) ∧ L.WF ∧ L.cls = t.cls ∧ L.n = t.n ∧ L.segments = t.s ∧ L.inFeatures = t.I ∧
    L.outFeatures = t.O ∧ L.length = ((2 : ℕ) : K) ∧ L.periodicity = per

/-- Module `j` is a piecewise layer or a switch layer with these parameters. -/
def IsFc (h : Heap K) (j : ℕ) (t : FcInfo K) : Prop :=
  if t.sw then 2 ≤ j ∧ h[j]? = some (.switch t.I [j - 2, j - 1] none) ∧ IsPw h (j - 2) t none ∧ IsPw h (j - 1) t none
  else IsPw h j t t.per

theorem IsPw.trained {h h' : Heap K} (ht : h.Later h') {j : ℕ} {t : FcInfo K} {per : Option K} (hp : IsPw h j t per) :
    IsPw h' j t per := by
  obtain ⟨L, a, b, c⟩ := hp
  obtain ⟨m', e, ht'⟩ := ht j _ a
  cases ht' with
  | refl => exact ⟨L, e, b, c⟩
  | pw L w hs hw => exact ⟨_, e, ⟨b.n_pos, b.seg_pos, b.in_pos, b.out_pos, hs.trans b.w_shape, hw⟩, c⟩

theorem Heap.Later.same {h h' : Heap K} (ht : h.Later h') {j : ℕ} {m : Mod K} (hm : h[j]? = some m) (hp : m.hasParams = false) :
    h'[j]? = some m := by
  obtain ⟨m', e, t⟩ := ht j m hm
  cases t with
  | refl => exact e
  | _ => simp [Mod.hasParams] at hp

theorem IsFc.trained {h h' : Heap K} (ht : h.Later h') {j : ℕ} {t : FcInfo K} (hp : IsFc h j t) : IsFc h' j t := by
  unfold IsFc at *
  split
  · rename_i hs
    rw [if_pos hs] at hp
    exact ⟨hp.1, ht.same hp.2.1 rfl, hp.2.2.1.trained ht, hp.2.2.2.trained ht⟩
  · rename_i hs
    rw [if_neg hs] at hp
    exact hp.trained ht

/-- A freshly built layer. -/
theorem isFc_of_lookup {rng : Rng K} {h : Heap K} {sw : Bool} {cls : PwClass} {a : FcArgs K} {n s base : ℕ}
    (hl : ∀ k < sizeOf sw, h[base + k]? = (pwF rng sw cls a n s base)[k]?)
    (hn : 0 < n) (hs : 0 < s) (hI : 0 < a.inFeatures) (hO : 0 < a.outFeatures) :
    IsFc h (base + sizeOf sw - 1) ⟨sw, cls, n, s, a.inFeatures, a.outFeatures, a.periodicity⟩ := by
  have mk : ∀ (j : ℕ) (r : ℕ → ℕ → K) (p : Option K) (per : Option K),
      h[j]? = some (.pw (PwLayer.init cls n a.inFeatures a.outFeatures s ((2 : ℕ) : K) r 1 p)) →
      IsPw h j ⟨sw, cls, n, s, a.inFeatures, a.outFeatures, per⟩ p := by
    intro j r p per e
    exact ⟨_, e, PwLayer.init_wf cls hn hI hO hs _ r 1 p, rfl, rfl, rfl, rfl, rfl, rfl, rfl⟩
  unfold IsFc
  cases sw with
  | false =>
    simp only [Bool.false_eq_true, if_false, sizeOf, Nat.add_sub_cancel]
    have := hl 0 (by simp [sizeOf])
    exact mk _ _ _ _ this
  | true =>
    simp only [if_true, sizeOf]
    have h0 := hl 0 (by simp [sizeOf])
    have h1 := hl 1 (by simp [sizeOf])
    have h2 := hl 2 (by simp [sizeOf])
    have e0 : base + 3 - 1 - 2 = base := by omega
    have e1 : base + 3 - 1 - 1 = base + 1 := by omega
    have e2 : base + 3 - 1 = base + 2 := by omega
    rw [e0, e1, e2]
    exact ⟨by omega, h2, mk _ _ _ _ h0, mk _ _ _ _ h1⟩

namespace MLPArgs

/-- The layer at an entry of `layer_list`. -/
def fcInfo (c : MLPArgs K) (o : Orders) (swI sw : Bool) (clsI cls : PwClass) : Slot → Option (FcInfo K)
  | .inp => some ⟨swI, clsI, o.nIn, o.sIn, c.inWidth, c.hiddenWidth, c.periodicity⟩
  | .lay i =>
    if i < c.hiddenLayers then some ⟨sw, cls, o.nHidden, o.sHidden, c.hiddenWidth, c.hiddenWidth, c.periodicity⟩
    else some ⟨sw, cls, o.nOut, o.sOut, c.hiddenWidth, c.outWidth, c.periodicity⟩
  | _ => none

/-- The function applied by an entry that is not a layer. -/
def slotFn (c : MLPArgs K) (nlF : Fwd K) : Slot → Fwd K
  | .drop => c.dropoutFn
  | .norm _ => c.normalization.getD noFwd
  | _ => nlF

/-- Widths before and after an entry. -/
def slotW (c : MLPArgs K) : Slot → ℕ × ℕ
  | .inp => (c.inWidth, c.hiddenWidth)
  | .lay i => (c.hiddenWidth, if i < c.hiddenLayers then c.hiddenWidth else c.outWidth)
  | _ => (c.hiddenWidth, c.hiddenWidth)

end MLPArgs

/-- A (trained) network of piecewise or switch layers. -/
structure PwNet (c : MLPArgs K) (g : Geo) (o : Orders) (swI sw : Bool) (clsI cls : PwClass) (nlF : Fwd K) (h : Heap K) : Prop where
  net : h[c.netId g]? = some (.mlp g.base (g.base + g.si) (c.layId g c.hiddenLayers) (c.netId g - 1))
  seq : h[c.netId g - 1]? = some (.seq (c.plan.map (c.slotId g)))
  slots : ∀ s ∈ c.plan, match c.fcInfo o swI sw clsI cls s with
    | some t => IsFc h (c.slotId g s) t
    | none => h[c.slotId g s]? = some (.other (c.slotFn nlF s))

theorem PwNet.trained {c : MLPArgs K} {g : Geo} {o : Orders} {swI sw : Bool} {clsI cls : PwClass} {nlF : Fwd K} {h h' : Heap K}
    (hn : PwNet c g o swI sw clsI cls nlF h) (ht : h.Later h') : PwNet c g o swI sw clsI cls nlF h' := by
  refine ⟨ht.same hn.net rfl, ht.same hn.seq rfl, ?_⟩
  intro s hs
  have := hn.slots s hs
  cases he : c.fcInfo o swI sw clsI cls s with
  | some t => rw [he] at this; exact IsFc.trained ht this
  | none => rw [he] at this; exact ht.same this rfl

/-- The geometry of a network of piecewise layers. -/
def geoOf (swI sw : Bool) (base : ℕ) : Geo := ⟨base, sizeOf swI, sizeOf sw, sizeOf sw⟩

/-- The constructor builds such a network. -/
theorem mlpInit_pwNet {rng : Rng K} {c : MLPArgs K} {o : Orders} {swI sw : Bool} {clsI cls : PwClass}
    (hk : fcTable.lookup c.layerType = some (kindOf sw cls))
    (hki : fcTable.lookup (orStr c.layerTypeIn c.layerType) = some (kindOf swI clsI))
    (ho : c.HasOrders o) (hres : c.resnet = false ∨ c.hiddenLayers ≤ 1) {h : Heap K} (hord : h.Ordered) {nlF : Fwd K}
    (hnl : ∀ j ∈ c.nonLinearity, h[j]? = some (.other nlF)) :
    ∃ D, mlpInit rng c h = .ok (c.netId (geoOf swI sw h.length), h ++ D) ∧
      (h ++ D).length = c.netId (geoOf swI sw h.length) + 1 ∧ (h ++ D : Heap K).Ordered ∧
      PwNet c (geoOf swI sw h.length) o swI sw clsI cls nlF (h ++ D) := by
  have hI := pwF_builds rng swI clsI c.inputArgs ho.nIn ho.sIn rfl
  have hH := pwF_builds rng sw cls c.hiddenArgs ho.nHidden ho.sHidden rfl
  have hO := pwF_builds rng sw cls c.outputArgs ho.nOut ho.sOut rfl
  obtain ⟨D, e1, e2, lay, e3⟩ := mlpInit_layout hk hki hI hH hO h
  obtain ⟨p1, p2, p3, p4, p5, p6⟩ := ho.pos
  obtain ⟨w1, w2, w3⟩ := ho.widths
  have hnl' : ∀ j ∈ c.nonLinearity, j < h.length := fun j hj => (List.getElem?_eq_some_iff.1 (hnl j hj)).1
  refine ⟨D, e1, e2, e3 hord hnl', lay.net, lay.model, ?_⟩
  intro s hs
  set g : Geo := ⟨h.length, sizeOf swI, sizeOf sw, sizeOf sw⟩ with hg
  have hgeo : geoOf swI sw h.length = g := rfl
  rw [hgeo]
  rcases mem_plan.1 hs with rfl | ⟨rfl, hn⟩ | ⟨rfl, hn⟩ | ⟨i, hi, rfl, hn⟩ | ⟨i, hi, rfl⟩
  · simp only [fcInfo]
    have := isFc_of_lookup (h := h ++ D) (base := h.length + 1) (fun k hk' => lay.inp k hk') p1 p4 w1 w2
    have e : h.length + 1 + sizeOf swI - 1 = c.slotId g .inp := by simp only [slotId, hg]; omega
    rw [e] at this
    exact this
  · simp only [fcInfo]
    obtain ⟨j, hj⟩ := Option.isSome_iff_exists.1 hn
    simp only [slotId, hj, Option.getD_some, slotFn]
    rw [List.getElem?_append_left (hnl' j hj)]
    exact hnl j hj
  · simp only [fcInfo]
    exact lay.drop
  · simp only [fcInfo]
    obtain ⟨f, hf⟩ := Option.isSome_iff_exists.1 hn
    simp only [slotId, slotFn, hf, Option.getD_some]
    exact lay.norm f hf i hi
  · simp only [fcInfo]
    rcases Nat.lt_or_eq_of_le hi with hlt | heq
    · rw [if_pos hlt]
      have hex : c.extra i = 0 := by
        unfold extra
        rw [if_neg]
        rintro ⟨h1, h2⟩
        rcases hres with h3 | h3
        · rw [h3] at h1; cases h1
        · omega
      have := isFc_of_lookup (h := h ++ D) (base := c.blk g i + c.nu) (fun k hk' => lay.hid i hlt k hk') p2 p5 w2 w2
      have e : c.blk g i + c.nu + sizeOf sw - 1 = c.slotId g (.lay i) := by
        simp only [slotId, layId, coreId, size, if_pos hlt, hex, hg]; omega
      rw [e] at this
      exact this
    · subst heq
      rw [if_neg (lt_irrefl _)]
      have := isFc_of_lookup (h := h ++ D) (base := c.blk g c.hiddenLayers + c.nu) (fun k hk' => lay.out k hk') p3 p6 w2 w3
      have e : c.blk g c.hiddenLayers + c.nu + sizeOf sw - 1 = c.slotId g (.lay c.hiddenLayers) := by
        simp only [slotId, layId, coreId, size, lt_irrefl, if_false, hg]; omega
      rw [e] at this
      exact this

end HOL
