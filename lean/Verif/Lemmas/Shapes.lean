import Verif.Lemmas.NetRefine
import Verif.Props.Product
import Verif.Props.Fourier

/-! # Shapes of layers and networks -/

namespace HOL
open TorchScalar MLPArgs
variable {K : Type} [TorchScalar K]

set_option linter.unusedSectionVars false

/-- Number of modules of a layer. -/
def kindSize : FcKind → ℕ
  | .leaf .linearRelu => 2
  | .switch _ => 3
  | _ => 1

/-- The constructor succeeds for usable arguments. -/
theorem Usable.builds (rng : Rng K) {kind : FcKind} {a : FcArgs K} (hu : Usable kind a) : ∃ F, Builds rng kind a F (kindSize kind) := by
  have leaf1 : ∀ (k : LeafKind) (f : ℕ → Mod K), (∀ base, leafMods rng k a base = .ok [f base]) → (∀ base, (f base).refs = []) →
      ∃ F, Builds rng (.leaf k) a F 1 := by
    intro k f hf hr
    refine ⟨fun base => [f base], ?_, ?_, by omega, ?_⟩
    · intro base; exact hf base
    · intro base; rfl
    · intro base k m hm j hj
      match k, hm with
      | 0, hm => simp at hm; subst hm; rw [hr] at hj; cases hj
      | k + 1, hm => simp at hm
  match kind, hu with
  | .leaf .linear, _ => exact leaf1 .linear _ (fun base => rfl) (fun base => rfl)
  | .leaf .product, _ => exact leaf1 .product _ (fun base => rfl) (fun base => rfl)
  | .leaf .linearRelu, _ =>
    refine ⟨_, fun base => rfl, fun base => rfl, Nat.succ_pos _, ?_⟩
    intro base k m hm j hj
    match k, hm with
    | 0, hm => simp at hm; subst hm; cases hj
    | 1, hm =>
      simp at hm; subst hm
      simp [Mod.refs, Mod.hidden, Mod.children] at hj
      omega
    | k + 2, hm => simp at hm
  | .leaf (.pw cls), ⟨n, s, hn, hs, _⟩ =>
    refine leaf1 (.pw cls) (fun base => .pw (PwLayer.init cls n a.inFeatures a.outFeatures s ((2 : ℕ) : K) (rng base) 1 a.periodicity)) ?_
      (fun base => rfl)
    intro base
    simp only [leafMods, hn, hs]
  | .switch cls, ⟨⟨n, s, hn, hs, _⟩, hnum⟩ => exact ⟨_, pwF_builds rng true cls a hn hs hnum⟩
  | .leaf .polynomial, ⟨n, hn, hpos⟩ =>
    refine leaf1 .polynomial (fun base => .fn { poly := lagrangePolyFlat n ((2 : ℕ) : K), inFeatures := a.inFeatures, outFeatures := a.outFeatures
                                                periodicity := a.periodicity
                                                w := constantRandomInit (rng base) a.outFeatures a.inFeatures n 1 }) ?_ (fun base => rfl)
    intro base
    simp only [leafMods, hn, polynomialInit, FnLayer.init]
    rw [lagrangePolyFlat_numBasis hpos]
    rfl
  | .leaf .fourier, ⟨n, hn, hpos⟩ =>
    refine leaf1 .fourier (fun base => .fn { poly := fourierSeriesFlat n ((2 : ℕ) : K), inFeatures := a.inFeatures, outFeatures := a.outFeatures
                                             periodicity := none
                                             w := constantRandomInit (rng base) a.outFeatures a.inFeatures n 1 }) ?_ (fun base => rfl)
    intro base
    simp only [leafMods, hn, fourierSeriesInit, FnLayer.init]
    rfl

theorem IsLayer.of_lookup {rng : Rng K} {kind : FcKind} {a : FcArgs K} {F : ℕ → List (Mod K)} {sz : ℕ} (hF : Builds rng kind a F sz)
    {h : Heap K} {base : ℕ} (hl : ∀ k < sz, h[base + k]? = (F base)[k]?) : IsLayer kind a h (base + sz - 1) := by
  refine ⟨rng, base, F base, hF.ok base, ?_, ?_⟩
  · rw [hF.len]; have := hF.pos; omega
  · intro k m hm
    have hk : k < sz := by rw [← hF.len base]; exact (List.getElem?_eq_some_iff.1 hm).1
    exact ⟨m, (hl k hk).trans hm, .refl m⟩

theorem IsLayer.later {kind : FcKind} {a : FcArgs K} {h h' : Heap K} {j : ℕ} (hl : IsLayer kind a h j) (ht : h.Later h') :
    IsLayer kind a h' j := by
  obtain ⟨rng, base, ms, e1, e2, e3⟩ := hl
  refine ⟨rng, base, ms, e1, e2, ?_⟩
  intro k m hm
  obtain ⟨m', f1, f2⟩ := e3 k m hm
  obtain ⟨m'', g1, g2⟩ := ht _ m' f1
  exact ⟨m'', g1, f2.trans g2⟩

theorem mapsTo_linear {w b : Tensor K} {I O : ℕ} (hw : w.shape = [O, I]) : MapsTo (fun x => linearForward w b x) I O := by
  intro B x hx hwf
  unfold linearForward
  simp only [hx, hw, if_true]
  exact ⟨_, rfl, rfl, Tensor.wf_tabulate _ _⟩

/-- Every usable layer, trained or not, maps `[batch, in]` to `[batch, out]`. -/
theorem IsLayer.mapsTo {kind : FcKind} {a : FcArgs ℝ} (hu : Usable kind a) {h : Heap ℝ} (ho : h.Ordered) {j : ℕ} (hl : IsLayer kind a h j) :
    MapsTo (h.forward j) a.inFeatures a.outFeatures := by
  obtain ⟨rng, base, ms, e1, e2, e3⟩ := hl
  have pw : ∀ {cls : PwClass} {n s : ℕ} {r : ℕ → ℕ → ℝ} {p : Option ℝ} {i : ℕ} {m' : Mod ℝ}, 0 < n → 0 < s → 0 < a.inFeatures → 0 < a.outFeatures →
      h[i]? = some m' → (Mod.pw (PwLayer.init cls n a.inFeatures a.outFeatures s ((2 : ℕ) : ℝ) r 1 p)).Trained m' →
      MapsTo (h.forward i) a.inFeatures a.outFeatures := by
    intro cls n s r p i m' hn hs hI hO hi ht
    have hwf := PwLayer.init_wf cls hn hI hO hs ((2 : ℕ) : ℝ) r 1 p
    rw [Heap.forward_eq ho hi]
    intro B x hx hxw
    cases ht with
    | refl => exact PwLayer.forward_shape _ hwf hx hxw
    | pw L w hs' hw => exact PwLayer.forward_shape _ (hwf.withW hs' hw) hx hxw
  match kind, hu with
  | .leaf .linear, _ =>
    cases e1
    have hj : j = base + 0 := by simpa using e2
    obtain ⟨m', f1, f2⟩ := e3 0 _ rfl
    rw [hj, Heap.forward_eq ho f1]
    cases f2 with
    | refl => exact mapsTo_linear rfl
    | linear w b w' b' hs hb => exact mapsTo_linear hs
  | .leaf .linearRelu, _ =>
    cases e1
    have hj : j = base + 1 := by simp at e2; omega
    obtain ⟨m', f1, f2⟩ := e3 0 _ rfl
    obtain ⟨m'', g1, g2⟩ := e3 1 _ rfl
    cases g2
    have hlin : MapsTo (h.forward base) a.inFeatures a.outFeatures := by
      rw [Heap.forward_eq ho (i := base) (by simpa using f1)]
      cases f2 with
      | refl => exact mapsTo_linear rfl
      | linear w b w' b' hs hb => exact mapsTo_linear hs
    rw [hj, Heap.forward_eq ho g1]
    intro B x hx hwf
    obtain ⟨y, y1, y2, y3⟩ := hlin B x hx hwf
    refine ⟨reluT y, ?_, y2, Tensor.wf_map y3 _⟩
    simp only [Mod.forward, y1]
    rfl
  | .leaf .product, _ =>
    cases e1
    have hj : j = base + 0 := by simpa using e2
    obtain ⟨m', f1, f2⟩ := e3 0 _ rfl
    rw [hj, Heap.forward_eq ho f1]
    intro B x hx hwf
    cases f2 with
    | refl => exact ⟨_, ProductLayer.forward_eq _ _ rfl rfl hx hwf, rfl, Tensor.wf_tabulate _ _⟩
    | product L w b hs hb => exact ⟨_, ProductLayer.forward_eq _ b rfl hs hx hwf, rfl, Tensor.wf_tabulate _ _⟩
  | .leaf (.pw cls), ⟨n, s, hn, hs, h1, h2, h3, h4⟩ =>
    simp only [fcMods, leafMods, hn, hs] at e1
    cases e1
    have hj : j = base + 0 := by simpa using e2
    obtain ⟨m', f1, f2⟩ := e3 0 _ rfl
    rw [hj]
    exact pw h1 h2 h3 h4 f1 f2
  | .switch cls, ⟨⟨n, s, hn, hs, h1, h2, h3, h4⟩, hnum⟩ =>
    have hb := pwF_builds rng true cls a hn hs hnum
    have e1' : fcMods rng (.switch cls) a base = .ok (pwF rng true cls a n s base) := hb.ok base
    rw [e1'] at e1
    cases e1
    have hj : j = base + 2 := by simp [pwF] at e2; omega
    obtain ⟨m0, f1, f2⟩ := e3 0 _ rfl
    obtain ⟨m1, f3, f4⟩ := e3 1 _ rfl
    obtain ⟨m2, f5, f6⟩ := e3 2 _ rfl
    cases f6
    rw [hj, Heap.forward_eq ho f5]
    intro B x hx hwf
    obtain ⟨y, y1, y2, y3⟩ := pw h1 h2 h3 h4 f1 f2 B x hx hwf
    obtain ⟨z, z1, z2, z3⟩ := pw h1 h2 h3 h4 f3 f4 B x hx hwf
    exact ⟨_, switch2_forward (call := h.forward) (i := base) y1 z1 y2 z2, rfl, Tensor.wf_tabulate _ _⟩
  | .leaf .polynomial, ⟨n, hn, hpos⟩ =>
    simp only [fcMods, leafMods, hn, polynomialInit, FnLayer.init] at e1
    rw [lagrangePolyFlat_numBasis hpos] at e1
    cases e1
    have hj : j = base + 0 := by simpa using e2
    obtain ⟨m', f1, f2⟩ := e3 0 _ rfl
    rw [hj, Heap.forward_eq ho f1]
    intro B x hx hwf
    cases f2 with
    | refl => exact ⟨_, FnLayer.forward_lagrange _ hpos _ rfl rfl hx hwf, rfl, Tensor.wf_tabulate _ _⟩
    | fn L w hs hw => exact ⟨_, FnLayer.forward_lagrange _ hpos _ rfl hs hx hwf, rfl, Tensor.wf_tabulate _ _⟩
  | .leaf .fourier, ⟨n, hn, hpos⟩ =>
    simp only [fcMods, leafMods, hn, fourierSeriesInit] at e1
    obtain ⟨L0, q1, q2, q3⟩ := C43_fourier_layer n a.inFeatures a.outFeatures hpos ((2 : ℕ) : ℝ) (rng base) 1 none
    rw [fourierSeriesInit] at q1
    rw [q1] at e1
    cases e1
    have hj : j = base + 0 := by simpa using e2
    obtain ⟨m', f1, f2⟩ := e3 0 _ rfl
    rw [hj, Heap.forward_eq ho f1]
    intro B x hx hwf
    cases f2 with
    | refl =>
      obtain ⟨y, y1, y2, y3, _⟩ := q3 L0.w q2 B x hx hwf
      exact ⟨y, y1, y2, y3⟩
    | fn L w hs hw =>
      obtain ⟨y, y1, y2, y3, _⟩ := q3 w (hs.trans q2) B x hx hwf
      exact ⟨y, y1, y2, y3⟩

end HOL
