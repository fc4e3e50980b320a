import Verif.Lemmas.Samples
import Verif.Props.NetworkContinuity

/-! # Lemmas about the networks of the image examples -/

namespace HOL
open TorchScalar Spec

set_option linter.unusedSectionVars false

section generic
variable {K : Type} [TorchScalar K]

theorem Spec.RejectsAll.first {f g : Fwd K} {s : List ℕ} (hf : RejectsAll f s) : RejectsAll (fun x => do g (← f x)) s := by
  intro B x hB hx hs
  beta_reduce
  rw [hf B x hB hx hs]
  rfl

theorem Spec.SampleMap.reject {f g : Fwd K} {s t : List ℕ} (hf : SampleMap f s t) (hg : RejectsAll g t) : RejectsAll (fun x => do g (← f x)) s := by
  intro B x hB hx hs
  obtain ⟨y, y1, y2, y3⟩ := hf.accepts B x hB hx hs
  beta_reduce
  rw [y1]
  exact hg B y hB y2 y3

theorem convSize_small {k w : ℕ} (h : w < k) : convSize (kernelOnly k) w = .error .runtimeError := by
  unfold convSize kernelOnly
  rw [if_pos]
  right; right; right
  show w + 2 * 0 < (k - 1) * 1 + 1
  omega

theorem ConvLayer.Between.reject {L : ConvLayer K} {C O k : ℕ} (h : L.Between .two C O k 1 0) {H W : ℕ} (hH : H < k ∨ W < k) : RejectsAll L.forward [C, H, W] := by
  intro B x hB hx hs
  obtain ⟨T, t1, t2, -⟩ := L.expanded2 h.expander hx hs
  have hk : L.kind = .conv2d := by simpa using h.kind
  have hw : L.weight.shape = [O, C * L.expander.variables, k, k] := by simpa using h.weight
  unfold ConvLayer.forward conv2d
  rw [hk]
  simp only [bind, Except.bind, t1, t2, hw, h.geometry, and_self, if_true]
  by_cases h1 : H < k
  · have hc : convSize ⟨k, 1, 0, 1, 0⟩ H = .error .runtimeError := convSize_small h1
    simp only [hc]
  · have hc : convSize ⟨k, 1, 0, 1, 0⟩ W = .error .runtimeError := convSize_small (by omega)
    have hc' : convSize ⟨k, 1, 0, 1, 0⟩ H = .ok (convOut k 1 0 H) := convSize_plain (by omega) le_rfl (by omega)
    simp only [hc, hc']

theorem plain_reject {w b : Tensor K} {C O k H W : ℕ} (hw : w.shape = [O, C, k, k]) (hH : H < k ∨ W < k) : RejectsAll (fun x => conv2dBias (kernelOnly k) w b x) [C, H, W] := by
  intro B x hB hx hs
  unfold conv2dBias conv2d
  simp only [hs, hw, kernelOnly, and_self, if_true, bind, Except.bind]
  by_cases h1 : H < k
  · have hc : convSize ⟨k, 1, 0, 1, 0⟩ H = .error .runtimeError := convSize_small h1
    simp only [hc]
  · have hc : convSize ⟨k, 1, 0, 1, 0⟩ W = .error .runtimeError := convSize_small (by omega)
    have hc' : convSize ⟨k, 1, 0, 1, 0⟩ H = .ok (convOut k 1 0 H) := convSize_plain (by omega) le_rfl (by omega)
    simp only [hc, hc']

theorem pool_reject (f : List K → K) {C H W : ℕ} (hH : H < 2 ∨ W < 2) : RejectsAll (fun x => pool22 f x) [C, H, W] := by
  intro B x hB hx hs
  unfold pool22
  simp only [hs]
  rw [if_pos (by omega)]

theorem linear_reject {w b : Tensor K} {I O m : ℕ} (hw : w.shape = [O, I]) (hm : m ≠ I) : RejectsAll (fun x => linearForward w b x) [m] := by
  intro B x hB hx hs
  unfold linearForward
  simp only [hs, hw]
  rw [if_neg (by omega)]

end generic

/-! ## fully connected layers -/

theorem IsLayer.sampleMap {kind : FcKind} {a : FcArgs ℝ} (hu : Usable kind a) (hper : a.periodicity = none)
    {h : Heap ℝ} (ho : h.Ordered) {j : ℕ} (hl : IsLayer kind a h j) : SampleMap (h.forward j) [a.inFeatures] [a.outFeatures] := by
  have fin : ∀ {f : Fwd ℝ} {I O : ℕ} {F : ℕ → (Fin I → ℝ) → ℝ}, Computes f I O (fun o r => F o fun i => r i) → SampleMap f [I] [O] := by
    intro f I O F hF
    exact hF.sampleMap fun o _ r r' hr => congrArg _ (funext fun i => hr i i.2)
  match kind, hu with
  | .leaf k, hu =>
    by_cases hk : k = .fourier
    · subst hk
      obtain ⟨F, -, hF⟩ := hl.computesContinuous hu trivial (by rw [hper]; simp) ho
      exact fin hF
    · obtain ⟨F, hF, -⟩ := hl.computesPieces hu hk hper ho
      exact fin hF
  | .switch cls, ⟨⟨n, s, hn, hs, h1, h2, h3, h4⟩, hnum⟩ =>
    obtain ⟨rng, base, ms, e1, e2, e3⟩ := hl
    have hb := pwF_builds rng true cls a hn hs hnum
    have e1' : fcMods rng (.switch cls) a base = .ok (pwF rng true cls a n s base) := hb.ok base
    rw [e1'] at e1
    cases e1
    have hj : j = base + 2 := by simp [pwF] at e2; omega
    obtain ⟨m0, f1, f2⟩ := e3 0 _ rfl
    obtain ⟨m1, f3, f4⟩ := e3 1 _ rfl
    obtain ⟨m2, f5, f6⟩ := e3 2 _ rfl
    cases f6
    have hpw : ∀ (r : ℕ → ℕ → ℝ) (i : ℕ) (m' : Mod ℝ), h[i]? = some m' → (Mod.pw (PwLayer.init cls n a.inFeatures a.outFeatures s ((2 : ℕ) : ℝ) r 1 none)).Trained m' →
        ∃ F : ℕ → (Fin a.inFeatures → ℝ) → ℝ, Computes (h.forward i) a.inFeatures a.outFeatures (fun o r => F o fun i => r i) := by
      intro r i m' hi ht
      have hwf := PwLayer.init_wf cls h1 h3 h4 h2 ((2 : ℕ) : ℝ) r 1 none
      have e2 : ((2 : ℕ) : ℝ) = 2 := by norm_num
      rw [Heap.forward_eq ho hi]
      cases ht with
      | refl =>
        obtain ⟨F, hF, -⟩ := pieces_pw hwf e2 rfl
        exact ⟨F, hF⟩
      | pw L w hs' hw =>
        obtain ⟨F, hF, -⟩ := pieces_pw (hwf.withW hs' hw) e2 rfl
        exact ⟨F, hF⟩
    obtain ⟨F, hF⟩ := hpw _ _ _ f1 f2
    obtain ⟨G, hG⟩ := hpw _ _ _ f3 f4
    rw [hj, Heap.forward_eq ho f5]
    refine fin (F := fun o r => F o r * G o r) ?_
    intro B x hx hwf
    obtain ⟨y, y1, y2, y3, y4⟩ := hF B x hx hwf
    obtain ⟨z, z1, z2, z3, z4⟩ := hG B x hx hwf
    refine ⟨_, switch2_forward (call := h.forward) (i := base) y1 z1 y2 z2, rfl, Tensor.wf_tabulate _ _, ?_⟩
    intro b hb o ho
    rw [Tensor.get_tab2 hb ho, y4 b hb o ho, z4 b hb o ho]

end HOL
