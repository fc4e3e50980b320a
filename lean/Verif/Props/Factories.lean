import Verif.Model.Network
import Verif.Model.Conv

/-! # C60: the layer factories -/

namespace HOL
open TorchScalar

variable {K : Type} [TorchScalar K]

/-- **C60 (unknown keys).** The three factories raise `ValueError` for every string that is not one of the documented keys. -/
theorem C60_unknown (rng : Rng K) (rand : ConvRng K) (key : String) (a : FcArgs K) (c : ConvArgs K) (h : Heap K) :
    (key ∉ ["baseline_relu", "baseline", "continuous", "continuous_prod", "discontinuous", "discontinuous_prod", "polynomial", "polynomial_prod", "product",
        "fourier", "switch_continuous", "switch_discontinuous", "polynomial_2d", "polynomial_3d", "polynomial_4d", "polynomial_5d", "continuous_nd"] →
      fcLayer rng key a h = .error .valueError) ∧
    (key ∉ ["continuous2d", "continuous1d", "continuous_prod2d", "discontinuous2d", "discontinuous1d", "discontinuous_prod2d", "polynomial2d",
        "polynomial1d", "polynomial_prod2d", "product2d", "fourier2d", "fourier1d"] → convLayer key c rand = .error .valueError) ∧
    (key ≠ "continuous2d" → convTransposeLayer key c rand = .error .valueError) := by
  refine ⟨fun hk => ?_, fun hk => ?_, fun hk => ?_⟩
  · have e : fcTable.lookup key = none := by
      rw [List.lookup_eq_none_iff]
      intro p hp
      rw [bne_iff_ne]
      rintro rfl
      exact hk (List.mem_map_of_mem (f := Prod.fst) hp)
    simp only [fcLayer, e]
  · have e : convTable.lookup key = none := by
      rw [List.lookup_eq_none_iff]
      intro p hp
      rw [bne_iff_ne]
      rintro rfl
      exact hk (List.mem_map_of_mem (f := Prod.fst) hp)
    simp only [convLayer, e]
  · simp [convTransposeLayer, hk]

/-- **C60 (fully connected).** For one number of nodes `n` and of segments `s`, each key gives the layer of its name with the given sizes: the heap of modules grows
by the new layer (and the layers it is made of), and nothing else changes. `length` is 2 and the weight magnitude 1 throughout; `switch_*` passes no periodicity to its
layers. -/
theorem C60_fc (rng : Rng K) {a : FcArgs K} {n s : ℕ} (hn : a.n = .int n) (hs : a.segments = some (.int s)) (h : Heap K) :
    (∀ key cls, (key, cls) ∈ [("continuous", PwClass.continuous), ("continuous_prod", .continuousProd), ("discontinuous", .discontinuous),
        ("discontinuous_prod", .discontinuousProd)] →
      ∃ L : PwLayer K, fcLayer rng key a h = .ok (h.length, h ++ [.pw L]) ∧ L.cls = cls ∧ L.n = n ∧ L.segments = s ∧ L.inFeatures = a.inFeatures ∧
        L.outFeatures = a.outFeatures ∧ L.length = ((2 : ℕ) : K) ∧ L.periodicity = a.periodicity) ∧
    (∃ L, polynomialInit n a.inFeatures a.outFeatures ((2 : ℕ) : K) (rng h.length) 1 a.periodicity = .ok L ∧
      fcLayer rng "polynomial" a h = .ok (h.length, h ++ [.fn L])) ∧
    (∃ L, fourierSeriesInit n a.inFeatures a.outFeatures ((2 : ℕ) : K) (rng h.length) 1 none = .ok L ∧
      fcLayer rng "fourier" a h = .ok (h.length, h ++ [.fn L])) ∧
    (∃ L : ProductLayer K, fcLayer rng "product" a h = .ok (h.length, h ++ [.product L]) ∧ L.inFeatures = a.inFeatures ∧ L.outFeatures = a.outFeatures ∧
      L.alpha = 1 ∧ L.periodicity = a.periodicity ∧ L.bias.isSome) ∧
    (∃ w b : Tensor K, w.shape = [a.outFeatures, a.inFeatures] ∧ b.shape = [a.outFeatures] ∧
      fcLayer rng "baseline" a h = .ok (h.length, h ++ [.linear w b]) ∧
      fcLayer rng "baseline_relu" a h = .ok (h.length + 1, h ++ [.linear w b, .linearRelu h.length])) ∧
    (∀ key cls, (key, cls) ∈ [("switch_continuous", PwClass.continuous), ("switch_discontinuous", .discontinuous)] →
      ∃ Ls : List (PwLayer K), fcLayer rng key a h = .ok (h.length + a.numInputLayers,
          h ++ Ls.map .pw ++ [.switch a.inFeatures (List.range' h.length a.numInputLayers) none]) ∧ Ls.length = a.numInputLayers ∧
        ∀ L ∈ Ls, L.cls = cls ∧ L.n = n ∧ L.segments = s ∧ L.inFeatures = a.inFeatures ∧ L.outFeatures = a.outFeatures ∧ L.periodicity = none) := by
  have sub : ∀ (cls : PwClass) (num base : ℕ), ∃ Ls : List (PwLayer K), Ls.length = num ∧
      (∀ L ∈ Ls, L.cls = cls ∧ L.n = n ∧ L.segments = s ∧ L.inFeatures = a.inFeatures ∧ L.outFeatures = a.outFeatures ∧ L.periodicity = none) ∧
      sublayers (leafMods rng (.pw cls) { a with periodicity := none, rescaleOutput := false }) num base
        = .ok (Ls.map .pw, List.range' base num) := by
    intro cls num
    induction num with
    | zero => intro base; exact ⟨[], rfl, by simp, rfl⟩
    | succ num ih =>
      intro base
      obtain ⟨Ls, h1, h2, h3⟩ := ih (base + 1)
      refine ⟨PwLayer.init cls n a.inFeatures a.outFeatures s ((2 : ℕ) : K) (rng base) 1 none :: Ls, by simp [h1], ?_, ?_⟩
      · intro L hL
        rcases List.mem_cons.1 hL with rfl | hL
        · exact ⟨rfl, rfl, rfl, rfl, rfl, rfl⟩
        · exact h2 L hL
      · simp only [sublayers, leafMods, hn, hs, bind, Except.bind, List.length_cons, List.length_nil, Nat.zero_add] at h3 ⊢
        rw [h3]
        simp [List.range'_succ]
  refine ⟨?_, ?_, ?_, ?_, ?_, ?_⟩
  · intro key cls hk
    simp only [List.mem_cons, Prod.mk.injEq, List.not_mem_nil, or_false] at hk
    refine ⟨PwLayer.init cls n a.inFeatures a.outFeatures s ((2 : ℕ) : K) (rng h.length) 1 a.periodicity, ?_, rfl, rfl, rfl, rfl, rfl, rfl, rfl⟩
    rcases hk with ⟨rfl, rfl⟩ | ⟨rfl, rfl⟩ | ⟨rfl, rfl⟩ | ⟨rfl, rfl⟩ <;>
      simp [fcLayer, fcTable, List.lookup_cons, fcMods, leafMods, hn, hs, bind, Except.bind]
  · have e : fcTable.lookup "polynomial" = some (.leaf .polynomial) := rfl
    obtain ⟨L, hL⟩ : ∃ L, polynomialInit n a.inFeatures a.outFeatures ((2 : ℕ) : K) (rng h.length) 1 a.periodicity = .ok L := by
      unfold polynomialInit FnLayer.init Poly.numBasis lagrangePolyFlat
      dsimp only
      split <;> exact ⟨_, rfl⟩
    refine ⟨L, hL, ?_⟩
    simp only [fcLayer, e, fcMods, leafMods, hn, hL, bind, Except.bind]
    rfl
  · have e : fcTable.lookup "fourier" = some (.leaf .fourier) := rfl
    refine ⟨_, rfl, ?_⟩
    simp only [fcLayer, e, fcMods, leafMods, hn, bind, Except.bind]
    rfl
  · simp only [fcLayer, fcTable, List.lookup_cons, fcMods, leafMods, hn, bind, Except.bind]
    exact ⟨_, rfl, rfl, rfl, rfl, rfl, rfl⟩
  · exact ⟨_, _, rfl, rfl, rfl, rfl⟩
  · intro key cls hk
    obtain ⟨Ls, h1, h2, h3⟩ := sub cls a.numInputLayers h.length
    refine ⟨Ls, ?_, h1, h2⟩
    have e : fcLayer rng key a h = (do
        let ms ← switchMods (leafMods rng (.pw cls)) none a h.length
        .ok (h.length + ms.length - 1, h ++ ms)) := by
      simp only [List.mem_cons, Prod.mk.injEq, List.not_mem_nil, or_false] at hk
      rcases hk with ⟨rfl, rfl⟩ | ⟨rfl, rfl⟩ <;> rfl
    rw [e]
    simp only [switchMods, h3, bind, Except.bind]
    simp [h1]

/-- **C60 (N dimensional keys).** A list `n` of numbers of nodes gives the N dimensional layers (for the keys `polynomial_2d` to `polynomial_5d` the digit is ignored), an
integer raises `TypeError` (`ValueError` for `continuous_nd`); all other high order layers take no list (`TypeError`). `polynomial_prod` never constructs (`AttributeError`). -/
theorem C60_fc_nd (rng : Rng K) (a : FcArgs K) (h : Heap K) :
    (∀ key ∈ ["polynomial_2d", "polynomial_3d", "polynomial_4d", "polynomial_5d"],
      (∀ l, a.n = .list l → l ≠ [] → ∃ L : PolyNDLayer K, L.basis.n = l ∧ L.periodicity = a.periodicity ∧
        L.w.shape = [a.outFeatures, a.inFeatures, numel l] ∧ fcLayer rng key a h = .ok (h.length, h ++ [.polyND L])) ∧
      ∀ n, a.n = .int n → fcLayer rng key a h = .error .typeError) ∧
    (∀ l s, a.n = .list l → l ≠ [] → a.segments = some (.list s) → s.length = l.length →
      ∃ L : PwNDLayer K, L.n = l ∧ L.segments = s ∧ L.inFeatures = a.inFeatures ∧ L.outFeatures = a.outFeatures ∧
        fcLayer rng "continuous_nd" a h = .ok (h.length, h ++ [.pwND L])) ∧
    (∀ n s, a.n = .int n → a.segments = some s → fcLayer rng "continuous_nd" a h = .error .valueError) ∧
    (∀ key ∈ ["continuous", "continuous_prod", "discontinuous", "discontinuous_prod", "polynomial", "polynomial_prod", "fourier"],
      ∀ l, a.n = .list l → fcLayer rng key a h = .error .typeError) ∧
    (∀ n, a.n = .int n → fcLayer rng "polynomial_prod" a h = .error .attributeError) := by
  refine ⟨?_, ?_, ?_, ?_, ?_⟩
  · intro key hk
    have e : fcLayer rng key a h = (do
        let L ← PolyNDLayer.init a.n a.inFeatures a.outFeatures ((2 : ℕ) : K) (rng h.length) 1 a.periodicity
        .ok (h.length, h ++ [Mod.polyND L])) := by
      simp only [List.mem_cons, List.not_mem_nil, or_false] at hk
      rcases hk with rfl | rfl | rfl | rfl <;>
        (simp only [fcLayer, fcTable, List.lookup_cons, fcMods, leafMods, bind, Except.bind]
         cases PolyNDLayer.init a.n a.inFeatures a.outFeatures ((2 : ℕ) : K) (rng h.length) 1 a.periodicity <;> rfl)
    refine ⟨fun l hl hne => ?_, fun n hn => ?_⟩
    · rw [e, hl]
      match l, hne with
      | q :: qs, _ => exact ⟨_, rfl, rfl, rfl, rfl⟩
    · rw [e, hn]; rfl
  · intro l s hl hne hs hsl
    match l, hne, hl, hsl with
    | q :: qs, _, hl, hsl =>
      obtain ⟨L, e, h1, h2, h3, h4⟩ : ∃ L, PwNDLayer.init (.list (q :: qs)) a.inFeatures a.outFeatures (.list s) none ((2 : ℕ) : K) (rng h.length) 1
          = .ok L ∧ L.n = q :: qs ∧ L.segments = s ∧ L.inFeatures = a.inFeatures ∧ L.outFeatures = a.outFeatures := by
        have hne : ¬ ((IntOrList.list (q :: qs)).toList (q :: qs).length).length ≠ ((IntOrList.list s).toList (q :: qs).length).length := by
          simpa [IntOrList.toList] using hsl.symm
        simp only [PwNDLayer.init, pwNDDims, bind, Except.bind]
        rw [if_neg hne]
        exact ⟨_, rfl, rfl, rfl, rfl, rfl⟩
      have e' : fcTable.lookup "continuous_nd" = some (.leaf .piecewiseND) := rfl
      refine ⟨L, h1, h2, h3, h4, ?_⟩
      simp only [fcLayer, e', fcMods, leafMods, hl, hs, e, bind, Except.bind]
      rfl
  · intro n s hn hs
    simp only [fcLayer, fcTable, List.lookup_cons, fcMods, leafMods, hn, hs, bind, Except.bind]
    rfl
  · intro key hk l hl
    simp only [List.mem_cons, List.not_mem_nil, or_false] at hk
    rcases hk with rfl | rfl | rfl | rfl | rfl | rfl | rfl <;>
      simp [fcLayer, fcTable, List.lookup_cons, fcMods, leafMods, hl, bind, Except.bind]
  · intro n hn
    simp only [fcLayer, fcTable, List.lookup_cons, fcMods, leafMods, hn, bind, Except.bind]
    rfl

/-- **C60 (convolutions).** Each key gives the class of its name; the keys `continuous_prod2d`, `discontinuous_prod2d`, `polynomial_prod2d` and `product2d` are
registered but have no class (`TypeError`), and `fourier1d` cannot be constructed (`TypeError`). -/
theorem C60_conv (c : ConvArgs K) (rand : ConvRng K) :
    (∀ key cls, (key, cls) ∈ [("continuous2d", ConvClass.piecewise true .two), ("continuous1d", .piecewise true .one),
        ("discontinuous2d", .piecewise false .two), ("discontinuous1d", .piecewise false .one), ("polynomial2d", .polynomial .two),
        ("polynomial1d", .polynomial .one), ("fourier2d", .fourier .two)] → convLayer key c rand = convInit cls c rand) ∧
    (∀ key ∈ ["continuous_prod2d", "discontinuous_prod2d", "polynomial_prod2d", "product2d", "fourier1d"],
      convLayer key c rand = .error .typeError) ∧
    convTransposeLayer "continuous2d" c rand = convTransposeInit c rand := by
  refine ⟨?_, ?_, rfl⟩
  · intro key cls hk
    simp only [List.mem_cons, Prod.mk.injEq, List.not_mem_nil, or_false] at hk
    rcases hk with ⟨rfl, rfl⟩ | ⟨rfl, rfl⟩ | ⟨rfl, rfl⟩ | ⟨rfl, rfl⟩ | ⟨rfl, rfl⟩ | ⟨rfl, rfl⟩ | ⟨rfl, rfl⟩ <;> rfl
  · intro key hk
    simp only [List.mem_cons, List.not_mem_nil, or_false] at hk
    rcases hk with rfl | rfl | rfl | rfl | rfl <;> rfl

/-- "Continuous" (capital letter) is not a key; "continuous" is, and a switch layer with two inputs makes three modules. -/
example (rng : Rng K) (a : FcArgs K) (h : Heap K) : fcLayer rng "Continuous" a h = .error .valueError :=
  (C60_unknown rng (fun _ _ _ _ => 0) "Continuous" a ⟨1, 1, 1, 1, 0, false, none, 0, ⟨1, 1, 0, 1, 0⟩⟩ h).1 (by simp)

example (rng : Rng K) : ∃ L1 L2 : PwLayer K,
    fcLayer rng "switch_continuous" ⟨.int 3, 2, 4, some (.int 5), none, 2, 1, false, ""⟩ [] = .ok (2, [.pw L1, .pw L2, .switch 2 [0, 1] none]) := by
  obtain ⟨Ls, h1, h2, -⟩ := (C60_fc rng (a := ⟨.int 3, 2, 4, some (.int 5), none, 2, 1, false, ""⟩) (n := 3) (s := 5) rfl rfl []).2.2.2.2.2
    "switch_continuous" .continuous (by simp)
  match Ls, h2 with
  | [L1, L2], _ => exact ⟨L1, L2, h1⟩

end HOL
