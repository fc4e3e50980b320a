import Verif.Props.SampleOrder
import Verif.Props.SignsNetwork
import Verif.Props.RenumberTrainingNetwork

/-! # C136 and C137 for `HighOrderMLP`: training and the signs of the units -/

namespace HOL
open TorchScalar Spec

/-- Kinds of layers that are one module and sum up smooth functions of the inputs. -/
def FcKind.SmoothSums : FcKind → Prop
  | .leaf .linear | .leaf .polynomial | .leaf .fourier => True
  | _ => False

theorem FcKind.SmoothSums.sums {kind : FcKind} (h : kind.SmoothSums) : kind.Sums := by
  match kind, h with
  | .leaf .linear, _ => exact trivial
  | .leaf .polynomial, _ => exact trivial
  | .leaf .fourier, _ => exact trivial

theorem IsLayer.smooth {kind : FcKind} {a : FcArgs ℝ} (hu : Usable kind a) (hs : kind.SmoothSums) (hp : a.periodicity = none) {h : Heap ℝ} {j : ℕ} (hl : IsLayer kind a h j) : (h.store j).Smooth := by
  obtain ⟨rng, base, ms, e1, e2, e3⟩ := hl
  match kind, hu, hs with
  | .leaf .linear, hu, _ =>
    cases e1
    have hj : j = base + 0 := by simpa using e2
    obtain ⟨m', f1, f2⟩ := e3 0 _ rfl
    rw [← hj] at f1
    obtain ⟨w, b, rfl⟩ : ∃ w b, m' = .linear w b := by cases f2 <;> exact ⟨_, _, rfl⟩
    unfold Heap.store
    rw [f1]
    exact trivial
  | .leaf .polynomial, hu, _ =>
    obtain ⟨n, hn, hpos⟩ := hu
    simp only [fcMods, leafMods, hn, polynomialInit, FnLayer.init] at e1
    rw [lagrangePolyFlat_numBasis hpos] at e1
    cases e1
    have hj : j = base + 0 := by simpa using e2
    obtain ⟨m', f1, f2⟩ := e3 0 _ rfl
    rw [← hj] at f1
    obtain ⟨L, rfl, hb⟩ : ∃ L, m' = .fn L ∧ L.periodicity = none := by cases f2 <;> exact ⟨_, rfl, hp⟩
    unfold Heap.store
    rw [f1]
    exact hb
  | .leaf .fourier, hu, _ =>
    obtain ⟨n, hn, hpos⟩ := hu
    simp only [fcMods, leafMods, hn, fourierSeriesInit, FnLayer.init] at e1
    cases e1
    have hj : j = base + 0 := by simpa using e2
    obtain ⟨m', f1, f2⟩ := e3 0 _ rfl
    rw [← hj] at f1
    obtain ⟨L, rfl, hb⟩ : ∃ L, m' = .fn L ∧ L.periodicity = none := by cases f2 <;> exact ⟨_, rfl, rfl⟩
    unfold Heap.store
    rw [f1]
    exact hb

/-- Modules one after the other. -/
inductive SignedPath (s : ℕ → GLayer ℝ) (ν : Signing) : List (GExpr ℝ) → (ℕ → Bool) → (ℕ → Bool) → ℕ → ℕ → Prop
  | nil (σ : ℕ → Bool) (I : ℕ) : SignedPath s ν [] σ σ I I
  | cons {e : GExpr ℝ} {es : List (GExpr ℝ)} {σ μ ρ : ℕ → Bool} {I M O : ℕ} (h : e.Signed s ν σ μ I M) (hs : SignedPath s ν es μ ρ M O) : SignedPath s ν (e :: es) σ ρ I O

theorem SignedPath.append {s : ℕ → GLayer ℝ} {ν : Signing} {es fs : List (GExpr ℝ)} {σ μ ρ : ℕ → Bool} {I M O : ℕ} (h : SignedPath s ν es σ μ I M) (h' : SignedPath s ν fs μ ρ M O) : SignedPath s ν (es ++ fs) σ ρ I O := by
  induction h with
  | nil => exact h'
  | cons h _ ih => exact .cons h (ih h')

theorem SignedPath.chain {s : ℕ → GLayer ℝ} {ν : Signing} {es : List (GExpr ℝ)} {σ μ ρ : ℕ → Bool} {I M O : ℕ} (h : SignedPath s ν es μ ρ M O) : ∀ {e : GExpr ℝ}, e.SignedFirst s ν σ μ I M →
    (e.chain es).SignedFirst s ν σ ρ I O := by
  induction h with
  | nil => exact fun he => he
  | cons h _ ih => exact fun he => ih ⟨_, _, he, h⟩

theorem resExpr_signed {s : ℕ → GLayer ℝ} {ν : Signing} {hid : ℕ → GExpr ℝ} {H : ℕ} {μ : ℕ → Bool} {W : ℕ} (hh : ∀ i < H, (hid i).Signed s ν μ μ W W) : ∀ i < H, (resExpr [] hid i).Signed s ν μ μ W W
  | 0, hi => hh 0 hi
  | i + 1, hi => ⟨hh _ hi, resExpr_signed hh i (by omega)⟩

theorem Heap.sign_all (ν : Signing) (h : Heap ℝ) : (h.sign ν).store = signAll ν h.store := by
  funext j
  unfold signAll
  cases hν : ν j with
  | some m => exact Heap.sign_store h hν
  | none =>
    unfold Heap.store
    rw [Heap.sign_get, hν]
    cases h[j]? <;> rfl

/-- The expression of a network without normalization and nonlinearity, with signs of the units of its layers. -/
theorem mlp_signed {c : MLPArgs ℝ} {kind kindIn : FcKind} (hsk : kind.SmoothSums) (hski : kindIn.Sums) (hI : Usable kindIn c.inputArgs) (hH : Usable kind c.hiddenArgs) (hO : Usable kind c.outputArgs) (hper : c.periodicity = none)
    (hnl : c.nonLinearity = none) {h : Heap ℝ} {inp out : ℕ} {hid : ℕ → ℕ} (ho : h.Ordered) (hw : h.ParamsWF) (l1 : IsLayer kindIn c.inputArgs h inp) (l2 : ∀ i < c.hiddenLayers, IsLayer kind c.hiddenArgs h (hid i))
    (l3 : IsLayer kind c.outputArgs h out) {ν : Signing} {σ ρ : ℕ → Bool} {μ : ℕ → ℕ → Bool} (hres : c.resnet = true → ∀ i ≤ c.hiddenLayers, μ i = μ 0)
    (p1 : ν inp = some (σ, μ 0)) (p2 : ν out = some (μ c.hiddenLayers, ρ)) (p3 : ∀ i < c.hiddenLayers, ν (hid i) = some (μ i, μ (i + 1))) :
    (h.mlpExpr c none inp out hid).SignedFirst h.store ν σ ρ c.inWidth c.outWidth := by
  have hpp : ∀ p, c.periodicity = some p → 0 < p := by rw [hper]; simp
  have fits : ∀ {k : FcKind} {a : FcArgs ℝ} {j : ℕ}, Usable k a → (∀ p, a.periodicity = some p → 0 < p) → k.Sums → IsLayer k a h j → h.expr j = .leaf j ∧ (h.store j).Fits a.inFeatures a.outFeatures ∧ ∀ ρ, (h.store j).TakesSigns ρ := by
    intro k a j hu hp hs hlay
    obtain ⟨q1, q2⟩ := hlay.sums hu hs
    have ht := (hlay.expr hu hp ho hw).2 1
    rw [q1] at ht
    obtain ⟨B', I', O', r1, r2, r3⟩ := ht
    simp only [List.cons.injEq, and_true] at r1 r2
    obtain ⟨-, rfl⟩ := r1
    obtain ⟨-, rfl⟩ := r2
    exact ⟨q1, r3, q2⟩
  have hin : (h.expr inp).SignedFirst h.store ν σ (μ 0) c.inWidth c.hiddenWidth := by
    obtain ⟨q1, q2, q3⟩ := fits hI hpp hski l1
    rw [q1]
    exact ⟨q2, q3 _, p1⟩
  have hout : (h.expr out).Signed h.store ν (μ c.hiddenLayers) ρ c.hiddenWidth c.outWidth := by
    obtain ⟨q1, q2, q3⟩ := fits hO hpp hsk.sums l3
    rw [q1]
    exact ⟨q2, q3 _, l3.smooth hO hsk hper, p2⟩
  have hmid : ∀ i < c.hiddenLayers, (h.expr (hid i)).Signed h.store ν (μ i) (μ (i + 1)) c.hiddenWidth c.hiddenWidth := by
    intro i hi
    obtain ⟨q1, q2, q3⟩ := fits hH hpp hsk.sums (l2 i hi)
    rw [q1]
    exact ⟨q2, q3 _, (l2 i hi).smooth hH hsk hper, p3 i hi⟩
  have hentry : ∀ i < c.hiddenLayers, ((if c.resnet then resExpr [] fun i => h.expr (hid i) else fun i => h.expr (hid i)) i).Signed h.store ν (μ i) (μ (i + 1)) c.hiddenWidth c.hiddenWidth := by
    intro i hi
    by_cases hr : c.resnet = true
    · rw [if_pos hr, hres hr i hi.le, hres hr (i + 1) hi]
      refine resExpr_signed (H := c.hiddenLayers) (fun k hk => ?_) i hi
      have := hmid k hk
      rw [hres hr k hk.le, hres hr (k + 1) hk] at this
      exact this
    · rw [if_neg hr]
      exact hmid i hi
  have key : ∀ k ≤ c.hiddenLayers, SignedPath h.store ν (((List.range k).map (if c.resnet then resExpr [] fun i => h.expr (hid i) else fun i => h.expr (hid i))).flatMap fun l => [] ++ [l]) (μ 0) (μ k) c.hiddenWidth c.hiddenWidth := by
    intro k
    induction k with
    | zero => exact fun _ => .nil _ _
    | succ k ih =>
      intro hk
      rw [List.range_succ, List.map_append, List.flatMap_append, List.map_singleton, List.flatMap_singleton]
      exact (ih (by omega)).append (.cons (hentry k (by omega)) (.nil _ _))
  unfold Heap.mlpExpr netExpr
  rw [hnl]
  refine SignedPath.chain ?_ hin
  rw [List.flatMap_append, List.flatMap_singleton]
  exact (key _ le_rfl).append (.cons hout (.nil _ _))

/-- The signs for all modules of a network. -/
theorem mlp_signing {inp out H : ℕ} {hid : ℕ → ℕ} (hnd : (inp :: out :: (List.range H).map hid).Nodup) (σ ρ : ℕ → Bool) (μ : ℕ → ℕ → Bool) :
    ∃ ν : Signing, ν inp = some (σ, μ 0) ∧ ν out = some (μ H, ρ) ∧ (∀ i < H, ν (hid i) = some (μ i, μ (i + 1))) ∧ ∀ j, j ∉ inp :: out :: (List.range H).map hid → ν j = none := by
  classical
  obtain ⟨n1, n2⟩ := List.nodup_cons.1 hnd
  obtain ⟨n2, n3⟩ := List.nodup_cons.1 n2
  have hne : inp ≠ out := fun hc => n1 (hc ▸ List.mem_cons_self)
  have hinp : ∀ i < H, hid i ≠ inp := fun i hi hc => n1 (List.mem_cons_of_mem _ (List.mem_map.2 ⟨i, List.mem_range.2 hi, hc⟩))
  have hout : ∀ i < H, hid i ≠ out := fun i hi hc => n2 (List.mem_map.2 ⟨i, List.mem_range.2 hi, hc⟩)
  have hinj : ∀ i < H, ∀ k < H, hid i = hid k → i = k := fun i hi k hk hc =>
    List.inj_on_of_nodup_map n3 (List.mem_range.2 hi) (List.mem_range.2 hk) hc
  refine ⟨fun j => if j = inp then some (σ, μ 0) else if j = out then some (μ H, ρ)
    else if hj : ∃ i, i < H ∧ hid i = j then some (μ hj.choose, μ (hj.choose + 1)) else none, if_pos rfl, (if_neg hne.symm).trans (if_pos rfl), fun i hi => ?_, fun j hj => ?_⟩
  · refine (if_neg (hinp i hi)).trans ((if_neg (hout i hi)).trans ?_)
    have hj : ∃ k, k < H ∧ hid k = hid i := ⟨i, hi, rfl⟩
    rw [dif_pos hj, hinj _ hj.choose_spec.1 i hi hj.choose_spec.2]
  · refine (if_neg fun hc : j = inp => hj (hc ▸ List.mem_cons_self)).trans ((if_neg fun hc : j = out => hj (hc ▸ List.mem_cons_of_mem _ List.mem_cons_self)).trans (dif_neg ?_))
    rintro ⟨i, hi, rfl⟩
    exact hj (List.mem_cons_of_mem _ (List.mem_cons_of_mem _ (List.mem_map.2 ⟨i, List.mem_range.2 hi, rfl⟩)))

/-- **C136 (`HighOrderMLP`).** Networks of linear, polynomial or Fourier layers (the first one also piecewise continuous) without periodicity, normalization and nonlinearity. For every state and all signs of inputs, hidden units and outputs
(with `resnet` the same ones in all hidden layers) there is a state with the signs changed, and training both on batches whose inputs have changed signs, with losses that count outputs of the other sign alike, ends in states that differ by the same
signs; the second computes for inputs with changed signs the outputs of the first with changed signs. -/
theorem C136_mlp (rng : Rng ℝ) {c : MLPArgs ℝ} {kind kindIn : FcKind} (hk : fcTable.lookup c.layerType = some kind)
    (hki : fcTable.lookup (orStr c.layerTypeIn c.layerType) = some kindIn) (hsk : kind.SmoothSums) (hski : kindIn.Sums) (hI : Usable kindIn c.inputArgs)
    (hH : Usable kind c.hiddenArgs) (hO : Usable kind c.outputArgs) (hper : c.periodicity = none)
    (hnorm : c.normalization = none) (hdrop : c.dropout ≤ 0) {h0 : Heap ℝ} (hord : h0.Ordered) (hnl : c.nonLinearity = none) (P : Picks ℝ) :
    ∃ (net : ℕ) (h1 : Heap ℝ) (inp out : ℕ) (hid : ℕ → ℕ), mlpInit rng c h0 = .ok (net, h1) ∧ (inp :: out :: (List.range c.hiddenLayers).map hid).Nodup ∧
      ∀ h : Heap ℝ, h1.Later h → h.Ordered → h.ParamsWF → ∀ (σ ρ : ℕ → Bool) (μ : ℕ → ℕ → Bool), (c.resnet = true → ∀ i ≤ c.hiddenLayers, μ i = μ 0) →
      ∃ h' : Heap ℝ, h.Later h' ∧ h'.length = h.length ∧
        h'.store inp = (h.store inp).sign σ (μ 0) ∧ (∀ i < c.hiddenLayers, h'.store (hid i) = (h.store (hid i)).sign (μ i) (μ (i + 1))) ∧ h'.store out = (h.store out).sign (μ c.hiddenLayers) ρ ∧
        ∀ (trained : List ℕ) (bs bs' : List (Batch ℝ)), List.Forall₂ (Batch.Signed σ ρ c.inWidth c.outWidth) bs bs' →
          ∃ hT hT' : Heap ℝ, Heap.train P net (h.mlpExpr c none inp out hid) trained h bs = .ok hT ∧ Heap.train P net (h.mlpExpr c none inp out hid) trained h' bs' = .ok hT' ∧
            hT'.store inp = (hT.store inp).sign σ (μ 0) ∧ (∀ i < c.hiddenLayers, hT'.store (hid i) = (hT.store (hid i)).sign (μ i) (μ (i + 1))) ∧ hT'.store out = (hT.store out).sign (μ c.hiddenLayers) ρ ∧
            ∀ (B : ℕ) (x : Tensor ℝ), x.shape = [B, c.inWidth] → x.WF → ∃ y, hT.forward net x = .ok y ∧ y.shape = [B, c.outWidth] ∧ hT'.forward net (signed σ x) = .ok (signed ρ y) := by
  have hpp : ∀ p, c.periodicity = some p → 0 < p := by rw [hper]; simp
  obtain ⟨net, h1, inp, out, hid, e1, hnd, hall⟩ := mlp_shared rng hk hki hI hH hO hpp (N := none) hnorm hdrop hord (by rw [hnl]; simp)
  refine ⟨net, h1, inp, out, hid, e1, hnd, fun h hl ho hw σ ρ μ hres => ?_⟩
  obtain ⟨l1, l2, l3, -, -⟩ := hall h hl ho hw
  obtain ⟨ν, p1, p2, p3, -⟩ := mlp_signing hnd σ ρ μ
  have hsig := mlp_signed hsk hski hI hH hO hper hnl ho hw l1 l2 l3 hres p1 p2 p3
  have hfwd : ∀ h' : Heap ℝ, h.Later h' → h'.Ordered → h'.ParamsWF → h'.expr = h.expr → h'.forward net = (h.mlpExpr c none inp out hid).forward h'.store := by
    intro h' g1 g2 g3 g4
    have he : h'.mlpExpr c none inp out hid = h.mlpExpr c none inp out hid := by
      unfold Heap.mlpExpr
      rw [g4]
    rw [(hall h' (hl.trans g1) g2 g3).2.2.2.1, he]
  obtain ⟨r1, r2, r3, r4⟩ := Heap.sign_later ν ho hw
  have rex := r1.expr_eq r2
  have at' : ∀ (s : ℕ → GLayer ℝ) {j : ℕ} {α β : ℕ → Bool}, ν j = some (α, β) → signAll ν s j = (s j).sign α β := by
    intro s j α β hm
    unfold signAll
    rw [hm]
  refine ⟨h.sign ν, r1, r2, Heap.sign_store h p1, fun i hi => Heap.sign_store h (p3 i hi), Heap.sign_store h p2, fun trained bs bs' hbs => ?_⟩
  obtain ⟨s', s1, s2, s3⟩ := C136_training P trained hsig hbs
  rw [← Heap.sign_all] at s2
  obtain ⟨hT, t1, t2, t3, t4, t5, t6⟩ := Heap.train_store P trained bs ho hw hfwd s1
  obtain ⟨hT', u1, u2, u3, u4, u5, u6⟩ := Heap.train_store P trained bs' r3 r4 (fun h' g1 g2 g3 g4 => hfwd h' (r1.trans g1) g2 g3 (g4.trans rex)) s2
  refine ⟨hT, hT', t1, u1, by rw [u2, t2]; exact at' _ p1, fun i hi => by rw [u2, t2]; exact at' _ (p3 i hi), by rw [u2, t2]; exact at' _ p2, fun B x hx hwx => ?_⟩
  obtain ⟨y, y1, y2, y3, y4⟩ := expr_answers _ (s3.change B) x hx hwx
  rw [hfwd hT t3 t4 t5 t6, hfwd hT' (r1.trans u3) u4 u5 (u6.trans rex), t2, u2]
  exact ⟨y, y1, y2, y4⟩

/-- **C137 (symmetric data, `HighOrderMLP`).** The same networks, in a state that is the same after changing the signs, trained on batches that contain with every sample its mirror image: the state after any number of steps is the same after changing
the signs, and the network is symmetric for all inputs. -/
theorem C137_mlp_symmetric (rng : Rng ℝ) {c : MLPArgs ℝ} {kind kindIn : FcKind} (hk : fcTable.lookup c.layerType = some kind)
    (hki : fcTable.lookup (orStr c.layerTypeIn c.layerType) = some kindIn) (hsk : kind.SmoothSums) (hski : kindIn.Sums) (hI : Usable kindIn c.inputArgs)
    (hH : Usable kind c.hiddenArgs) (hO : Usable kind c.outputArgs) (hper : c.periodicity = none)
    (hnorm : c.normalization = none) (hdrop : c.dropout ≤ 0) {h0 : Heap ℝ} (hord : h0.Ordered) (hnl : c.nonLinearity = none) (P : Picks ℝ) :
    ∃ (net : ℕ) (h1 : Heap ℝ) (inp out : ℕ) (hid : ℕ → ℕ), mlpInit rng c h0 = .ok (net, h1) ∧ (inp :: out :: (List.range c.hiddenLayers).map hid).Nodup ∧
      ∀ h : Heap ℝ, h1.Later h → h.Ordered → h.ParamsWF → (IsLayer kindIn c.inputArgs h inp ∧ (∀ i < c.hiddenLayers, IsLayer kind c.hiddenArgs h (hid i)) ∧ IsLayer kind c.outputArgs h out) ∧
      ∀ (σ ρ : ℕ → Bool) (μ : ℕ → ℕ → Bool), (c.resnet = true → ∀ i ≤ c.hiddenLayers, μ i = μ 0) →
      (h.store inp).sign σ (μ 0) = h.store inp → (∀ i < c.hiddenLayers, (h.store (hid i)).sign (μ i) (μ (i + 1)) = h.store (hid i)) → (h.store out).sign (μ c.hiddenLayers) ρ = h.store out →
      ∀ (trained : List ℕ) (bs : List (Batch ℝ)), (∀ b ∈ bs, b.Symmetric σ ρ c.inWidth c.outWidth) →
        ∃ hT : Heap ℝ, Heap.train P net (h.mlpExpr c none inp out hid) trained h bs = .ok hT ∧
          (hT.store inp).sign σ (μ 0) = hT.store inp ∧ (∀ i < c.hiddenLayers, (hT.store (hid i)).sign (μ i) (μ (i + 1)) = hT.store (hid i)) ∧ (hT.store out).sign (μ c.hiddenLayers) ρ = hT.store out ∧
          ∀ (B : ℕ) (x : Tensor ℝ), x.shape = [B, c.inWidth] → x.WF → ∃ y, hT.forward net x = .ok y ∧ hT.forward net (signed σ x) = .ok (signed ρ y) := by
  have hpp : ∀ p, c.periodicity = some p → 0 < p := by rw [hper]; simp
  obtain ⟨net, h1, inp, out, hid, e1, hnd, hall⟩ := mlp_shared rng hk hki hI hH hO hpp (N := none) hnorm hdrop hord (by rw [hnl]; simp)
  refine ⟨net, h1, inp, out, hid, e1, hnd, fun h hl ho hw => ?_⟩
  obtain ⟨l1, l2, l3, -, -⟩ := hall h hl ho hw
  refine ⟨⟨l1, l2, l3⟩, fun σ ρ μ hres s1 s2 s3 trained bs hbs => ?_⟩
  obtain ⟨ν, p1, p2, p3, p4⟩ := mlp_signing hnd σ ρ μ
  have hsig := mlp_signed hsk hski hI hH hO hper hnl ho hw l1 l2 l3 hres p1 p2 p3
  have hfwd : ∀ h' : Heap ℝ, h.Later h' → h'.Ordered → h'.ParamsWF → h'.expr = h.expr → h'.forward net = (h.mlpExpr c none inp out hid).forward h'.store := by
    intro h' g1 g2 g3 g4
    have he : h'.mlpExpr c none inp out hid = h.mlpExpr c none inp out hid := by
      unfold Heap.mlpExpr
      rw [g4]
    rw [(hall h' (hl.trans g1) g2 g3).2.2.2.1, he]
  have at' : ∀ (s : ℕ → GLayer ℝ) {j : ℕ} {α β : ℕ → Bool}, ν j = some (α, β) → signAll ν s j = (s j).sign α β := by
    intro s j α β hm
    unfold signAll
    rw [hm]
  have hs : signAll ν h.store = h.store := by
    funext j
    by_cases hj : j ∈ inp :: out :: (List.range c.hiddenLayers).map hid
    · rcases List.mem_cons.1 hj with rfl | hj
      · exact (at' _ p1).trans s1
      rcases List.mem_cons.1 hj with rfl | hj
      · exact (at' _ p2).trans s3
      obtain ⟨i, hi, rfl⟩ := List.mem_map.1 hj
      exact (at' _ (p3 i (List.mem_range.1 hi))).trans (s2 i (List.mem_range.1 hi))
    · unfold signAll
      rw [p4 j hj]
  obtain ⟨s', a1, a2, a3⟩ := C137_symmetric P trained hsig hs hbs
  obtain ⟨hT, t1, t2, t3, t4, t5, t6⟩ := Heap.train_store P trained bs ho hw hfwd a1
  rw [← t2] at a2 a3
  refine ⟨hT, t1, (at' _ p1).symm.trans (congrFun a2 _), fun i hi => (at' _ (p3 i hi)).symm.trans (congrFun a2 _), (at' _ p2).symm.trans (congrFun a2 _), fun B x hx hwx => ?_⟩
  rw [hfwd hT t3 t4 t5 t6]
  exact a3 hx hwx

/-! ## examples -/

/-- A linear module without bias. -/
noncomputable def Mod.unbiased : Mod ℝ → Mod ℝ
  | .linear w b => .linear w (Tensor.tabulate b.shape fun _ => 0)
  | m => m

noncomputable def Heap.unbiased (h : Heap ℝ) : Heap ℝ := List.map Mod.unbiased h

theorem Heap.unbiased_get (h : Heap ℝ) (j : ℕ) : h.unbiased[j]? = h[j]?.map Mod.unbiased := List.getElem?_map

theorem Heap.unbiased_later {h : Heap ℝ} (ho : h.Ordered) (hw : h.ParamsWF) : h.Later h.unbiased ∧ h.unbiased.Ordered ∧ h.unbiased.ParamsWF := by
  have hl : h.Later h.unbiased := by
    intro j m hj
    refine ⟨m.unbiased, by rw [Heap.unbiased_get, hj]; rfl, ?_⟩
    cases m with
    | linear w b => exact .linear w b _ _ rfl rfl
    | _ => exact .refl _
  refine ⟨hl, hl.ordered (List.length_map _) ho, fun j w b hj => ?_, fun j L hj => ?_⟩
  · rw [Heap.unbiased_get] at hj
    obtain ⟨m, hm, hj⟩ := Option.map_eq_some_iff.1 hj
    cases m <;> cases hj
    exact ⟨(hw.1 _ _ _ hm).1, Tensor.wf_tabulate _ _⟩
  · rw [Heap.unbiased_get] at hj
    obtain ⟨m, hm, hj⟩ := Option.map_eq_some_iff.1 hj
    cases m <;> cases hj
    exact hw.2 _ _ hm

/-- A linear layer without bias is an odd function. -/
theorem Heap.unbiased_sign {h : Heap ℝ} (ho : h.Ordered) (hw : h.ParamsWF) {a : FcArgs ℝ} {j : ℕ} (hl : IsLayer (.leaf .linear) a h.unbiased j) :
    (h.unbiased.store j).sign (fun _ => true) (fun _ => true) = h.unbiased.store j := by
  obtain ⟨-, o2, o3⟩ := Heap.unbiased_later ho hw
  obtain ⟨rng, base, ms, e1, e2, e3⟩ := hl
  cases e1
  have hj : j = base + 0 := by simpa using e2
  obtain ⟨m', f1, f2⟩ := e3 0 _ rfl
  rw [← hj] at f1
  obtain ⟨w, b, rfl, hws, hbs⟩ : ∃ w b, m' = .linear w b ∧ w.shape = [a.outFeatures, a.inFeatures] ∧ b.shape = [a.outFeatures] := by
    cases f2 with
    | refl => exact ⟨_, _, rfl, rfl, rfl⟩
    | linear w b w' b' hs hb => exact ⟨_, _, rfl, hs, hb⟩
  have hb : b = Tensor.tabulate b.shape fun _ => 0 := by
    have := f1
    rw [Heap.unbiased_get] at this
    obtain ⟨m, -, hm⟩ := Option.map_eq_some_iff.1 this
    cases m <;> cases hm
    rfl
  obtain ⟨w1, w2⟩ := o3.1 _ _ _ f1
  have hs : h.unbiased.store j = .linear w b := by
    unfold Heap.store
    rw [f1]
  rw [hs]
  refine congrArg₂ GLayer.linear (Tensor.ext_get (Tensor.wf_tabulate _ _) w1 rfl fun idx hin => ?_) (Tensor.ext_get (Tensor.wf_tabulate _ _) w2 rfl fun idx hin => ?_)
  · have hin' : InShape w.shape idx := hin
    rw [hws] at hin'
    obtain ⟨o, i, rfl, ho, hi⟩ := inShape2_exists hin'
    rw [signMatrix_get hws ho hi]
    norm_num [sg]
  · have hin' : InShape b.shape idx := hin
    rw [hbs] at hin'
    obtain ⟨o, rfl, ho⟩ := inShape1_exists hin'
    rw [signOut_get hbs ho, hb, Tensor.get_tabulate (by rw [hbs]; exact inShape1.2 ho), mul_zero]

/-- A network of linear layers without biases, trained with squared errors on samples `x` and `-x` with opposite targets: after any number of steps it is an odd function. -/
example (rng : Rng ℝ) (P : Picks ℝ) : ∃ net h1 inp out hid, mlpInit rng (exNet "baseline" 3 2) [] = .ok (net, h1) ∧ ∀ h : Heap ℝ, h1.Later h → h.Ordered → h.ParamsWF →
    ∀ (trained : List ℕ) (data : List ((Fin 2 → ℝ) × ℝ × ℝ)),
      ∃ hT, Heap.train P net (h.unbiased.mlpExpr (exNet "baseline" 3 2) none inp out hid) trained h.unbiased
          (data.map fun d => sqBatch (fun (q : Fin 2) (i : Fin 2) => if q = 0 then d.1 i else -d.1 i) (fun (q : Fin 2) (_ : Fin 1) => if q = 0 then d.2.1 else -d.2.1) d.2.2) = .ok hT ∧
        ∀ (B : ℕ) (x : Tensor ℝ), x.shape = [B, 2] → x.WF → ∃ y, hT.forward net x = .ok y ∧ hT.forward net (signed (fun _ => true) x) = .ok (signed (fun _ => true) y) := by
  obtain ⟨net, h1, inp, out, hid, e, -, hall⟩ := C137_mlp_symmetric rng (c := exNet "baseline" 3 2) (kind := .leaf .linear) (kindIn := .leaf .linear) (h0 := [])
    (by show List.lookup "baseline" _ = _; decide) (by show List.lookup "baseline" _ = _; decide) trivial trivial trivial trivial trivial rfl rfl le_rfl ordered_nil rfl P
  refine ⟨net, h1, inp, out, hid, e, fun h hl ho hw trained data => ?_⟩
  obtain ⟨o1, o2, o3⟩ := Heap.unbiased_later ho hw
  obtain ⟨⟨l1, l2, l3⟩, hmain⟩ := hall h.unbiased (hl.trans o1) o2 o3
  obtain ⟨hT, t1, -, -, -, t5⟩ := hmain (fun _ => true) (fun _ => true) (fun _ _ => true) (fun _ _ _ => rfl) (Heap.unbiased_sign ho hw l1) (fun i hi => Heap.unbiased_sign ho hw (l2 i hi)) (Heap.unbiased_sign ho hw l3) trained
    (data.map fun d => sqBatch (fun (q : Fin 2) (i : Fin 2) => if q = 0 then d.1 i else -d.1 i) (fun (q : Fin 2) (_ : Fin 1) => if q = 0 then d.2.1 else -d.2.1) d.2.2) fun b hb => by
      obtain ⟨d, -, rfl⟩ := List.mem_map.1 hb
      refine ⟨2, Equiv.swap 0 1, fun (q : Fin 2) (i : Fin 2) => if q = 0 then d.1 i else -d.1 i, rfl, fun (q : Fin 2) (i : Fin 2) => ?_, fun Y hY => ⟨fun q o => 2 * (Y q o - if q = 0 then d.2.1 else -d.2.1), sqBatch_loss _ _ _ _, fun q o => ?_⟩⟩
      · fin_cases q <;> simp [sg]
      · show 2 * (Y (Equiv.swap 0 1 q) o - _) = _
        rw [hY q o]
        fin_cases q <;> simp [sg] <;> ring
  exact ⟨hT, t1, t5⟩

/-- A piecewise continuous layer, then polynomial layers: change the signs of the two inputs, of the second unit in every hidden layer, and of no output. -/
example (rng : Rng ℝ) (P : Picks ℝ) : ∃ net h1 inp out hid, mlpInit rng { exNet "polynomial" 3 2 with layerTypeIn := some "continuous" } [] = .ok (net, h1) ∧ ∀ h : Heap ℝ, h1.Later h → h.Ordered → h.ParamsWF →
    ∃ h' : Heap ℝ, h.Later h' ∧ h'.store out = (h.store out).sign (fun i => i == 1) (fun _ => false) ∧ ∀ (trained : List ℕ) (bs bs' : List (Batch ℝ)), List.Forall₂ (Batch.Signed (fun _ => true) (fun _ => false) 2 1) bs bs' →
      ∃ hT hT', Heap.train P net (h.mlpExpr { exNet "polynomial" 3 2 with layerTypeIn := some "continuous" } none inp out hid) trained h bs = .ok hT ∧
        Heap.train P net (h.mlpExpr { exNet "polynomial" 3 2 with layerTypeIn := some "continuous" } none inp out hid) trained h' bs' = .ok hT' ∧
        ∀ (B : ℕ) (x : Tensor ℝ), x.shape = [B, 2] → x.WF → ∃ y, hT.forward net x = .ok y ∧ hT'.forward net (signed (fun _ => true) x) = .ok (signed (fun _ => false) y) := by
  obtain ⟨u1, -, -⟩ := exNet_usable "continuous" (n := 3) (s := 2) (by norm_num) (by norm_num) .continuous
  obtain ⟨net, h1, inp, out, hid, e, -, hall⟩ := C136_mlp rng (c := { exNet "polynomial" 3 2 with layerTypeIn := some "continuous" }) (kind := .leaf .polynomial) (kindIn := .leaf (.pw .continuous)) (h0 := [])
    (by show List.lookup "polynomial" _ = _; decide) (by show List.lookup "continuous" _ = _; decide) trivial trivial u1 ⟨3, rfl, by norm_num⟩ ⟨3, rfl, by norm_num⟩ rfl rfl le_rfl ordered_nil rfl P
  refine ⟨net, h1, inp, out, hid, e, fun h hl ho hw => ?_⟩
  obtain ⟨h', g1, -, -, -, g5, g6⟩ := hall h hl ho hw (fun _ => true) (fun _ => false) (fun _ i => i == 1) (fun _ _ _ => rfl)
  refine ⟨h', g1, g5, fun trained bs bs' hbs => ?_⟩
  obtain ⟨hT, hT', t1, t2, -, -, -, t6⟩ := g6 trained bs bs' hbs
  refine ⟨hT, hT', t1, t2, fun B x hx hwx => ?_⟩
  obtain ⟨y, y1, -, y3⟩ := t6 B x hx hwx
  exact ⟨y, y1, y3⟩

end HOL
