import Verif.Props.Signs
import Verif.Props.NetworkExamples

/-! # C135: the signs of the hidden units of `HighOrderMLP` do not matter -/

namespace HOL
open TorchScalar Spec

/-- Modules one after the other. -/
inductive SignPath (s t : ℕ → GLayer ℝ) (B : ℕ) : List (GExpr ℝ) → (ℕ → Bool) → (ℕ → Bool) → ℕ → ℕ → Prop
  | nil (σ : ℕ → Bool) (I : ℕ) : SignPath s t B [] σ σ I I
  | cons {e : GExpr ℝ} {es : List (GExpr ℝ)} {σ μ ρ : ℕ → Bool} {I M O : ℕ} (h : e.SignChange s t B σ μ I M) (hs : SignPath s t B es μ ρ M O) : SignPath s t B (e :: es) σ ρ I O

theorem SignPath.append {s t : ℕ → GLayer ℝ} {B : ℕ} {es fs : List (GExpr ℝ)} {σ μ ρ : ℕ → Bool} {I M O : ℕ} (h : SignPath s t B es σ μ I M) (h' : SignPath s t B fs μ ρ M O) : SignPath s t B (es ++ fs) σ ρ I O := by
  induction h with
  | nil => exact h'
  | cons h _ ih => exact .cons h (ih h')

theorem SignPath.chain {s t : ℕ → GLayer ℝ} {B : ℕ} {es : List (GExpr ℝ)} {σ μ ρ : ℕ → Bool} {I M O : ℕ} (h : SignPath s t B es μ ρ M O) : ∀ {e : GExpr ℝ}, e.SignChange s t B σ μ I M →
    (e.chain es).SignChange s t B σ ρ I O := by
  induction h with
  | nil => exact fun he => he
  | cons h _ ih => exact fun he => ih ⟨_, _, he, h⟩

theorem SignPath.same {s t : ℕ → GLayer ℝ} {B : ℕ} {es : List (GExpr ℝ)} {μ : ℕ → Bool} {W : ℕ} (h : ∀ e ∈ es, e.SignChange s t B μ μ W W) : SignPath s t B es μ μ W W := by
  induction es with
  | nil => exact .nil _ _
  | cons e es ih => exact .cons (h e List.mem_cons_self) (ih fun f hf => h f (List.mem_cons_of_mem _ hf))

theorem net_signs {s t : ℕ → GLayer ℝ} {B : ℕ} {pre : List (GExpr ℝ)} {inp out : GExpr ℝ} {entry : ℕ → GExpr ℝ} {H : ℕ} {σ ρ : ℕ → Bool} {μ : ℕ → ℕ → Bool} {I W O : ℕ}
    (hi : inp.SignChange s t B σ (μ 0) I W) (hpre : ∀ e ∈ pre, ∀ i ≤ H, e.SignChange s t B (μ i) (μ i) W W) (he : ∀ i < H, (entry i).SignChange s t B (μ i) (μ (i + 1)) W W)
    (ho : out.SignChange s t B (μ H) ρ W O) : (netExpr pre inp ((List.range H).map entry ++ [out])).SignChange s t B σ ρ I O := by
  have key : ∀ k ≤ H, SignPath s t B (((List.range k).map entry).flatMap fun l => pre ++ [l]) (μ 0) (μ k) W W := by
    intro k
    induction k with
    | zero => exact fun _ => .nil _ _
    | succ k ih =>
      intro hk
      rw [List.range_succ, List.map_append, List.flatMap_append, List.map_singleton, List.flatMap_singleton]
      exact (ih (by omega)).append ((SignPath.same fun e he => hpre e he k (by omega)).append (.cons (he k (by omega)) (.nil _ _)))
  unfold netExpr
  refine SignPath.chain ?_ hi
  rw [List.flatMap_append, List.flatMap_singleton]
  exact (key H le_rfl).append ((SignPath.same fun e he => hpre e he H le_rfl).append (.cons ho (.nil _ _)))

theorem resExpr_signs {s t : ℕ → GLayer ℝ} {B : ℕ} {pre : List (GExpr ℝ)} {hid : ℕ → GExpr ℝ} {H : ℕ} {μ : ℕ → Bool} {W : ℕ} (hpre : ∀ e ∈ pre, e.SignChange s t B μ μ W W)
    (hh : ∀ i < H, (hid i).SignChange s t B μ μ W W) : ∀ i < H, (resExpr pre hid i).SignChange s t B μ μ W W
  | 0, hi => hh 0 hi
  | i + 1, hi => by
    refine ⟨hh _ hi, ?_⟩
    have := resExpr_signs hpre hh i (by omega)
    cases pre using List.reverseRecOn with
    | nil => exact this
    | append_singleton l a _ =>
      rw [List.getLastD_concat]
      exact hpre a (by simp)

/-! ## states with other signs -/

theorem Mod.sign_trained (σ ρ : ℕ → Bool) (m : Mod ℝ) : m.Trained (m.sign σ ρ) := by
  cases m with
  | pw L => exact .pw L _ rfl (signLinks_wf _ _ _)
  | fn L =>
    refine .fn L _ ?_ ?_
    · cases L.poly.basis <;> rfl
    · cases L.poly.basis <;> exact Tensor.wf_tabulate _ _
  | product L =>
    unfold Mod.sign
    dsimp only
    cases hb : L.bias with
    | none =>
      have := Mod.Trained.product L (signMatrix σ ρ L.weight) L.weight rfl (by rw [hb]; simp)
      rw [hb] at this
      exact this
    | some b =>
      have := Mod.Trained.product L (signMatrix σ ρ L.weight) (signOut ρ b) rfl (by rw [hb]; rintro _ ⟨⟩; rfl)
      rw [hb] at this
      exact this
  | linear w b => exact .linear _ _ _ _ rfl rfl
  | _ => exact .refl _

theorem Heap.sign_get (maps : ℕ → Option ((ℕ → Bool) × (ℕ → Bool))) (h : Heap ℝ) (j : ℕ) :
    (h.sign maps)[j]? = h[j]?.map fun m => match maps j with
      | some (σ, ρ) => m.sign σ ρ
      | none => m := List.getElem?_mapIdx

theorem Heap.sign_store {maps : ℕ → Option ((ℕ → Bool) × (ℕ → Bool))} (h : Heap ℝ) {j : ℕ} {σ ρ : ℕ → Bool} (hm : maps j = some (σ, ρ)) : (h.sign maps).store j = (h.store j).sign σ ρ := by
  unfold Heap.store
  rw [Heap.sign_get, hm]
  cases h[j]? with
  | none => rfl
  | some m => cases m <;> rfl

theorem Heap.sign_later (maps : ℕ → Option ((ℕ → Bool) × (ℕ → Bool))) {h : Heap ℝ} (ho : h.Ordered) (hw : h.ParamsWF) :
    h.Later (h.sign maps) ∧ (h.sign maps).length = h.length ∧ (h.sign maps).Ordered ∧ (h.sign maps).ParamsWF := by
  have hl : h.Later (h.sign maps) := by
    intro j m hj
    rw [Heap.sign_get, hj]
    refine ⟨_, rfl, ?_⟩
    beta_reduce
    split
    · exact Mod.sign_trained _ _ m
    · exact .refl _
  have hlen : (h.sign maps).length = h.length := List.length_mapIdx
  refine ⟨hl, hlen, hl.ordered hlen ho, fun j w b hj => ?_, fun j L hj => ?_⟩
  · rw [Heap.sign_get] at hj
    obtain ⟨m, hm, hj⟩ := Option.map_eq_some_iff.1 hj
    split at hj
    · cases m with
      | linear w0 b0 =>
        cases hj
        exact ⟨Tensor.wf_tabulate _ _, Tensor.wf_tabulate _ _⟩
      | _ => cases hj
    · subst hj
      exact hw.1 _ _ _ hm
  · rw [Heap.sign_get] at hj
    obtain ⟨m, hm, hj⟩ := Option.map_eq_some_iff.1 hj
    split at hj
    · cases m with
      | product L0 =>
        cases hj
        refine ⟨Tensor.wf_tabulate _ _, fun b hb => ?_⟩
        obtain ⟨b0, hb0, rfl⟩ := Option.map_eq_some_iff.1 hb
        exact Tensor.wf_tabulate _ _
      | _ => cases hj
    · subst hj
      exact hw.2 _ _ hm

/-- Kinds of layers that are one module and sum up continuous functions of the inputs. -/
def FcKind.Sums : FcKind → Prop
  | .leaf .linear | .leaf (.pw .continuous) | .leaf .polynomial | .leaf .fourier => True
  | _ => False

theorem IsLayer.sums {kind : FcKind} {a : FcArgs ℝ} (hu : Usable kind a) (hs : kind.Sums) {h : Heap ℝ} {j : ℕ} (hl : IsLayer kind a h j) : h.expr j = .leaf j ∧ ∀ ρ, (h.store j).TakesSigns ρ := by
  obtain ⟨rng, base, ms, e1, e2, e3⟩ := hl
  match kind, hu, hs with
  | .leaf .linear, hu, _ =>
    cases e1
    have hj : j = base + 0 := by simpa using e2
    obtain ⟨m', f1, f2⟩ := e3 0 _ rfl
    rw [← hj] at f1
    obtain ⟨w, b, rfl⟩ : ∃ w b, m' = .linear w b := by cases f2 <;> exact ⟨_, _, rfl⟩
    unfold Heap.expr Heap.store
    rw [f1]
    exact ⟨rfl, fun _ => trivial⟩
  | .leaf (.pw .continuous), hu, _ =>
    obtain ⟨n, s, hn, hs, h1, h2, h3, h4⟩ := hu
    simp only [fcMods, leafMods, hn, hs] at e1
    cases e1
    have hj : j = base + 0 := by simpa using e2
    obtain ⟨m', f1, f2⟩ := e3 0 _ rfl
    rw [← hj] at f1
    obtain ⟨L, rfl, hl, hc⟩ : ∃ L, m' = .pw L ∧ L.length = 2 ∧ L.cls = .continuous := by cases f2 <;> exact ⟨_, rfl, Nat.cast_ofNat, rfl⟩
    unfold Heap.expr Heap.store
    rw [f1]
    exact ⟨rfl, fun _ => ⟨hl, Or.inl hc⟩⟩
  | .leaf .polynomial, hu, _ =>
    obtain ⟨n, hn, hpos⟩ := hu
    simp only [fcMods, leafMods, hn, polynomialInit, FnLayer.init] at e1
    rw [lagrangePolyFlat_numBasis hpos] at e1
    cases e1
    have hj : j = base + 0 := by simpa using e2
    obtain ⟨m', f1, f2⟩ := e3 0 _ rfl
    rw [← hj] at f1
    obtain ⟨L, rfl, hb⟩ : ∃ L, m' = .fn L ∧ L.poly.basis = getLagrangeBasis L.poly.n ((2 : ℕ) : ℝ) := by cases f2 <;> exact ⟨_, rfl, rfl⟩
    unfold Heap.expr Heap.store
    rw [f1]
    exact ⟨rfl, fun _ => ⟨_, Or.inl hb⟩⟩
  | .leaf .fourier, hu, _ =>
    obtain ⟨n, hn, hpos⟩ := hu
    simp only [fcMods, leafMods, hn, fourierSeriesInit, FnLayer.init] at e1
    cases e1
    have hj : j = base + 0 := by simpa using e2
    obtain ⟨m', f1, f2⟩ := e3 0 _ rfl
    rw [← hj] at f1
    obtain ⟨L, rfl, hb⟩ : ∃ L, m' = .fn L ∧ L.poly.basis = .fourier ((2 : ℕ) : ℝ) := by cases f2 <;> exact ⟨_, rfl, rfl⟩
    unfold Heap.expr Heap.store
    rw [f1]
    exact ⟨rfl, fun _ => ⟨_, Or.inr hb⟩⟩

/-- **C135 (`HighOrderMLP`).** Networks of linear, continuous piecewise, polynomial or Fourier layers without nonlinearity, with or without a max-abs or L2 normalization: for every state and all signs of inputs, hidden units and outputs (with `resnet`,
which adds outputs of different layers, the same ones in all hidden layers) there is a state with weights of the same shapes that computes the same up to the signs of inputs and outputs. -/
theorem C135_mlp (rng : Rng ℝ) {c : MLPArgs ℝ} {kind kindIn : FcKind} (hk : fcTable.lookup c.layerType = some kind)
    (hki : fcTable.lookup (orStr c.layerTypeIn c.layerType) = some kindIn) (hsk : kind.Sums) (hski : kindIn.Sums) (hI : Usable kindIn c.inputArgs)
    (hH : Usable kind c.hiddenArgs) (hO : Usable kind c.outputArgs) (hper : ∀ p, c.periodicity = some p → 0 < p)
    {N : Option (NormModule ℝ)} (hnorm : c.normalization = N.map NormModule.apply) (hodd : ∀ n ∈ N, n.Odd) (hdrop : c.dropout ≤ 0) {h0 : Heap ℝ} (hord : h0.Ordered) (hnl : c.nonLinearity = none) :
    ∃ (net : ℕ) (h1 : Heap ℝ) (inp out : ℕ) (hid : ℕ → ℕ), mlpInit rng c h0 = .ok (net, h1) ∧ (inp :: out :: (List.range c.hiddenLayers).map hid).Nodup ∧
      ∀ h : Heap ℝ, h1.Later h → h.Ordered → h.ParamsWF →
      ∀ (σ ρ : ℕ → Bool) (μ : ℕ → ℕ → Bool), (c.resnet = true → ∀ i ≤ c.hiddenLayers, μ i = μ 0) →
      ∃ h' : Heap ℝ, h.Later h' ∧ h'.length = h.length ∧ h'.Ordered ∧ h'.ParamsWF ∧
        h'.store inp = (h.store inp).sign σ (μ 0) ∧ (∀ i < c.hiddenLayers, h'.store (hid i) = (h.store (hid i)).sign (μ i) (μ (i + 1))) ∧ h'.store out = (h.store out).sign (μ c.hiddenLayers) ρ ∧
        (∀ j, j ∉ inp :: out :: (List.range c.hiddenLayers).map hid → h'[j]? = h[j]?) ∧
        ∀ (B : ℕ) (x : Tensor ℝ), x.shape = [B, c.inWidth] → x.WF → (∀ n ∈ N, n.Takes [B, c.hiddenWidth]) →
          ∃ y, h.forward net x = .ok y ∧ y.shape = [B, c.outWidth] ∧ y.WF ∧ h'.forward net (signed σ x) = .ok (signed ρ y) := by
  classical
  obtain ⟨net, h1, inp, out, hid, e1, hnd, hall⟩ := mlp_shared rng hk hki hI hH hO hper hnorm hdrop hord (by rw [hnl]; simp)
  refine ⟨net, h1, inp, out, hid, e1, hnd, fun h hl ho hw σ ρ μ hres => ?_⟩
  obtain ⟨l1, l2, l3, f1, -⟩ := hall h hl ho hw
  obtain ⟨n1, n2⟩ := List.nodup_cons.1 hnd
  obtain ⟨n2, n3⟩ := List.nodup_cons.1 n2
  have hne : inp ≠ out := fun hc => n1 (hc ▸ List.mem_cons_self)
  have hinp : ∀ i < c.hiddenLayers, hid i ≠ inp := fun i hi hc => n1 (List.mem_cons_of_mem _ (List.mem_map.2 ⟨i, List.mem_range.2 hi, hc⟩))
  have hout : ∀ i < c.hiddenLayers, hid i ≠ out := fun i hi hc => n2 (List.mem_map.2 ⟨i, List.mem_range.2 hi, hc⟩)
  have hinj : ∀ i < c.hiddenLayers, ∀ k < c.hiddenLayers, hid i = hid k → i = k := fun i hi k hk hc =>
    List.inj_on_of_nodup_map n3 (List.mem_range.2 hi) (List.mem_range.2 hk) hc
  let maps : ℕ → Option ((ℕ → Bool) × (ℕ → Bool)) := fun j =>
    if j = inp then some (σ, μ 0) else if j = out then some (μ c.hiddenLayers, ρ)
    else if hj : ∃ i, i < c.hiddenLayers ∧ hid i = j then some (μ hj.choose, μ (hj.choose + 1)) else none
  have p1 : maps inp = some (σ, μ 0) := if_pos rfl
  have p2 : maps out = some (μ c.hiddenLayers, ρ) := (if_neg hne.symm).trans (if_pos rfl)
  have p3 : ∀ i < c.hiddenLayers, maps (hid i) = some (μ i, μ (i + 1)) := by
    intro i hi
    refine (if_neg (hinp i hi)).trans ((if_neg (hout i hi)).trans ?_)
    have hj : ∃ k, k < c.hiddenLayers ∧ hid k = hid i := ⟨i, hi, rfl⟩
    rw [dif_pos hj, hinj _ hj.choose_spec.1 i hi hj.choose_spec.2]
  have p4 : ∀ j, j ∉ inp :: out :: (List.range c.hiddenLayers).map hid → maps j = none := by
    intro j hj
    refine (if_neg fun hc : j = inp => hj (hc ▸ List.mem_cons_self)).trans ((if_neg fun hc : j = out => hj (hc ▸ List.mem_cons_of_mem _ List.mem_cons_self)).trans (dif_neg ?_))
    rintro ⟨i, hi, rfl⟩
    exact hj (List.mem_cons_of_mem _ (List.mem_cons_of_mem _ (List.mem_map.2 ⟨i, List.mem_range.2 hi, rfl⟩)))
  obtain ⟨g1, g2, g3, g4⟩ := Heap.sign_later maps ho hw
  refine ⟨h.sign maps, g1, g2, g3, g4, Heap.sign_store h p1, fun i hi => Heap.sign_store h (p3 i hi), Heap.sign_store h p2, fun j hj => ?_, fun B x hx hwx hB => ?_⟩
  · rw [Heap.sign_get, p4 j hj]
    exact Option.map_id_fun' ▸ rfl
  obtain ⟨-, -, -, f2, -⟩ := hall (h.sign maps) (hl.trans g1) g3 g4
  have he : (h.sign maps).mlpExpr c N inp out hid = h.mlpExpr c N inp out hid := by
    unfold Heap.mlpExpr
    rw [g1.expr_eq g2]
  rw [f1, f2, he]
  refine C135_expression ?_ hx hwx
  have leaf : ∀ {k : FcKind} {a : FcArgs ℝ} {j : ℕ} {α β : ℕ → Bool}, Usable k a → (∀ p, a.periodicity = some p → 0 < p) → k.Sums → IsLayer k a h j → maps j = some (α, β) →
      (h.expr j).SignChange h.store (h.sign maps).store B α β a.inFeatures a.outFeatures := by
    intro k a j α β hu hpp hs hlay hm
    obtain ⟨q1, q2⟩ := hlay.sums hu hs
    have ht := (hlay.expr hu hpp ho hw).2 B
    rw [q1] at ht ⊢
    obtain ⟨B', I', O', r1, r2, r3⟩ := ht
    simp only [List.cons.injEq, and_true] at r1 r2
    obtain ⟨-, rfl⟩ := r1
    obtain ⟨-, rfl⟩ := r2
    exact ⟨r3, q2 _, Heap.sign_store h hm⟩
  have hmid : ∀ i < c.hiddenLayers, (h.expr (hid i)).SignChange h.store (h.sign maps).store B (μ i) (μ (i + 1)) c.hiddenWidth c.hiddenWidth := fun i hi => leaf hH hper hsk (l2 i hi) (p3 i hi)
  have hpre : ∀ e ∈ N.toList.map (fun n => GExpr.fixed (.norm n)) ++ (if c.nonLinearity.isSome then [.fixed (.base (.dense .relu))] else []), ∀ i ≤ c.hiddenLayers,
      e.SignChange h.store (h.sign maps).store B (μ i) (μ i) c.hiddenWidth c.hiddenWidth := by
    intro e he i hi
    rcases List.mem_append.1 he with he | he
    · obtain ⟨n, hn, rfl⟩ := List.mem_map.1 he
      have hn : n ∈ N := by simpa using hn
      exact ⟨hB n hn, rfl, hodd n hn, rfl⟩
    · rw [hnl] at he
      simp at he
  refine net_signs (leaf hI hper hski l1 p1) hpre (fun i hi => ?_) (leaf hO hper hsk l3 p2)
  by_cases hr : c.resnet = true
  · rw [if_pos hr, hres hr i hi.le, hres hr (i + 1) hi]
    refine resExpr_signs (H := c.hiddenLayers) (fun e he => ?_) (fun k hk => ?_) i hi
    · exact hpre e he 0 (Nat.zero_le _)
    · have := hmid k hk
      rw [hres hr k hk.le, hres hr (k + 1) hk] at this
      exact this
  · rw [if_neg hr]
    exact hmid i hi

/-- **C135 (hidden units).** Changing only signs of hidden units gives a state with the same outputs at all inputs. -/
theorem C135_hidden_units (rng : Rng ℝ) {c : MLPArgs ℝ} {kind kindIn : FcKind} (hk : fcTable.lookup c.layerType = some kind)
    (hki : fcTable.lookup (orStr c.layerTypeIn c.layerType) = some kindIn) (hsk : kind.Sums) (hski : kindIn.Sums) (hI : Usable kindIn c.inputArgs)
    (hH : Usable kind c.hiddenArgs) (hO : Usable kind c.outputArgs) (hper : ∀ p, c.periodicity = some p → 0 < p)
    {N : Option (NormModule ℝ)} (hnorm : c.normalization = N.map NormModule.apply) (hodd : ∀ n ∈ N, n.Odd) (hdrop : c.dropout ≤ 0) {h0 : Heap ℝ} (hord : h0.Ordered) (hnl : c.nonLinearity = none) :
    ∃ (net : ℕ) (h1 : Heap ℝ) (inp out : ℕ) (hid : ℕ → ℕ), mlpInit rng c h0 = .ok (net, h1) ∧
      ∀ h : Heap ℝ, h1.Later h → h.Ordered → h.ParamsWF → ∀ (μ : ℕ → ℕ → Bool), (c.resnet = true → ∀ i ≤ c.hiddenLayers, μ i = μ 0) →
      ∃ h' : Heap ℝ, h.Later h' ∧ h'.length = h.length ∧
        h'.store inp = (h.store inp).sign (fun _ => false) (μ 0) ∧ (∀ i < c.hiddenLayers, h'.store (hid i) = (h.store (hid i)).sign (μ i) (μ (i + 1))) ∧
        h'.store out = (h.store out).sign (μ c.hiddenLayers) (fun _ => false) ∧
        ∀ (B : ℕ) (x : Tensor ℝ), x.shape = [B, c.inWidth] → x.WF → (∀ n ∈ N, n.Takes [B, c.hiddenWidth]) →
          ∃ y, h.forward net x = .ok y ∧ h'.forward net x = .ok y := by
  obtain ⟨net, h1, inp, out, hid, e1, -, hall⟩ := C135_mlp rng hk hki hsk hski hI hH hO hper hnorm hodd hdrop hord hnl
  refine ⟨net, h1, inp, out, hid, e1, fun h hl ho hw μ hres => ?_⟩
  obtain ⟨h', g1, g2, -, -, g5, g6, g7, -, g9⟩ := hall h hl ho hw (fun _ => false) (fun _ => false) μ hres
  refine ⟨h', g1, g2, g5, g6, g7, fun B x hx hwx hB => ?_⟩
  obtain ⟨y, y1, y2, y3, y4⟩ := g9 B x hx hwx hB
  rw [signed_none hx hwx, signed_none y2 y3] at y4
  exact ⟨y, y1, y4⟩

/-! ## examples -/

/-- One link of two segments with two nodes each. -/
noncomputable def exLink (per : Option ℝ) (w : Tensor ℝ) : PwLayer ℝ := { cls := .continuous, n := 2, segments := 2, inFeatures := 1, outFeatures := 1, length := 2, periodicity := per, w := w }

/-- At `-t` the link through `(-1, 1)`, `(0, 0)`, `(1, 5)` is what the link through `(-1, 5)`, `(0, 0)`, `(1, 1)` is at `t`. -/
example (t : ℝ) {per : Option ℝ} (hp : ∀ p, per = some p → 0 < p) : ∃ y, (exLink per (Tensor.tab3 1 1 3 fun _ _ r => if r = 0 then 5 else if r = 1 then 0 else 1)).forward (Tensor.tab2 1 1 fun _ _ => t) = .ok y ∧
    (exLink per (Tensor.tab3 1 1 3 fun _ _ r => if r = 0 then 1 else if r = 1 then 0 else 5)).forward (Tensor.tab2 1 1 fun _ _ => -t) = .ok y := by
  obtain ⟨w, hw⟩ : ∃ w : Tensor ℝ, w = Tensor.tab3 1 1 3 fun _ _ r => if r = 0 then 5 else if r = 1 then 0 else 1 := ⟨_, rfl⟩
  have hs : w.shape = [1, 1, 3] := by rw [hw]; rfl
  have hwf : w.WF := by rw [hw]; exact Tensor.wf_tabulate _ _
  obtain ⟨y, y1, y2, y3, y4⟩ := C135_layer (l := .pw (exLink per w)) (I := 1) (O := 1) ⟨⟨Nat.two_pos, Nat.two_pos, Nat.one_pos, Nat.one_pos, hs, hwf⟩, two_pos, hp, rfl, rfl⟩ (fun _ => true) (ρ := fun _ => false)
    ⟨rfl, Or.inl rfl⟩ (B := 1) (x := Tensor.tab2 1 1 fun _ _ => t) rfl (Tensor.wf_tabulate _ _)
  have e1 : signed (fun _ => true) (Tensor.tab2 1 1 fun _ _ => t) = Tensor.tab2 1 1 fun _ _ => -t := by
    rw [signed_tab2]
    exact tab2_congr fun _ _ _ _ => by rw [sg_true, neg_one_mul]
  have e2 : signLinks (fun _ => true) (fun _ => false) w = Tensor.tab3 1 1 3 fun _ _ r => if r = 0 then 1 else if r = 1 then 0 else 5 := by
    refine Tensor.ext_get (signLinks_wf _ _ _) (Tensor.wf_tabulate _ _) hs fun idx hin => ?_
    have hin' : InShape w.shape idx := hin
    rw [hs] at hin'
    obtain ⟨o, i, r, rfl, ho, hi, hr⟩ := inShape3_exists hin'
    rw [signLinks_get hs ho hi hr, Tensor.get_tab3 ho hi hr, sg_false, one_mul, hw, Tensor.get_tab3 ho hi (inverted_lt hr)]
    interval_cases r <;> norm_num [inverted]
  rw [e1, signed_none y2 y3] at y4
  have y4' : (exLink per (signLinks (fun _ => true) (fun _ => false) w)).forward (Tensor.tab2 1 1 fun _ _ => -t) = .ok y := y4
  rw [e2] at y4'
  exact ⟨y, hw ▸ y1, y4'⟩

/-- A network of two inputs, two hidden layers of three units, and one output, with arbitrary weights: changing the sign of all hidden units of the first hidden layer. -/
example (rng : Rng ℝ) : ∃ (net : ℕ) (h1 : Heap ℝ), mlpInit rng (exNet "continuous" 3 2) [] = .ok (net, h1) ∧ ∀ h : Heap ℝ, h1.Later h → h.Ordered → h.ParamsWF → ∃ h' : Heap ℝ, h.Later h' ∧
    ∀ (B : ℕ) (x : Tensor ℝ), x.shape = [B, 2] → x.WF → ∃ y, h.forward net x = .ok y ∧ h'.forward net x = .ok y := by
  obtain ⟨uI, uH, uO⟩ := exNet_usable "continuous" (n := 3) (s := 2) (by norm_num) (by norm_num) .continuous
  have hk : fcTable.lookup (exNet "continuous" 3 2).layerType = some (.leaf (.pw .continuous)) := by
    show List.lookup "continuous" _ = _; decide
  obtain ⟨net, h1, inp, out, hid, e1, hall⟩ := C135_hidden_units rng (c := exNet "continuous" 3 2) (N := none) hk hk trivial trivial uI uH uO (by intro p hp; cases hp) rfl (by simp) le_rfl ordered_nil rfl
  refine ⟨net, h1, e1, fun h hl ho hw => ?_⟩
  obtain ⟨h', g1, -, -, -, -, g⟩ := hall h hl ho hw (fun i _ => i == 0) (by intro h; cases h)
  exact ⟨h', g1, fun B x hx hwx => g B x hx hwx (by simp)⟩

end HOL
