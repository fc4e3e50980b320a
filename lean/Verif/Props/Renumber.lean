import Verif.Lemmas.Renumber
import Verif.Props.StepNetwork

/-! # C131: the numbering of the units of a network does not matter -/

namespace HOL
open TorchScalar Spec

/-- **C131 (layers).** A fully connected layer — piecewise, of sums or products, polynomial, Fourier, product or linear, with or without periodicity — with inputs and outputs renumbered computes for the renumbered inputs the
renumbered outputs. -/
theorem C131_layer {l : GLayer ℝ} {I O : ℕ} (hf : l.Fits I O) (hn : l ≠ .relu) {κ ρ : ℕ → ℕ} (hκ : Renumbers κ I) (hρ : Renumbers ρ O) {B : ℕ} {x : Tensor ℝ} (hx : x.shape = [B, I]) (hwx : x.WF) :
    ∃ y, l.forward x = .ok y ∧ y.shape = [B, O] ∧ y.WF ∧ (l.renumber κ ρ).forward (columns κ x) = .ok (columns ρ y) := by
  obtain ⟨y, h1, h2, h3, h4⟩ := layer_follows hf ⟨hn, rfl⟩ hκ hρ B x hx hwx
  exact ⟨y, h1, h2, h3, h4⟩

theorem zip_follows (f : ℝ → ℝ → ℝ) {u v : Tensor ℝ} {ρ : ℕ → ℕ} {B O : ℕ} (hρ : Renumbers ρ O) (hu : u.shape = [B, O]) (hv : v.shape = [B, O]) :
    zipBcast f u v = .ok (Tensor.tab2 B O fun b o => f (u.get [b, o]) (v.get [b, o])) ∧
      zipBcast f (columns ρ u) (columns ρ v) = .ok (columns ρ (Tensor.tab2 B O fun b o => f (u.get [b, o]) (v.get [b, o]))) := by
  refine ⟨zipBcast_same f hu hv, ?_⟩
  rw [zipBcast_same f (s := columns ρ u) (t := columns ρ v) hu hv, columns_tab2 hρ]
  congr 1
  refine tab2_congr fun b hb o ho => ?_
  rw [columns_get hu hb ho, columns_get hv hb ho]

theorem expr_follows {σ τ : ℕ → GLayer ℝ} {B : ℕ} : ∀ (e : GExpr ℝ) {κ ρ : ℕ → ℕ} {I O : ℕ}, e.Renumbered σ τ B κ ρ I O → Renumbers ρ O ∧ Follows (e.forward σ) (e.forward τ) κ ρ B I O
  | .leaf j, κ, ρ, I, O, h => ⟨h.2.2.2, layer_follows h.1 h.2.1 h.2.2.1 h.2.2.2 B⟩
  | .fixed s, κ, ρ, I, O, h => by
    obtain ⟨h1, h2, rfl, h4⟩ := h
    match s, h1, h2 with
    | .base (.dense .relu), h1, _ =>
      obtain ⟨B', I', O', e1, e2, e3⟩ := h1
      simp only [List.cons.injEq, and_true] at e1 e2
      obtain ⟨rfl, rfl⟩ := e1
      obtain ⟨-, rfl⟩ := e2
      obtain rfl : I = O := e3
      exact ⟨h4, relu_follows h4 B⟩
    | .norm N, h1, h2 =>
      obtain ⟨e1, e2⟩ := h1
      simp only [List.cons.injEq, and_true, true_and] at e1
      subst e1
      exact ⟨h4, norm_follows h2 e2 h4⟩
  | .comp a b, κ, ρ, I, O, ⟨μ, M, h1, h2⟩ => by
    obtain ⟨-, ha⟩ := expr_follows a h1
    obtain ⟨hρ, hb⟩ := expr_follows b h2
    refine ⟨hρ, fun x hx hwx => ?_⟩
    obtain ⟨y, a1, a2, a3, a4⟩ := ha x hx hwx
    obtain ⟨z, b1, b2, b3, b4⟩ := hb y a2 a3
    refine ⟨z, ?_, b2, b3, ?_⟩
    · show (a.forward σ x >>= fun y => b.forward σ y) = _
      rw [a1]; exact b1
    · show (a.forward τ _ >>= fun y => b.forward τ y) = _
      rw [a4]; exact b4
  | .add a b, κ, ρ, I, O, ⟨h1, h2⟩ => by
    obtain ⟨-, ha⟩ := expr_follows a h1
    obtain ⟨hρ, hb⟩ := expr_follows b h2
    refine ⟨hρ, fun x hx hwx => ?_⟩
    obtain ⟨y, a1, a2, a3, a4⟩ := ha x hx hwx
    obtain ⟨z, b1, b2, b3, b4⟩ := hb x hx hwx
    obtain ⟨z1, z2⟩ := zip_follows (· + ·) hρ a2 b2
    refine ⟨_, ?_, rfl, Tensor.wf_tab2 B O fun b o => y.get [b, o] + z.get [b, o], ?_⟩
    · show (a.forward σ x >>= fun u => b.forward σ x >>= fun v => zipBcast (· + ·) u v) = _
      rw [a1, b1]; exact z1
    · show (a.forward τ _ >>= fun u => b.forward τ _ >>= fun v => zipBcast (· + ·) u v) = _
      rw [a4, b4]; exact z2
  | .mul a b, κ, ρ, I, O, ⟨h1, h2⟩ => by
    obtain ⟨-, ha⟩ := expr_follows a h1
    obtain ⟨hρ, hb⟩ := expr_follows b h2
    refine ⟨hρ, fun x hx hwx => ?_⟩
    obtain ⟨y, a1, a2, a3, a4⟩ := ha x hx hwx
    obtain ⟨z, b1, b2, b3, b4⟩ := hb x hx hwx
    obtain ⟨z1, z2⟩ := zip_follows (· * ·) hρ a2 b2
    refine ⟨_, ?_, rfl, Tensor.wf_tab2 B O fun b o => y.get [b, o] * z.get [b, o], ?_⟩
    · show (a.forward σ x >>= fun u => b.forward σ x >>= fun v => zipBcast (· * ·) u v >>= fun r => if r.shape = u.shape then Except.ok r else Except.error .runtimeError) = _
      rw [a1, b1]
      show (zipBcast (· * ·) y z >>= fun r => if r.shape = y.shape then Except.ok r else Except.error .runtimeError) = _
      rw [z1]
      exact if_pos a2.symm
    · show (a.forward τ _ >>= fun u => b.forward τ _ >>= fun v => zipBcast (· * ·) u v >>= fun r => if r.shape = u.shape then Except.ok r else Except.error .runtimeError) = _
      rw [a4, b4]
      show (zipBcast (· * ·) (columns ρ y) (columns ρ z) >>= fun r => if r.shape = y.shape then Except.ok r else Except.error .runtimeError) = _
      rw [z2]
      exact if_pos a2.symm

/-- **C131 (networks of modules).** Renumber the units of every module of a network — also with sums and products of modules, modules used several times, `relu` and normalizations that treat all columns alike — so that each
module gets its inputs numbered as it expects: for the renumbered inputs the network computes the renumbered outputs. -/
theorem C131_expression {σ τ : ℕ → GLayer ℝ} {B : ℕ} {e : GExpr ℝ} {κ ρ : ℕ → ℕ} {I O : ℕ} (h : e.Renumbered σ τ B κ ρ I O) {x : Tensor ℝ} (hx : x.shape = [B, I]) (hwx : x.WF) :
    ∃ y, e.forward σ x = .ok y ∧ y.shape = [B, O] ∧ y.WF ∧ e.forward τ (columns κ x) = .ok (columns ρ y) := by
  obtain ⟨y, h1, h2, h3, h4⟩ := (expr_follows e h).2 x hx hwx
  exact ⟨y, h1, h2, h3, h4⟩

/-! ## `HighOrderMLP` -/

/-- Modules one after the other. -/
inductive Path (σ τ : ℕ → GLayer ℝ) (B : ℕ) : List (GExpr ℝ) → (ℕ → ℕ) → (ℕ → ℕ) → ℕ → ℕ → Prop
  | nil (κ : ℕ → ℕ) (I : ℕ) : Path σ τ B [] κ κ I I
  | cons {e : GExpr ℝ} {es : List (GExpr ℝ)} {κ μ ρ : ℕ → ℕ} {I M O : ℕ} (h : e.Renumbered σ τ B κ μ I M) (hs : Path σ τ B es μ ρ M O) : Path σ τ B (e :: es) κ ρ I O

theorem Path.append {σ τ : ℕ → GLayer ℝ} {B : ℕ} {es fs : List (GExpr ℝ)} {κ μ ρ : ℕ → ℕ} {I M O : ℕ} (h : Path σ τ B es κ μ I M) (h' : Path σ τ B fs μ ρ M O) : Path σ τ B (es ++ fs) κ ρ I O := by
  induction h with
  | nil => exact h'
  | cons h _ ih => exact .cons h (ih h')

theorem Path.chain {σ τ : ℕ → GLayer ℝ} {B : ℕ} {es : List (GExpr ℝ)} {κ μ ρ : ℕ → ℕ} {I M O : ℕ} (h : Path σ τ B es μ ρ M O) : ∀ {e : GExpr ℝ}, e.Renumbered σ τ B κ μ I M →
    (e.chain es).Renumbered σ τ B κ ρ I O := by
  induction h with
  | nil => exact fun he => he
  | cons h _ ih => exact fun he => ih ⟨_, _, he, h⟩

theorem Path.same {σ τ : ℕ → GLayer ℝ} {B : ℕ} {es : List (GExpr ℝ)} {μ : ℕ → ℕ} {W : ℕ} (h : ∀ e ∈ es, e.Renumbered σ τ B μ μ W W) : Path σ τ B es μ μ W W := by
  induction es with
  | nil => exact .nil _ _
  | cons e es ih => exact .cons (h e List.mem_cons_self) (ih fun f hf => h f (List.mem_cons_of_mem _ hf))

theorem net_renumbered {σ τ : ℕ → GLayer ℝ} {B : ℕ} {pre : List (GExpr ℝ)} {inp out : GExpr ℝ} {entry : ℕ → GExpr ℝ} {H : ℕ} {κ ρ : ℕ → ℕ} {μ : ℕ → ℕ → ℕ} {I W O : ℕ}
    (hi : inp.Renumbered σ τ B κ (μ 0) I W) (hpre : ∀ e ∈ pre, ∀ i ≤ H, e.Renumbered σ τ B (μ i) (μ i) W W) (he : ∀ i < H, (entry i).Renumbered σ τ B (μ i) (μ (i + 1)) W W)
    (ho : out.Renumbered σ τ B (μ H) ρ W O) : (netExpr pre inp ((List.range H).map entry ++ [out])).Renumbered σ τ B κ ρ I O := by
  have key : ∀ k ≤ H, Path σ τ B (((List.range k).map entry).flatMap fun l => pre ++ [l]) (μ 0) (μ k) W W := by
    intro k
    induction k with
    | zero => exact fun _ => .nil _ _
    | succ k ih =>
      intro hk
      rw [List.range_succ, List.map_append, List.flatMap_append, List.map_singleton, List.flatMap_singleton]
      exact (ih (by omega)).append ((Path.same fun e he => hpre e he k (by omega)).append (.cons (he k (by omega)) (.nil _ _)))
  unfold netExpr
  refine Path.chain ?_ hi
  rw [List.flatMap_append, List.flatMap_singleton]
  exact (key H le_rfl).append ((Path.same fun e he => hpre e he H le_rfl).append (.cons ho (.nil _ _)))

theorem resExpr_renumbered {σ τ : ℕ → GLayer ℝ} {B : ℕ} {pre : List (GExpr ℝ)} {hid : ℕ → GExpr ℝ} {H : ℕ} {μ : ℕ → ℕ} {W : ℕ} (hpre : ∀ e ∈ pre, e.Renumbered σ τ B μ μ W W)
    (hh : ∀ i < H, (hid i).Renumbered σ τ B μ μ W W) : ∀ i < H, (resExpr pre hid i).Renumbered σ τ B μ μ W W
  | 0, hi => hh 0 hi
  | i + 1, hi => by
    refine ⟨hh _ hi, ?_⟩
    have := resExpr_renumbered hpre hh i (by omega)
    cases pre using List.reverseRecOn with
    | nil => exact this
    | append_singleton l a _ =>
      rw [List.getLastD_concat]
      exact hpre a (by simp)

/-- The modules of one layer. -/
theorem layer_renumbered {h : Heap ℝ} {j B I O : ℕ} (ht : (h.expr j).Takes h.store [B, I] [B, O]) {τ : ℕ → GLayer ℝ} {κ ρ : ℕ → ℕ} (hκ : Renumbers κ I) (hρ : Renumbers ρ O)
    (hm : ∀ m ∈ (h.expr j).modules, (h.store m).Renumbered κ ρ (τ m)) : (h.expr j).Renumbered h.store τ B κ ρ I O := by
  have leaf : ∀ m, (GExpr.leaf m).Takes h.store [B, I] [B, O] → (h.store m).Renumbered κ ρ (τ m) → (GExpr.leaf m).Renumbered h.store τ B κ ρ I O := by
    rintro m ⟨B', I', O', e1, e2, e3⟩ hr
    simp only [List.cons.injEq, and_true] at e1 e2
    obtain ⟨rfl, rfl⟩ := e1
    obtain ⟨-, rfl⟩ := e2
    exact ⟨e3, hr, hκ, hρ⟩
  have forms : (∃ f, h.expr j = .comp (.leaf f) (.fixed (.base (.dense .relu)))) ∨ (∃ a b, h.expr j = .mul (.leaf a) (.leaf b)) ∨ h.expr j = .leaf j := by
    unfold Heap.expr
    split
    · exact Or.inl ⟨_, rfl⟩
    · exact Or.inr (Or.inl ⟨_, _, rfl⟩)
    · exact Or.inr (Or.inr rfl)
  rcases forms with ⟨f, he⟩ | ⟨a, b, he⟩ | he <;> rw [he] at ht hm ⊢
  · obtain ⟨M, ⟨B', I', O', e1, rfl, e3⟩, t2⟩ := ht
    simp only [List.cons.injEq, and_true] at e1
    obtain ⟨rfl, rfl⟩ := e1
    obtain ⟨B'', I'', O'', f1, f2, f3⟩ := t2
    simp only [List.cons.injEq, and_true] at f1 f2
    obtain ⟨rfl, rfl⟩ := f1
    obtain ⟨-, rfl⟩ := f2
    obtain rfl : O' = O := f3
    exact ⟨ρ, O', ⟨e3, hm _ (by simp [GExpr.modules]), hκ, hρ⟩, ⟨_, _, _, rfl, rfl, rfl⟩, trivial, rfl, hρ⟩
  · exact ⟨leaf _ ht.1 (hm _ (by simp [GExpr.modules])), leaf _ ht.2 (hm _ (by simp [GExpr.modules]))⟩
  · exact leaf _ ht (hm _ (by simp [GExpr.modules]))

theorem Heap.Later.expr_eq {h h' : Heap ℝ} (hl : h.Later h') (hlen : h'.length = h.length) : h'.expr = h.expr := by
  funext j
  unfold Heap.expr
  cases hj : h[j]? with
  | none =>
    have : h'[j]? = none := by rw [List.getElem?_eq_none_iff] at hj ⊢; omega
    rw [this]
  | some m =>
    obtain ⟨m', f1, f2⟩ := hl j m hj
    rw [f1]
    cases f2 <;> rfl

/-- C131 for `HighOrderMLP`, with the kinds of the layers. -/
theorem mlp_renumbered (rng : Rng ℝ) {c : MLPArgs ℝ} {kind kindIn : FcKind} (hk : fcTable.lookup c.layerType = some kind)
    (hki : fcTable.lookup (orStr c.layerTypeIn c.layerType) = some kindIn) (hI : Usable kindIn c.inputArgs)
    (hH : Usable kind c.hiddenArgs) (hO : Usable kind c.outputArgs) (hper : ∀ p, c.periodicity = some p → 0 < p)
    {N : Option (NormModule ℝ)} (hnorm : c.normalization = N.map NormModule.apply) (hsym : ∀ n ∈ N, n.Symmetric) (hdrop : c.dropout ≤ 0) {h0 : Heap ℝ} (hord : h0.Ordered)
    (hnl : ∀ j ∈ c.nonLinearity, h0[j]? = some (.other fun x => .ok (reluT x))) :
    ∃ (net : ℕ) (h1 : Heap ℝ) (inp out : ℕ) (hid : ℕ → ℕ), mlpInit rng c h0 = .ok (net, h1) ∧ (inp :: out :: (List.range c.hiddenLayers).map hid).Nodup ∧
      ∀ h : Heap ℝ, h1.Later h → h.Ordered → h.ParamsWF → (IsLayer kindIn c.inputArgs h inp ∧ (∀ i < c.hiddenLayers, IsLayer kind c.hiddenArgs h (hid i)) ∧ IsLayer kind c.outputArgs h out) ∧ ∀ h' : Heap ℝ, h.Later h' → h'.length = h.length → h'.Ordered → h'.ParamsWF →
      ∀ (κ ρ : ℕ → ℕ) (μ : ℕ → ℕ → ℕ), Renumbers κ c.inWidth → Renumbers ρ c.outWidth → (∀ i ≤ c.hiddenLayers, Renumbers (μ i) c.hiddenWidth) → (c.resnet = true → ∀ i ≤ c.hiddenLayers, μ i = μ 0) →
      (∀ m ∈ (h.expr inp).modules, (h.store m).Renumbered κ (μ 0) (h'.store m)) →
      (∀ i < c.hiddenLayers, ∀ m ∈ (h.expr (hid i)).modules, (h.store m).Renumbered (μ i) (μ (i + 1)) (h'.store m)) →
      (∀ m ∈ (h.expr out).modules, (h.store m).Renumbered (μ c.hiddenLayers) ρ (h'.store m)) →
      ∀ (B : ℕ) (x : Tensor ℝ), x.shape = [B, c.inWidth] → x.WF → (∀ n ∈ N, n.Takes [B, c.hiddenWidth]) →
        ∃ y, h.forward net x = .ok y ∧ y.shape = [B, c.outWidth] ∧ y.WF ∧ h'.forward net (columns κ x) = .ok (columns ρ y) := by
  obtain ⟨net, h1, inp, out, hid, e1, hnd, hall⟩ := mlp_shared rng hk hki hI hH hO hper hnorm hdrop hord hnl
  refine ⟨net, h1, inp, out, hid, e1, hnd, fun h hl ho hw => ?_⟩
  obtain ⟨l1, l2, l3, f1, -⟩ := hall h hl ho hw
  refine ⟨⟨l1, l2, l3⟩, fun h' hl' hlen ho' hw' κ ρ μ hκ hρ hμ hres m1 m2 m3 B x hx hwx hB => ?_⟩
  obtain ⟨-, -, -, f2, -⟩ := hall h' (hl.trans hl') ho' hw'
  have he : h'.mlpExpr c N inp out hid = h.mlpExpr c N inp out hid := by
    unfold Heap.mlpExpr
    rw [hl'.expr_eq hlen]
  rw [f1, f2, he]
  refine C131_expression ?_ hx hwx
  have hin := layer_renumbered ((l1.expr hI hper ho hw).2 B) hκ (hμ 0 (Nat.zero_le _)) m1
  have hout := layer_renumbered ((l3.expr hO hper ho hw).2 B) (hμ _ le_rfl) hρ m3
  have hmid : ∀ i < c.hiddenLayers, (h.expr (hid i)).Renumbered h.store h'.store B (μ i) (μ (i + 1)) c.hiddenWidth c.hiddenWidth := fun i hi =>
    layer_renumbered (((l2 i hi).expr hH hper ho hw).2 B) (hμ i hi.le) (hμ (i + 1) hi) (m2 i hi)
  have hpre : ∀ e ∈ N.toList.map (fun n => GExpr.fixed (.norm n)) ++ (if c.nonLinearity.isSome then [.fixed (.base (.dense .relu))] else []), ∀ i ≤ c.hiddenLayers,
      e.Renumbered h.store h'.store B (μ i) (μ i) c.hiddenWidth c.hiddenWidth := by
    intro e he i hi
    rcases List.mem_append.1 he with he | he
    · obtain ⟨n, hn, rfl⟩ := List.mem_map.1 he
      have hn : n ∈ N := by simpa using hn
      exact ⟨⟨rfl, hB n hn⟩, hsym n hn, rfl, hμ i hi⟩
    · split at he
      · rw [List.mem_singleton.1 he]
        exact ⟨⟨B, _, _, rfl, rfl, rfl⟩, trivial, rfl, hμ i hi⟩
      · simp at he
  refine net_renumbered hin hpre (fun i hi => ?_) hout
  by_cases hr : c.resnet = true
  · rw [if_pos hr, hres hr i hi.le, hres hr (i + 1) hi]
    refine resExpr_renumbered (H := c.hiddenLayers) (fun e he => ?_) (fun k hk => ?_) i hi
    · exact hpre e he 0 (Nat.zero_le _)
    · have := hmid k hk
      rw [hres hr k hk.le, hres hr (k + 1) hk] at this
      exact this
  · rw [if_neg hr]
    exact hmid i hi

/-- **C131 (`HighOrderMLP`).** Two states `h` and `h'` of a network: the input layer of `h'` is the one of `h` with inputs renumbered by `κ` and outputs by `μ 0`, hidden layer `i` has inputs renumbered by `μ i` and outputs by
`μ (i + 1)`, the output layer has inputs renumbered by the last `μ` and outputs by `ρ` (with `resnet`, which adds outputs of different layers, all `μ` are the same). Then `h'` computes for inputs with columns renumbered by `κ` the outputs of `h`
with columns renumbered by `ρ`. In particular, renumbering only the hidden units changes no output. For every kind of layer the library can build in a network (also switch layers), with `relu` or no nonlinearity, with or without a
normalization other than layer normalization. -/
theorem C131_mlp (rng : Rng ℝ) {c : MLPArgs ℝ} {kind kindIn : FcKind} (hk : fcTable.lookup c.layerType = some kind)
    (hki : fcTable.lookup (orStr c.layerTypeIn c.layerType) = some kindIn) (hI : Usable kindIn c.inputArgs)
    (hH : Usable kind c.hiddenArgs) (hO : Usable kind c.outputArgs) (hper : ∀ p, c.periodicity = some p → 0 < p)
    {N : Option (NormModule ℝ)} (hnorm : c.normalization = N.map NormModule.apply) (hsym : ∀ n ∈ N, n.Symmetric) (hdrop : c.dropout ≤ 0) {h0 : Heap ℝ} (hord : h0.Ordered)
    (hnl : ∀ j ∈ c.nonLinearity, h0[j]? = some (.other fun x => .ok (reluT x))) :
    ∃ (net : ℕ) (h1 : Heap ℝ) (inp out : ℕ) (hid : ℕ → ℕ), mlpInit rng c h0 = .ok (net, h1) ∧ (inp :: out :: (List.range c.hiddenLayers).map hid).Nodup ∧
      ∀ h : Heap ℝ, h1.Later h → h.Ordered → h.ParamsWF → ∀ h' : Heap ℝ, h.Later h' → h'.length = h.length → h'.Ordered → h'.ParamsWF →
      ∀ (κ ρ : ℕ → ℕ) (μ : ℕ → ℕ → ℕ), Renumbers κ c.inWidth → Renumbers ρ c.outWidth → (∀ i ≤ c.hiddenLayers, Renumbers (μ i) c.hiddenWidth) → (c.resnet = true → ∀ i ≤ c.hiddenLayers, μ i = μ 0) →
      (∀ m ∈ (h.expr inp).modules, (h.store m).Renumbered κ (μ 0) (h'.store m)) →
      (∀ i < c.hiddenLayers, ∀ m ∈ (h.expr (hid i)).modules, (h.store m).Renumbered (μ i) (μ (i + 1)) (h'.store m)) →
      (∀ m ∈ (h.expr out).modules, (h.store m).Renumbered (μ c.hiddenLayers) ρ (h'.store m)) →
      ∀ (B : ℕ) (x : Tensor ℝ), x.shape = [B, c.inWidth] → x.WF → (∀ n ∈ N, n.Takes [B, c.hiddenWidth]) →
        ∃ y, h.forward net x = .ok y ∧ y.shape = [B, c.outWidth] ∧ y.WF ∧ h'.forward net (columns κ x) = .ok (columns ρ y) := by
  obtain ⟨net, h1, inp, out, hid, e1, hnd, hall⟩ := mlp_renumbered rng hk hki hI hH hO hper hnorm hsym hdrop hord hnl
  exact ⟨net, h1, inp, out, hid, e1, hnd, fun h hl ho hw => (hall h hl ho hw).2⟩

/-! ### such states exist -/

theorem Mod.renumber_trained (κ ρ : ℕ → ℕ) (m : Mod ℝ) : m.Trained (m.renumber κ ρ) := by
  cases m with
  | pw L => exact .pw L _ rfl (renumberLinks_wf _ _ _)
  | fn L => exact .fn L _ rfl (renumberLinks_wf _ _ _)
  | product L =>
    unfold Mod.renumber
    dsimp only
    cases hb : L.bias with
    | none =>
      have := Mod.Trained.product L (renumberLinks κ ρ L.weight) L.weight rfl (by rw [hb]; simp)
      rw [hb] at this
      exact this
    | some b =>
      have := Mod.Trained.product L (renumberLinks κ ρ L.weight) (renumberOut ρ b) rfl (by rw [hb]; rintro _ ⟨⟩; rfl)
      rw [hb] at this
      exact this
  | linear w b => exact .linear _ _ _ _ rfl rfl
  | _ => exact .refl _

theorem Heap.renumber_get (maps : ℕ → Option ((ℕ → ℕ) × (ℕ → ℕ))) (h : Heap ℝ) (j : ℕ) :
    (h.renumber maps)[j]? = h[j]?.map fun m => match maps j with
      | some (κ, ρ) => m.renumber κ ρ
      | none => m := List.getElem?_mapIdx

theorem Heap.renumber_store {maps : ℕ → Option ((ℕ → ℕ) × (ℕ → ℕ))} (h : Heap ℝ) {j : ℕ} {κ ρ : ℕ → ℕ} (hm : maps j = some (κ, ρ)) : (h.renumber maps).store j = (h.store j).renumber κ ρ := by
  unfold Heap.store
  rw [Heap.renumber_get, hm]
  cases h[j]? with
  | none => rfl
  | some m => cases m <;> rfl

theorem Heap.renumber_later (maps : ℕ → Option ((ℕ → ℕ) × (ℕ → ℕ))) {h : Heap ℝ} (ho : h.Ordered) (hw : h.ParamsWF) :
    h.Later (h.renumber maps) ∧ (h.renumber maps).length = h.length ∧ (h.renumber maps).Ordered ∧ (h.renumber maps).ParamsWF := by
  have hl : h.Later (h.renumber maps) := by
    intro j m hj
    rw [Heap.renumber_get, hj]
    refine ⟨_, rfl, ?_⟩
    beta_reduce
    split
    · exact Mod.renumber_trained _ _ m
    · exact .refl _
  have hlen : (h.renumber maps).length = h.length := List.length_mapIdx
  refine ⟨hl, hlen, hl.ordered hlen ho, fun j w b hj => ?_, fun j L hj => ?_⟩
  · rw [Heap.renumber_get] at hj
    obtain ⟨m, hm, hj⟩ := Option.map_eq_some_iff.1 hj
    split at hj
    · cases m with
      | linear w0 b0 =>
        cases hj
        exact ⟨Tensor.wf_tabulate _ _, Tensor.wf_tabulate _ _⟩
      | _ => cases hj
    · subst hj
      exact hw.1 _ _ _ hm
  · rw [Heap.renumber_get] at hj
    obtain ⟨m, hm, hj⟩ := Option.map_eq_some_iff.1 hj
    split at hj
    · cases m with
      | product L0 =>
        cases hj
        refine ⟨Tensor.wf_tabulate _ _, fun b hb => ?_⟩
        obtain ⟨b0, hb0, rfl⟩ := Option.map_eq_some_iff.1 hb
        exact Tensor.wf_tabulate _ _
      | _ => cases hj
    · subst hj
      exact hw.2 _ _ hm

/-- Kinds of layers that are one module. -/
def FcKind.Single : FcKind → Prop
  | .leaf .linearRelu | .switch _ => False
  | _ => True

theorem IsLayer.single {kind : FcKind} {a : FcArgs ℝ} (hu : Usable kind a) (hs : kind.Single) {h : Heap ℝ} {j : ℕ} (hl : IsLayer kind a h j) : h.expr j = .leaf j ∧ h.store j ≠ .relu := by
  obtain ⟨rng, base, ms, e1, e2, e3⟩ := hl
  have key : (∃ L, h[j]? = some (.pw L)) ∨ (∃ L, h[j]? = some (.fn L)) ∨ (∃ L, h[j]? = some (.product L)) ∨ (∃ w b, h[j]? = some (.linear w b)) → h.expr j = .leaf j ∧ h.store j ≠ .relu := by
    unfold Heap.expr Heap.store
    rintro (⟨L, h1⟩ | ⟨L, h1⟩ | ⟨L, h1⟩ | ⟨w, b, h1⟩) <;> rw [h1] <;> exact ⟨rfl, fun h => nomatch h⟩
  refine key ?_
  match kind, hu, hs with
  | .leaf .linear, hu, _ =>
    cases e1
    have hj : j = base + 0 := by simpa using e2
    obtain ⟨m', f1, f2⟩ := e3 0 _ rfl
    rw [← hj] at f1
    obtain ⟨w, b, rfl⟩ : ∃ w b, m' = .linear w b := by cases f2 <;> exact ⟨_, _, rfl⟩
    exact Or.inr (Or.inr (Or.inr ⟨_, _, f1⟩))
  | .leaf .product, hu, _ =>
    cases e1
    have hj : j = base + 0 := by simpa using e2
    obtain ⟨m', f1, f2⟩ := e3 0 _ rfl
    rw [← hj] at f1
    obtain ⟨L, rfl⟩ : ∃ L, m' = .product L := by cases f2 <;> exact ⟨_, rfl⟩
    exact Or.inr (Or.inr (Or.inl ⟨_, f1⟩))
  | .leaf (.pw cls), hu, _ =>
    obtain ⟨n, s, hn, hs, h1, h2, h3, h4⟩ := hu
    simp only [fcMods, leafMods, hn, hs] at e1
    cases e1
    have hj : j = base + 0 := by simpa using e2
    obtain ⟨m', f1, f2⟩ := e3 0 _ rfl
    rw [← hj] at f1
    obtain ⟨L, rfl⟩ : ∃ L, m' = .pw L := by cases f2 <;> exact ⟨_, rfl⟩
    exact Or.inl ⟨_, f1⟩
  | .leaf .polynomial, hu, _ =>
    obtain ⟨n, hn, hpos⟩ := hu
    simp only [fcMods, leafMods, hn, polynomialInit, FnLayer.init] at e1
    rw [lagrangePolyFlat_numBasis hpos] at e1
    cases e1
    have hj : j = base + 0 := by simpa using e2
    obtain ⟨m', f1, f2⟩ := e3 0 _ rfl
    rw [← hj] at f1
    obtain ⟨L, rfl⟩ : ∃ L, m' = .fn L := by cases f2 <;> exact ⟨_, rfl⟩
    exact Or.inr (Or.inl ⟨_, f1⟩)
  | .leaf .fourier, hu, _ =>
    obtain ⟨n, hn, hpos⟩ := hu
    simp only [fcMods, leafMods, hn, fourierSeriesInit, FnLayer.init] at e1
    cases e1
    have hj : j = base + 0 := by simpa using e2
    obtain ⟨m', f1, f2⟩ := e3 0 _ rfl
    rw [← hj] at f1
    obtain ⟨L, rfl⟩ : ∃ L, m' = .fn L := by cases f2 <;> exact ⟨_, rfl⟩
    exact Or.inr (Or.inl ⟨_, f1⟩)

/-- **C131 (other weights, same function).** Every state of a network of layers that are one module each has, for all renumberings of inputs, hidden units and outputs (with `resnet` the same one in all hidden layers), a state with
weights of the same shapes that computes for renumbered inputs the renumbered outputs: the weights of the layers are the renumbered ones, all other modules are the same. So the outputs on all data do not determine the weights: renumbering only
hidden units (`κ` and `ρ` the identity) gives other weights and the same outputs. -/
theorem C131_mlp_weights (rng : Rng ℝ) {c : MLPArgs ℝ} {kind kindIn : FcKind} (hk : fcTable.lookup c.layerType = some kind)
    (hki : fcTable.lookup (orStr c.layerTypeIn c.layerType) = some kindIn) (hsk : kind.Single) (hski : kindIn.Single) (hI : Usable kindIn c.inputArgs)
    (hH : Usable kind c.hiddenArgs) (hO : Usable kind c.outputArgs) (hper : ∀ p, c.periodicity = some p → 0 < p)
    {N : Option (NormModule ℝ)} (hnorm : c.normalization = N.map NormModule.apply) (hsym : ∀ n ∈ N, n.Symmetric) (hdrop : c.dropout ≤ 0) {h0 : Heap ℝ} (hord : h0.Ordered)
    (hnl : ∀ j ∈ c.nonLinearity, h0[j]? = some (.other fun x => .ok (reluT x))) :
    ∃ (net : ℕ) (h1 : Heap ℝ) (inp out : ℕ) (hid : ℕ → ℕ), mlpInit rng c h0 = .ok (net, h1) ∧ (inp :: out :: (List.range c.hiddenLayers).map hid).Nodup ∧
      ∀ h : Heap ℝ, h1.Later h → h.Ordered → h.ParamsWF →
      ∀ (κ ρ : ℕ → ℕ) (μ : ℕ → ℕ → ℕ), Renumbers κ c.inWidth → Renumbers ρ c.outWidth → (∀ i ≤ c.hiddenLayers, Renumbers (μ i) c.hiddenWidth) → (c.resnet = true → ∀ i ≤ c.hiddenLayers, μ i = μ 0) →
      ∃ h' : Heap ℝ, h.Later h' ∧ h'.length = h.length ∧ h'.Ordered ∧ h'.ParamsWF ∧
        h'.store inp = (h.store inp).renumber κ (μ 0) ∧ (∀ i < c.hiddenLayers, h'.store (hid i) = (h.store (hid i)).renumber (μ i) (μ (i + 1))) ∧ h'.store out = (h.store out).renumber (μ c.hiddenLayers) ρ ∧
        (∀ j, j ∉ inp :: out :: (List.range c.hiddenLayers).map hid → h'[j]? = h[j]?) ∧
        ∀ (B : ℕ) (x : Tensor ℝ), x.shape = [B, c.inWidth] → x.WF → (∀ n ∈ N, n.Takes [B, c.hiddenWidth]) →
          ∃ y, h.forward net x = .ok y ∧ y.shape = [B, c.outWidth] ∧ y.WF ∧ h'.forward net (columns κ x) = .ok (columns ρ y) := by
  classical
  obtain ⟨net, h1, inp, out, hid, e1, hnd, hall⟩ := mlp_renumbered rng hk hki hI hH hO hper hnorm hsym hdrop hord hnl
  refine ⟨net, h1, inp, out, hid, e1, hnd, fun h hl ho hw κ ρ μ hκ hρ hμ hres => ?_⟩
  obtain ⟨⟨l1, l2, l3⟩, hren⟩ := hall h hl ho hw
  obtain ⟨n1, n2⟩ := List.nodup_cons.1 hnd
  obtain ⟨n2, n3⟩ := List.nodup_cons.1 n2
  have hne : inp ≠ out := fun hc => n1 (hc ▸ List.mem_cons_self)
  have hinp : ∀ i < c.hiddenLayers, hid i ≠ inp := fun i hi hc => n1 (List.mem_cons_of_mem _ (List.mem_map.2 ⟨i, List.mem_range.2 hi, hc⟩))
  have hout : ∀ i < c.hiddenLayers, hid i ≠ out := fun i hi hc => n2 (List.mem_map.2 ⟨i, List.mem_range.2 hi, hc⟩)
  have hinj : ∀ i < c.hiddenLayers, ∀ k < c.hiddenLayers, hid i = hid k → i = k := fun i hi k hk hc =>
    List.inj_on_of_nodup_map n3 (List.mem_range.2 hi) (List.mem_range.2 hk) hc
  let maps : ℕ → Option ((ℕ → ℕ) × (ℕ → ℕ)) := fun j =>
    if j = inp then some (κ, μ 0) else if j = out then some (μ c.hiddenLayers, ρ)
    else if hj : ∃ i, i < c.hiddenLayers ∧ hid i = j then some (μ hj.choose, μ (hj.choose + 1)) else none
  have p1 : maps inp = some (κ, μ 0) := if_pos rfl
  have p2 : maps out = some (μ c.hiddenLayers, ρ) := (if_neg hne.symm).trans (if_pos rfl)
  have p3 : ∀ i < c.hiddenLayers, maps (hid i) = some (μ i, μ (i + 1)) := by
    intro i hi
    refine (if_neg (hinp i hi)).trans ((if_neg (hout i hi)).trans ?_)
    have hj : ∃ k, k < c.hiddenLayers ∧ hid k = hid i := ⟨i, hi, rfl⟩
    rw [dif_pos hj, hinj _ hj.choose_spec.1 i hi hj.choose_spec.2]
  have p4 : ∀ j, j ∉ inp :: out :: (List.range c.hiddenLayers).map hid → maps j = none := by
    intro j hj
    refine (if_neg fun hc : j = inp => hj (hc ▸ List.mem_cons_self)).trans ((if_neg fun hc : j = out => hj (hc ▸ List.mem_cons_of_mem _ List.mem_cons_self)).trans (dif_neg ?_))
    rintro ⟨i, hi, rfl⟩
    exact hj (List.mem_cons_of_mem _ (List.mem_cons_of_mem _ (List.mem_map.2 ⟨i, List.mem_range.2 hi, rfl⟩)))
  obtain ⟨g1, g2, g3, g4⟩ := Heap.renumber_later maps ho hw
  have leaf : ∀ {k : FcKind} {a : FcArgs ℝ} {j : ℕ} {α β : ℕ → ℕ}, Usable k a → k.Single → IsLayer k a h j → maps j = some (α, β) → ∀ m ∈ (h.expr j).modules, (h.store m).Renumbered α β ((h.renumber maps).store m) := by
    intro k a j α β hu hs hlay hm m hmem
    obtain ⟨q1, q2⟩ := hlay.single hu hs
    rw [q1] at hmem
    obtain rfl : m = j := by simpa [GExpr.modules] using hmem
    exact ⟨q2, Heap.renumber_store h hm⟩
  refine ⟨h.renumber maps, g1, g2, g3, g4, Heap.renumber_store h p1, fun i hi => Heap.renumber_store h (p3 i hi), Heap.renumber_store h p2, fun j hj => ?_, ?_⟩
  · rw [Heap.renumber_get, p4 j hj]
    exact Option.map_id_fun' ▸ rfl
  · exact hren _ g1 g2 g3 g4 κ ρ μ hκ hρ hμ hres (leaf hI hski l1 p1) (fun i hi => leaf hH hsk (l2 i hi) (p3 i hi)) (leaf hO hsk l3 p2)

theorem columns_id {x : Tensor ℝ} {B I : ℕ} (hx : x.shape = [B, I]) (hwx : x.WF) : columns (fun i => i) x = x := by
  refine Tensor.ext_get (columns_wf _ _) hwx rfl fun idx hin => ?_
  have hin' : InShape x.shape idx := hin
  rw [hx] at hin'
  obtain ⟨b, i, rfl, hb, hi⟩ := inShape2_exists hin'
  exact columns_get hx hb hi

/-- **C131 (hidden units).** Renumbering hidden units only (with `resnet` alike in all hidden layers) gives a state with the same outputs at all inputs. -/
theorem C131_hidden_units (rng : Rng ℝ) {c : MLPArgs ℝ} {kind kindIn : FcKind} (hk : fcTable.lookup c.layerType = some kind)
    (hki : fcTable.lookup (orStr c.layerTypeIn c.layerType) = some kindIn) (hsk : kind.Single) (hski : kindIn.Single) (hI : Usable kindIn c.inputArgs)
    (hH : Usable kind c.hiddenArgs) (hO : Usable kind c.outputArgs) (hper : ∀ p, c.periodicity = some p → 0 < p)
    {N : Option (NormModule ℝ)} (hnorm : c.normalization = N.map NormModule.apply) (hsym : ∀ n ∈ N, n.Symmetric) (hdrop : c.dropout ≤ 0) {h0 : Heap ℝ} (hord : h0.Ordered)
    (hnl : ∀ j ∈ c.nonLinearity, h0[j]? = some (.other fun x => .ok (reluT x))) :
    ∃ (net : ℕ) (h1 : Heap ℝ) (inp out : ℕ) (hid : ℕ → ℕ), mlpInit rng c h0 = .ok (net, h1) ∧
      ∀ h : Heap ℝ, h1.Later h → h.Ordered → h.ParamsWF →
      ∀ (μ : ℕ → ℕ → ℕ), (∀ i ≤ c.hiddenLayers, Renumbers (μ i) c.hiddenWidth) → (c.resnet = true → ∀ i ≤ c.hiddenLayers, μ i = μ 0) →
      ∃ h' : Heap ℝ, h.Later h' ∧ h'.length = h.length ∧
        h'.store inp = (h.store inp).renumber (fun i => i) (μ 0) ∧ (∀ i < c.hiddenLayers, h'.store (hid i) = (h.store (hid i)).renumber (μ i) (μ (i + 1))) ∧
        h'.store out = (h.store out).renumber (μ c.hiddenLayers) (fun i => i) ∧
        ∀ (B : ℕ) (x : Tensor ℝ), x.shape = [B, c.inWidth] → x.WF → (∀ n ∈ N, n.Takes [B, c.hiddenWidth]) →
          ∃ y, h.forward net x = .ok y ∧ h'.forward net x = .ok y := by
  obtain ⟨net, h1, inp, out, hid, e1, -, hall⟩ := C131_mlp_weights rng hk hki hsk hski hI hH hO hper hnorm hsym hdrop hord hnl
  refine ⟨net, h1, inp, out, hid, e1, fun h hl ho hw μ hμ hres => ?_⟩
  obtain ⟨h', g1, g2, -, -, g5, g6, g7, -, g9⟩ := hall h hl ho hw _ _ μ (Renumbers.id _) (Renumbers.id _) hμ hres
  refine ⟨h', g1, g2, g5, g6, g7, fun B x hx hwx hB => ?_⟩
  obtain ⟨y, y1, y2, y3, y4⟩ := g9 B x hx hwx hB
  rw [columns_id hx hwx, columns_id y2 y3] at y4
  exact ⟨y, y1, y4⟩

/-- The hypothesis on normalizations is needed: a layer normalization has a weight and a bias for every column. With weights 0 and biases 0 and 1 it returns 0 and 1 for all inputs, also with the columns exchanged. -/
theorem C131_layer_norm : ∃ (N : NormModule ℝ) (x y : Tensor ℝ) (κ : ℕ → ℕ), Renumbers κ 2 ∧ N.Takes [1, 2] ∧ x.shape = [1, 2] ∧ x.WF ∧ N.apply x = .ok y ∧ N.apply (columns κ x) = .ok y ∧ columns κ y ≠ y := by
  have bias : ∀ x : Tensor ℝ, x.shape = [1, 2] → (NormModule.layerNorm ⟨some (Tensor.tab1 2 fun _ => 0), true, some (Tensor.tab1 2 fun i => (i : ℝ))⟩).apply x = .ok (Tensor.tab2 1 2 fun _ i => (i : ℝ)) := by
    intro x hx
    suffices hl : layerNorm x (Tensor.tab1 2 fun _ => 0) (some (Tensor.tab1 2 fun i => (i : ℝ))) defaultEps = (.ok (Tensor.tab2 1 2 fun _ i => (i : ℝ)) : Py (Tensor ℝ)) by
      simp only [NormModule.apply, NormModule.forward, LazyLayerNorm.forward, bind, Except.bind, hl, Except.map]
    unfold layerNorm
    rw [hx]
    dsimp only [List.getLast?]
    refine (if_pos rfl).trans ?_
    refine congrArg Except.ok (tabulate_congr fun idx hin => ?_)
    obtain ⟨b, i, rfl, hb, hi⟩ := inShape2_exists hin
    show (x.get [b, i] - _) / _ * (Tensor.tab1 2 fun _ => (0 : ℝ)).get [i] + (Tensor.tab1 2 fun i => (i : ℝ)).get [i] = (i : ℝ)
    rw [Tensor.get_tab1 hi, Tensor.get_tab1 hi, mul_zero, zero_add]
  refine ⟨.layerNorm ⟨some (Tensor.tab1 2 fun _ => 0), true, some (Tensor.tab1 2 fun i => (i : ℝ))⟩, Tensor.tab2 1 2 fun _ i => (i : ℝ), Tensor.tab2 1 2 fun _ i => (i : ℝ), fun i => 1 - i, ?_, ?_, rfl, Tensor.wf_tabulate _ _, ?_, ?_, ?_⟩
  · refine ⟨fun i hi => ?_, fun i hi j hj h => ?_, fun i hi => ⟨1 - i, ?_, ?_⟩⟩ <;> simp only [Set.mem_Iio] at * <;> omega
  · exact ⟨2, _, rfl, by norm_num, rfl, rfl, Tensor.wf_tabulate _ _, by rintro b ⟨rfl⟩; exact ⟨rfl, Tensor.wf_tabulate _ _⟩⟩
  · exact bias _ rfl
  · exact bias _ rfl
  · intro h
    have := congrArg (fun t : Tensor ℝ => t.get [0, 0]) h
    rw [columns_get (I := 2) (B := 1) rfl (by norm_num) (by norm_num), Tensor.get_tab2 (by norm_num) (by norm_num), Tensor.get_tab2 (by norm_num) (by norm_num)] at this
    norm_num at this

/-! ## examples -/

/-- A network with one input, two hidden units with `relu`, and one output: `y = 3 max (x) 0 + 5 max (2 x + 1) 0`. -/
noncomputable def exUnits : ℕ → GLayer ℝ := fun j => if j = 0 then .linear (Tensor.tab2 2 1 fun o _ => if o = 0 then 1 else 2) (Tensor.tab1 2 fun o => if o = 0 then 0 else 1)
  else .linear (Tensor.tab2 1 2 fun _ i => if i = 0 then 3 else 5) (Tensor.tab1 1 fun _ => 0)

/-- The hidden units exchanged: `y = 5 max (2 x + 1) 0 + 3 max (x) 0`. -/
noncomputable def exUnitsSwapped : ℕ → GLayer ℝ := fun j => if j = 0 then .linear (Tensor.tab2 2 1 fun o _ => if o = 0 then 2 else 1) (Tensor.tab1 2 fun o => if o = 0 then 1 else 0)
  else .linear (Tensor.tab2 1 2 fun _ i => if i = 0 then 5 else 3) (Tensor.tab1 1 fun _ => 0)

theorem swap_renumbers : Renumbers (fun i => 1 - i) 2 := by
  refine ⟨fun i hi => ?_, fun i hi j hj h => ?_, fun i hi => ⟨1 - i, ?_, ?_⟩⟩ <;> simp only [Set.mem_Iio] at * <;> omega

/-- Both compute the same. -/
example {B : ℕ} {x : Tensor ℝ} (hx : x.shape = [B, 1]) (hwx : x.WF) :
    ∃ y, (GExpr.comp (.comp (.leaf 0) (.fixed (.base (.dense .relu)))) (.leaf 1)).forward exUnits x = .ok y ∧ (GExpr.comp (.comp (.leaf 0) (.fixed (.base (.dense .relu)))) (.leaf 1)).forward exUnitsSwapped x = .ok y := by
  have h0 : (exUnits 0).Renumbered (fun i => i) (fun i => 1 - i) (exUnitsSwapped 0) := by
    refine ⟨fun h => (nomatch h), ?_⟩
    refine congrArg₂ GLayer.linear ?_ ?_
    · refine Tensor.ext_get (Tensor.wf_tabulate _ _) (Tensor.wf_tabulate _ _) rfl fun idx hin => ?_
      obtain ⟨o, i, rfl, ho, hi⟩ := inShape2_exists (a := 2) (b := 1) hin
      rw [renumberLinks_get2 (O := 2) (I := 1) rfl ho hi, Tensor.get_tab2 ho hi, Tensor.get_tab2 (by omega) hi]
      interval_cases o <;> rfl
    · refine Tensor.ext_get (Tensor.wf_tabulate _ _) (Tensor.wf_tabulate _ _) rfl fun idx hin => ?_
      obtain ⟨o, rfl, ho⟩ := inShape1_exists (n := 2) hin
      rw [renumberOut_get (O := 2) rfl ho, Tensor.get_tab1 ho, Tensor.get_tab1 (by omega)]
      interval_cases o <;> rfl
  have h1 : (exUnits 1).Renumbered (fun i => 1 - i) (fun i => i) (exUnitsSwapped 1) := by
    refine ⟨fun h => (nomatch h), ?_⟩
    refine congrArg₂ GLayer.linear ?_ ?_
    · refine Tensor.ext_get (Tensor.wf_tabulate _ _) (Tensor.wf_tabulate _ _) rfl fun idx hin => ?_
      obtain ⟨o, i, rfl, ho, hi⟩ := inShape2_exists (a := 1) (b := 2) hin
      rw [renumberLinks_get2 (O := 1) (I := 2) rfl ho hi, Tensor.get_tab2 ho hi, Tensor.get_tab2 ho (by omega)]
      interval_cases i <;> rfl
    · refine Tensor.ext_get (Tensor.wf_tabulate _ _) (Tensor.wf_tabulate _ _) rfl fun idx hin => ?_
      obtain ⟨o, rfl, ho⟩ := inShape1_exists (n := 1) hin
      rw [renumberOut_get (O := 1) rfl ho, Tensor.get_tab1 ho]
  obtain ⟨y, y1, y2, y3, y4⟩ := C131_expression (σ := exUnits) (τ := exUnitsSwapped) (e := GExpr.comp (.comp (.leaf 0) (.fixed (.base (.dense .relu)))) (.leaf 1)) (κ := fun i => i) (ρ := fun i => i) (I := 1) (O := 1)
    ⟨fun i => 1 - i, 2, ⟨fun i => 1 - i, 2, ⟨⟨rfl, Tensor.wf_tabulate _ _, rfl, Tensor.wf_tabulate _ _⟩, h0, Renumbers.id _, swap_renumbers⟩, ⟨B, 2, 2, rfl, rfl, rfl⟩, trivial, rfl, swap_renumbers⟩,
      ⟨rfl, Tensor.wf_tabulate _ _, rfl, Tensor.wf_tabulate _ _⟩, h1, swap_renumbers, Renumbers.id _⟩ hx hwx
  rw [columns_id hx hwx, columns_id y2 y3] at y4
  exact ⟨y, y1, y4⟩

end HOL
