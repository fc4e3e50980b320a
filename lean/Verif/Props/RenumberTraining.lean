import Verif.Model.Training
import Verif.Lemmas.RenumberGradients
import Verif.Props.Renumber
import Verif.Props.LionNetwork

/-! # C132: training does not depend on the numbering of the units -/

namespace HOL
open TorchScalar Spec

theorem GExpr.Numbered.renumbered {σ : ℕ → GLayer ℝ} {ν : Numbering} (B : ℕ) : ∀ (e : GExpr ℝ) {κ ρ : ℕ → ℕ} {I O : ℕ}, e.Numbered σ ν κ ρ I O → e.Renumbered σ (renumberAll ν σ) B κ ρ I O
  | .leaf j, κ, ρ, I, O, ⟨h1, h2, h3, h4, h5⟩ => ⟨h1, ⟨h2, by unfold renumberAll; rw [h3]⟩, h4, h5⟩
  | .fixed (.base (.dense .relu)), κ, ρ, I, O, ⟨h1, h2, h3⟩ => ⟨⟨B, I, O, rfl, rfl, h1⟩, trivial, h2, h3⟩
  | .comp a b, κ, ρ, I, O, ⟨μ, M, h1, h2⟩ => ⟨μ, M, GExpr.Numbered.renumbered B a h1, GExpr.Numbered.renumbered B b h2⟩
  | .add a b, κ, ρ, I, O, ⟨h1, h2⟩ => ⟨GExpr.Numbered.renumbered B a h1, GExpr.Numbered.renumbered B b h2⟩
  | .mul a b, κ, ρ, I, O, ⟨h1, h2⟩ => ⟨GExpr.Numbered.renumbered B a h1, GExpr.Numbered.renumbered B b h2⟩

theorem columns_zip (f : ℝ → ℝ → ℝ) {ρ : ℕ → ℕ} {B O : ℕ} (hρ : Renumbers ρ O) {s t : Tensor ℝ} (hs : s.shape = [B, O]) (ht : t.shape = [B, O]) :
    (Tensor.tabulate s.shape fun idx => f ((columns ρ s).get idx) ((columns ρ t).get idx)) = columns ρ (Tensor.tabulate s.shape fun idx => f (s.get idx) (t.get idx)) := by
  refine columns_ext hs (Tensor.wf_tabulate _ _) hs fun b hb o ho => ?_
  rw [Tensor.get_tabulate (by rw [hs]; exact inShape2.2 ⟨hb, ho⟩), Tensor.get_tabulate (by rw [hs]; exact inShape2.2 ⟨hb, hρ.lt ho⟩), columns_get hs hb ho, columns_get ht hb ho]

theorem columns_addT {ρ : ℕ → ℕ} {B O : ℕ} (hρ : Renumbers ρ O) {s t : Tensor ℝ} (hs : s.shape = [B, O]) (ht : t.shape = [B, O]) : addT (columns ρ s) (columns ρ t) = columns ρ (addT s t) :=
  columns_zip (· + ·) hρ hs ht

theorem columns_mulT {ρ : ℕ → ℕ} {B O : ℕ} (hρ : Renumbers ρ O) {s t : Tensor ℝ} (hs : s.shape = [B, O]) (ht : t.shape = [B, O]) : mulT (columns ρ s) (columns ρ t) = columns ρ (mulT s t) :=
  columns_zip (· * ·) hρ hs ht

theorem renumberGrads_append (ν : Numbering) (cs ds : List (ℕ × List (Tensor ℝ))) : renumberGrads ν (cs ++ ds) = renumberGrads ν cs ++ renumberGrads ν ds := List.map_append

theorem reluGrad_columns {κ : ℕ → ℕ} {B I : ℕ} (hκ : Renumbers κ I) {x g : Tensor ℝ} (hx : x.shape = [B, I]) (hg : g.shape = [B, I]) : reluGrad (columns κ x) (columns κ g) = columns κ (reluGrad x g) :=
  columns_zip (fun a b => if ltB 0 a then b else 0) hκ hx hg

/-- Indices of a renumbered parameter. -/
def permIdx (κ ρ : ℕ → ℕ) (k : ℕ) (idx : List ℕ) : List ℕ := if k = 0 then ρ (idx.getD 0 0) :: κ (idx.getD 1 0) :: idx.drop 2 else [ρ (idx.getD 0 0)]

/-- The indices of a parameter of this shape are renumbered to indices. -/
def Kept (κ ρ : ℕ → ℕ) (k : ℕ) (S : List ℕ) : Prop := ∀ idx, InShape S idx → InShape S (permIdx κ ρ k idx)

theorem renumberParam_eq (κ ρ : ℕ → ℕ) (k : ℕ) (g : Tensor ℝ) : renumberParam κ ρ k g = Tensor.tabulate g.shape fun idx => g.get (permIdx κ ρ k idx) := by
  unfold renumberParam permIdx
  by_cases hk : k = 0
  · simp only [if_pos hk]
    rfl
  · simp only [if_neg hk]
    rfl

theorem fits_kept {l : GLayer ℝ} {I O : ℕ} (hf : l.Fits I O) {κ ρ : ℕ → ℕ} (hκ : Renumbers κ I) (hρ : Renumbers ρ O) {k : ℕ} {p : Tensor ℝ} (hp : l.params[k]? = some p) : Kept κ ρ k p.shape := by
  have three : ∀ {S : ℕ}, Kept κ ρ 0 [O, I, S] := by
    intro S idx hin
    obtain ⟨o, i, r, rfl, ho, hi, hr⟩ := inShape3_exists hin
    exact inShape3.2 ⟨hρ.lt ho, hκ.lt hi, hr⟩
  have two : Kept κ ρ 0 [O, I] := by
    intro idx hin
    obtain ⟨o, i, rfl, ho, hi⟩ := inShape2_exists hin
    exact inShape2.2 ⟨hρ.lt ho, hκ.lt hi⟩
  have one : Kept κ ρ 1 [O] := by
    intro idx hin
    obtain ⟨o, rfl, ho⟩ := inShape1_exists hin
    exact inShape1.2 (hρ.lt ho)
  match l, hf, k, hp with
  | .pw L, hf, 0, rfl =>
    obtain ⟨h, -, -, rfl, rfl⟩ := hf
    rw [h.w_shape]; exact three
  | .fn L, hf, 0, rfl =>
    obtain ⟨h, rfl, rfl⟩ := hf
    rw [h.w_shape]; exact three
  | .product L, hf, 0, rfl =>
    obtain ⟨h, rfl, rfl⟩ := hf
    rw [h.w_shape]; exact two
  | .product L, hf, 1, hp =>
    obtain ⟨h, rfl, rfl⟩ := hf
    obtain ⟨b, hb, hbs, -⟩ := h.bias
    have : L.bias.getD (Tensor.tab1 0 fun _ => 0) = p := by simpa [GLayer.params] using hp
    rw [hb] at this
    rw [← this]
    show Kept κ ρ 1 b.shape
    rw [hbs]; exact one
  | .linear w b, ⟨h1, _, h2, _⟩, 0, rfl => rw [h1]; exact two
  | .linear w b, ⟨h1, _, h2, _⟩, 1, rfl => rw [h2]; exact one

theorem renumberParam_zip (f : ℝ → ℝ → ℝ) {κ ρ : ℕ → ℕ} {k : ℕ} {s t : Tensor ℝ} (h : t.shape = s.shape) (hk : Kept κ ρ k s.shape) :
    (Tensor.tabulate s.shape fun idx => f ((renumberParam κ ρ k s).get idx) ((renumberParam κ ρ k t).get idx)) = renumberParam κ ρ k (Tensor.tabulate s.shape fun idx => f (s.get idx) (t.get idx)) := by
  rw [renumberParam_eq, renumberParam_eq, renumberParam_eq]
  refine tabulate_congr fun idx hin => ?_
  rw [Tensor.get_tabulate hin, Tensor.get_tabulate (by rw [h]; exact hin), Tensor.get_tabulate (hk idx hin)]

theorem renumberParam_shape (κ ρ : ℕ → ℕ) (k : ℕ) (g : Tensor ℝ) : (renumberParam κ ρ k g).shape = g.shape := by rw [renumberParam_eq]; rfl

theorem renumberParam_addT {κ ρ : ℕ → ℕ} {k : ℕ} {s t : Tensor ℝ} (h : t.shape = s.shape) (hk : Kept κ ρ k s.shape) :
    addT (renumberParam κ ρ k s) (renumberParam κ ρ k t) = renumberParam κ ρ k (addT s t) := by
  unfold addT
  rw [renumberParam_shape]
  exact renumberParam_zip (· + ·) h hk

theorem contributions_renumber {ν : Numbering} {j : ℕ} {κ ρ : ℕ → ℕ} (hν : ν j = some (κ, ρ)) (cs : List (ℕ × List (Tensor ℝ))) (k : ℕ) :
    contributions (renumberGrads ν cs) j k = (contributions cs j k).map (renumberParam κ ρ k) := by
  unfold contributions renumberGrads
  induction cs with
  | nil => rfl
  | cons c cs ih =>
    rw [List.map_cons, List.filterMap_cons, List.filterMap_cons, ih]
    by_cases hc : c.1 = j
    · simp only [if_pos hc]
      rw [hc, hν]
      simp only [List.getElem?_mapIdx]
      cases c.2[k]? <;> rfl
    · simp only [if_neg hc]

theorem contributions_none {ν : Numbering} {j : ℕ} (hν : ν j = none) (cs : List (ℕ × List (Tensor ℝ))) (k : ℕ) : contributions (renumberGrads ν cs) j k = contributions cs j k := by
  unfold contributions renumberGrads
  induction cs with
  | nil => rfl
  | cons c cs ih =>
    rw [List.map_cons, List.filterMap_cons, List.filterMap_cons, ih]
    by_cases hc : c.1 = j
    · simp only [if_pos hc]
      rw [hc, hν]
    · simp only [if_neg hc]

theorem foldl_addT_renumber {κ ρ : ℕ → ℕ} {k : ℕ} {S : List ℕ} (hk : Kept κ ρ k S) : ∀ (gs : List (Tensor ℝ)) (g : Tensor ℝ), g.shape = S → (∀ t ∈ gs, t.shape = S) →
    (gs.map (renumberParam κ ρ k)).foldl addT (renumberParam κ ρ k g) = renumberParam κ ρ k (gs.foldl addT g) ∧ (gs.foldl addT g).shape = S
  | [], g, hg, _ => ⟨rfl, hg⟩
  | t :: gs, g, hg, h => by
    rw [List.map_cons, List.foldl_cons, List.foldl_cons, renumberParam_addT ((h t List.mem_cons_self).trans hg.symm) (hg ▸ hk)]
    exact foldl_addT_renumber hk gs (addT g t) hg fun u hu => h u (List.mem_cons_of_mem _ hu)

theorem accumulated_renumber {ν : Numbering} {cs : List (ℕ × List (Tensor ℝ))} {j k : ℕ} {κ ρ : ℕ → ℕ} (hν : ν j = some (κ, ρ)) {S : List ℕ} (hS : ∀ t ∈ contributions cs j k, t.shape = S) (hk : contributions cs j k ≠ [] → Kept κ ρ k S) :
    accumulated (renumberGrads ν cs) j k = (accumulated cs j k).map (renumberParam κ ρ k) ∧ ∀ g ∈ accumulated cs j k, g.shape = S := by
  unfold accumulated
  rw [contributions_renumber hν]
  cases hc : contributions cs j k with
  | nil => exact ⟨rfl, by simp⟩
  | cons g gs =>
    rw [hc] at hS hk
    obtain ⟨h1, h2⟩ := foldl_addT_renumber (hk (by simp)) gs g (hS g List.mem_cons_self) fun t ht => hS t (List.mem_cons_of_mem _ ht)
    refine ⟨?_, fun t ht => ?_⟩
    · simp only [List.map_cons, Option.map_some, h1]
    · obtain rfl : gs.foldl addT g = t := by simpa using ht
      exact h2

theorem sgdParam_renumber {κ ρ : ℕ → ℕ} {k : ℕ} {p : Tensor ℝ} (lr : ℝ) {acc : Option (Tensor ℝ)} (h : ∀ g ∈ acc, g.shape = p.shape ∧ Kept κ ρ k p.shape) :
    sgdParam lr (renumberParam κ ρ k p) (acc.map (renumberParam κ ρ k)) = renumberParam κ ρ k (sgdParam lr p acc) := by
  cases acc with
  | none => rfl
  | some g =>
    obtain ⟨h1, h2⟩ := h g rfl
    show (Tensor.tabulate (renumberParam κ ρ k p).shape fun idx => (renumberParam κ ρ k p).get idx - lr * (renumberParam κ ρ k g).get idx) = _
    rw [renumberParam_shape]
    exact renumberParam_zip (fun a b => a - lr * b) h1 h2

theorem sgd_renumber (l : GLayer ℝ) {κ ρ : ℕ → ℕ} (lr : ℝ) {acc acc' : ℕ → Option (Tensor ℝ)} (ha : ∀ k, acc' k = (acc k).map (renumberParam κ ρ k))
    (h : ∀ k p g, l.params[k]? = some p → acc k = some g → g.shape = p.shape ∧ Kept κ ρ k p.shape) : (l.renumber κ ρ).sgd lr acc' = (l.sgd lr acc).renumber κ ρ := by
  have key : ∀ k p, l.params[k]? = some p → sgdParam lr (renumberParam κ ρ k p) (acc' k) = renumberParam κ ρ k (sgdParam lr p (acc k)) := fun k p hp => by
    rw [ha]
    exact sgdParam_renumber lr fun g hg => h k p g hp hg
  cases l with
  | pw L => exact congrArg (fun w => GLayer.pw { L with w := w }) (key 0 _ rfl)
  | fn L => exact congrArg (fun w => GLayer.fn { L with w := w }) (key 0 _ rfl)
  | product L =>
    have h0 : sgdParam lr (renumberLinks κ ρ L.weight) (acc' 0) = renumberLinks κ ρ (sgdParam lr L.weight (acc 0)) := key 0 _ rfl
    simp only [GLayer.renumber, GLayer.sgd]
    cases hb : L.bias with
    | none => simp only [Option.map_none, h0]
    | some b =>
      have h1 : sgdParam lr (renumberOut ρ b) (acc' 1) = renumberOut ρ (sgdParam lr b (acc 1)) := key 1 b (by simp [GLayer.params, hb])
      simp only [Option.map_some, h0, h1]
  | linear w b => exact congrArg₂ GLayer.linear (key 0 _ rfl) (key 1 _ rfl)
  | relu => rfl

/-- Every module of the network fits and is numbered by bijections. -/
def Numbered.Good (σ : ℕ → GLayer ℝ) (ν : Numbering) (j : ℕ) : Prop := ∃ κ ρ I O, ν j = some (κ, ρ) ∧ (σ j).Fits I O ∧ Renumbers κ I ∧ Renumbers ρ O

theorem backward_follows {σ : ℕ → GLayer ℝ} {ν : Numbering} (P : Picks ℝ) {B : ℕ} : ∀ (e : GExpr ℝ) {κ ρ : ℕ → ℕ} {I O : ℕ}, e.Numbered σ ν κ ρ I O → ∀ x g : Tensor ℝ, x.shape = [B, I] → x.WF → g.shape = [B, O] →
    ∃ gx cs, e.backward P σ x g = .ok (gx, cs) ∧ gx.shape = [B, I] ∧ e.backward P (renumberAll ν σ) (columns κ x) (columns ρ g) = .ok (columns κ gx, renumberGrads ν cs) ∧
      ∀ c ∈ cs, Numbered.Good σ ν c.1 ∧ c.2.map Tensor.shape = (σ c.1).params.map Tensor.shape ∧ AllSound σ c
  | .leaf j, κ, ρ, I, O, h, x, g, hx, hwx, hg => by
    obtain ⟨h1, h2, h3, h4, h5⟩ := h
    have hl := layer_grads h1 h2 h4 h5 hx hwx hg
    refine ⟨_, _, rfl, hl.input_shape, ?_, fun c hc => ?_⟩
    · show Except.ok ((renumberAll ν σ j).inputGrad _ _, [(j, (renumberAll ν σ j).paramGrads _ _)]) = Except.ok (_, renumberGrads ν [(j, _)])
      unfold renumberAll renumberGrads
      simp only [List.map_cons, List.map_nil, h3]
      rw [hl.input, hl.params]
    · rw [List.mem_singleton.1 hc]
      exact ⟨⟨κ, ρ, I, O, h3, h1, h4, h5⟩, hl.params_shape, fun k p hp => paramGrads_sound h1 hx hg k p hp⟩
  | .fixed (.base (.dense .relu)), κ, ρ, I, O, h, x, g, hx, hwx, hg => by
    obtain ⟨rfl, rfl, h3⟩ := h
    refine ⟨reluGrad x g, [], rfl, hx, ?_, by simp⟩
    exact congrArg (fun t => Except.ok (t, [])) (reluGrad_columns h3 hx hg)
  | .comp a b, κ, ρ, I, O, ⟨μ, M, h1, h2⟩, x, g, hx, hwx, hg => by
    obtain ⟨y, y1, y2, y3, y4⟩ := (expr_follows a (h1.renumbered B)).2 x hx hwx
    obtain ⟨gy, ds, b1, b2, b3, b4⟩ := backward_follows P b h2 y g y2 y3 hg
    obtain ⟨gx, cs, a1, a2, a3, a4⟩ := backward_follows P a h1 x gy hx hwx b2
    refine ⟨gx, cs ++ ds, ?_, a2, ?_, fun c hc => (List.mem_append.1 hc).elim (a4 c) (b4 c)⟩
    · show (a.forward σ x >>= fun y => b.backward P σ y g >>= fun rb => a.backward P σ x rb.1 >>= fun ra => Except.ok (ra.1, ra.2 ++ rb.2)) = _
      rw [y1]
      show (b.backward P σ y g >>= fun rb => a.backward P σ x rb.1 >>= fun ra => Except.ok (ra.1, ra.2 ++ rb.2)) = _
      rw [b1]
      show (a.backward P σ x gy >>= fun ra => Except.ok (ra.1, ra.2 ++ ds)) = _
      rw [a1]; rfl
    · show (a.forward _ _ >>= fun y => b.backward P _ y _ >>= fun rb => a.backward P _ _ rb.1 >>= fun ra => Except.ok (ra.1, ra.2 ++ rb.2)) = _
      rw [y4]
      show (b.backward P _ (columns μ y) _ >>= fun rb => a.backward P _ _ rb.1 >>= fun ra => Except.ok (ra.1, ra.2 ++ rb.2)) = _
      rw [b3]
      show (a.backward P _ _ (columns μ gy) >>= fun ra => Except.ok (ra.1, ra.2 ++ renumberGrads ν ds)) = _
      rw [a3, renumberGrads_append]; rfl
  | .add a b, κ, ρ, I, O, ⟨h1, h2⟩, x, g, hx, hwx, hg => by
    obtain ⟨gy, ds, b1, b2, b3, b4⟩ := backward_follows P b h2 x g hx hwx hg
    obtain ⟨gx, cs, a1, a2, a3, a4⟩ := backward_follows P a h1 x g hx hwx hg
    refine ⟨addT gx gy, cs ++ ds, ?_, a2, ?_, fun c hc => (List.mem_append.1 hc).elim (a4 c) (b4 c)⟩
    · show (a.backward P σ x g >>= fun ra => b.backward P σ x g >>= fun rb => Except.ok (addT ra.1 rb.1, ra.2 ++ rb.2)) = _
      rw [a1, b1]; rfl
    · show (a.backward P _ _ _ >>= fun ra => b.backward P _ _ _ >>= fun rb => Except.ok (addT ra.1 rb.1, ra.2 ++ rb.2)) = _
      rw [a3, b3, renumberGrads_append, ← columns_addT (in_numbered a h1) a2 b2]; rfl
  | .mul a b, κ, ρ, I, O, ⟨h1, h2⟩, x, g, hx, hwx, hg => by
    obtain ⟨hρ, hu⟩ := expr_follows a (h1.renumbered B)
    obtain ⟨u, u1, u2, u3, u4⟩ := hu x hx hwx
    obtain ⟨v, v1, v2, v3, v4⟩ := (expr_follows b (h2.renumbered B)).2 x hx hwx
    obtain ⟨gy, ds, b1, b2, b3, b4⟩ := backward_follows P b h2 x (mulT g u) hx hwx hg
    obtain ⟨gx, cs, a1, a2, a3, a4⟩ := backward_follows P a h1 x (mulT g v) hx hwx hg
    refine ⟨addT gx gy, cs ++ ds, ?_, a2, ?_, fun c hc => (List.mem_append.1 hc).elim (a4 c) (b4 c)⟩
    · show (a.forward σ x >>= fun u => b.forward σ x >>= fun v => a.backward P σ x (mulT g v) >>= fun ra => b.backward P σ x (mulT g u) >>= fun rb => Except.ok (addT ra.1 rb.1, ra.2 ++ rb.2)) = _
      rw [u1, v1]
      show (a.backward P σ x (mulT g v) >>= fun ra => b.backward P σ x (mulT g u) >>= fun rb => Except.ok (addT ra.1 rb.1, ra.2 ++ rb.2)) = _
      rw [a1, b1]; rfl
    · show (a.forward _ _ >>= fun u => b.forward _ _ >>= fun v => a.backward P _ _ (mulT _ v) >>= fun ra => b.backward P _ _ (mulT _ u) >>= fun rb => Except.ok (addT ra.1 rb.1, ra.2 ++ rb.2)) = _
      rw [u4, v4]
      show (a.backward P _ _ (mulT (columns ρ g) (columns ρ v)) >>= fun ra => b.backward P _ _ (mulT (columns ρ g) (columns ρ u)) >>= fun rb => Except.ok (addT ra.1 rb.1, ra.2 ++ rb.2)) = _
      rw [columns_mulT hρ hg u2, columns_mulT hρ hg v2, a3, b3, renumberGrads_append, ← columns_addT (in_numbered a h1) a2 b2]; rfl
where
  in_numbered : ∀ (e : GExpr ℝ) {κ ρ : ℕ → ℕ} {I O : ℕ}, e.Numbered σ ν κ ρ I O → Renumbers κ I
    | .leaf j, κ, ρ, I, O, h => h.2.2.2.1
    | .fixed (.base (.dense .relu)), κ, ρ, I, O, h => h.2.2
    | .comp a b, κ, ρ, I, O, ⟨μ, M, h1, h2⟩ => in_numbered a h1
    | .add a b, κ, ρ, I, O, ⟨h1, h2⟩ => in_numbered a h1
    | .mul a b, κ, ρ, I, O, ⟨h1, h2⟩ => in_numbered a h1

/-- **C132 (gradients).** The backward pass of a network with renumbered units, for the renumbered inputs and the renumbered gradient of the outputs, returns the renumbered gradient of the inputs and for every use of a module
the renumbered gradients of its parameters. -/
theorem C132_gradients {σ : ℕ → GLayer ℝ} {ν : Numbering} (P : Picks ℝ) {e : GExpr ℝ} {κ ρ : ℕ → ℕ} {I O : ℕ} (h : e.Numbered σ ν κ ρ I O) {B : ℕ} {x g : Tensor ℝ} (hx : x.shape = [B, I]) (hwx : x.WF)
    (hg : g.shape = [B, O]) : ∃ gx cs, e.backward P σ x g = .ok (gx, cs) ∧ gx.shape = [B, I] ∧ e.backward P (renumberAll ν σ) (columns κ x) (columns ρ g) = .ok (columns κ gx, renumberGrads ν cs) := by
  obtain ⟨gx, cs, h1, h2, h3, -⟩ := backward_follows P e h x g hx hwx hg
  exact ⟨gx, cs, h1, h2, h3⟩

theorem contribution_shape {σ : ℕ → GLayer ℝ} {ν : Numbering} {cs : List (ℕ × List (Tensor ℝ))} (h : ∀ c ∈ cs, Numbered.Good σ ν c.1 ∧ c.2.map Tensor.shape = (σ c.1).params.map Tensor.shape) {j k : ℕ} {t : Tensor ℝ}
    (ht : t ∈ contributions cs j k) : Numbered.Good σ ν j ∧ ∃ p, (σ j).params[k]? = some p ∧ t.shape = p.shape := by
  unfold contributions at ht
  obtain ⟨c, hc, hck⟩ := List.mem_filterMap.1 ht
  split at hck
  · rename_i hj
    subst hj
    obtain ⟨h1, h2⟩ := h c hc
    refine ⟨h1, ?_⟩
    have h3 := congrArg (fun l => l[k]?) h2
    simp only [List.getElem?_map, hck, Option.map_some] at h3
    obtain ⟨p, hp, hps⟩ := Option.map_eq_some_iff.1 h3.symm
    exact ⟨p, hp, hps.symm⟩
  · cases hck

theorem accumulated_follows {σ : ℕ → GLayer ℝ} {ν : Numbering} {cs : List (ℕ × List (Tensor ℝ))} (h : ∀ c ∈ cs, Numbered.Good σ ν c.1 ∧ c.2.map Tensor.shape = (σ c.1).params.map Tensor.shape) {j : ℕ} {κ ρ : ℕ → ℕ} (hν : ν j = some (κ, ρ)) :
    ∀ k, accumulated (renumberGrads ν cs) j k = (accumulated cs j k).map (renumberParam κ ρ k) ∧
      ∀ p g, (σ j).params[k]? = some p → accumulated cs j k = some g → g.shape = p.shape ∧ Kept κ ρ k p.shape := by
  intro k
  cases hp : (σ j).params[k]? with
  | none =>
    have hc : contributions cs j k = [] := by
      rcases hcs : contributions cs j k with _ | ⟨t, ts⟩
      · rfl
      · obtain ⟨-, p, h1, -⟩ := contribution_shape h (j := j) (k := k) (t := t) (by rw [hcs]; exact List.mem_cons_self)
        rw [hp] at h1
        cases h1
    exact ⟨(accumulated_renumber hν (S := []) (by rw [hc]; simp) (by rw [hc]; simp)).1, fun p g h1 => by cases h1⟩
  | some p =>
    have hS : ∀ t ∈ contributions cs j k, t.shape = p.shape := by
      intro t ht
      obtain ⟨-, p', h1, h2⟩ := contribution_shape h ht
      rw [hp] at h1
      cases h1
      exact h2
    have hK : contributions cs j k ≠ [] → Kept κ ρ k p.shape := by
      intro hne
      obtain ⟨t, ht⟩ := List.exists_mem_of_ne_nil _ hne
      obtain ⟨⟨κ', ρ', I, O, g0, g1, g2, g3⟩, -⟩ := contribution_shape h ht
      rw [hν] at g0
      cases g0
      exact fits_kept g1 g2 g3 hp
    obtain ⟨a1, a2⟩ := accumulated_renumber hν hS hK
    refine ⟨a1, ?_⟩
    rintro _ g ⟨⟩ hg
    refine ⟨a2 g hg, hK fun hc => ?_⟩
    unfold accumulated at hg
    rw [hc] at hg
    cases hg

theorem step_renumber {σ : ℕ → GLayer ℝ} {ν : Numbering} {cs : List (ℕ × List (Tensor ℝ))} (h : ∀ c ∈ cs, Numbered.Good σ ν c.1 ∧ c.2.map Tensor.shape = (σ c.1).params.map Tensor.shape) (trained : List ℕ) (lr : ℝ) :
    sgdStep trained lr (renumberGrads ν cs) (renumberAll ν σ) = renumberAll ν (sgdStep trained lr cs σ) := by
  funext j
  cases hν : ν j with
  | none =>
    have hacc : accumulated (renumberGrads ν cs) j = accumulated cs j := by
      funext k
      unfold accumulated
      rw [contributions_none hν]
    unfold sgdStep renumberAll
    rw [hν, hacc]
  | some m =>
    obtain ⟨κ, ρ⟩ := m
    have hacc := accumulated_follows h hν
    unfold sgdStep renumberAll
    simp only [hν]
    by_cases ht : j ∈ trained
    · rw [if_pos ht, if_pos ht]
      exact sgd_renumber (σ j) lr (fun k => (hacc k).1) fun k p g => (hacc k).2 p g
    · rw [if_neg ht, if_neg ht]

/-- **C132 (one step).** One step of gradient descent (`torch.optim.SGD` with the parameters of any of the modules) of the network with renumbered units gives the network with renumbered units after the step. -/
theorem C132_step {σ : ℕ → GLayer ℝ} {ν : Numbering} (P : Picks ℝ) {e : GExpr ℝ} {κ ρ : ℕ → ℕ} {I O : ℕ} (h : e.Numbered σ ν κ ρ I O) {B : ℕ} {x g : Tensor ℝ} (hx : x.shape = [B, I]) (hwx : x.WF)
    (hg : g.shape = [B, O]) (trained : List ℕ) (lr : ℝ) : ∃ gx cs gx' cs', e.backward P σ x g = .ok (gx, cs) ∧ e.backward P (renumberAll ν σ) (columns κ x) (columns ρ g) = .ok (gx', cs') ∧
      sgdStep trained lr cs' (renumberAll ν σ) = renumberAll ν (sgdStep trained lr cs σ) := by
  obtain ⟨gx, cs, h1, h2, h3, h4⟩ := backward_follows P e h x g hx hwx hg
  exact ⟨gx, cs, _, _, h1, h3, step_renumber (fun c hc => ⟨(h4 c hc).1, (h4 c hc).2.1⟩) trained lr⟩

theorem GLayer.sgd_fits {l : GLayer ℝ} {I O : ℕ} (h : l.Fits I O) (lr : ℝ) (acc : ℕ → Option (Tensor ℝ)) : (l.sgd lr acc).Fits I O := by
  cases l with
  | pw L =>
    obtain ⟨h, h2, h3, h4, h5⟩ := h
    exact ⟨h.withW (sgdParam_shape _ _ _) (sgdParam_wf h.w_wf _), h2, h3, h4, h5⟩
  | fn L =>
    obtain ⟨h, h2, h3⟩ := h
    exact ⟨⟨h.flat, h.n_pos, (sgdParam_shape _ _ _).trans h.w_shape, sgdParam_wf h.w_wf _, h.per⟩, h2, h3⟩
  | product L =>
    obtain ⟨h, h2, h3⟩ := h
    obtain ⟨b, hb, hbs, hbw⟩ := h.bias
    exact ⟨⟨(sgdParam_shape _ _ _).trans h.w_shape, sgdParam_wf h.w_wf _, ⟨sgdParam lr b (acc 1), by show L.bias.map _ = _; rw [hb]; rfl, (sgdParam_shape _ _ _).trans hbs, sgdParam_wf hbw _⟩, h.per⟩, h2, h3⟩
  | linear w b =>
    obtain ⟨h1, h2, h3, h4⟩ := h
    exact ⟨(sgdParam_shape _ _ _).trans h1, sgdParam_wf h2 _, (sgdParam_shape _ _ _).trans h3, sgdParam_wf h4 _⟩
  | relu => exact h

theorem sgd_ne_relu {l : GLayer ℝ} (h : l ≠ .relu) (lr : ℝ) (acc : ℕ → Option (Tensor ℝ)) : l.sgd lr acc ≠ .relu := by
  cases l with
  | relu => exact absurd rfl h
  | _ => exact fun hc => nomatch hc

theorem Numbered.step {σ : ℕ → GLayer ℝ} {ν : Numbering} (trained : List ℕ) (lr : ℝ) (cs : List (ℕ × List (Tensor ℝ))) : ∀ (e : GExpr ℝ) {κ ρ : ℕ → ℕ} {I O : ℕ}, e.Numbered σ ν κ ρ I O → e.Numbered (sgdStep trained lr cs σ) ν κ ρ I O
  | .leaf j, κ, ρ, I, O, ⟨h1, h2, h3⟩ => by
    show (sgdStep trained lr cs σ j).Fits I O ∧ sgdStep trained lr cs σ j ≠ .relu ∧ _
    unfold sgdStep
    by_cases ht : j ∈ trained
    · rw [if_pos ht]
      exact ⟨GLayer.sgd_fits h1 lr _, sgd_ne_relu h2 lr _, h3⟩
    · rw [if_neg ht]
      exact ⟨h1, h2, h3⟩
  | .fixed (.base (.dense .relu)), κ, ρ, I, O, h => h
  | .comp a b, κ, ρ, I, O, ⟨μ, M, h1, h2⟩ => ⟨μ, M, Numbered.step trained lr cs a h1, Numbered.step trained lr cs b h2⟩
  | .add a b, κ, ρ, I, O, ⟨h1, h2⟩ => ⟨Numbered.step trained lr cs a h1, Numbered.step trained lr cs b h2⟩
  | .mul a b, κ, ρ, I, O, ⟨h1, h2⟩ => ⟨Numbered.step trained lr cs a h1, Numbered.step trained lr cs b h2⟩

/-- `b'` is the batch `b` with inputs renumbered by `κ` and a loss of the outputs renumbered by `ρ`, with the same learning rate. -/
structure Batch.Renumbered (κ ρ : ℕ → ℕ) (I O : ℕ) (b b' : Batch ℝ) : Prop where
  lr : b'.lr = b.lr
  x : b'.x = columns κ b.x
  wf : b.x.WF
  shapes : ∃ B, b.x.shape = [B, I] ∧ ∀ y : Tensor ℝ, y.shape = [B, O] → y.WF → (b.lossGrad y).shape = [B, O] ∧ b'.lossGrad (columns ρ y) = columns ρ (b.lossGrad y)

/-- **C132 (training).** Training the network with renumbered units on the batches with renumbered inputs, with losses that count the renumbered outputs alike (for instance targets renumbered like the outputs), gives the network with
renumbered units after training: at all steps the parameters and therefore the outputs are the renumbered ones. -/
theorem C132_training (P : Picks ℝ) {e : GExpr ℝ} {ν : Numbering} {κ ρ : ℕ → ℕ} {I O : ℕ} (trained : List ℕ) : ∀ {bs bs' : List (Batch ℝ)} {σ : ℕ → GLayer ℝ}, e.Numbered σ ν κ ρ I O → List.Forall₂ (Batch.Renumbered κ ρ I O) bs bs' →
    ∃ σ', train P e trained σ bs = .ok σ' ∧ train P e trained (renumberAll ν σ) bs' = .ok (renumberAll ν σ') ∧ e.Numbered σ' ν κ ρ I O
  | _, _, σ, h, .nil => ⟨σ, rfl, rfl, h⟩
  | _, _, σ, h, .cons (a := b) (b := b') (l₁ := bs) (l₂ := bs') hb hbs => by
    obtain ⟨B, hx, hl⟩ := hb.shapes
    obtain ⟨y, y1, y2, y3, y4⟩ := (expr_follows e (h.renumbered B)).2 b.x hx hb.wf
    obtain ⟨l1, l2⟩ := hl y y2 y3
    obtain ⟨gx, cs, h1, h2, h3, h4⟩ := backward_follows P e h b.x (b.lossGrad y) hx hb.wf l1
    obtain ⟨σ', t1, t2, t3⟩ := C132_training P trained (Numbered.step trained b.lr cs e h) hbs
    refine ⟨σ', ?_, ?_, t3⟩
    · show (trainStep P e trained σ b >>= fun σ => train P e trained σ bs) = _
      have : trainStep P e trained σ b = .ok (sgdStep trained b.lr cs σ) := by
        show (e.forward σ b.x >>= fun y => e.backward P σ b.x (b.lossGrad y) >>= fun r => Except.ok (sgdStep trained b.lr r.2 σ)) = _
        rw [y1]
        show (e.backward P σ b.x (b.lossGrad y) >>= fun r => Except.ok (sgdStep trained b.lr r.2 σ)) = _
        rw [h1]; rfl
      rw [this]; exact t1
    · show (trainStep P e trained (renumberAll ν σ) b' >>= fun σ => train P e trained σ bs') = _
      have : trainStep P e trained (renumberAll ν σ) b' = .ok (renumberAll ν (sgdStep trained b.lr cs σ)) := by
        show (e.forward (renumberAll ν σ) b'.x >>= fun y => e.backward P (renumberAll ν σ) b'.x (b'.lossGrad y) >>= fun r => Except.ok (sgdStep trained b'.lr r.2 (renumberAll ν σ))) = _
        rw [hb.x, y4]
        show (e.backward P (renumberAll ν σ) (columns κ b.x) (b'.lossGrad (columns ρ y)) >>= fun r => Except.ok (sgdStep trained b'.lr r.2 (renumberAll ν σ))) = _
        rw [l2, h3, hb.lr]
        exact congrArg Except.ok (step_renumber (fun c hc => ⟨(h4 c hc).1, (h4 c hc).2.1⟩) trained b.lr)
      rw [this]; exact t2

/-- **C132 (equal units stay equal).** If the parameters are the same after renumbering hidden units (so some units have the same parameters and the next modules weigh them alike), this stays so in training, however long: gradient
descent cannot tell such units apart. -/
theorem C132_equal_units (P : Picks ℝ) {e : GExpr ℝ} {ν : Numbering} {I O : ℕ} (trained : List ℕ) {σ : ℕ → GLayer ℝ} (h : e.Numbered σ ν (fun i => i) (fun i => i) I O) (hs : renumberAll ν σ = σ) {bs : List (Batch ℝ)}
    (hbs : ∀ b ∈ bs, b.x.WF ∧ ∃ B, b.x.shape = [B, I] ∧ ∀ y : Tensor ℝ, y.shape = [B, O] → y.WF → (b.lossGrad y).shape = [B, O] ∧ (b.lossGrad y).WF) :
    ∃ σ', train P e trained σ bs = .ok σ' ∧ renumberAll ν σ' = σ' := by
  have hf : List.Forall₂ (Batch.Renumbered (fun i => i) (fun i => i) I O) bs bs := by
    refine List.forall₂_same.2 fun b hb => ?_
    obtain ⟨h1, B, h2, h3⟩ := hbs b hb
    refine ⟨rfl, (columns_id h2 h1).symm, h1, B, h2, fun y hy hwy => ?_⟩
    obtain ⟨h4, h5⟩ := h3 y hy hwy
    exact ⟨h4, by rw [columns_id hy hwy, columns_id h4 h5]⟩
  obtain ⟨σ', t1, t2, -⟩ := C132_training P trained h hf
  rw [hs, t1] at t2
  exact ⟨σ', t1, (Except.ok.inj t2).symm⟩

end HOL
