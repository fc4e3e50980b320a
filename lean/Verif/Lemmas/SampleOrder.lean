import Verif.Spec.SampleOrder
import Verif.Lemmas.Accumulation
import Verif.Props.LionNetwork
import Verif.Props.SignLion
import Verif.Props.RenumberLion

/-! # Backward passes for the samples of a batch in another order -/

namespace HOL
open TorchScalar Spec

theorem oneRow_inj {I : ℕ} {u v : Fin I → ℝ} (h : oneRow u = oneRow v) : u = v := congrFun (ofMat_inj h) 0

theorem zipBcast_mat (f : ℝ → ℝ → ℝ) {B O : ℕ} (U V : Fin B → Fin O → ℝ) : zipBcast f (ofMat U) (ofMat V) = .ok (ofMat fun q o => f (U q o) (V q o)) := by
  rw [zipBcast_same f (ofMat_shape U) (ofMat_shape V)]
  refine congrArg Except.ok (rows_of rfl (Tensor.wf_tab2 _ _ _) fun q o => ?_)
  rw [Tensor.get_tab2 q.2 o.2]
  rw [ofMat_get, ofMat_get]

theorem addT_mat {B O : ℕ} (U V : Fin B → Fin O → ℝ) : addT (ofMat U) (ofMat V) = ofMat fun q o => U q o + V q o := by
  refine rows_of rfl (Tensor.wf_tabulate _ _) fun q o => ?_
  refine (Tensor.get_tabulate (inShape2.2 ⟨q.2, o.2⟩)).trans ?_
  rw [ofMat_get, ofMat_get]

theorem mulT_mat {B O : ℕ} (U V : Fin B → Fin O → ℝ) : mulT (ofMat U) (ofMat V) = ofMat fun q o => U q o * V q o := by
  refine rows_of rfl (Tensor.wf_tabulate _ _) fun q o => ?_
  refine (Tensor.get_tabulate (inShape2.2 ⟨q.2, o.2⟩)).trans ?_
  rw [ofMat_get, ofMat_get]

theorem signed_mat {B I : ℕ} (κ : ℕ → Bool) (X : Fin B → Fin I → ℝ) : signed κ (ofMat X) = ofMat fun q i => sg (κ i) * X q i := by
  refine rows_of rfl (Tensor.wf_tabulate _ _) fun q i => ?_
  exact (signed_get (ofMat_shape X) q.2 i.2).trans (by rw [ofMat_get])

theorem paramGrads_length (l : GLayer ℝ) (x g : Tensor ℝ) : (l.paramGrads x g).length = l.params.length := by cases l <;> rfl

section
variable {l : GLayer ℝ} {I O : ℕ} (h : l.Fits I O) {B : ℕ} (π : Equiv.Perm (Fin B)) (X : Fin B → Fin I → ℝ) (G : Fin B → Fin O → ℝ)
include h

theorem layer_order_forward : ∃ Y : Fin B → Fin O → ℝ, l.forward (ofMat X) = .ok (ofMat Y) ∧ l.forward (ofMat fun q => X (π q)) = .ok (ofMat fun q => Y (π q)) := by
  obtain ⟨Y, h1, h2⟩ := h.rowWise.forward X
  obtain ⟨Y', h3, h4⟩ := h.rowWise.forward fun q => X (π q)
  have : Y' = fun q => Y (π q) := funext fun q => oneRow_inj (Except.ok.inj ((h4 q).symm.trans (h2 (π q))))
  rw [this] at h3
  exact ⟨Y, h1, h3⟩

theorem layer_order_input : ∃ GX : Fin B → Fin I → ℝ, l.inputGrad (ofMat X) (ofMat G) = ofMat GX ∧ l.inputGrad (ofMat fun q => X (π q)) (ofMat fun q => G (π q)) = ofMat fun q => GX (π q) := by
  obtain ⟨GX, h1, h2⟩ := h.rowWise.input X G fun _ => 1
  obtain ⟨GX', h3, h4⟩ := h.rowWise.input (fun q => X (π q)) (fun q => G (π q)) fun _ => 1
  simp only [one_mul] at h1 h3
  have : GX' = fun q => GX (π q) := funext fun q => oneRow_inj ((h4 q).symm.trans (h2 (π q)))
  rw [this] at h3
  exact ⟨GX, h1, h3⟩

theorem layer_order_params : l.paramGrads (ofMat fun q => X (π q)) (ofMat fun q => G (π q)) = l.paramGrads (ofMat X) (ofMat G) := by
  have hlen := paramGrads_length l
  refine List.ext_getElem? fun k => ?_
  cases hp : l.params[k]? with
  | none =>
    have h0 := List.getElem?_eq_none_iff.1 hp
    rw [List.getElem?_eq_none_iff.2 (by rw [hlen]; exact h0), List.getElem?_eq_none_iff.2 (by rw [hlen]; exact h0)]
  | some p =>
    obtain ⟨t, ts, t1, t2, t3, t4⟩ := h.rowWise.params X G (fun _ => 1) k p hp
    obtain ⟨t', ts', d1, d2, d3, d4⟩ := h.rowWise.params (fun q => X (π q)) (fun q => G (π q)) (fun _ => 1) k p hp
    simp only [one_mul] at t1 d1 t4 d4
    obtain ⟨a, a1, -, a3⟩ := paramGrads_sound h (ofMat_shape X) (ofMat_shape G) k p hp
    obtain ⟨b, b1, -, b3⟩ := paramGrads_sound h (ofMat_shape fun q => X (π q)) (ofMat_shape fun q => G (π q)) k p hp
    obtain rfl := Option.some.inj (t1.symm.trans a1)
    obtain rfl := Option.some.inj (d1.symm.trans b1)
    rw [t1, d1]
    refine congrArg some (Tensor.ext_get b3 a3 (d2.trans t2.symm) fun idx hin => ?_)
    rw [d2] at hin
    rw [t4 idx hin, d4 idx hin, ← Equiv.sum_comp π fun q => (ts q).get idx]
    refine Finset.sum_congr rfl fun q _ => ?_
    rw [Option.some.inj ((d3 q).1.symm.trans (t3 (π q)).1)]

end

theorem order_forward {s : ℕ → GLayer ℝ} {B : ℕ} (π : Equiv.Perm (Fin B)) : ∀ (e : GExpr ℝ) {I O : ℕ}, e.Built s I O → ∀ X : Fin B → Fin I → ℝ,
    ∃ Y : Fin B → Fin O → ℝ, e.forward s (ofMat X) = .ok (ofMat Y) ∧ e.forward s (ofMat fun q => X (π q)) = .ok (ofMat fun q => Y (π q))
  | .leaf j, I, O, h, X => layer_order_forward h π X
  | .fixed (.base (.dense .relu)), I, O, h, X => layer_order_forward (l := .relu) (I := I) (O := O) h π X
  | .comp a b, I, O, ⟨M, h1, h2⟩, X => by
    obtain ⟨Y, y1, y2⟩ := order_forward π a h1 X
    obtain ⟨Z, z1, z2⟩ := order_forward π b h2 Y
    refine ⟨Z, ?_, ?_⟩
    · show (a.forward s _ >>= fun y => b.forward s y) = _
      rw [y1]; exact z1
    · show (a.forward s _ >>= fun y => b.forward s y) = _
      rw [y2]; exact z2
  | .add a b, I, O, ⟨h1, h2⟩, X => by
    obtain ⟨Y, y1, y2⟩ := order_forward π a h1 X
    obtain ⟨Z, z1, z2⟩ := order_forward π b h2 X
    refine ⟨fun q o => Y q o + Z q o, ?_, ?_⟩
    · show (a.forward s _ >>= fun u => b.forward s _ >>= fun v => zipBcast (· + ·) u v) = _
      rw [y1, z1]; exact zipBcast_mat _ _ _
    · show (a.forward s _ >>= fun u => b.forward s _ >>= fun v => zipBcast (· + ·) u v) = _
      rw [y2, z2]; exact zipBcast_mat _ _ _
  | .mul a b, I, O, ⟨h1, h2⟩, X => by
    obtain ⟨Y, y1, y2⟩ := order_forward π a h1 X
    obtain ⟨Z, z1, z2⟩ := order_forward π b h2 X
    have key : ∀ U V : Fin B → Fin O → ℝ, (zipBcast (· * ·) (ofMat U) (ofMat V) >>= fun r => if r.shape = (ofMat U).shape then Except.ok r else .error .runtimeError) = Except.ok (ofMat fun q o => U q o * V q o) := by
      intro U V
      rw [zipBcast_mat]
      exact if_pos rfl
    refine ⟨fun q o => Y q o * Z q o, ?_, ?_⟩
    · show (a.forward s _ >>= fun u => b.forward s _ >>= fun v => zipBcast (· * ·) u v >>= fun r => if r.shape = u.shape then Except.ok r else .error .runtimeError) = _
      rw [y1, z1]; exact key _ _
    · show (a.forward s _ >>= fun u => b.forward s _ >>= fun v => zipBcast (· * ·) u v >>= fun r => if r.shape = u.shape then Except.ok r else .error .runtimeError) = _
      rw [y2, z2]; exact key _ _

theorem order_fits {s : ℕ → GLayer ℝ} {cs : List (ℕ × List (Tensor ℝ))} (h : ∀ c ∈ cs, (∃ I O, (s c.1).Fits I O) ∧ c.2.length = (s c.1).params.length ∧ AllSound s c) {j k : ℕ} {g : Tensor ℝ} (hg : accumulated cs j k = some g) :
    (∃ I O, (s j).Fits I O) ∧ ∃ p, (s j).params[k]? = some p := by
  unfold accumulated at hg
  cases hc : contributions cs j k with
  | nil => rw [hc] at hg; cases hg
  | cons t ts =>
    have hm : t ∈ contributions cs j k := by rw [hc]; exact List.mem_cons_self
    obtain ⟨c, h1, h2⟩ := List.mem_filterMap.1 hm
    split at h2
    · rename_i hj
      subst hj
      obtain ⟨q1, q2, -⟩ := h c h1
      obtain ⟨hlt, -⟩ := List.getElem?_eq_some_iff.1 h2
      exact ⟨q1, _, List.getElem?_eq_getElem (q2 ▸ hlt)⟩
    · cases h2

theorem order_backward {s : ℕ → GLayer ℝ} (P : Picks ℝ) {B : ℕ} (π : Equiv.Perm (Fin B)) : ∀ (e : GExpr ℝ) {I O : ℕ}, e.Built s I O → ∀ (X : Fin B → Fin I → ℝ) (G : Fin B → Fin O → ℝ),
    ∃ (GX : Fin B → Fin I → ℝ) (cs : List (ℕ × List (Tensor ℝ))), e.backward P s (ofMat X) (ofMat G) = .ok (ofMat GX, cs) ∧ e.backward P s (ofMat fun q => X (π q)) (ofMat fun q => G (π q)) = .ok (ofMat fun q => GX (π q), cs) ∧
      ∀ c ∈ cs, (∃ I O, (s c.1).Fits I O) ∧ c.2.length = (s c.1).params.length ∧ AllSound s c
  | .leaf j, I, O, h, X, G => by
    obtain ⟨GX, g1, g2⟩ := layer_order_input h π X G
    refine ⟨GX, [(j, (s j).paramGrads (ofMat X) (ofMat G))], ?_, ?_, fun c hc => ?_⟩
    · show Except.ok ((s j).inputGrad _ _, [(j, (s j).paramGrads _ _)]) = _
      rw [g1]
    · show Except.ok ((s j).inputGrad _ _, [(j, (s j).paramGrads _ _)]) = _
      rw [g2, layer_order_params h π X G]
    · rw [List.mem_singleton.1 hc]
      exact ⟨⟨I, O, h⟩, paramGrads_length _ _ _, fun k p hp => paramGrads_sound h (ofMat_shape X) (ofMat_shape G) k p hp⟩
  | .fixed (.base (.dense .relu)), I, O, h, X, G => by
    obtain ⟨GX, g1, g2⟩ := layer_order_input (l := .relu) (I := I) (O := O) h π X G
    refine ⟨GX, [], ?_, ?_, fun c hc => by cases hc⟩
    · exact congrArg (fun t => Except.ok (t, [])) g1
    · exact congrArg (fun t => Except.ok (t, [])) g2
  | .comp a b, I, O, ⟨M, h1, h2⟩, X, G => by
    obtain ⟨Y, y1, y2⟩ := order_forward π a h1 X
    obtain ⟨GY, ds, b1, b2, b3⟩ := order_backward P π b h2 Y G
    obtain ⟨GX, cs, a1, a2, a3⟩ := order_backward P π a h1 X GY
    refine ⟨GX, cs ++ ds, ?_, ?_, fun c hc => (List.mem_append.1 hc).elim (a3 c) (b3 c)⟩
    · show (a.forward s _ >>= fun y => b.backward P s y _ >>= fun rb => a.backward P s _ rb.1 >>= fun ra => Except.ok (ra.1, ra.2 ++ rb.2)) = _
      rw [y1]
      show (b.backward P s (ofMat Y) _ >>= fun rb => a.backward P s _ rb.1 >>= fun ra => Except.ok (ra.1, ra.2 ++ rb.2)) = _
      rw [b1]
      show (a.backward P s _ (ofMat GY) >>= fun ra => Except.ok (ra.1, ra.2 ++ ds)) = _
      rw [a1]; rfl
    · show (a.forward s _ >>= fun y => b.backward P s y _ >>= fun rb => a.backward P s _ rb.1 >>= fun ra => Except.ok (ra.1, ra.2 ++ rb.2)) = _
      rw [y2]
      show (b.backward P s (ofMat fun q => Y (π q)) _ >>= fun rb => a.backward P s _ rb.1 >>= fun ra => Except.ok (ra.1, ra.2 ++ rb.2)) = _
      rw [b2]
      show (a.backward P s _ (ofMat fun q => GY (π q)) >>= fun ra => Except.ok (ra.1, ra.2 ++ ds)) = _
      rw [a2]; rfl
  | .add a b, I, O, ⟨h1, h2⟩, X, G => by
    obtain ⟨GY, ds, b1, b2, b3⟩ := order_backward P π b h2 X G
    obtain ⟨GX, cs, a1, a2, a3⟩ := order_backward P π a h1 X G
    refine ⟨fun q i => GX q i + GY q i, cs ++ ds, ?_, ?_, fun c hc => (List.mem_append.1 hc).elim (a3 c) (b3 c)⟩
    · show (a.backward P s _ _ >>= fun ra => b.backward P s _ _ >>= fun rb => Except.ok (addT ra.1 rb.1, ra.2 ++ rb.2)) = _
      rw [a1, b1]
      show Except.ok (addT (ofMat GX) (ofMat GY), cs ++ ds) = _
      rw [addT_mat]
    · show (a.backward P s _ _ >>= fun ra => b.backward P s _ _ >>= fun rb => Except.ok (addT ra.1 rb.1, ra.2 ++ rb.2)) = _
      rw [a2, b2]
      show Except.ok (addT (ofMat fun q => GX (π q)) (ofMat fun q => GY (π q)), cs ++ ds) = _
      rw [addT_mat]
  | .mul a b, I, O, ⟨h1, h2⟩, X, G => by
    obtain ⟨U, u1, u2⟩ := order_forward π a h1 X
    obtain ⟨V, v1, v2⟩ := order_forward π b h2 X
    obtain ⟨GY, ds, b1, b2, b3⟩ := order_backward P π b h2 X fun q o => G q o * U q o
    obtain ⟨GX, cs, a1, a2, a3⟩ := order_backward P π a h1 X fun q o => G q o * V q o
    refine ⟨fun q i => GX q i + GY q i, cs ++ ds, ?_, ?_, fun c hc => (List.mem_append.1 hc).elim (a3 c) (b3 c)⟩
    · show (a.forward s _ >>= fun u => b.forward s _ >>= fun v => a.backward P s _ (mulT _ v) >>= fun ra => b.backward P s _ (mulT _ u) >>= fun rb => Except.ok (addT ra.1 rb.1, ra.2 ++ rb.2)) = _
      rw [u1, v1]
      show (a.backward P s _ (mulT (ofMat G) (ofMat V)) >>= fun ra => b.backward P s _ (mulT (ofMat G) (ofMat U)) >>= fun rb => Except.ok (addT ra.1 rb.1, ra.2 ++ rb.2)) = _
      rw [mulT_mat, mulT_mat, a1, b1]
      show Except.ok (addT (ofMat GX) (ofMat GY), cs ++ ds) = _
      rw [addT_mat]
    · show (a.forward s _ >>= fun u => b.forward s _ >>= fun v => a.backward P s _ (mulT _ v) >>= fun ra => b.backward P s _ (mulT _ u) >>= fun rb => Except.ok (addT ra.1 rb.1, ra.2 ++ rb.2)) = _
      rw [u2, v2]
      show (a.backward P s _ (mulT (ofMat fun q => G (π q)) (ofMat fun q => V (π q))) >>= fun ra => b.backward P s _ (mulT (ofMat fun q => G (π q)) (ofMat fun q => U (π q))) >>= fun rb => Except.ok (addT ra.1 rb.1, ra.2 ++ rb.2)) = _
      rw [mulT_mat, mulT_mat, a2, b2]
      show Except.ok (addT (ofMat fun q => GX (π q)) (ofMat fun q => GY (π q)), cs ++ ds) = _
      rw [addT_mat]

theorem Signed.built {s : ℕ → GLayer ℝ} {ν : Signing} : ∀ (e : GExpr ℝ) {σ ρ : ℕ → Bool} {I O : ℕ}, e.Signed s ν σ ρ I O → e.Built s I O
  | .leaf _, _, _, _, _, h => h.1
  | .comp a b, _, _, _, _, ⟨_, M, h1, h2⟩ => ⟨M, Signed.built a h1, Signed.built b h2⟩
  | .add a b, _, _, _, _, ⟨h1, h2⟩ => ⟨Signed.built a h1, Signed.built b h2⟩
  | .mul a b, _, _, _, _, ⟨_, _, h1, h2, _⟩ => ⟨Signed.built a h1, Signed.built b h2⟩

theorem SignedFirst.built {s : ℕ → GLayer ℝ} {ν : Signing} : ∀ (e : GExpr ℝ) {σ ρ : ℕ → Bool} {I O : ℕ}, e.SignedFirst s ν σ ρ I O → e.Built s I O
  | .leaf _, _, _, _, _, h => h.1
  | .comp a b, _, _, _, _, ⟨_, M, h1, h2⟩ => ⟨M, SignedFirst.built a h1, Signed.built b h2⟩
  | .add a b, _, _, _, _, ⟨h1, h2⟩ => ⟨SignedFirst.built a h1, SignedFirst.built b h2⟩
  | .mul a b, _, _, _, _, ⟨_, _, h1, h2, _⟩ => ⟨SignedFirst.built a h1, SignedFirst.built b h2⟩

theorem Numbered.built {s : ℕ → GLayer ℝ} {ν : Numbering} : ∀ (e : GExpr ℝ) {σ ρ : ℕ → ℕ} {I O : ℕ}, e.Numbered s ν σ ρ I O → e.Built s I O
  | .leaf _, _, _, _, _, h => h.1
  | .fixed (.base (.dense .relu)), _, _, _, _, h => h.1
  | .comp a b, _, _, _, _, ⟨_, M, h1, h2⟩ => ⟨M, Numbered.built a h1, Numbered.built b h2⟩
  | .add a b, _, _, _, _, ⟨h1, h2⟩ => ⟨Numbered.built a h1, Numbered.built b h2⟩
  | .mul a b, _, _, _, _, ⟨h1, h2⟩ => ⟨Numbered.built a h1, Numbered.built b h2⟩

theorem Built.step {s : ℕ → GLayer ℝ} (trained : List ℕ) (lr : ℝ) (cs : List (ℕ × List (Tensor ℝ))) : ∀ (e : GExpr ℝ) {I O : ℕ}, e.Built s I O → e.Built (sgdStep trained lr cs s) I O
  | .leaf j, I, O, h => by
    show (sgdStep trained lr cs s j).Fits I O
    unfold sgdStep
    split
    · exact GLayer.sgd_fits h lr _
    · exact h
  | .fixed (.base (.dense .relu)), I, O, h => h
  | .comp a b, I, O, ⟨M, h1, h2⟩ => ⟨M, Built.step trained lr cs a h1, Built.step trained lr cs b h2⟩
  | .add a b, I, O, ⟨h1, h2⟩ => ⟨Built.step trained lr cs a h1, Built.step trained lr cs b h2⟩
  | .mul a b, I, O, ⟨h1, h2⟩ => ⟨Built.step trained lr cs a h1, Built.step trained lr cs b h2⟩

theorem Built.steps {s τ : ℕ → GLayer ℝ} (hτ : ∀ j, ∃ lr acc, τ j = (s j).sgd lr acc) : ∀ (e : GExpr ℝ) {I O : ℕ}, e.Built s I O → e.Built τ I O
  | .leaf j, I, O, h => by
    obtain ⟨lr, acc, hj⟩ := hτ j
    show (τ j).Fits I O
    rw [hj]
    exact GLayer.sgd_fits h lr _
  | .fixed (.base (.dense .relu)), I, O, h => h
  | .comp a b, I, O, ⟨M, h1, h2⟩ => ⟨M, Built.steps hτ a h1, Built.steps hτ b h2⟩
  | .add a b, I, O, ⟨h1, h2⟩ => ⟨Built.steps hτ a h1, Built.steps hτ b h2⟩
  | .mul a b, I, O, ⟨h1, h2⟩ => ⟨Built.steps hτ a h1, Built.steps hτ b h2⟩

theorem lion_runs {e : GExpr ℝ} {s : ℕ → GLayer ℝ} {I O : ℕ} (h : e.Built s I O) {cs : List (ℕ × List (Tensor ℝ))} (hcs : ∀ c ∈ cs, (∃ I O, (s c.1).Fits I O) ∧ c.2.length = (s c.1).params.length ∧ AllSound s c) (trained : List ℕ)
    {exp : ℕ → ℕ → Option (Tensor ℝ)} (hexp : LionState s trained exp) (lr wd β β2 : ℝ) :
    ∃ (s1 : ℕ → GLayer ℝ) (exp1 : ℕ → ℕ → Option (Tensor ℝ)), (∀ j, lionStep trained lr wd β β2 exp cs s j = .ok (s1 j)) ∧ (∀ j k, lionMomenta trained lr wd β β2 exp cs s j k = .ok (exp1 j k)) ∧ LionState s1 trained exp1 ∧ e.Built s1 I O := by
  have hsound : ∀ c ∈ cs, AllSound s c := fun c hc => (hcs c hc).2.2
  have hfit : ∀ j ∈ trained, ∀ k p, (s j).params[k]? = some p → LionFits p (accumulated cs j k) (exp j k) := by
    intro j hj k p hp g' hg'
    obtain ⟨⟨_, _, hf⟩, -⟩ := order_fits hcs hg'
    obtain ⟨s1, s2⟩ := accumulated_sound hsound hp hg'
    exact ⟨fits_wf hf hp, s1, s2, fun e' he' => hexp j hj k p e' hp he'⟩
  refine ⟨fun j => if j ∈ trained then (s j).sgd lr fun k => lionPull β (accumulated cs j k) (exp j k) else s j, fun j k => if j ∈ trained then lionMomNext β2 (accumulated cs j k) (exp j k) else exp j k,
    fun j => ?_, fun j k => ?_, fun j hj k p' e' hp' he' => ?_, Built.steps (fun j => ?_) e h⟩
  · unfold lionStep
    beta_reduce
    by_cases ht : j ∈ trained
    · rw [if_pos ht, if_pos ht]
      exact lion_sgd (hfit j ht) lr wd β β2
    · rw [if_neg ht, if_neg ht]
  · unfold lionMomenta
    beta_reduce
    by_cases ht : j ∈ trained
    · rw [if_pos ht, if_pos ht]
      cases hp : (s j).params[k]? with
      | none =>
        cases ha : accumulated cs j k with
        | none => rfl
        | some g' =>
          obtain ⟨-, p, hp'⟩ := order_fits hcs ha
          rw [hp] at hp'
          cases hp'
      | some p => exact (stepParam_real (hfit j ht k p hp) lr wd β β2).2
    · rw [if_neg ht, if_neg ht]
  · beta_reduce at hp' he'
    rw [if_pos hj] at hp' he'
    obtain ⟨p, hp, hps⟩ := sgd_params_shape hp'
    rw [hps]
    cases ha : accumulated cs j k with
    | none =>
      rw [ha] at he'
      exact hexp j hj k p e' hp he'
    | some g' =>
      rw [ha] at he'
      cases he'
      exact ⟨Tensor.wf_tabulate _ _, (accumulated_sound hsound hp ha).1⟩
  · beta_reduce
    by_cases ht : j ∈ trained
    · rw [if_pos ht]
      exact ⟨_, _, rfl⟩
    · rw [if_neg ht]
      exact ⟨0, fun _ => none, (sgd_nothing (s j)).symm⟩

end HOL
