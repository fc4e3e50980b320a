import Verif.Spec.SampleCopies
import Verif.Lemmas.SampleOrder

/-! # Backward passes for batches with copies of samples, weights and padding -/

namespace HOL
open TorchScalar Spec

section
variable {l : GLayer ℝ} {I O : ℕ} (h : l.Fits I O) {B B' : ℕ} {π : Fin B' → Fin B} {w : Fin B' → ℝ} {X : Fin B → Fin I → ℝ} {X' : Fin B' → Fin I → ℝ} (hX : ∀ q, w q ≠ 0 → X' q = X (π q)) (G : Fin B → Fin O → ℝ)
include h hX

theorem layer_copy_forward : ∃ (Y : Fin B → Fin O → ℝ) (Y' : Fin B' → Fin O → ℝ), l.forward (ofMat X) = .ok (ofMat Y) ∧ l.forward (ofMat X') = .ok (ofMat Y') ∧ ∀ q, w q ≠ 0 → Y' q = Y (π q) := by
  obtain ⟨Y, h1, h2⟩ := h.rowWise.forward X
  obtain ⟨Y', h3, h4⟩ := h.rowWise.forward X'
  refine ⟨Y, Y', h1, h3, fun q hq => oneRow_inj (Except.ok.inj ((h4 q).symm.trans ?_))⟩
  rw [hX q hq]
  exact h2 (π q)

theorem layer_copy_input : ∃ GX : Fin B → Fin I → ℝ, l.inputGrad (ofMat X) (ofMat G) = ofMat GX ∧ l.inputGrad (ofMat X') (ofMat fun q o => w q * G (π q) o) = ofMat fun q i => w q * GX (π q) i := by
  obtain ⟨GX, h1, h2⟩ := h.rowWise.input X G fun _ => 1
  obtain ⟨GX', h3, h4⟩ := h.rowWise.input X' (fun q => G (π q)) w
  simp only [one_mul] at h1
  refine ⟨GX, h1, h3.trans (congrArg ofMat (funext fun q => funext fun i => ?_))⟩
  by_cases hq : w q = 0
  · rw [hq, zero_mul, zero_mul]
  · have : GX' q = GX (π q) := by
      refine oneRow_inj ((h4 q).symm.trans ?_)
      rw [hX q hq]
      exact h2 (π q)
    rw [this]

theorem layer_copy_params (hw : ∀ p, ∑ q, (if π q = p then w q else 0) = 1) : l.paramGrads (ofMat X') (ofMat fun q o => w q * G (π q) o) = l.paramGrads (ofMat X) (ofMat G) := by
  have hlen := paramGrads_length l
  refine List.ext_getElem? fun k => ?_
  cases hp : l.params[k]? with
  | none =>
    have h0 := List.getElem?_eq_none_iff.1 hp
    rw [List.getElem?_eq_none_iff.2 (by rw [hlen]; exact h0), List.getElem?_eq_none_iff.2 (by rw [hlen]; exact h0)]
  | some p =>
    obtain ⟨t, ts, t1, t2, t3, t4⟩ := h.rowWise.params X G (fun _ => 1) k p hp
    obtain ⟨t', ts', d1, d2, d3, d4⟩ := h.rowWise.params X' (fun q => G (π q)) w k p hp
    simp only [one_mul] at t1 t4
    obtain ⟨a, a1, -, a3⟩ := paramGrads_sound h (ofMat_shape X) (ofMat_shape G) k p hp
    obtain ⟨b, b1, -, b3⟩ := paramGrads_sound h (ofMat_shape X') (ofMat_shape fun q o => w q * G (π q) o) k p hp
    obtain rfl := Option.some.inj (t1.symm.trans a1)
    obtain rfl := Option.some.inj (d1.symm.trans b1)
    rw [t1, d1]
    refine congrArg some (Tensor.ext_get b3 a3 (d2.trans t2.symm) fun idx hin => ?_)
    rw [d2] at hin
    rw [t4 idx hin, d4 idx hin]
    have e1 : ∀ q, w q * (ts' q).get idx = ∑ p, (if π q = p then w q else 0) * (ts p).get idx := by
      intro q
      rw [Finset.sum_eq_single (π q) (fun p _ hne => by rw [if_neg (Ne.symm hne), zero_mul]) (fun hn => absurd (Finset.mem_univ _) hn), if_pos rfl]
      by_cases hq : w q = 0
      · rw [hq, zero_mul, zero_mul]
      · have := (d3 q).1
        rw [hX q hq] at this
        rw [Option.some.inj (this.symm.trans (t3 (π q)).1)]
    rw [Finset.sum_congr rfl fun q _ => e1 q, Finset.sum_comm]
    refine Finset.sum_congr rfl fun p _ => ?_
    rw [← Finset.sum_mul, hw p, one_mul]

end

theorem copy_forward {s : ℕ → GLayer ℝ} {B B' : ℕ} {π : Fin B' → Fin B} {w : Fin B' → ℝ} : ∀ (e : GExpr ℝ) {I O : ℕ}, e.Built s I O → ∀ {X : Fin B → Fin I → ℝ} {X' : Fin B' → Fin I → ℝ}, (∀ q, w q ≠ 0 → X' q = X (π q)) →
    ∃ (Y : Fin B → Fin O → ℝ) (Y' : Fin B' → Fin O → ℝ), e.forward s (ofMat X) = .ok (ofMat Y) ∧ e.forward s (ofMat X') = .ok (ofMat Y') ∧ ∀ q, w q ≠ 0 → Y' q = Y (π q)
  | .leaf j, I, O, h, X, X', hX => layer_copy_forward h hX
  | .fixed (.base (.dense .relu)), I, O, h, X, X', hX => layer_copy_forward (l := .relu) (I := I) (O := O) h hX
  | .comp a b, I, O, ⟨M, h1, h2⟩, X, X', hX => by
    obtain ⟨Y, Y', y1, y2, y3⟩ := copy_forward a h1 hX
    obtain ⟨Z, Z', z1, z2, z3⟩ := copy_forward b h2 y3
    refine ⟨Z, Z', ?_, ?_, z3⟩
    · show (a.forward s _ >>= fun y => b.forward s y) = _
      rw [y1]; exact z1
    · show (a.forward s _ >>= fun y => b.forward s y) = _
      rw [y2]; exact z2
  | .add a b, I, O, ⟨h1, h2⟩, X, X', hX => by
    obtain ⟨Y, Y', y1, y2, y3⟩ := copy_forward a h1 hX
    obtain ⟨Z, Z', z1, z2, z3⟩ := copy_forward b h2 hX
    refine ⟨fun q o => Y q o + Z q o, fun q o => Y' q o + Z' q o, ?_, ?_, fun q hq => by beta_reduce; rw [y3 q hq, z3 q hq]⟩
    · show (a.forward s _ >>= fun u => b.forward s _ >>= fun v => zipBcast (· + ·) u v) = _
      rw [y1, z1]; exact zipBcast_mat _ _ _
    · show (a.forward s _ >>= fun u => b.forward s _ >>= fun v => zipBcast (· + ·) u v) = _
      rw [y2, z2]; exact zipBcast_mat _ _ _
  | .mul a b, I, O, ⟨h1, h2⟩, X, X', hX => by
    obtain ⟨Y, Y', y1, y2, y3⟩ := copy_forward a h1 hX
    obtain ⟨Z, Z', z1, z2, z3⟩ := copy_forward b h2 hX
    have key : ∀ {B : ℕ} (U V : Fin B → Fin O → ℝ), (zipBcast (· * ·) (ofMat U) (ofMat V) >>= fun r => if r.shape = (ofMat U).shape then Except.ok r else .error .runtimeError) = Except.ok (ofMat fun q o => U q o * V q o) := by
      intro B U V
      rw [zipBcast_mat]
      exact if_pos rfl
    refine ⟨fun q o => Y q o * Z q o, fun q o => Y' q o * Z' q o, ?_, ?_, fun q hq => by beta_reduce; rw [y3 q hq, z3 q hq]⟩
    · show (a.forward s _ >>= fun u => b.forward s _ >>= fun v => zipBcast (· * ·) u v >>= fun r => if r.shape = u.shape then Except.ok r else .error .runtimeError) = _
      rw [y1, z1]; exact key _ _
    · show (a.forward s _ >>= fun u => b.forward s _ >>= fun v => zipBcast (· * ·) u v >>= fun r => if r.shape = u.shape then Except.ok r else .error .runtimeError) = _
      rw [y2, z2]; exact key _ _

theorem weighted_mul {B B' O : ℕ} {π : Fin B' → Fin B} {w : Fin B' → ℝ} {V : Fin B → Fin O → ℝ} {V' : Fin B' → Fin O → ℝ} (hV : ∀ q, w q ≠ 0 → V' q = V (π q)) (G : Fin B → Fin O → ℝ) :
    (fun (q : Fin B') (o : Fin O) => w q * G (π q) o * V' q o) = fun q o => w q * (G (π q) o * V (π q) o) := by
  funext q o
  by_cases hq : w q = 0
  · rw [hq, zero_mul, zero_mul, zero_mul]
  · rw [hV q hq, mul_assoc]

theorem copy_backward {s : ℕ → GLayer ℝ} (P : Picks ℝ) {B B' : ℕ} {π : Fin B' → Fin B} {w : Fin B' → ℝ} (hw : ∀ p, ∑ q, (if π q = p then w q else 0) = 1) : ∀ (e : GExpr ℝ) {I O : ℕ}, e.Built s I O →
    ∀ {X : Fin B → Fin I → ℝ} {X' : Fin B' → Fin I → ℝ}, (∀ q, w q ≠ 0 → X' q = X (π q)) → ∀ G : Fin B → Fin O → ℝ,
    ∃ (GX : Fin B → Fin I → ℝ) (cs : List (ℕ × List (Tensor ℝ))), e.backward P s (ofMat X) (ofMat G) = .ok (ofMat GX, cs) ∧ e.backward P s (ofMat X') (ofMat fun q o => w q * G (π q) o) = .ok (ofMat fun q i => w q * GX (π q) i, cs) ∧
      ∀ c ∈ cs, (∃ I O, (s c.1).Fits I O) ∧ c.2.length = (s c.1).params.length ∧ AllSound s c
  | .leaf j, I, O, h, X, X', hX, G => by
    obtain ⟨GX, g1, g2⟩ := layer_copy_input h hX G
    refine ⟨GX, [(j, (s j).paramGrads (ofMat X) (ofMat G))], ?_, ?_, fun c hc => ?_⟩
    · show Except.ok ((s j).inputGrad _ _, [(j, (s j).paramGrads _ _)]) = _
      rw [g1]
    · show Except.ok ((s j).inputGrad _ _, [(j, (s j).paramGrads _ _)]) = _
      rw [g2, layer_copy_params h hX G hw]
    · rw [List.mem_singleton.1 hc]
      exact ⟨⟨I, O, h⟩, paramGrads_length _ _ _, fun k p hp => paramGrads_sound h (ofMat_shape X) (ofMat_shape G) k p hp⟩
  | .fixed (.base (.dense .relu)), I, O, h, X, X', hX, G => by
    obtain ⟨GX, g1, g2⟩ := layer_copy_input (l := .relu) (I := I) (O := O) h hX G
    refine ⟨GX, [], ?_, ?_, fun c hc => by cases hc⟩
    · exact congrArg (fun t => Except.ok (t, [])) g1
    · exact congrArg (fun t => Except.ok (t, [])) g2
  | .comp a b, I, O, ⟨M, h1, h2⟩, X, X', hX, G => by
    obtain ⟨Y, Y', y1, y2, y3⟩ := copy_forward a h1 hX
    obtain ⟨GY, ds, b1, b2, b3⟩ := copy_backward P hw b h2 y3 G
    obtain ⟨GX, cs, a1, a2, a3⟩ := copy_backward P hw a h1 hX GY
    refine ⟨GX, cs ++ ds, ?_, ?_, fun c hc => (List.mem_append.1 hc).elim (a3 c) (b3 c)⟩
    · show (a.forward s _ >>= fun y => b.backward P s y _ >>= fun rb => a.backward P s _ rb.1 >>= fun ra => Except.ok (ra.1, ra.2 ++ rb.2)) = _
      rw [y1]
      show (b.backward P s (ofMat Y) _ >>= fun rb => a.backward P s _ rb.1 >>= fun ra => Except.ok (ra.1, ra.2 ++ rb.2)) = _
      rw [b1]
      show (a.backward P s _ (ofMat GY) >>= fun ra => Except.ok (ra.1, ra.2 ++ ds)) = _
      rw [a1]; rfl
    · show (a.forward s _ >>= fun y => b.backward P s y _ >>= fun rb => a.backward P s _ rb.1 >>= fun ra => Except.ok (ra.1, ra.2 ++ rb.2)) = _
      rw [y2]
      show (b.backward P s (ofMat Y') _ >>= fun rb => a.backward P s _ rb.1 >>= fun ra => Except.ok (ra.1, ra.2 ++ rb.2)) = _
      rw [b2]
      show (a.backward P s _ (ofMat fun q i => w q * GY (π q) i) >>= fun ra => Except.ok (ra.1, ra.2 ++ ds)) = _
      rw [a2]; rfl
  | .add a b, I, O, ⟨h1, h2⟩, X, X', hX, G => by
    obtain ⟨GY, ds, b1, b2, b3⟩ := copy_backward P hw b h2 hX G
    obtain ⟨GX, cs, a1, a2, a3⟩ := copy_backward P hw a h1 hX G
    refine ⟨fun q i => GX q i + GY q i, cs ++ ds, ?_, ?_, fun c hc => (List.mem_append.1 hc).elim (a3 c) (b3 c)⟩
    · show (a.backward P s _ _ >>= fun ra => b.backward P s _ _ >>= fun rb => Except.ok (addT ra.1 rb.1, ra.2 ++ rb.2)) = _
      rw [a1, b1]
      show Except.ok (addT (ofMat GX) (ofMat GY), cs ++ ds) = _
      rw [addT_mat]
    · show (a.backward P s _ _ >>= fun ra => b.backward P s _ _ >>= fun rb => Except.ok (addT ra.1 rb.1, ra.2 ++ rb.2)) = _
      rw [a2, b2]
      show Except.ok (addT (ofMat fun q i => w q * GX (π q) i) (ofMat fun q i => w q * GY (π q) i), cs ++ ds) = _
      rw [addT_mat]
      simp only [mul_add]
  | .mul a b, I, O, ⟨h1, h2⟩, X, X', hX, G => by
    obtain ⟨U, U', u1, u2, u3⟩ := copy_forward a h1 hX
    obtain ⟨V, V', v1, v2, v3⟩ := copy_forward b h2 hX
    obtain ⟨GY, ds, b1, b2, b3⟩ := copy_backward P hw b h2 hX fun q o => G q o * U q o
    obtain ⟨GX, cs, a1, a2, a3⟩ := copy_backward P hw a h1 hX fun q o => G q o * V q o
    refine ⟨fun q i => GX q i + GY q i, cs ++ ds, ?_, ?_, fun c hc => (List.mem_append.1 hc).elim (a3 c) (b3 c)⟩
    · show (a.forward s _ >>= fun u => b.forward s _ >>= fun v => a.backward P s _ (mulT _ v) >>= fun ra => b.backward P s _ (mulT _ u) >>= fun rb => Except.ok (addT ra.1 rb.1, ra.2 ++ rb.2)) = _
      rw [u1, v1]
      show (a.backward P s _ (mulT (ofMat G) (ofMat V)) >>= fun ra => b.backward P s _ (mulT (ofMat G) (ofMat U)) >>= fun rb => Except.ok (addT ra.1 rb.1, ra.2 ++ rb.2)) = _
      rw [mulT_mat, mulT_mat, a1, b1]
      show Except.ok (addT (ofMat GX) (ofMat GY), cs ++ ds) = _
      rw [addT_mat]
    · show (a.forward s _ >>= fun u => b.forward s _ >>= fun v => a.backward P s _ (mulT _ v) >>= fun ra => b.backward P s _ (mulT _ u) >>= fun rb => Except.ok (addT ra.1 rb.1, ra.2 ++ rb.2)) = _
      rw [u2, v2]
      show (a.backward P s _ (mulT (ofMat fun q o => w q * G (π q) o) (ofMat V')) >>= fun ra => b.backward P s _ (mulT (ofMat fun q o => w q * G (π q) o) (ofMat U')) >>= fun rb => Except.ok (addT ra.1 rb.1, ra.2 ++ rb.2)) = _
      rw [mulT_mat, mulT_mat, weighted_mul v3 G, weighted_mul u3 G, a2, b2]
      show Except.ok (addT (ofMat fun q i => w q * GX (π q) i) (ofMat fun q i => w q * GY (π q) i), cs ++ ds) = _
      rw [addT_mat]
      simp only [mul_add]

end HOL
