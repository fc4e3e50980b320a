import Verif.Spec.Xor
import Verif.Model.XorExample
import Verif.Lemmas.Layers
import Verif.Lemmas.Heap
import Verif.Lemmas.RefineReal
import Verif.Spec.Network
import Mathlib.Tactic.ComputeDegree

/-! # Layers as sums of links, and the links needed for the exclusive or problem -/

namespace HOL
open Polynomial Spec TorchScalar

/-! ## layers -/

/-- The row of `leafMods`. -/
def linkLeaf : LinkFamily → LeafKind
  | .polynomial => .polynomial
  | .continuous => .pw .continuous
  | .discontinuous => .pw .discontinuous

theorem linkLeaf_lookup (k : LinkFamily) : fcTable.lookup k.name = some (.leaf (linkLeaf k)) := by
  cases k <;> rfl

/-- The module computes the sum over its inputs of the functions `f o i`. -/
def SumsLinks (m : Mod ℝ) (I O : ℕ) (f : ℕ → ℕ → ℝ → ℝ) : Prop :=
  ∀ call, Computes (m.forward call) I O fun o r => ∑ i ∈ Finset.range I, f o i (r i)

theorem pw_links {L : PwLayer ℝ} (h : L.WF) (hl : L.length = 2) (hp : L.periodicity = none) (hc : L.cls = .continuous ∨ L.cls = .discontinuous) :
    SumsLinks (.pw L) L.inFeatures L.outFeatures L.linkFn ∧
      ∀ o i, IsPiecewisePoly L.n L.segments L.stride (fun q => L.w.get [o, i, q]) (L.linkFn o i) := by
  refine ⟨fun call => ?_, fun o i => L.linkFn_isPiecewise h.seg_pos hl hp o i⟩
  refine (L.computes h).congr fun o _ r => ?_
  rcases hc with hc | hc <;> simp [hc, PwClass.combine]

theorem pw_links_of {L : PwLayer ℝ} (h : L.WF) (hl : L.length = 2) (hp : L.periodicity = none) (hc : L.cls = .continuous ∨ L.cls = .discontinuous)
    {f : ℕ → ℕ → ℝ → ℝ} {v : ℕ → ℕ → ℕ → ℝ} (hf : ∀ o i, IsPiecewisePoly L.n L.segments L.stride (v o i) (f o i)) :
    ∃ w : Tensor ℝ, w.shape = L.w.shape ∧ w.WF ∧ SumsLinks (.pw { L with w := w }) L.inFeatures L.outFeatures f := by
  set w : Tensor ℝ := Tensor.tab3 L.outFeatures L.inFeatures (PwLayer.wSize L.cls L.n L.segments) v with hw
  have hwf : ({ L with w := w } : PwLayer ℝ).WF := ⟨h.n_pos, h.seg_pos, h.in_pos, h.out_pos, rfl, Tensor.wf_tabulate _ _⟩
  refine ⟨w, h.w_shape.symm ▸ rfl, Tensor.wf_tabulate _ _, fun call => ?_⟩
  obtain ⟨h1, h2⟩ := pw_links hwf hl hp hc
  refine (h1 call).congr fun o ho r => Finset.sum_congr rfl fun i hi => ?_
  obtain ⟨s, hs⟩ := isActive_exists h.seg_pos (r i)
  rw [h2 o i s (r i) hs, hf o i s (r i) hs]
  refine congrArg (fun P : ℝ[X] => P.eval _) (linkPoly_congr fun k hk => ?_)
  show w.get [o, i, s * L.stride + k] = _
  rw [hw, Tensor.get_tab3 ho (Finset.mem_range.1 hi) (L.widx_lt h.n_pos hs.1 hk)]

theorem scaled_node (n : ℕ) : (fun j => (2 : ℝ) / 2 * node n j) = node n := by
  funext j; norm_num

theorem fn_links {L : FnLayer ℝ} {n : ℕ} (hn : 0 < n) (hp : L.poly = lagrangePolyFlat n 2) (hq : L.periodicity = none)
    (hw : L.w.shape = [L.outFeatures, L.inFeatures, n]) :
    SumsLinks (.fn L) L.inFeatures L.outFeatures fun o i x => (linkPoly n fun k => L.w.get [o, i, k]).eval x := by
  intro call B x hx hwf
  refine ⟨_, L.forward_lagrange hn 2 hp hw hx hwf, rfl, Tensor.wf_tabulate _ _, fun b hb o ho => ?_⟩
  rw [Tensor.get_tab2 hb ho, scaled_node, hq]
  rfl

/-- A layer built by the factory: what it can compute after training is exactly what its links allow. -/
theorem layer_links (k : LinkFamily) {n S I O : ℕ} (hn : 0 < n) (hS : 0 < S) (hI : 0 < I) (hO : 0 < O) (rng : Rng ℝ) (base : ℕ) :
    ∃ m : Mod ℝ, fcMods rng (.leaf (linkLeaf k)) (xorArgs n S I O) base = .ok [m] ∧ m.refs = [] ∧
      (∀ m', m.Trained m' → ∃ f : ℕ → ℕ → ℝ → ℝ, (∀ o i, InFamily k n S (f o i)) ∧ SumsLinks m' I O f) ∧
      ∀ f : ℕ → ℕ → ℝ → ℝ, (∀ o i, InFamily k n S (f o i)) → ∃ m', m.Trained m' ∧ m'.refs = [] ∧ SumsLinks m' I O f := by
  cases k with
  | polynomial =>
    have e : polynomialInit n I O ((2 : ℕ) : ℝ) (rng base) 1 none = .ok
        { poly := lagrangePolyFlat n ((2 : ℕ) : ℝ), inFeatures := I, outFeatures := O, periodicity := none
          w := constantRandomInit (rng base) O I n 1 } := by
      simp only [polynomialInit, FnLayer.init, lagrangePolyFlat_numBasis hn, bind, Except.bind]
    have h2 : lagrangePolyFlat n ((2 : ℕ) : ℝ) = lagrangePolyFlat n 2 := by norm_num
    generalize hL : ({ poly := lagrangePolyFlat n ((2 : ℕ) : ℝ), inFeatures := I, outFeatures := O, periodicity := none
                       w := constantRandomInit (rng base) O I n 1 } : FnLayer ℝ) = L at e
    have f1 : L.poly = lagrangePolyFlat n 2 := by rw [← hL]; exact h2
    have f2 : L.periodicity = none := by rw [← hL]
    have f3 : L.w.shape = [L.outFeatures, L.inFeatures, n] := by rw [← hL]; rfl
    have f4 : L.inFeatures = I := by rw [← hL]
    have f5 : L.outFeatures = O := by rw [← hL]
    refine ⟨.fn L, ?_, rfl, ?_, ?_⟩
    · simp only [fcMods, linkLeaf, leafMods, xorArgs, e, bind, Except.bind]
    · intro m' ht
      have deg : ∀ v : ℕ → ℝ, (linkPoly n v).degree < n := fun v => by
        have := Lagrange.degree_interpolate_lt (s := Finset.range n) v (node_injOn n)
        simpa [linkPoly] using this
      cases ht with
      | refl => exact ⟨_, fun o i => ⟨_, deg _, fun x => rfl⟩, f4 ▸ f5 ▸ fn_links hn f1 f2 f3⟩
      | fn _ w hs hw => exact ⟨_, fun o i => ⟨_, deg _, fun x => rfl⟩, f4 ▸ f5 ▸ fn_links (L := { L with w := w }) hn f1 f2 (hs.trans f3)⟩
    · intro f hf
      choose P hP hPf using hf
      have hs : (Tensor.tab3 O I n fun o i j => (P o i).eval (node n j)).shape = L.w.shape := by rw [f3, f4, f5]; rfl
      refine ⟨_, .fn L (Tensor.tab3 O I n fun o i j => (P o i).eval (node n j)) hs (Tensor.wf_tabulate _ _), rfl, fun call => ?_⟩
      have := fn_links (L := { L with w := Tensor.tab3 O I n fun o i j => (P o i).eval (node n j) }) hn f1 f2 (hs.trans f3)
      simp only [f4, f5] at this
      refine (this call).congr fun o ho r => Finset.sum_congr rfl fun i hi => ?_
      rw [hPf, ← linkPoly_eq_of_degree_lt (hP o i)]
      refine congrArg (fun P : ℝ[X] => P.eval _) (linkPoly_congr fun j hj => ?_)
      rw [Tensor.get_tab3 ho (Finset.mem_range.1 hi) hj]
  | continuous =>
    have hwf := PwLayer.init_wf (K := ℝ) .continuous hn hI hO hS ((2 : ℕ) : ℝ) (rng base) 1 none
    refine ⟨.pw (PwLayer.init .continuous n I O S ((2 : ℕ) : ℝ) (rng base) 1 none), rfl, rfl, ?_, ?_⟩
    · intro m' ht
      cases ht with
      | refl =>
        obtain ⟨h1, h2⟩ := pw_links hwf (by norm_num [PwLayer.init]) rfl (Or.inl rfl)
        exact ⟨_, fun o i => ⟨_, h2 o i⟩, h1⟩
      | pw _ w hs hw =>
        obtain ⟨h1, h2⟩ := pw_links (hwf.withW hs hw) (by norm_num [PwLayer.init, PwLayer.withW]) rfl (Or.inl rfl)
        exact ⟨_, fun o i => ⟨_, h2 o i⟩, h1⟩
    · intro f hf
      choose v hv using hf
      obtain ⟨w, e1, e2, e3⟩ := pw_links_of hwf (by norm_num [PwLayer.init]) rfl (Or.inl rfl) (f := f) (v := v) hv
      exact ⟨_, .pw _ w e1 e2, rfl, e3⟩
  | discontinuous =>
    have hwf := PwLayer.init_wf (K := ℝ) .discontinuous hn hI hO hS ((2 : ℕ) : ℝ) (rng base) 1 none
    refine ⟨.pw (PwLayer.init .discontinuous n I O S ((2 : ℕ) : ℝ) (rng base) 1 none), rfl, rfl, ?_, ?_⟩
    · intro m' ht
      cases ht with
      | refl =>
        obtain ⟨h1, h2⟩ := pw_links hwf (by norm_num [PwLayer.init]) rfl (Or.inr rfl)
        exact ⟨_, fun o i => ⟨_, h2 o i⟩, h1⟩
      | pw _ w hs hw =>
        obtain ⟨h1, h2⟩ := pw_links (hwf.withW hs hw) (by norm_num [PwLayer.init, PwLayer.withW]) rfl (Or.inr rfl)
        exact ⟨_, fun o i => ⟨_, h2 o i⟩, h1⟩
    · intro f hf
      choose v hv using hf
      obtain ⟨w, e1, e2, e3⟩ := pw_links_of hwf (by norm_num [PwLayer.init]) rfl (Or.inr rfl) (f := f) (v := v) hv
      exact ⟨_, .pw _ w e1 e2, rfl, e3⟩

/-! ## which functions are links -/

/-- A function given on every segment by a polynomial of the local coordinate. -/
def OnSegments (S : ℕ) (Q : ℕ → ℝ[X]) (f : ℝ → ℝ) : Prop := ∀ s x, IsActive S s x → f x = (Q s).eval (localCoord S s x)

theorem link_discontinuous {n S : ℕ} (hn : 0 < n) {Q : ℕ → ℝ[X]} {f : ℝ → ℝ} (hd : ∀ s, (Q s).degree < n) (h : OnSegments S Q f) :
    InFamily .discontinuous n S f := by
  obtain ⟨V, hV⟩ := lift_nodes hn false (fun s k => (Q s).eval (node n k)) (by simp)
  refine ⟨V, fun s x hs => ?_⟩
  rw [h s x hs, ← linkPoly_eq_of_degree_lt (hd s)]
  refine congrArg (fun P : ℝ[X] => P.eval _) (linkPoly_congr fun k hk => ?_)
  exact (hV s k hk).symm

theorem link_continuous {n S : ℕ} (hn : 2 ≤ n) {Q : ℕ → ℝ[X]} {f : ℝ → ℝ} (hd : ∀ s, (Q s).degree < n) (h : OnSegments S Q f)
    (hm : ∀ s, (Q s).eval 1 = (Q (s + 1)).eval (-1)) : InFamily .continuous n S f := by
  obtain ⟨V, hV⟩ := lift_nodes (n := n) (by omega) true (fun s k => (Q s).eval (node n k)) (by
    intro _ s
    show (Q s).eval (node n (n - 1)) = (Q (s + 1)).eval (node n 0)
    rw [node_last hn, node_zero hn, hm])
  refine ⟨V, fun s x hs => ?_⟩
  rw [h s x hs, ← linkPoly_eq_of_degree_lt (hd s)]
  refine congrArg (fun P : ℝ[X] => P.eval _) (linkPoly_congr fun k hk => ?_)
  exact (hV s k hk).symm

/-- The inverse of the local coordinate. -/
noncomputable def globalPoly (S s : ℕ) : ℝ[X] := C (1 / (S : ℝ)) * X + C ((2 * (s : ℝ) + 1) / S - 1)

theorem globalPoly_degree (S s : ℕ) : (globalPoly S s).natDegree ≤ 1 := by
  unfold globalPoly; exact natDegree_linear_le

theorem globalPoly_eval {S : ℕ} (hS : 0 < S) (s : ℕ) (x : ℝ) : (globalPoly S s).eval (localCoord S s x) = x := by
  have : (S : ℝ) ≠ 0 := by positivity
  simp only [globalPoly, localCoord, eval_add, eval_mul, eval_C, eval_X]
  field_simp
  ring

theorem globalPoly_end {S : ℕ} (s : ℕ) : (globalPoly S s).eval 1 = (globalPoly S (s + 1)).eval (-1) := by
  simp only [globalPoly, eval_add, eval_mul, eval_C, eval_X, Nat.cast_add, Nat.cast_one]
  ring

/-- Polynomials of degree below `n` are links of all three families (with at least two nodes for the continuous one). -/
theorem link_poly (k : LinkFamily) {n S : ℕ} (hn : 2 ≤ n) (hS : 0 < S) (P : ℝ[X]) (hP : P.natDegree < n) : InFamily k n S fun x => P.eval x := by
  have deg : ∀ s, (P.comp (globalPoly S s)).degree < n := fun s => by
    refine lt_of_le_of_lt degree_le_natDegree (Nat.cast_lt.2 (lt_of_le_of_lt natDegree_comp_le ?_))
    have := globalPoly_degree S s
    calc P.natDegree * (globalPoly S s).natDegree ≤ P.natDegree * 1 := Nat.mul_le_mul_left _ this
      _ < n := by omega
  have on : OnSegments S (fun s => P.comp (globalPoly S s)) fun x => P.eval x := fun s x _ => by
    simp only [eval_comp, globalPoly_eval hS]
  cases k with
  | polynomial => exact ⟨P, lt_of_le_of_lt degree_le_natDegree (Nat.cast_lt.2 hP), fun _ => rfl⟩
  | continuous => exact link_continuous hn deg on fun s => by simp only [eval_comp, globalPoly_end]
  | discontinuous => exact link_discontinuous (by omega) deg on

/-- Affine functions are links as soon as there are two nodes. -/
theorem link_affine (k : LinkFamily) {n S : ℕ} (hn : 2 ≤ n) (hS : 0 < S) (a b : ℝ) : InFamily k n S fun x => a * x + b := by
  have := link_poly k hn hS (C a * X + C b) (lt_of_le_of_lt natDegree_linear_le (by omega))
  simpa using this

theorem link_square (k : LinkFamily) {n S : ℕ} (hn : 3 ≤ n) (hS : 0 < S) (a : ℝ) : InFamily k n S fun x => a * x ^ 2 := by
  have := link_poly k (n := n) (by omega) hS (C a * X ^ 2) (lt_of_le_of_lt (natDegree_C_mul_X_pow_le a 2) (by omega))
  simpa using this

/-- The distance to the first inner boundary, times a constant. -/
theorem link_abs {k : LinkFamily} (hk : k ≠ .polynomial) {n S : ℕ} (hn : 2 ≤ n) (hS : 2 ≤ S) (a : ℝ) :
    InFamily k n S fun x => a * |x - segLeft S 1| := by
  set Q : ℕ → ℝ[X] := fun s => if s = 0 then C a * (C (segLeft S 1) - globalPoly S 0) else C a * (globalPoly S s - C (segLeft S 1)) with hQ
  have hS' : (S : ℝ) ≠ 0 := by positivity
  have deg : ∀ s, (Q s).degree < n := fun s => by
    have h1 : (Q s).natDegree ≤ 1 := by
      rw [hQ]; dsimp only
      split
      · refine natDegree_C_mul_le _ _ |>.trans ((natDegree_sub_le _ _).trans ?_)
        have := globalPoly_degree S 0
        simp [this]
      · refine natDegree_C_mul_le _ _ |>.trans ((natDegree_sub_le _ _).trans ?_)
        have := globalPoly_degree S s
        simp [this]
    exact lt_of_le_of_lt degree_le_natDegree (Nat.cast_lt.2 (by omega))
  have on : OnSegments S Q fun x => a * |x - segLeft S 1| := fun s x hs => by
    obtain ⟨h1, h2, h3⟩ := hs
    rw [hQ]
    by_cases h0 : s = 0
    · subst h0
      have hx : x < segLeft S 1 := by
        rcases h3 with h | h
        · omega
        · exact h
      simp only [if_true, eval_mul, eval_C, eval_sub, globalPoly_eval (by omega : 0 < S)]
      rw [abs_of_neg (by linarith)]
      ring
    · have hx : segLeft S 1 ≤ x := by
        rcases h2 with h | h
        · omega
        · refine le_trans ?_ h
          unfold segLeft
          have : (1 : ℝ) ≤ s := by exact_mod_cast (by omega : 1 ≤ s)
          have hp : (0 : ℝ) < S := by positivity
          have : 2 * ((1 : ℕ) : ℝ) / S ≤ 2 * s / S := by
            apply div_le_div_of_nonneg_right _ hp.le
            push_cast; linarith
          linarith
      simp only [h0, if_false, eval_mul, eval_C, eval_sub, globalPoly_eval (by omega : 0 < S)]
      rw [abs_of_nonneg (by linarith)]
  cases k with
  | polynomial => exact absurd rfl hk
  | discontinuous => exact link_discontinuous (by omega) deg on
  | continuous =>
    refine link_continuous hn deg on fun s => ?_
    rw [hQ]
    by_cases h0 : s = 0
    · subst h0
      simp only [if_true, Nat.zero_add, one_ne_zero, if_false, eval_mul, eval_C, eval_sub, globalPoly, eval_add, eval_X, segLeft]
      push_cast
      field_simp
      ring
    · simp only [h0, if_false, Nat.succ_ne_zero, eval_mul, eval_C, eval_sub]
      rw [globalPoly_end]

/-- A step at zero. -/
theorem link_step {n S : ℕ} (hn : 0 < n) (hS : 0 < S) (he : Even S) (a b : ℝ) : InFamily .discontinuous n S fun x => if x < 0 then a else b := by
  obtain ⟨m, hm⟩ := he
  have hp : (0 : ℝ) < S := by positivity
  refine link_discontinuous (Q := fun s => if s < m then C a else C b) hn (fun s => ?_) fun s x hs => ?_
  · have : ∀ c : ℝ, (C c).degree < (n : WithBot ℕ) := fun c => lt_of_le_of_lt degree_C_le (by exact_mod_cast hn)
    split <;> exact this _
  · obtain ⟨h1, h2, h3⟩ := hs
    have cast : (S : ℝ) = 2 * m := by rw [hm]; push_cast; ring
    have seg : ∀ t : ℕ, segLeft S t = (2 * t - S) / S := fun t => by unfold segLeft; field_simp; ring
    by_cases h : s < m
    · have : x < 0 := by
        rcases h3 with h3 | h3
        · omega
        · refine lt_of_lt_of_le h3 ?_
          rw [seg]
          apply div_nonpos_of_nonpos_of_nonneg _ hp.le
          have : ((s + 1 : ℕ) : ℝ) ≤ m := by exact_mod_cast h
          rw [cast]; linarith
      simp [h, this]
    · have : ¬ x < 0 := by
        push Not
        rcases h2 with h2 | h2
        · omega
        · refine le_trans ?_ h2
          rw [seg]
          apply div_nonneg _ hp.le
          have : (m : ℝ) ≤ s := by exact_mod_cast (by omega : m ≤ s)
          rw [cast]; linarith
      simp [h, this]

/-! ## which links are simple -/

theorem poly_affine {P : ℝ[X]} (h : P.degree < (2 : ℕ)) : ∃ a b : ℝ, ∀ x, P.eval x = a * x + b := by
  have : P.degree ≤ 1 := (degree_le_iff_coeff_zero P 1).2 fun m hm =>
    coeff_eq_zero_of_degree_lt (lt_of_lt_of_le h (by have : 1 < m := by exact_mod_cast hm
                                                     exact_mod_cast (by omega : 2 ≤ m)))
  rw [eq_X_add_C_of_degree_le_one this]
  exact ⟨P.coeff 1, P.coeff 0, fun x => by simp⟩

theorem linkPoly_degree (n : ℕ) (v : ℕ → ℝ) : (linkPoly n v).degree < n := by
  have := Lagrange.degree_interpolate_lt (s := Finset.range n) v (node_injOn n)
  simpa [linkPoly] using this

/-- Links that are affine whatever the weights. -/
theorem affine_of_link {k : LinkFamily} {n S : ℕ} (hS : 0 < S) (hc : match k with
      | .polynomial => n ≤ 2
      | .continuous => n = 1 ∨ (n = 2 ∧ S = 1)
      | .discontinuous => n ≤ 2 ∧ S = 1) {f : ℝ → ℝ} (hf : InFamily k n S f) : ∃ a b : ℝ, ∀ x, f x = a * x + b := by
  have one : ∀ {v stride}, n ≤ 2 → S = 1 → IsPiecewisePoly n S stride v f → ∃ a b : ℝ, ∀ x, f x = a * x + b := by
    intro v stride h2 h1 hf
    obtain ⟨a, b, hab⟩ := poly_affine (P := linkPoly n fun k => v (0 * stride + k))
      (lt_of_lt_of_le (linkPoly_degree n _) (by exact_mod_cast h2))
    refine ⟨a, b, fun x => ?_⟩
    rw [hf 0 x ⟨by omega, Or.inl rfl, Or.inl (by omega)⟩, hab, h1]
    simp [localCoord]
  cases k with
  | polynomial =>
    obtain ⟨P, hP, hf⟩ := hf
    obtain ⟨a, b, hab⟩ := poly_affine (lt_of_lt_of_le hP (by exact_mod_cast hc))
    exact ⟨a, b, fun x => by rw [hf, hab]⟩
  | continuous =>
    obtain ⟨v, hf⟩ := hf
    rcases hc with hc | ⟨hc, h1⟩
    · refine ⟨0, v 0, fun x => ?_⟩
      obtain ⟨s, hs⟩ := isActive_exists hS x
      rw [hf s x hs, hc, linkPoly_one_eval]
      simp
    · exact one hc.le h1 hf
  | discontinuous =>
    obtain ⟨v, hf⟩ := hf
    exact one hc.1 hc.2 hf

/-- With one node and an odd number of segments a link is constant around zero. -/
theorem even_of_link {S : ℕ} (ho : ¬ Even S) {f : ℝ → ℝ} (hf : InFamily .discontinuous 1 S f) {x : ℝ} (hx : |x| < 1 / S) : f (-x) = f x := by
  obtain ⟨m, hm⟩ := Nat.not_even_iff_odd.1 ho
  obtain ⟨v, hf⟩ := hf
  have hp : (0 : ℝ) < S := by rw [hm]; positivity
  have cast : (S : ℝ) = 2 * m + 1 := by rw [hm]; push_cast; ring
  have act : ∀ y : ℝ, |y| < 1 / S → IsActive S m y := fun y hy => by
    obtain ⟨h1, h2⟩ := abs_lt.1 hy
    have e1 : segLeft S m = -(1 / S) := by unfold segLeft; field_simp; rw [cast]; ring
    have e2 : segLeft S (m + 1) = 1 / S := by unfold segLeft; push_cast; field_simp; rw [cast]; ring
    exact ⟨by omega, Or.inr (by rw [e1]; exact h1.le), Or.inr (by rw [e2]; exact h2)⟩
  rw [hf m x (act x hx), hf m (-x) (act (-x) (by rwa [abs_neg])), linkPoly_one_eval, linkPoly_one_eval]

end HOL
