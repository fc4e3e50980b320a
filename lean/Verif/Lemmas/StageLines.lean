import Verif.Spec.StepStages
import Verif.Props.StepLoss

/-! # Modules of convolutional networks along a line of parameters -/

namespace HOL
open TorchScalar Spec Filter GLayer

/-- The value of an entry. -/
noncomputable def entryValue (ps : List (Tensor ℝ)) (e : Entry) : ℝ := (ps.getD e.1 ⟨[], []⟩).get e.2

theorem mem_paramEntries {ps : List (Tensor ℝ)} {e : Entry} : e ∈ paramEntries ps ↔ ∃ p, ps[e.1]? = some p ∧ InShape p.shape e.2 := by
  unfold paramEntries
  rw [List.mem_flatMap]
  constructor
  · rintro ⟨k, hk, he⟩
    obtain ⟨idx, hi, rfl⟩ := List.mem_map.1 he
    obtain ⟨r, hr, rfl⟩ := List.mem_map.1 hi
    have hk' := List.mem_range.1 hk
    have hg : ps[k]? = some (ps.getD k ⟨[], []⟩) := by
      rw [List.getElem?_eq_getElem hk', List.getD_eq_getElem _ _ hk']
    exact ⟨_, hg, inShape_unravel (List.mem_range.1 hr)⟩
  · rintro ⟨p, hp, hin⟩
    have hk : e.1 < ps.length := (List.getElem?_eq_some_iff.1 hp).1
    have hg : ps.getD e.1 ⟨[], []⟩ = p := by rw [List.getD_eq_getElem?_getD, hp]; rfl
    refine ⟨e.1, List.mem_range.2 hk, ?_⟩
    rw [hg]
    exact List.mem_map.2 ⟨e.2, List.mem_map.2 ⟨ravel p.shape e.2, List.mem_range.2 (ravel_lt hin), unravel_ravel hin⟩, rfl⟩

theorem nodup_paramEntries (ps : List (Tensor ℝ)) : (paramEntries ps).Nodup := by
  unfold paramEntries
  refine List.nodup_flatMap.2 ⟨fun k _ => ?_, ?_⟩
  · refine List.Nodup.map (fun i j hij => (Prod.mk.inj hij).2) (List.Nodup.map_on (fun r hr r' hr' he => ?_) List.nodup_range)
    rw [← ravel_unravel (List.mem_range.1 hr), he, ravel_unravel (List.mem_range.1 hr')]
  · refine List.Pairwise.imp ?_ List.nodup_range
    intro k k' hne
    show List.Disjoint _ _
    intro e he he'
    obtain ⟨_, _, rfl⟩ := List.mem_map.1 he
    obtain ⟨_, _, h2⟩ := List.mem_map.1 he'
    exact hne (Prod.mk.inj h2).1.symm

theorem entryValue_eq {ps : List (Tensor ℝ)} {k : ℕ} {p : Tensor ℝ} (h : ps[k]? = some p) (idx : List ℕ) : entryValue ps (k, idx) = p.get idx := by
  unfold entryValue
  dsimp only
  rw [List.getD_eq_getElem?_getD, h]
  rfl

/-- The outputs of the module are sums of entries of its parameters times functions of the input. -/
structure LinearStage (s : NStage ℝ) (S T : List ℕ) (terms : (Fin (numel S) → ℝ) → Fin (numel T) → List (ℝ × Entry)) : Prop where
  has : ∀ Y r, ∀ c ∈ terms Y r, c.2 ∈ paramEntries s.params
  self : ∀ Y, s.forward (ofVec S Y) = .ok (ofVec T fun r => ((terms Y r).map fun c => c.1 * entryValue s.params c.2).sum)
  line : ∀ V t Y, (s.along V t).forward (ofVec S Y) = .ok (ofVec T fun r => ((terms Y r).map fun c => c.1 * (entryValue s.params c.2 + t * V c.2)).sum)
  one : ∀ k p idx u Y, s.params[k]? = some p → InShape p.shape idx →
    (s.setParam k (p.set idx u)).forward (ofVec S Y) = .ok (ofVec T fun r => ((terms Y r).map fun c => c.1 * (if c.2 = (k, idx) then u else entryValue s.params c.2)).sum)

/-- The module along a line of parameters. -/
structure StageLine (P : Picks ℝ) (s : NStage ℝ) (S T : List ℕ) (X : Fin (numel S) → ℝ) (V : Entry → ℝ) (Φ : ℝ → (Fin (numel S) → ℝ) → Fin (numel T) → ℝ)
    (A : (ℝ × (Fin (numel S) → ℝ)) →L[ℝ] Fin (numel T) → ℝ) : Prop where
  run : ∀ t Y, (s.along V t).forward (ofVec S Y) = .ok (ofVec T (Φ t Y))
  zero : ∀ Y, s.forward (ofVec S Y) = .ok (ofVec T (Φ 0 Y))
  still : (∀ e ∈ paramEntries s.params, V e = 0) → ∀ t Y, Φ t Y = Φ 0 Y
  deriv : HasFDerivAt (fun q : ℝ × (Fin (numel S) → ℝ) => Φ q.1 q.2) A (0, X)
  back : ∀ g : Tensor ℝ, g.shape = T → g.WF → ∃ gx gps, s.inputGrad P (ofVec S X) g = .ok gx ∧ s.paramGrads (ofVec S X) g = .ok gps ∧ gx.shape = S ∧ gx.WF ∧
    (∀ p : Fin (numel S), gx.get (unravel S p) = ∑ m : Fin (numel T), g.get (unravel T m) * A (0, Pi.single p 1) m) ∧
    ((paramEntries s.params).map fun e => V e * gradOf (fun j => gps[j]?) e).sum = ∑ m : Fin (numel T), g.get (unravel T m) * A (1, 0) m

theorem pairs_line (l : List (ℝ × Entry)) (v V : Entry → ℝ) (t : ℝ) :
    (l.map fun c => c.1 * (v c.2 + t * V c.2)).sum = (l.map fun c => c.1 * v c.2).sum + t * (l.map fun c => c.1 * V c.2).sum := by
  induction l with
  | nil => simp
  | cons c l ih =>
    simp only [List.map_cons, List.sum_cons]
    rw [ih]
    ring

theorem pairs_one (l : List (ℝ × Entry)) (v : Entry → ℝ) (e : Entry) (u : ℝ) :
    (l.map fun c => c.1 * (if c.2 = e then u else v c.2)).sum = (l.map fun c => if c.2 = e then 0 else c.1 * v c.2).sum + u * (l.map fun c => if c.2 = e then c.1 else 0).sum := by
  induction l with
  | nil => simp
  | cons c l ih =>
    simp only [List.map_cons, List.sum_cons]
    rw [ih]
    split <;> ring

theorem sum_pick {es : List Entry} (hn : es.Nodup) {e : Entry} (he : e ∈ es) (a : ℝ) (V : Entry → ℝ) : (es.map fun e' => V e' * (if e = e' then a else 0)).sum = a * V e := by
  induction es with
  | nil => cases he
  | cons e' es ih =>
    obtain ⟨hne, hn'⟩ := List.nodup_cons.1 hn
    simp only [List.map_cons, List.sum_cons]
    by_cases h : e = e'
    · subst h
      rw [if_pos rfl]
      have : (es.map fun e' => V e' * (if e = e' then a else 0)).sum = 0 := by
        refine List.sum_eq_zero fun x hx => ?_
        obtain ⟨e', h', rfl⟩ := List.mem_map.1 hx
        rw [if_neg (fun hc : e = e' => hne (hc ▸ h')), mul_zero]
      rw [this]
      ring
    · rw [if_neg h, ih hn' ((List.mem_cons.1 he).resolve_left h)]
      ring

theorem pairs_regroup {es : List Entry} (hn : es.Nodup) (l : List (ℝ × Entry)) (hl : ∀ c ∈ l, c.2 ∈ es) (V : Entry → ℝ) :
    (es.map fun e => V e * (l.map fun c => if c.2 = e then c.1 else 0).sum).sum = (l.map fun c => c.1 * V c.2).sum := by
  induction l with
  | nil => simp
  | cons c l ih =>
    have h1 : (es.map fun e => V e * ((c :: l).map fun c => if c.2 = e then c.1 else 0).sum).sum
        = (es.map fun e => V e * (if c.2 = e then c.1 else 0)).sum + (es.map fun e => V e * (l.map fun c => if c.2 = e then c.1 else 0).sum).sum := by
      rw [← List.sum_map_add]
      congr 1
      refine List.map_congr_left fun e _ => ?_
      rw [List.map_cons, List.sum_cons, mul_add]
    rw [h1, ih fun c' hc' => hl c' (List.mem_cons_of_mem _ hc'), sum_pick hn (hl c List.mem_cons_self), List.map_cons, List.sum_cons]

/-- Modules that are linear in their parameters. -/
theorem LinearStage.along_line {P : Picks ℝ} (hP : P.Valid) {s : NStage ℝ} {S T : List ℕ} {terms : (Fin (numel S) → ℝ) → Fin (numel T) → List (ℝ × Entry)} (L : LinearStage s S T terms)
    (h : s.Takes S T) (X : Fin (numel S) → ℝ) (hX : s.SmoothIn (ofVec S X)) (V : Entry → ℝ) (h1 : (s.along V 1).Takes S T) (hX1 : (s.along V 1).SmoothIn (ofVec S X)) :
    ∃ Φ A, StageLine P s S T X V Φ A := by
  obtain ⟨F, A, hF, hA, hB⟩ := stage_vec hP s h X hX
  obtain ⟨F1, A1, hF1, hA1, -⟩ := stage_vec hP (s.along V 1) h1 X hX1
  have eF : ∀ Y r, F Y r = ((terms Y r).map fun c => c.1 * entryValue s.params c.2).sum := fun Y r => congrFun (ofVec_inj (Except.ok.inj ((hF Y).symm.trans (L.self Y)))) r
  have eF1 : ∀ Y r, F1 Y r = F Y r + ((terms Y r).map fun c => c.1 * V c.2).sum := fun Y r => by
    rw [congrFun (ofVec_inj (Except.ok.inj ((hF1 Y).symm.trans (L.line V 1 Y)))) r, pairs_line, one_mul, eF]
  have hline : ∀ t Y, (s.along V t).forward (ofVec S Y) = .ok (ofVec T (F Y + t • (F1 Y - F Y))) := fun t Y => by
    rw [L.line]
    refine congrArg (fun v => Except.ok (ofVec T v)) ?_
    funext r
    rw [pairs_line]
    show _ = F Y r + t * (F1 Y r - F Y r)
    rw [eF1, ← eF]
    ring
  have hd : HasFDerivAt (fun q : ℝ × (Fin (numel S) → ℝ) => F q.2 + q.1 • (F1 q.2 - F q.2))
      (A.comp (ContinuousLinearMap.snd ℝ ℝ _) + ((0 : ℝ) • (A1.comp (ContinuousLinearMap.snd ℝ ℝ _) - A.comp (ContinuousLinearMap.snd ℝ ℝ _)) +
        (ContinuousLinearMap.fst ℝ ℝ (Fin (numel S) → ℝ)).smulRight (F1 X - F X))) (0, X) := by
    have d0 : HasFDerivAt (fun q : ℝ × (Fin (numel S) → ℝ) => F q.2) (A.comp (ContinuousLinearMap.snd ℝ ℝ _)) (0, X) := HasFDerivAt.comp (g := F) (0, X) hA hasFDerivAt_snd
    have d1 : HasFDerivAt (fun q : ℝ × (Fin (numel S) → ℝ) => F1 q.2) (A1.comp (ContinuousLinearMap.snd ℝ ℝ _)) (0, X) := HasFDerivAt.comp (g := F1) (0, X) hA1 hasFDerivAt_snd
    have df : HasFDerivAt (fun q : ℝ × (Fin (numel S) → ℝ) => q.1) (ContinuousLinearMap.fst ℝ ℝ _) ((0 : ℝ), X) := hasFDerivAt_fst
    exact d0.add (df.smul (d1.sub d0))
  refine ⟨fun t Y => F Y + t • (F1 Y - F Y), _, hline, fun Y => ?_, fun hz t Y => ?_, hd, fun g hs hw => ?_⟩
  · show _ = Except.ok (ofVec T (F Y + (0 : ℝ) • _))
    rw [zero_smul, add_zero]
    exact hF Y
  · have : F1 Y - F Y = 0 := by
      funext r
      show F1 Y r - F Y r = 0
      rw [eF1, add_sub_cancel_left]
      refine List.sum_eq_zero fun x hx => ?_
      obtain ⟨c, hc, rfl⟩ := List.mem_map.1 hx
      rw [hz _ (L.has Y r c hc), mul_zero]
    show F Y + t • (F1 Y - F Y) = F Y + (0 : ℝ) • (F1 Y - F Y)
    rw [this, smul_zero, smul_zero]
  · obtain ⟨gx, gps, e1, e2, s1, w1, x1, hpar⟩ := hB g hs hw
    refine ⟨gx, gps, e1, e2, s1, w1, fun p => ?_, ?_⟩
    · rw [x1 p]
      refine Finset.sum_congr rfl fun m _ => ?_
      show _ = _ * (A (Pi.single p 1) m + ((0 : ℝ) * _ + (0 : ℝ) * _))
      ring
    · have hright : ∀ m, (A.comp (ContinuousLinearMap.snd ℝ ℝ _) + ((0 : ℝ) • (A1.comp (ContinuousLinearMap.snd ℝ ℝ _) - A.comp (ContinuousLinearMap.snd ℝ ℝ _)) +
          (ContinuousLinearMap.fst ℝ ℝ (Fin (numel S) → ℝ)).smulRight (F1 X - F X))) ((1 : ℝ), (0 : Fin (numel S) → ℝ)) m = ((terms X m).map fun c => c.1 * V c.2).sum := by
        intro m
        show A 0 m + ((0 : ℝ) * _ + (1 : ℝ) * (F1 X m - F X m)) = _
        rw [map_zero, eF1]
        show (0 : ℝ) + _ = _
        ring
      simp only [hright]
      have hgrad : ∀ e ∈ paramEntries s.params, gradOf (fun j => gps[j]?) e = ∑ r : Fin (numel T), g.get (unravel T r) * ((terms X r).map fun c => if c.2 = e then c.1 else 0).sum := by
        intro e he
        obtain ⟨p, hp, hin⟩ := mem_paramEntries.1 he
        obtain ⟨gp, Q, q1, q2, q3, q4⟩ := hpar e.1 p e.2 hp hin
        have hQ : ∀ u r, Q u r = ((terms X r).map fun c => if c.2 = e then 0 else c.1 * entryValue s.params c.2).sum + u * ((terms X r).map fun c => if c.2 = e then c.1 else 0).sum := by
          intro u r
          rw [congrFun (ofVec_inj (Except.ok.inj ((q3 u).symm.trans (L.one e.1 p e.2 u X hp hin)))) r, ← pairs_one]
        have hd : HasDerivAt (fun u => ∑ r : Fin (numel T), g.get (unravel T r) * Q u r)
            (∑ r : Fin (numel T), g.get (unravel T r) * ((terms X r).map fun c => if c.2 = e then c.1 else 0).sum) (p.get e.2) := by
          refine HasDerivAt.fun_sum fun r _ => HasDerivAt.const_mul _ ?_
          simp only [hQ]
          have := ((hasDerivAt_id (p.get e.2)).mul_const ((terms X r).map fun c => if c.2 = e then c.1 else 0).sum).const_add
            ((terms X r).map fun c => if c.2 = e then 0 else c.1 * entryValue s.params c.2).sum
          rw [one_mul] at this
          exact this
        rw [← q4.unique hd]
        unfold gradOf
        dsimp only
        rw [q1]
        rfl
      have hswap : ∀ es : List Entry, (es.map fun e => V e * ∑ r : Fin (numel T), g.get (unravel T r) * ((terms X r).map fun c => if c.2 = e then c.1 else 0).sum).sum
          = ∑ r : Fin (numel T), g.get (unravel T r) * (es.map fun e => V e * ((terms X r).map fun c => if c.2 = e then c.1 else 0).sum).sum := by
        intro es
        induction es with
        | nil => simp
        | cons e es ih =>
          simp only [List.map_cons, List.sum_cons]
          rw [ih, Finset.mul_sum, ← Finset.sum_add_distrib]
          exact Finset.sum_congr rfl fun r _ => by ring
      rw [List.map_congr_left fun e he => by rw [hgrad e he], hswap]
      exact Finset.sum_congr rfl fun r _ => by rw [pairs_regroup (nodup_paramEntries _) _ (L.has X r)]

/-- Modules without parameters. -/
theorem fixed_line {P : Picks ℝ} (hP : P.Valid) {s : NStage ℝ} {S T : List ℕ} (h : s.Takes S T) (X : Fin (numel S) → ℝ) (hX : s.SmoothIn (ofVec S X)) (V : Entry → ℝ)
    (h0 : s.params = []) (h1 : ∀ t, s.along V t = s) : ∃ Φ A, StageLine P s S T X V Φ A := by
  obtain ⟨F, A, hF, hA, hB⟩ := stage_vec hP s h X hX
  refine ⟨fun _ => F, A.comp (ContinuousLinearMap.snd ℝ ℝ _), fun t Y => ?_, hF, fun _ _ _ => rfl, HasFDerivAt.comp (g := F) (0, X) hA hasFDerivAt_snd, fun g hs hw => ?_⟩
  · rw [h1]
    exact hF Y
  · obtain ⟨gx, gps, e1, e2, s1, w1, x1, -⟩ := hB g hs hw
    refine ⟨gx, gps, e1, e2, s1, w1, x1, ?_⟩
    rw [h0]
    show (0 : ℝ) = ∑ r : Fin (numel T), g.get (unravel T r) * A 0 r
    simp

theorem lineParam_get {p : Tensor ℝ} {t : ℝ} {V : List ℕ → ℝ} {idx : List ℕ} (h : InShape p.shape idx) : (lineParam t p V).get idx = p.get idx + t * V idx := by
  unfold lineParam
  rw [Tensor.get_tabulate h]

theorem set_get {p : Tensor ℝ} (hw : p.WF) {idx i : List ℕ} (hin : InShape p.shape idx) (hi : InShape p.shape i) (u : ℝ) : (p.set idx u).get i = if i = idx then u else p.get i := by
  by_cases h : i = idx
  · subst h
    rw [if_pos rfl, Tensor.get_set_self hw hi]
  · rw [if_neg h, Tensor.get_set_ne hin hi (Ne.symm h)]

theorem conv_linear (L : ConvLayer ℝ) {B C : ℕ} {R T : List ℕ} {r : Rank} (hst : L.Staged B C R T r) (hw : L.weight.WF) : ∃ terms, LinearStage (.base (.conv L)) (B :: C :: R) T terms := by
  refine ⟨fun Y m => (L.terms (B :: (C * L.expander.variables) :: R) (unravel T m)).map fun s =>
    (s.1.elim 0 (ofVec (B :: (C * L.expander.variables) :: R) (expandFn L.expander hst.fits.variables_pos B C R fun p => periodize L.periodicity (Y p))).get * L.rescale, (0, s.2)), ?_⟩
  have hval : ∀ idx, entryValue (NStage.base (.conv L)).params (0, idx) = L.weight.get idx := fun idx => entryValue_eq rfl idx
  have key : ∀ (w : Tensor ℝ) (Y : Fin (numel (B :: C :: R)) → ℝ) (θ : Entry → ℝ), (∀ idx, InShape L.weight.shape idx → w.get idx = θ (0, idx)) →
      L.vecFn hst w Y = fun m : Fin (numel T) => ((((L.terms (B :: (C * L.expander.variables) :: R) (unravel T m)).map fun s =>
        ((s.1.elim 0 (ofVec (B :: (C * L.expander.variables) :: R) (expandFn L.expander hst.fits.variables_pos B C R fun p => periodize L.periodicity (Y p))).get * L.rescale, (0, s.2)) : ℝ × Entry)).map
          fun c => c.1 * θ c.2)).sum := by
    intro w Y θ hθ
    funext m
    unfold ConvLayer.vecFn termsFn
    have hws := hst.weights (unravel T m) (inShape_unravel m.2)
    generalize L.terms (B :: (C * L.expander.variables) :: R) (unravel T m) = l at hws
    rw [sumL_real]
    induction l with
    | nil => simp
    | cons s l ih =>
      simp only [List.map_cons, List.sum_cons]
      rw [add_mul, ih fun s' hs' => hws s' (List.mem_cons_of_mem _ hs'), hθ s.2 (hws s List.mem_cons_self)]
      congr 1
      ring
  constructor
  · intro Y m c hc
    obtain ⟨s, hs, rfl⟩ := List.mem_map.1 hc
    exact mem_paramEntries.2 ⟨L.weight, rfl, hst.weights _ (inShape_unravel m.2) s hs⟩
  · intro Y
    rw [← key L.weight Y _ fun idx _ => (hval idx).symm]
    exact L.forward_vec hst L.weight rfl Y
  · intro V t Y
    rw [← key (lineParam t L.weight fun idx => V (0, idx)) Y (fun e => entryValue (NStage.base (.conv L)).params e + t * V e) fun idx hin => by rw [lineParam_get hin, hval]]
    exact L.forward_vec hst (lineParam t L.weight fun idx => V (0, idx)) rfl Y
  · intro k p idx u Y hk hin
    match k, hk with
    | 0, hk =>
      obtain rfl : L.weight = p := Option.some.inj hk
      rw [← key (L.weight.set idx u) Y (fun e => if e = (0, idx) then u else entryValue (NStage.base (.conv L)).params e) fun i hi => by
        rw [set_get hw hin hi, hval]
        by_cases h : i = idx
        · rw [if_pos h, if_pos (by rw [h])]
        · rw [if_neg h, if_neg fun hc => h (Prod.mk.inj hc).2]]
      exact L.forward_vec hst (L.weight.set idx u) rfl Y

theorem norm_linear (N : BatchNorm ℝ) (two training : Bool) (B C : ℕ) (R : List ℕ) (hR : NormAxes two R) (hn : training = true → B * numel R ≠ 1) :
    ∃ terms, LinearStage (.base (.norm two training C N)) (B :: C :: R) (B :: C :: R) terms := by
  refine ⟨fun Y m => [(vNorm N training (B :: C :: R) (chanSize B R) Y m, (0, [chanOf (B :: C :: R) m])), (1, (1, [chanOf (B :: C :: R) m]))], ?_⟩
  have v0 : ∀ i < C, entryValue (NStage.base (.norm two training C N)).params (0, [i]) = N.weight i := fun i hi => (entryValue_eq (p := Tensor.tab1 C N.weight) rfl [i]).trans (Tensor.get_tab1 hi)
  have v1 : ∀ i < C, entryValue (NStage.base (.norm two training C N)).params (1, [i]) = N.bias i := fun i hi => (entryValue_eq (p := Tensor.tab1 C N.bias) rfl [i]).trans (Tensor.get_tab1 hi)
  have same : ∀ (w b : ℕ → ℝ), vNorm { N with weight := w, bias := b } training (B :: C :: R) (chanSize B R) = vNorm N training (B :: C :: R) (chanSize B R) := fun w b => rfl
  constructor
  · intro Y m c hc
    rcases List.mem_cons.1 hc with rfl | hc
    · exact mem_paramEntries.2 ⟨_, rfl, inShape1.2 (chanOf_lt m)⟩
    · rw [List.mem_singleton.1 hc]
      exact mem_paramEntries.2 ⟨_, rfl, inShape1.2 (chanOf_lt m)⟩
  · intro Y
    refine (norm_vec N two training C B C R hR hn Y).trans ?_
    refine congrArg (fun v => Except.ok (ofVec (B :: C :: R) v)) ?_
    funext m
    simp only [List.map_cons, List.map_nil, List.sum_cons, List.sum_nil]
    rw [v0 _ (chanOf_lt m), v1 _ (chanOf_lt m)]
    ring
  · intro V t Y
    refine (norm_vec { N with weight := fun i => N.weight i + t * V (0, [i]), bias := fun i => N.bias i + t * V (1, [i]) } two training C B C R hR hn Y).trans ?_
    refine congrArg (fun v => Except.ok (ofVec (B :: C :: R) v)) ?_
    funext m
    simp only [List.map_cons, List.map_nil, List.sum_cons, List.sum_nil]
    rw [v0 _ (chanOf_lt m), v1 _ (chanOf_lt m), same]
    ring
  · intro k p idx u Y hk hin
    match k, hk with
    | 0, hk =>
      obtain rfl : Tensor.tab1 C N.weight = p := Option.some.inj hk
      obtain ⟨c, rfl, hc⟩ := inShape1_exists hin
      refine (norm_vec { N with weight := fun i => ((Tensor.tab1 C N.weight).set [c] u).get [i] } two training C B C R hR hn Y).trans ?_
      refine congrArg (fun v => Except.ok (ofVec (B :: C :: R) v)) ?_
      funext m
      simp only [List.map_cons, List.map_nil, List.sum_cons, List.sum_nil]
      rw [v0 _ (chanOf_lt m), v1 _ (chanOf_lt m), show vNorm { N with weight := fun i => ((Tensor.tab1 C N.weight).set [c] u).get [i] } training (B :: C :: R) (chanSize B R) = vNorm N training (B :: C :: R) (chanSize B R) from rfl,
        set_get (Tensor.wf_tab1 _ _) hin (inShape1.2 (chanOf_lt m)), Tensor.get_tab1 (chanOf_lt m)]
      simp
    | 1, hk =>
      obtain rfl : Tensor.tab1 C N.bias = p := Option.some.inj hk
      obtain ⟨c, rfl, hc⟩ := inShape1_exists hin
      refine (norm_vec { N with bias := fun i => ((Tensor.tab1 C N.bias).set [c] u).get [i] } two training C B C R hR hn Y).trans ?_
      refine congrArg (fun v => Except.ok (ofVec (B :: C :: R) v)) ?_
      funext m
      simp only [List.map_cons, List.map_nil, List.sum_cons, List.sum_nil]
      rw [v0 _ (chanOf_lt m), v1 _ (chanOf_lt m), show vNorm { N with bias := fun i => ((Tensor.tab1 C N.bias).set [c] u).get [i] } training (B :: C :: R) (chanSize B R) = vNorm N training (B :: C :: R) (chanSize B R) from rfl,
        set_get (Tensor.wf_tab1 _ _) hin (inShape1.2 (chanOf_lt m)), Tensor.get_tab1 (chanOf_lt m)]
      simp

theorem layerNorm_linear {S : List ℕ} {n : ℕ} (hl : S.getLast? = some n) (M : LazyLayerNorm ℝ) {w : Tensor ℝ} (hw : M.weight = some w) (hws : w.shape = [n]) (hwf : w.WF) (hb : ∀ b ∈ M.bias, b.shape = [n] ∧ b.WF) :
    ∃ terms, LinearStage (.norm (.layerNorm M)) S S terms := by
  have hd : S.length - 1 < S.length := by
    cases S with
    | nil => cases hl
    | cons a S => simp
  have hn : S.getD (S.length - 1) 0 = n := by
    rw [List.getLast?_eq_getElem?] at hl
    rw [List.getD_eq_getElem?_getD, hl]
    rfl
  have hpar : (NStage.norm (.layerNorm M)).params = [w] ++ M.bias.toList := by
    show M.weight.toList ++ _ = _
    rw [hw]
    rfl
  refine ⟨fun Y m => (hatLine defaultEps (lineOf hn Y m) (placeOf hn hd m), (0, [(placeOf hn hd m : ℕ)])) :: M.bias.toList.map fun _ => (1, (1, [(placeOf hn hd m : ℕ)])), ?_⟩
  have run : ∀ (w' : Tensor ℝ) (b' : Option (Tensor ℝ)) (Y : Fin (numel S) → ℝ), w'.shape = [n] → (NormModule.layerNorm { M with weight := some w', bias := b' }).apply (ofVec S Y)
      = .ok (ofVec S fun p => hatLine defaultEps (lineOf hn Y p) (placeOf hn hd p) * w'.get [(placeOf hn hd p : ℕ)] + b'.elim 0 fun b => b.get [(placeOf hn hd p : ℕ)]) := fun w' b' Y hs =>
    (layerNorm_apply (M := { M with weight := some w', bias := b' }) rfl _).trans (layerNorm_vec hn hd rfl hs b' defaultEps Y)
  have hself : (NormModule.layerNorm M) = .layerNorm { M with weight := some w, bias := M.bias } := by rw [← hw]
  have v0 : ∀ i, entryValue (NStage.norm (.layerNorm M)).params (0, i) = w.get i := fun i => by
    rw [hpar]
    exact entryValue_eq rfl i
  have hin : ∀ m, InShape w.shape [(placeOf hn hd m : ℕ)] := fun m => by
    rw [hws]
    exact inShape1.2 (placeOf hn hd m).2
  cases hbias : M.bias with
  | none =>
    rw [hbias] at hpar
    constructor
    · intro Y m c hc
      obtain rfl : c = _ := List.mem_singleton.1 hc
      rw [hpar]
      exact mem_paramEntries.2 ⟨w, rfl, hin m⟩
    · intro Y
      have hs' : NormModule.layerNorm M = .layerNorm { M with weight := some w, bias := none } := by rw [← hw, ← hbias]
      refine (congrArg (fun N => NormModule.apply N (ofVec S Y)) hs').trans ((run w none Y hws).trans ?_)
      refine congrArg (fun v => Except.ok (ofVec S v)) ?_
      funext m
      simp [v0]
    · intro V t Y
      have hs' : (NormModule.layerNorm M).along V t = .layerNorm { M with weight := some (lineParam t w fun idx => V (0, idx)), bias := none } := by
        unfold NormModule.along
        dsimp only
        rw [hw, hbias]
        rfl
      refine (congrArg (fun N => NormModule.apply N (ofVec S Y)) hs').trans ((run (lineParam t w fun idx => V (0, idx)) none Y hws).trans ?_)
      refine congrArg (fun v => Except.ok (ofVec S v)) ?_
      funext m
      rw [lineParam_get (hin m)]
      simp [v0]
    · intro k p idx u Y hk hi
      rw [hpar] at hk
      match k, hk with
      | 0, hk =>
        obtain rfl : w = p := Option.some.inj hk
        have hs' : NormModule.layerNorm { M with weight := some (w.set idx u) } = .layerNorm { M with weight := some (w.set idx u), bias := none } := by rw [← hbias]
        refine (congrArg (fun N => NormModule.apply N (ofVec S Y)) hs').trans ((run (w.set idx u) none Y hws).trans ?_)
        refine congrArg (fun v => Except.ok (ofVec S v)) ?_
        funext m
        rw [set_get hwf hi (hin m)]
        simp [v0]
  | some b =>
    obtain ⟨hbs, hbw⟩ := hb b hbias
    rw [hbias] at hpar
    have v1 : ∀ i, entryValue (NStage.norm (.layerNorm M)).params (1, i) = b.get i := fun i => by
      rw [hpar]
      exact entryValue_eq rfl i
    have hinb : ∀ m, InShape b.shape [(placeOf hn hd m : ℕ)] := fun m => by
      rw [hbs]
      exact inShape1.2 (placeOf hn hd m).2
    constructor
    · intro Y m c hc
      rw [hpar]
      rcases List.mem_cons.1 hc with rfl | hc
      · exact mem_paramEntries.2 ⟨w, rfl, hin m⟩
      · obtain rfl : c = _ := List.mem_singleton.1 hc
        exact mem_paramEntries.2 ⟨b, rfl, hinb m⟩
    · intro Y
      have hs' : NormModule.layerNorm M = .layerNorm { M with weight := some w, bias := (some b) } := by rw [← hw, ← hbias]
      refine (congrArg (fun N => NormModule.apply N (ofVec S Y)) hs').trans ((run w (some b) Y hws).trans ?_)
      refine congrArg (fun v => Except.ok (ofVec S v)) ?_
      funext m
      simp [v0, v1]
    · intro V t Y
      have hs' : (NormModule.layerNorm M).along V t = .layerNorm { M with weight := some (lineParam t w fun idx => V (0, idx)), bias := some (lineParam t b fun idx => V (1, idx)) } := by
        unfold NormModule.along
        dsimp only
        rw [hw, hbias]
        rfl
      refine (congrArg (fun N => NormModule.apply N (ofVec S Y)) hs').trans ((run (lineParam t w fun idx => V (0, idx)) (some (lineParam t b fun idx => V (1, idx))) Y hws).trans ?_)
      refine congrArg (fun v => Except.ok (ofVec S v)) ?_
      funext m
      rw [lineParam_get (hin m), Option.elim, lineParam_get (hinb m)]
      simp [v0, v1]
    · intro k p idx u Y hk hi
      rw [hpar] at hk
      match k, hk with
      | 0, hk =>
        obtain rfl : w = p := Option.some.inj hk
        have hs' : NormModule.layerNorm { M with weight := some (w.set idx u) } = .layerNorm { M with weight := some (w.set idx u), bias := some b } := by rw [← hbias]
        refine (congrArg (fun N => NormModule.apply N (ofVec S Y)) hs').trans ((run (w.set idx u) (some b) Y hws).trans ?_)
        refine congrArg (fun v => Except.ok (ofVec S v)) ?_
        funext m
        rw [set_get hwf hi (hin m)]
        simp [v0, v1]
      | 1, hk =>
        obtain rfl : b = p := Option.some.inj hk
        have hs' : NormModule.layerNorm { M with bias := some (b.set idx u) } = .layerNorm { M with weight := some w, bias := some (b.set idx u) } := by rw [← hw]
        refine (congrArg (fun N => NormModule.apply N (ofVec S Y)) hs').trans ((run w (some (b.set idx u)) Y hws).trans ?_)
        refine congrArg (fun v => Except.ok (ofVec S v)) ?_
        funext m
        rw [Option.elim, set_get hbw hi (hinb m)]
        simp [v0, v1]

end HOL
