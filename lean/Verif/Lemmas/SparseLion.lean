import Verif.Model.SparseLion

/-! # The sparse optimizer entry by entry -/

namespace HOL
open TorchScalar

section lists
variable {α β γ : Type}

theorem maskSelect_map (f : α → β) : ∀ (m : List Bool) (d : List α),
    maskSelect m (d.map f) = (maskSelect m d).map f
  | [], _ => by simp [maskSelect]
  | true :: m, [] => by simp [maskSelect]
  | false :: m, [] => by simp [maskSelect]
  | true :: m, a :: d => by simp [maskSelect, maskSelect_map f m d]
  | false :: m, a :: d => by simp [maskSelect, maskSelect_map f m d]

theorem maskSelect_zipWith (f : α → β → γ) : ∀ (m : List Bool) (a : List α) (b : List β),
    a.length = b.length →
    maskSelect m (List.zipWith f a b) = List.zipWith f (maskSelect m a) (maskSelect m b)
  | [], _, _, _ => by simp [maskSelect]
  | true :: m, [], [], _ => by simp [maskSelect]
  | false :: m, [], [], _ => by simp [maskSelect]
  | true :: m, a :: as, b :: bs, h => by
    simp [maskSelect, maskSelect_zipWith f m as bs (by simpa using h)]
  | false :: m, a :: as, b :: bs, h => by
    simp [maskSelect, maskSelect_zipWith f m as bs (by simpa using h)]
  | true :: _, [], _ :: _, h => by simp at h
  | true :: _, _ :: _, [], h => by simp at h
  | false :: _, [], _ :: _, h => by simp at h
  | false :: _, _ :: _, [], h => by simp at h

/-- Assigning the selection of `v` replaces exactly the masked entries by those of `v`. -/
theorem maskAssign_select : ∀ (m : List Bool) (d v : List α), m.length = d.length → v.length = d.length →
    maskAssign m d (maskSelect m v)
      = List.zipWith (fun (b : Bool) (p : α × α) => if b then p.2 else p.1) m (d.zip v)
  | [], [], [], _, _ => rfl
  | true :: m, a :: d, w :: v, h1, h2 => by
    simp [maskSelect, maskAssign, maskAssign_select m d v (by simpa using h1) (by simpa using h2)]
  | false :: m, a :: d, w :: v, h1, h2 => by
    simp [maskSelect, maskAssign, maskAssign_select m d v (by simpa using h1) (by simpa using h2)]
  | [], _ :: _, _, h, _ => by simp at h
  | _ :: _, [], _, h, _ => by simp at h
  | [], [], _ :: _, _, h => by simp at h
  | _ :: _, _ :: _, [], _, h => by simp at h

theorem mapM_ok {ε : Type} {f : α → Except ε β} {g : α → β} : ∀ {l : List α}, (∀ a ∈ l, f a = .ok (g a)) →
    l.mapM f = .ok (l.map g)
  | [], _ => rfl
  | a :: l, h => by
    rw [List.mapM_cons, h a (by simp), mapM_ok (l := l) fun b hb => h b (by simp [hb])]
    rfl

end lists

section
set_option linter.unusedSectionVars false
variable {K : Type} [TorchScalar K]

/-- New value of a parameter entry. -/
def lionData (lr beta1 d m g : K) : K :=
  if eqB g 0 then d else d + (-lr) * sign (m * beta1 + (1 - beta1) * g)

/-- New value of a momentum entry. -/
def lionMom (beta2 m g : K) : K := if eqB g 0 then m else m * beta2 + (1 - beta2) * g

/-- `update_fn` entry by entry. -/
theorem updateFn_eq (p grad e : Tensor K) (lr wd b1 b2 : K) (hp : p.WF) (hg : grad.WF) (he : e.WF)
    (hgs : grad.shape = p.shape) (hes : e.shape = p.shape) :
    updateFn p grad e lr wd b1 b2 (grad.map fun g => !eqB g 0)
      = .ok (Tensor.tabulate p.shape fun idx => lionData lr b1 (p.get idx) (e.get idx) (grad.get idx),
          Tensor.tabulate p.shape fun idx => lionMom b2 (e.get idx) (grad.get idx)) := by
  have lg : grad.data.length = p.data.length := by rw [hg, hp, hgs]
  have le : e.data.length = p.data.length := by rw [he, hp, hes]
  have hmask : (grad.map fun g => !eqB g 0).shape = p.shape := hgs
  unfold updateFn Tensor.maskGet Tensor.maskSet
  simp only [hmask, hgs, hes, if_true, bind, Except.bind, pure, Except.pure, addAlpha]
  have key : ∀ (d v : List K) (f : List ℕ → K), d.length = p.data.length → v.length = p.data.length →
      (∀ q < p.data.length, f (unravel p.shape q) = if !eqB (grad.data.getD q 0) 0 then v.getD q 0
        else d.getD q 0) →
      maskAssign (grad.data.map fun g => !eqB g 0) d (maskSelect (grad.data.map fun g => !eqB g 0) v)
        = (Tensor.tabulate p.shape f).data := by
    intro d v f hd hv hf
    rw [maskAssign_select _ _ _ (by simp [lg, hd]) (by rw [hv, hd])]
    apply List.ext_getElem
    · simp [lg, hd, hv, ← hp.symm]
    · intro q h1 h2
      have hq : q < p.data.length := by simpa [← hp.symm] using h2
      have hq1 : q < grad.data.length := by omega
      have hq2 : q < d.length := by omega
      have hq3 : q < v.length := by omega
      simp only [Tensor.tabulate, List.getElem_map, List.getElem_range, List.getElem_zipWith, List.getElem_zip]
      rw [hf q hq]
      simp [List.getD_eq_getElem?_getD, List.getElem?_eq_getElem hq1, List.getElem?_eq_getElem hq2,
        List.getElem?_eq_getElem hq3]
  have hget : ∀ (t : Tensor K), t.shape = p.shape → ∀ q < p.data.length,
      t.get (unravel p.shape q) = t.data.getD q 0 := by
    intro t ht q hq
    unfold Tensor.get
    rw [ht, ravel_unravel (by rw [← hp]; exact hq)]
  congr 1
  refine Prod.ext ?_ ?_
  · show Tensor.mk _ _ = _
    congr 1
    simp only [Tensor.map]
    rw [← maskSelect_map, ← maskSelect_zipWith _ _ _ _ (by simp [lg, le]), ← maskSelect_map,
      ← maskSelect_zipWith _ _ _ _ (by simp [lg, le])]
    refine key _ _ (fun idx => lionData lr b1 (p.get idx) (e.get idx) (grad.get idx)) rfl ?_ ?_
    · simp [lg, le]
    intro q hq
    rw [hget p rfl q hq, hget e hes q hq, hget grad hgs q hq]
    unfold lionData
    have hq1 : q < grad.data.length := by omega
    have hq2 : q < e.data.length := by omega
    simp only [List.getD_eq_getElem?_getD, List.getElem?_zipWith, List.getElem?_map,
      List.getElem?_eq_getElem hq1, List.getElem?_eq_getElem hq2, List.getElem?_eq_getElem hq, Option.map_some,
      Option.getD_some]
    cases eqB grad.data[q] 0 <;> simp
  · show Tensor.mk _ _ = _
    congr 1
    simp only [Tensor.map]
    rw [← maskSelect_map, ← maskSelect_zipWith _ _ _ _ (by simp [lg, le])]
    refine key _ _ (fun idx => lionMom b2 (e.get idx) (grad.get idx)) le ?_ ?_
    · simp [lg, le]
    intro q hq
    rw [hget e hes q hq, hget grad hgs q hq]
    unfold lionMom
    have hq1 : q < grad.data.length := by omega
    have hq2 : q < e.data.length := by omega
    simp only [List.getD_eq_getElem?_getD, List.getElem?_zipWith, List.getElem?_map,
      List.getElem?_eq_getElem hq1, List.getElem?_eq_getElem hq2, Option.map_some,
      Option.getD_some]
    cases eqB grad.data[q] 0 <;> simp

/-- The momentum of a parameter, zero before the first step. -/
def LionParam.mom (p : LionParam K) : Tensor K :=
  match p.expAvg with
  | none => Tensor.tabulate p.data.shape fun _ => 0
  | some e => e

/-- Well formed parameter: gradient and momentum have the shape of the data. -/
structure LionParam.WF (p : LionParam K) : Prop where
  data : p.data.WF
  grad : ∀ g, p.grad = some g → g.WF ∧ g.shape = p.data.shape
  expAvg : ∀ e, p.expAvg = some e → e.WF ∧ e.shape = p.data.shape

theorem LionParam.WF.mom {p : LionParam K} (h : p.WF) : p.mom.WF ∧ p.mom.shape = p.data.shape := by
  unfold LionParam.mom
  cases he : p.expAvg with
  | none => exact ⟨Tensor.wf_tabulate _ _, rfl⟩
  | some e => exact h.expAvg e he

/-- The parameter after a step. -/
def LionParam.next (lr beta1 beta2 : K) (p : LionParam K) : LionParam K :=
  match p.grad with
  | none => p
  | some g =>
    ⟨Tensor.tabulate p.data.shape fun idx => lionData lr beta1 (p.data.get idx) (p.mom.get idx) (g.get idx),
      p.grad, some (Tensor.tabulate p.data.shape fun idx => lionMom beta2 (p.mom.get idx) (g.get idx))⟩

theorem stepParam_eq (lr wd beta1 beta2 : K) (p : LionParam K) (h : p.WF) :
    stepParam lr wd beta1 beta2 p = .ok (p.next lr beta1 beta2) := by
  unfold stepParam LionParam.next
  cases hg : p.grad with
  | none => rfl
  | some g =>
    obtain ⟨hgw, hgs⟩ := h.grad g hg
    obtain ⟨hmw, hms⟩ := h.mom
    have := updateFn_eq p.data g p.mom lr wd beta1 beta2 h.data hgw hmw hgs hms
    change Except.bind (updateFn p.data g p.mom lr wd beta1 beta2 (g.map fun g => !eqB g 0)) _ = _
    rw [this]
    rfl

theorem LionParam.WF.next {p : LionParam K} (h : p.WF) (lr beta1 beta2 : K) :
    (p.next lr beta1 beta2).WF ∧ (p.next lr beta1 beta2).data.shape = p.data.shape := by
  unfold LionParam.next
  cases hg : p.grad with
  | none => exact ⟨h, rfl⟩
  | some g =>
    refine ⟨⟨Tensor.wf_tabulate _ _, ?_, ?_⟩, rfl⟩
    · intro g' hg'
      exact h.grad g' (by rw [hg]; exact hg')
    · rintro e he
      cases he
      exact ⟨Tensor.wf_tabulate _ _, rfl⟩

/-- Well formed optimizer state. -/
def LionWF (s : List (LionGroup K)) : Prop := ∀ g ∈ s, ∀ p ∈ g.params, p.WF

/-- `step` as a map over the parameters. -/
theorem sparseLionStep_eq (s : List (LionGroup K)) (h : LionWF s) :
    sparseLionStep s = .ok (s.map fun g =>
      { g with params := g.params.map (LionParam.next g.lr g.beta1 g.beta2) }) := by
  unfold sparseLionStep
  apply mapM_ok
  intro g hg
  rw [mapM_ok (g := LionParam.next g.lr g.beta1 g.beta2) fun p hp => stepParam_eq _ _ _ _ p (h g hg p hp)]
  rfl

/-- The gradient assignment fits the parameters. -/
def GradsFit (s : List (LionGroup K)) (gr : ℕ → ℕ → Option (Tensor K)) : Prop :=
  ∀ gi g, s[gi]? = some g → ∀ pi p, g.params[pi]? = some p → ∀ t, gr gi pi = some t →
    t.WF ∧ t.shape = p.data.shape

theorem lionWF_setGrads {s : List (LionGroup K)} (h : LionWF s) {gr : ℕ → ℕ → Option (Tensor K)}
    (hgr : GradsFit s gr) : LionWF (setGrads gr s) := by
  intro g hg p hp
  unfold setGrads at hg
  obtain ⟨gi, hgi, rfl⟩ := List.mem_mapIdx.1 hg
  obtain ⟨pi, hpi, rfl⟩ := List.mem_mapIdx.1 hp
  have hp' := h _ (List.getElem_mem hgi) _ (List.getElem_mem hpi)
  exact ⟨hp'.data, fun t ht => hgr gi _ (List.getElem?_eq_getElem hgi) pi _ (List.getElem?_eq_getElem hpi) t ht,
    hp'.expAvg⟩

/-- Entry of a gradient, read as exactly zero when the parameter has no gradient. -/
def gradEntry (gr : ℕ → ℕ → Option (Tensor K)) (gi pi : ℕ) (idx : List ℕ) : Option K :=
  (gr gi pi).map fun t => t.get idx

/-- One step on the pair (parameter entry, momentum entry). -/
def lionEntry (lr beta1 beta2 : K) (s : K × K) : Option K → K × K
  | none => s
  | some g => (lionData lr beta1 s.1 s.2 g, lionMom beta2 s.2 g)

/-- State after a backward pass and a step. -/
def lionNext (gr : ℕ → ℕ → Option (Tensor K)) (s : List (LionGroup K)) : List (LionGroup K) :=
  (setGrads gr s).map fun g => { g with params := g.params.map (LionParam.next g.lr g.beta1 g.beta2) }

theorem lionNext_get {s : List (LionGroup K)} {gr : ℕ → ℕ → Option (Tensor K)} {gi pi : ℕ} {g : LionGroup K}
    {p : LionParam K} (hg : s[gi]? = some g) (hp : g.params[pi]? = some p) :
    ∃ g', (lionNext gr s)[gi]? = some g' ∧ g'.lr = g.lr ∧ g'.beta1 = g.beta1 ∧ g'.beta2 = g.beta2 ∧
      g'.wd = g.wd ∧
      g'.params[pi]? = some (LionParam.next g.lr g.beta1 g.beta2 { p with grad := gr gi pi }) := by
  unfold lionNext setGrads
  refine ⟨⟨g.lr, g.wd, g.beta1, g.beta2, (g.params.mapIdx fun pi p => { p with grad := gr gi pi }).map
      (LionParam.next g.lr g.beta1 g.beta2)⟩, ?_, rfl, rfl, rfl, rfl, ?_⟩
  · rw [List.getElem?_map, List.getElem?_mapIdx, hg]; rfl
  · simp [hp]

theorem lionNext_get_inv {s : List (LionGroup K)} {gr : ℕ → ℕ → Option (Tensor K)} {gi pi : ℕ}
    {g' : LionGroup K} {p' : LionParam K} (hg : (lionNext gr s)[gi]? = some g') (hp : g'.params[pi]? = some p') :
    ∃ g p, s[gi]? = some g ∧ g.params[pi]? = some p ∧
      p' = LionParam.next g.lr g.beta1 g.beta2 { p with grad := gr gi pi } := by
  unfold lionNext setGrads at hg
  rw [List.getElem?_map, List.getElem?_mapIdx] at hg
  cases hs : s[gi]? with
  | none => rw [hs] at hg; simp at hg
  | some g =>
    rw [hs] at hg
    simp only [Option.map_some, Option.some.injEq] at hg
    subst hg
    simp only [List.getElem?_map, List.getElem?_mapIdx] at hp
    cases hq : g.params[pi]? with
    | none => rw [hq] at hp; simp at hp
    | some p =>
      rw [hq] at hp
      simp only [Option.map_some, Option.some.injEq] at hp
      exact ⟨g, p, rfl, hq, hp.symm⟩

theorem lionNext_wf {s : List (LionGroup K)} (h : LionWF s) {gr : ℕ → ℕ → Option (Tensor K)}
    (hgr : GradsFit s gr) : LionWF (lionNext gr s) := by
  intro g hg p hp
  unfold lionNext at hg
  obtain ⟨g0, hg0, rfl⟩ := List.mem_map.1 hg
  obtain ⟨p0, hp0, rfl⟩ := List.mem_map.1 hp
  exact ((lionWF_setGrads h hgr g0 hg0 p0 hp0).next _ _ _).1

theorem gradsFit_next {s : List (LionGroup K)} {gr gr' : ℕ → ℕ → Option (Tensor K)} (h : LionWF s)
    (hgr : GradsFit s gr) (hgr' : GradsFit s gr') : GradsFit (lionNext gr s) gr' := by
  intro gi g' hg' pi p' hp' t ht
  obtain ⟨g, p, hg, hp, rfl⟩ := lionNext_get_inv hg' hp'
  obtain ⟨h1, h2⟩ := hgr' gi g hg pi p hp t ht
  refine ⟨h1, h2.trans ?_⟩
  have hpw : LionParam.WF { p with grad := gr gi pi } := by
    have := h g (List.mem_of_getElem? hg) p (List.mem_of_getElem? hp)
    exact ⟨this.data, fun t ht => hgr gi g hg pi p hp t ht, this.expAvg⟩
  exact (hpw.next g.lr g.beta1 g.beta2).2.symm

/-- **The history lemma.** A training history never raises, keeps the options and the shapes, and acts on every
entry as the fold of `lionEntry` over the gradients of that entry. -/
theorem sparseLionRun_entry : ∀ (hist : List (ℕ → ℕ → Option (Tensor K))) (s : List (LionGroup K)),
    LionWF s → (∀ gr ∈ hist, GradsFit s gr) →
    ∃ s', sparseLionRun s hist = .ok s' ∧
      ∀ gi g, s[gi]? = some g → ∀ pi p, g.params[pi]? = some p →
        ∃ g' p', s'[gi]? = some g' ∧ g'.params[pi]? = some p' ∧ p'.data.shape = p.data.shape ∧
          ∀ idx, InShape p.data.shape idx →
            (p'.data.get idx, p'.mom.get idx)
              = (hist.map fun gr => gradEntry gr gi pi idx).foldl (lionEntry g.lr g.beta1 g.beta2)
                  (p.data.get idx, p.mom.get idx)
  | [], s, _, _ => ⟨s, rfl, fun gi g hg pi p hp => ⟨g, p, hg, hp, rfl, fun _ _ => rfl⟩⟩
  | gr :: hist, s, hs, hh => by
    have hgr := hh gr (by simp)
    obtain ⟨s', h1, h2⟩ := sparseLionRun_entry hist (lionNext gr s) (lionNext_wf hs hgr)
      fun gr' hgr' => gradsFit_next hs hgr (hh gr' (by simp [hgr']))
    refine ⟨s', ?_, ?_⟩
    · unfold sparseLionRun
      rw [sparseLionStep_eq _ (lionWF_setGrads hs hgr)]
      exact h1
    · intro gi g hg pi p hp
      obtain ⟨g1, hg1, e1, e2, e3, _, hp1⟩ := lionNext_get (gr := gr) hg hp
      obtain ⟨g', p', hg', hp', hsh, hent⟩ := h2 gi g1 hg1 pi _ hp1
      have hpw : LionParam.WF { p with grad := gr gi pi } := by
        have := hs g (List.mem_of_getElem? hg) p (List.mem_of_getElem? hp)
        exact ⟨this.data, fun t ht => hgr gi g hg pi p hp t ht, this.expAvg⟩
      have hshape := (hpw.next g.lr g.beta1 g.beta2).2
      refine ⟨g', p', hg', hp', hsh.trans hshape, ?_⟩
      intro idx hidx
      rw [hent idx (by rw [hshape]; exact hidx), e1, e2, e3, List.map_cons, List.foldl_cons]
      congr 1
      unfold LionParam.next gradEntry
      cases hq : gr gi pi with
      | none => rfl
      | some t =>
        refine Prod.ext ?_ ?_
        · exact Tensor.get_tabulate hidx
        · exact Tensor.get_tabulate hidx

/-- Histories keep states well formed. -/
theorem sparseLionRun_wf : ∀ (hist : List (ℕ → ℕ → Option (Tensor K))) (s s' : List (LionGroup K)),
    LionWF s → (∀ gr ∈ hist, GradsFit s gr) → sparseLionRun s hist = .ok s' → LionWF s'
  | [], s, s', hs, _, h => by
    rw [← Except.ok.inj h]
    exact hs
  | gr :: hist, s, s', hs, hh, h => by
    have hgr := hh gr (by simp)
    unfold sparseLionRun at h
    rw [sparseLionStep_eq _ (lionWF_setGrads hs hgr)] at h
    exact sparseLionRun_wf hist (lionNext gr s) s' (lionNext_wf hs hgr)
      (fun gr' hgr' => gradsFit_next hs hgr (hh gr' (by simp [hgr']))) h

end

end HOL
