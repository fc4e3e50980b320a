import Verif.Lemmas.SparseLion
import Verif.Spec.Lion
import Mathlib.Tactic.NormNum
import Mathlib.Tactic.Positivity

/-! # C45 - C48: the sparse Lion optimizer -/

namespace HOL
open TorchScalar Spec

/-! ## C45 -/

/-- **C45 (history).** In every arithmetic and over every training history: an entry of a parameter that receives
only gradients comparing equal to zero (or no gradient) keeps its value and its momentum. Histories whose gradients have
the shapes of the parameters never raise. -/
theorem C45_inactive_entries {K : Type} [TorchScalar K] (s : List (LionGroup K)) (hs : LionWF s)
    (hist : List (ℕ → ℕ → Option (Tensor K))) (hh : ∀ gr ∈ hist, GradsFit s gr) :
    ∃ s', sparseLionRun s hist = .ok s' ∧
      ∀ gi g, s[gi]? = some g → ∀ pi p, g.params[pi]? = some p →
        ∃ g' p', s'[gi]? = some g' ∧ g'.params[pi]? = some p' ∧ p'.data.shape = p.data.shape ∧
          ∀ idx, InShape p.data.shape idx →
            (∀ gr ∈ hist, ∀ t, gr gi pi = some t → eqB (t.get idx) 0 = true) →
            p'.data.get idx = p.data.get idx ∧ p'.mom.get idx = p.mom.get idx := by
  obtain ⟨s', h1, h2⟩ := sparseLionRun_entry hist s hs hh
  refine ⟨s', h1, fun gi g hg pi p hp => ?_⟩
  obtain ⟨g', p', a, b, c, d⟩ := h2 gi g hg pi p hp
  refine ⟨g', p', a, b, c, fun idx hidx hz => ?_⟩
  have key : ∀ (l : List (ℕ → ℕ → Option (Tensor K))) (st : K × K),
      (∀ gr ∈ l, ∀ t, gr gi pi = some t → eqB (t.get idx) 0 = true) →
      (l.map fun gr => gradEntry gr gi pi idx).foldl (lionEntry g.lr g.beta1 g.beta2) st = st := by
    intro l
    induction l with
    | nil => intro st _; rfl
    | cons gr l ih =>
      intro st hl
      rw [List.map_cons, List.foldl_cons]
      have e : lionEntry g.lr g.beta1 g.beta2 st (gradEntry gr gi pi idx) = st := by
        unfold gradEntry
        cases hq : gr gi pi with
        | none => rfl
        | some t =>
          have := hl gr (by simp) t hq
          simp [lionEntry, lionData, lionMom, this]
      rw [e]
      exact ih st fun gr' h' => hl gr' (by simp [h'])
  have hd := d idx hidx
  rw [key hist _ hz] at hd
  exact ⟨congrArg Prod.fst hd, congrArg Prod.snd hd⟩

/-- One parameter with two entries, in one group. -/
noncomputable def exLion : List (LionGroup ℝ) :=
  [⟨1 / 10, 0, 9 / 10, 99 / 100, [⟨Tensor.tab1 2 fun i => (i : ℝ), none, none⟩]⟩]

theorem exLion_wf : LionWF exLion := by
  intro g hg p hp
  simp only [exLion, List.mem_singleton] at hg
  subst hg
  simp only [List.mem_singleton] at hp
  subst hp
  exact ⟨Tensor.wf_tab1 _ _, by simp, by simp⟩

theorem exLion_fit (f : ℕ → ℝ) : GradsFit exLion fun _ _ => some (Tensor.tab1 2 f) := by
  intro gi g hg pi p hp t ht
  simp only [Option.some.injEq] at ht
  subst ht
  refine ⟨Tensor.wf_tab1 _ _, ?_⟩
  have hg' := List.mem_of_getElem? hg
  simp only [exLion, List.mem_singleton] at hg'
  subst hg'
  have hp' := List.mem_of_getElem? hp
  simp only [List.mem_singleton] at hp'
  subst hp'
  rfl

/-- A history of three steps with gradient `(0, 5)`: entry 0 stays. -/
example : ∃ s', sparseLionRun exLion (List.replicate 3 fun _ _ => some (Tensor.tab1 2 fun i => 5 * (i : ℝ))) = .ok s' ∧
    ∃ g' p', s'[0]? = some g' ∧ g'.params[0]? = some p' ∧ p'.data.get [0] = 0 := by
  obtain ⟨s', h1, h2⟩ := C45_inactive_entries exLion exLion_wf
    (List.replicate 3 fun _ _ => some (Tensor.tab1 2 fun i => 5 * (i : ℝ)))
    (fun gr hgr => by rw [List.eq_of_mem_replicate hgr]; exact exLion_fit _)
  obtain ⟨g', p', a, b, _, d⟩ := h2 0 _ rfl 0 _ rfl
  refine ⟨s', h1, g', p', a, b, ?_⟩
  have := (d [0] (by simp [InShape]) ?_).1
  · rw [this, Tensor.get_tab1 (by norm_num)]; norm_num
  · intro gr hgr t ht
    rw [List.eq_of_mem_replicate hgr] at ht
    simp only [Option.some.injEq] at ht
    subst ht
    rw [Tensor.get_tab1 (by norm_num)]
    simp

/-! ## C46 -/

/-- A step moves an entry by `lr`, `-lr` or not at all. -/
theorem lionData_move (lr b1 d m g : ℝ) :
    lionData lr b1 d m g - d = lr ∨ lionData lr b1 d m g - d = 0 ∨ lionData lr b1 d m g - d = -lr := by
  unfold lionData
  split
  · right; left; ring
  · rw [sign_real]
    rcases Real.sign_apply_eq (m * b1 + (1 - b1) * g) with h | h | h <;> rw [h]
    · left; ring
    · right; left; ring
    · right; right; ring

/-- **C46 (one step).** `step` moves every entry by `lr`, `-lr` or not at all. -/
theorem C46_step_moves_by_lr (s : List (LionGroup ℝ)) (hs : LionWF s) :
    ∃ s', sparseLionStep s = .ok s' ∧
      ∀ (gi : ℕ) (g : LionGroup ℝ), s[gi]? = some g → ∀ (pi : ℕ) (p : LionParam ℝ), g.params[pi]? = some p →
        ∃ (g' : LionGroup ℝ) (p' : LionParam ℝ), s'[gi]? = some g' ∧ g'.params[pi]? = some p' ∧ p'.data.shape = p.data.shape ∧
          ∀ idx, InShape p.data.shape idx →
            p'.data.get idx - p.data.get idx ∈ ({g.lr, 0, -g.lr} : Set ℝ) := by
  refine ⟨_, sparseLionStep_eq s hs, fun gi g hg pi p hp => ?_⟩
  have hpw := hs g (List.mem_of_getElem? hg) p (List.mem_of_getElem? hp)
  refine ⟨⟨g.lr, g.wd, g.beta1, g.beta2, g.params.map (LionParam.next g.lr g.beta1 g.beta2)⟩,
    p.next g.lr g.beta1 g.beta2, by rw [List.getElem?_map, hg]; rfl, by simp [hp],
    (hpw.next g.lr g.beta1 g.beta2).2, ?_⟩
  intro idx hidx
  simp only [Set.mem_insert_iff, Set.mem_singleton_iff]
  unfold LionParam.next
  cases hq : p.grad with
  | none => right; left; exact sub_self _
  | some t =>
    rw [Tensor.get_tabulate hidx]
    exact lionData_move _ _ _ _ _

/-- **C46 (history).** Over every training history with `lr ≥ 0` and `0 ≤ beta2 ≤ 1` an entry has moved by at most
`lr` times the number of steps in which its gradient was not zero, and its momentum stays within the largest gradient
seen at that entry. -/
theorem C46_total_movement (s : List (LionGroup ℝ)) (hs : LionWF s)
    (hist : List (ℕ → ℕ → Option (Tensor ℝ))) (hh : ∀ gr ∈ hist, GradsFit s gr) :
    ∃ s', sparseLionRun s hist = .ok s' ∧
      ∀ gi g, s[gi]? = some g → ∀ pi p, g.params[pi]? = some p → 0 ≤ g.lr → 0 ≤ g.beta2 → g.beta2 ≤ 1 →
        ∃ g' p', s'[gi]? = some g' ∧ g'.params[pi]? = some p' ∧ p'.data.shape = p.data.shape ∧
          ∀ idx, InShape p.data.shape idx →
            (∀ N : Finset ℕ, (∀ k gr, hist[k]? = some gr → ∀ t, gr gi pi = some t → t.get idx ≠ 0 → k ∈ N) →
              |p'.data.get idx - p.data.get idx| ≤ (N.card : ℝ) * g.lr) ∧
            (∀ G, |p.mom.get idx| ≤ G → (∀ gr ∈ hist, ∀ t, gr gi pi = some t → |t.get idx| ≤ G) →
              |p'.mom.get idx| ≤ G) := by
  classical
  obtain ⟨s', h1, h2⟩ := sparseLionRun_entry hist s hs hh
  refine ⟨s', h1, fun gi g hg pi p hp hlr hb0 hb1 => ?_⟩
  obtain ⟨g', p', a, b, c, d⟩ := h2 gi g hg pi p hp
  refine ⟨g', p', a, b, c, fun idx hidx => ?_⟩
  have hd := d idx hidx
  constructor
  · have key : ∀ (l : List (ℕ → ℕ → Option (Tensor ℝ))) (st : ℝ × ℝ) (N : Finset ℕ),
        (∀ k gr, l[k]? = some gr → ∀ t, gr gi pi = some t → t.get idx ≠ 0 → k ∈ N) →
        |((l.map fun gr => gradEntry gr gi pi idx).foldl (lionEntry g.lr g.beta1 g.beta2) st).1 - st.1|
          ≤ N.card * g.lr := by
      intro l
      induction l with
      | nil => intro st N _; simp; positivity
      | cons gr l ih =>
        intro st N hN
        rw [List.map_cons, List.foldl_cons]
        set st1 := lionEntry g.lr g.beta1 g.beta2 st (gradEntry gr gi pi idx) with hst
        let N1 : Finset ℕ := (N.erase 0).image fun k => k - 1
        have hN1 : ∀ k gr, l[k]? = some gr → ∀ t, gr gi pi = some t → t.get idx ≠ 0 → k ∈ N1 := by
          intro k gr' hk t ht hne
          refine Finset.mem_image.2 ⟨k + 1, Finset.mem_erase.2 ⟨by omega, ?_⟩, by omega⟩
          exact hN (k + 1) gr' (by simpa using hk) t ht hne
        have h3 := ih st1 N1 hN1
        have hc1 : N1.card ≤ (N.erase 0).card := Finset.card_image_le
        have hstep : |st1.1 - st.1| ≤ ((N.card - (N.erase 0).card : ℕ) : ℝ) * g.lr := by
          by_cases h0 : 0 ∈ N
          · rw [Finset.card_erase_of_mem h0]
            have hpos : 0 < N.card := Finset.card_pos.2 ⟨0, h0⟩
            have : N.card - (N.card - 1) = 1 := by omega
            rw [this, Nat.cast_one, one_mul]
            rw [hst]
            unfold gradEntry
            cases hq : gr gi pi with
            | none => simpa [lionEntry] using hlr
            | some t =>
              rcases lionData_move g.lr g.beta1 st.1 st.2 (t.get idx) with h | h | h
              · show |lionData _ _ _ _ _ - _| ≤ _
                rw [h, abs_of_nonneg hlr]
              · show |lionData _ _ _ _ _ - _| ≤ _
                rw [h, abs_zero]; exact hlr
              · show |lionData _ _ _ _ _ - _| ≤ _
                rw [h, abs_neg, abs_of_nonneg hlr]
          · have hst0 : st1 = st := by
              rw [hst]
              unfold gradEntry
              cases hq : gr gi pi with
              | none => rfl
              | some t =>
                have hz : t.get idx = 0 := by
                  by_contra hne
                  exact h0 (hN 0 gr rfl t hq hne)
                simp [lionEntry, lionData, lionMom, hz]
            rw [hst0, sub_self, abs_zero]
            positivity
        have hcle : (N.erase 0).card ≤ N.card := Finset.card_erase_le
        calc |_ - st.1| ≤ |((l.map fun gr => gradEntry gr gi pi idx).foldl
                (lionEntry g.lr g.beta1 g.beta2) st1).1 - st1.1| + |st1.1 - st.1| := abs_sub_le _ _ _
          _ ≤ N1.card * g.lr + ((N.card - (N.erase 0).card : ℕ) : ℝ) * g.lr := add_le_add h3 hstep
          _ ≤ (N.erase 0).card * g.lr + ((N.card - (N.erase 0).card : ℕ) : ℝ) * g.lr := by
              have : (N1.card : ℝ) ≤ (N.erase 0).card := by exact_mod_cast hc1
              have := mul_le_mul_of_nonneg_right this hlr
              linarith
          _ = N.card * g.lr := by
              rw [Nat.cast_sub hcle]; ring
    intro N hN
    have := key hist (p.data.get idx, p.mom.get idx) N hN
    rw [← hd] at this
    exact this
  · have key : ∀ (l : List (ℕ → ℕ → Option (Tensor ℝ))) (st : ℝ × ℝ) (G : ℝ), |st.2| ≤ G →
        (∀ gr ∈ l, ∀ t, gr gi pi = some t → |t.get idx| ≤ G) →
        |((l.map fun gr => gradEntry gr gi pi idx).foldl (lionEntry g.lr g.beta1 g.beta2) st).2| ≤ G := by
      intro l
      induction l with
      | nil => intro st G h _; exact h
      | cons gr l ih =>
        intro st G hst hl
        rw [List.map_cons, List.foldl_cons]
        apply ih
        · unfold gradEntry
          cases hq : gr gi pi with
          | none => exact hst
          | some t =>
            have ht := hl gr (by simp) t hq
            show |lionMom g.beta2 st.2 (t.get idx)| ≤ G
            unfold lionMom
            split
            · exact hst
            · rw [abs_le] at *
              constructor <;> nlinarith [ht.1, ht.2, hst.1, hst.2]
        · exact fun gr' h' => hl gr' (by simp [h'])
    intro G hG hl
    have := key hist (p.data.get idx, p.mom.get idx) G hG hl
    rw [← hd] at this
    exact this

/-- **C46 (constructor).** The constructor accepts exactly `lr > 0` and betas in `[0, 1]` (with at least one
parameter), otherwise it raises; the parameters start without momentum. -/
theorem C46_constructor (params : List (Tensor ℝ)) (lr b1 b2 wd : ℝ) :
    (0 < lr ∧ (0 ≤ b1 ∧ b1 ≤ 1) ∧ (0 ≤ b2 ∧ b2 ≤ 1) ∧ params ≠ [] →
      sparseLionInit params lr b1 b2 wd
        = .ok [⟨lr, wd, b1, b2, params.map fun t => ⟨t, none, none⟩⟩]) ∧
    (¬ (0 < lr ∧ (0 ≤ b1 ∧ b1 ≤ 1) ∧ (0 ≤ b2 ∧ b2 ≤ 1)) →
      sparseLionInit params lr b1 b2 wd = .error .assertionError) ∧
    (0 < lr ∧ (0 ≤ b1 ∧ b1 ≤ 1) ∧ (0 ≤ b2 ∧ b2 ≤ 1) ∧ params = [] →
      sparseLionInit params lr b1 b2 wd = .error .valueError) := by
  have hb : (ltB b1 0 || ltB 1 b1 || ltB b2 0 || ltB 1 b2) = true
      ↔ ¬ ((0 ≤ b1 ∧ b1 ≤ 1) ∧ (0 ≤ b2 ∧ b2 ≤ 1)) := by
    simp only [Bool.or_eq_true, ltB_real]
    constructor
    · rintro (((h | h) | h) | h) ⟨⟨a, b⟩, c, d⟩ <;> linarith
    · intro h
      by_contra hn
      push Not at hn
      exact h ⟨⟨hn.1.1.1, hn.1.1.2⟩, hn.1.2, hn.2⟩
  have hl : (!ltB 0 lr) = true ↔ ¬ 0 < lr := by
    rw [Bool.not_eq_true', ← Bool.not_eq_true, ltB_real]
  unfold sparseLionInit
  refine ⟨?_, ?_, ?_⟩
  · rintro ⟨h1, h2, h3, h4⟩
    rw [if_neg (by rw [hl]; exact not_not.2 h1), if_neg (by rw [hb]; exact not_not.2 ⟨h2, h3⟩),
      if_neg (by simpa using h4)]
  · intro h
    by_cases h1 : 0 < lr
    · rw [if_neg (by rw [hl]; exact not_not.2 h1), if_pos (by rw [hb]; exact fun h' => h ⟨h1, h'⟩)]
    · rw [if_pos (hl.2 h1)]
  · rintro ⟨h1, h2, h3, rfl⟩
    rw [if_neg (by rw [hl]; exact not_not.2 h1), if_neg (by rw [hb]; exact not_not.2 ⟨h2, h3⟩)]
    rfl

example : ∃ s', sparseLionStep exLion = .ok s' := by
  obtain ⟨s', h, _⟩ := C46_step_moves_by_lr exLion exLion_wf
  exact ⟨s', h⟩

/-- Three steps with gradient `(0, 5)`: entry 1 moved by at most `3 / 10`, its momentum is at most 5. -/
example : ∃ s', sparseLionRun exLion (List.replicate 3 fun _ _ => some (Tensor.tab1 2 fun i => 5 * (i : ℝ))) = .ok s' ∧
    ∃ g' p', s'[0]? = some g' ∧ g'.params[0]? = some p' ∧ |p'.data.get [1] - 1| ≤ 3 / 10 ∧
      |p'.mom.get [1]| ≤ 5 := by
  obtain ⟨s', h1, h2⟩ := C46_total_movement exLion exLion_wf
    (List.replicate 3 fun _ _ => some (Tensor.tab1 2 fun i => 5 * (i : ℝ)))
    (fun gr hgr => by rw [List.eq_of_mem_replicate hgr]; exact exLion_fit _)
  obtain ⟨g', p', a, b, _, d⟩ := h2 0 _ rfl 0 _ rfl (by norm_num) (by norm_num) (by norm_num)
  refine ⟨s', h1, g', p', a, b, ?_, ?_⟩
  · have := (d [1] (by simp [InShape])).1 (Finset.range 3) ?_
    · rw [Tensor.get_tab1 (by norm_num)] at this
      rw [Finset.card_range] at this
      norm_num at this ⊢
      exact this
    · intro k gr hk _ _ _
      have := (List.getElem?_eq_some_iff.1 hk).1
      rw [List.length_replicate] at this
      exact Finset.mem_range.2 this
  · refine (d [1] (by simp [InShape])).2 5 ?_ ?_
    · show |(Tensor.tabulate [2] fun _ => (0 : ℝ)).get [1]| ≤ 5
      rw [Tensor.get_tabulate (by simp [InShape])]; norm_num
    · intro gr hgr t ht
      rw [List.eq_of_mem_replicate hgr] at ht
      simp only [Option.some.injEq] at ht
      subst ht
      rw [Tensor.get_tab1 (by norm_num)]; norm_num

example : sparseLionInit [Tensor.tab1 1 fun _ => (1 : ℝ)] 0 (9 / 10) (99 / 100) 0 = .error .assertionError :=
  (C46_constructor _ _ _ _ _).2.1 (by norm_num)

/-! ## C47 -/

/-- **C47 (no effect).** In every arithmetic the weight decay coefficient has no influence on `step`: line 19 of
`update_fn` multiplies a copy. -/
theorem C47_weight_decay_ignored {K : Type} [TorchScalar K] (s : List (LionGroup K)) (hs : LionWF s) (w : K) :
    ∃ s', sparseLionStep s = .ok s' ∧
      sparseLionStep (s.map fun g => { g with wd := w }) = .ok (s'.map fun g => { g with wd := w }) := by
  refine ⟨_, sparseLionStep_eq s hs, ?_⟩
  rw [sparseLionStep_eq, List.map_map, List.map_map]
  · rfl
  · intro g hg p hp
    obtain ⟨g0, hg0, rfl⟩ := List.mem_map.1 hg
    exact hs g0 hg0 p hp

/-- **C47 (negation).** One entry 1 with gradient 1, `lr = 1/10`, `weight_decay = 1`: Lion gives 0.8, `SparseLion`
gives 0.9. -/
theorem C47_weight_decay_counterexample :
    (lion (1 / 10) 1 (9 / 10) (99 / 100) (1, 0) 1).1 = 8 / 10 ∧
    ∃ s' g' p', sparseLionStep [⟨1 / 10, 1, 9 / 10, 99 / 100,
        [⟨Tensor.tab1 1 fun _ => (1 : ℝ), some (Tensor.tab1 1 fun _ => (1 : ℝ)), none⟩]⟩] = .ok s' ∧
      s'[0]? = some g' ∧ g'.params[0]? = some p' ∧ p'.data.get [0] = 9 / 10 := by
  constructor
  · unfold lion
    simp only
    rw [Real.sign_of_pos (by norm_num)]
    norm_num
  · refine ⟨_, _, _, sparseLionStep_eq _ ?_, rfl, rfl, ?_⟩
    · intro g hg p hp
      simp only [List.mem_singleton] at hg
      subst hg
      simp only [List.mem_singleton] at hp
      subst hp
      refine ⟨Tensor.wf_tab1 _ _, ?_, by simp⟩
      rintro t ht
      simp only [Option.some.injEq] at ht
      subst ht
      exact ⟨Tensor.wf_tab1 _ _, rfl⟩
    · show (Tensor.tabulate [1] fun idx => lionData (1 / 10) (9 / 10)
        ((Tensor.tab1 1 fun _ => (1 : ℝ)).get idx) ((Tensor.tabulate [1] fun _ => (0 : ℝ)).get idx)
        ((Tensor.tab1 1 fun _ => (1 : ℝ)).get idx)).get [0] = 9 / 10
      rw [Tensor.get_tabulate (by simp [InShape]), Tensor.get_tab1 (by norm_num),
        Tensor.get_tabulate (by simp [InShape])]
      unfold lionData
      rw [if_neg (by simp), sign_real, Real.sign_of_pos (by norm_num)]
      norm_num

example : ∃ s', sparseLionStep exLion = .ok s' ∧
    sparseLionStep (exLion.map fun g => { g with wd := 7 }) = .ok (s'.map fun g => { g with wd := 7 }) :=
  C47_weight_decay_ignored exLion exLion_wf 7

/-! ## C48 -/

/-- **C48.** Over every history in which an entry always has a nonzero gradient, the entry and its momentum evolve
as under Lion without weight decay. -/
theorem C48_agrees_with_lion (s : List (LionGroup ℝ)) (hs : LionWF s)
    (hist : List (ℕ → ℕ → Option (Tensor ℝ))) (hh : ∀ gr ∈ hist, GradsFit s gr) :
    ∃ s', sparseLionRun s hist = .ok s' ∧
      ∀ gi g, s[gi]? = some g → ∀ pi p, g.params[pi]? = some p →
        ∃ g' p', s'[gi]? = some g' ∧ g'.params[pi]? = some p' ∧ p'.data.shape = p.data.shape ∧
          ∀ idx, InShape p.data.shape idx → ∀ gs : List ℝ,
            (hist.map fun gr => (gr gi pi).map fun t => t.get idx) = gs.map some → (∀ v ∈ gs, v ≠ 0) →
            (p'.data.get idx, p'.mom.get idx)
              = gs.foldl (lion g.lr 0 g.beta1 g.beta2) (p.data.get idx, p.mom.get idx) := by
  obtain ⟨s', h1, h2⟩ := sparseLionRun_entry hist s hs hh
  refine ⟨s', h1, fun gi g hg pi p hp => ?_⟩
  obtain ⟨g', p', a, b, c, d⟩ := h2 gi g hg pi p hp
  refine ⟨g', p', a, b, c, fun idx hidx gs hgs hne => ?_⟩
  rw [d idx hidx]
  unfold gradEntry
  rw [hgs, List.foldl_map]
  have key : ∀ (gs : List ℝ) (st : ℝ × ℝ), (∀ v ∈ gs, v ≠ 0) →
      gs.foldl (fun x y => lionEntry g.lr g.beta1 g.beta2 x (some y)) st
        = gs.foldl (lion g.lr 0 g.beta1 g.beta2) st := by
    intro gs
    induction gs with
    | nil => intro st _; rfl
    | cons v gs ih =>
      intro st h
      rw [List.foldl_cons, List.foldl_cons, ih _ fun w hw => h w (by simp [hw])]
      congr 1
      have hv : ¬ (eqB v 0 = true) := by rw [eqB_real]; exact h v (by simp)
      refine Prod.ext ?_ ?_
      · simp only [lionEntry, lionData, if_neg hv, lion, sign_real]
        rw [mul_comm st.2]; ring
      · simp only [lionEntry, lionMom, if_neg hv, lion]
        ring
  exact key gs _ hne

/-- **C48 (zero gradients).** With a zero gradient Lion still moves an entry that has momentum, `SparseLion` does not:
the hypothesis on the gradients is needed. -/
theorem C48_zero_gradient_differs :
    (lion (1 / 10) 0 (9 / 10) (99 / 100) (0, 1) 0).1 = -(1 / 10) ∧
    lionEntry (1 / 10 : ℝ) (9 / 10) (99 / 100) (0, 1) (some 0) = (0, 1) := by
  constructor
  · unfold lion
    simp only
    rw [Real.sign_of_pos (by norm_num)]
    norm_num
  · simp [lionEntry, lionData, lionMom]

/-- Two steps with gradient `(2, -3)`. -/
example : ∃ s', sparseLionRun exLion (List.replicate 2 fun _ _ => some (Tensor.tab1 2 fun i => 2 - 5 * (i : ℝ))) = .ok s' ∧
    ∃ g' p', s'[0]? = some g' ∧ g'.params[0]? = some p' ∧ p'.data.get [1] = 12 / 10 := by
  obtain ⟨s', h1, h2⟩ := C48_agrees_with_lion exLion exLion_wf
    (List.replicate 2 fun _ _ => some (Tensor.tab1 2 fun i => 2 - 5 * (i : ℝ)))
    (fun gr hgr => by rw [List.eq_of_mem_replicate hgr]; exact exLion_fit _)
  obtain ⟨g', p', a, b, _, d⟩ := h2 0 _ rfl 0 _ rfl
  refine ⟨s', h1, g', p', a, b, ?_⟩
  have := d [1] (by simp [InShape]) [-3, -3] ?_ (by norm_num)
  · have := congrArg Prod.fst this
    simp only at this
    rw [this]
    simp only [List.foldl_cons, List.foldl_nil, lion, LionParam.mom]
    rw [Tensor.get_tab1 (by norm_num), Tensor.get_tabulate (by simp [InShape]), Real.sign_of_neg (by norm_num),
      Real.sign_of_neg (by norm_num)]
    norm_num
  · have e : (Tensor.tab1 2 fun i => 2 - 5 * (i : ℝ)).get [1] = -3 := by
      rw [Tensor.get_tab1 (by norm_num)]; norm_num
    simp [List.replicate, e]

end HOL
