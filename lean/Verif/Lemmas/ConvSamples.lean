import Verif.Lemmas.Samples
import Verif.Props.TailFocus
import Verif.Props.Deconv
import Verif.Props.VaeExample

/-! # Convolutional networks treat the samples of a batch separately -/

namespace HOL
open TorchScalar Spec

set_option linter.unusedSectionVars false
variable {K : Type} [TorchScalar K]

theorem Spec.SampleMap.mapsShape_pos {f : Fwd K} {s s' : List ℕ} (h : SampleMap f s s') {B : ℕ} (hB : 1 ≤ B) {x : Tensor K} (hx : x.WF) (hs : x.shape = B :: s) :
    ∃ y, f x = .ok y ∧ y.WF ∧ y.shape = B :: s' := h.accepts B x hB hx hs

theorem sampleMap_id (s : List ℕ) : SampleMap (K := K) (fun x => .ok x) s s := by
  constructor
  · intro B x _ hx hs
    exact ⟨x, rfl, hx, hs⟩
  · intro B B' x x' y y' b b' _ _ _ _ _ _ hy hy' he i hi
    cases hy
    cases hy'
    exact he i hi

/-- A function given by a formula for the entries of `[c, h]` samples. -/
theorem sampleMap_of_tab3 {f : Fwd K} {C H O P : ℕ} (F : (ℕ → ℕ → K) → ℕ → ℕ → K)
    (hloc : ∀ u v : ℕ → ℕ → K, (∀ c < C, ∀ y < H, u c y = v c y) → F u = F v)
    (hf : ∀ B (x : Tensor K), x.WF → x.shape = [B, C, H] → f x = .ok (Tensor.tab3 B O P fun s => F fun c y => x.get [s, c, y])) : SampleMap f [C, H] [O, P] := by
  constructor
  · intro B x _ hx hs
    exact ⟨_, hf B x hx hs, Tensor.wf_tab3 _ _ _ _, rfl⟩
  · intro B B' x x' y y' b b' hb hb' hx hx' hs hs' hy hy' he i hi
    rw [hf B x hx hs] at hy
    rw [hf B' x' hx' hs'] at hy'
    cases hy
    cases hy'
    match i, hi with
    | [r, p], ⟨hr, hp, _⟩ =>
      rw [Tensor.get_tab3 hb hr hp, Tensor.get_tab3 hb' hr hp]
      rw [hloc _ (fun c y => x'.get [b', c, y]) fun c hc y hy => he [c, y] ⟨hc, hy, trivial⟩]

theorem ConvLayer.Between.sampleMap1 {L : ConvLayer K} {C O k s p : ℕ} (h : L.Between .one C O k s p) (hk : 1 ≤ k) (hs : 1 ≤ s) {H : ℕ} (hH : k ≤ H + 2 * p) :
    SampleMap L.forward [C, H] [O, convOut k s p H] := by
  have hg := h.geometry
  refine sampleMap_of_tab3 (fun u r i =>
      sumL ((List.range (C * L.expander.variables)).flatMap fun q => (List.range L.geometry.kernel).map fun d =>
          ((tap L.geometry H i d).elim 0 fun y => L.chan q (u (q / L.expander.variables) y)) * L.weight.get [r, q, d]) * L.rescale) ?_ ?_
  · intro u v huv
    funext r i
    congr 2
    apply List.flatMap_congr
    intro q hq
    apply List.map_congr_left
    intro d _
    congr 1
    apply elim_congr
    intro y hy
    rw [huv _ (Nat.div_lt_of_lt_mul (by rw [Nat.mul_comm]; exact List.mem_range.1 hq)) _ (tap_lt hy)]
  · intro B x hx hsh
    exact L.forward1_ok (by simpa using h.kind) h.expander hx hsh (by rw [hg]; simpa using h.weight) (by rw [hg]; exact convSize_plain hk hs hH)

theorem ConvLayer.Between.sampleMap_any {L : ConvLayer K} {r : Rank} {C O k s p : ℕ} (h : L.Between r C O k s p) (hk : 1 ≤ k) (hs : 1 ≤ s) {H W : ℕ} (hH : k ≤ H + 2 * p)
    (hW : r = .two → k ≤ W + 2 * p) : SampleMap L.forward (imageShape r C H W) (imageShape r O (convOut k s p H) (convOut k s p W)) := by
  cases r with
  | two => exact h.sampleMap hk hs hH (hW rfl)
  | one => exact h.sampleMap1 hk hs hH

theorem ConvLayer.BetweenT.sampleMap {L : ConvLayer K} {C O k s p : ℕ} (h : L.BetweenT C O k s p) (hk : 1 ≤ k) (hs : 1 ≤ s)
    {H W : ℕ} (hH : 1 ≤ H ∧ 2 * p < (H - 1) * s + k) (hW : 1 ≤ W ∧ 2 * p < (W - 1) * s + k) :
    SampleMap L.forward [C, H, W] [O, deconvOut k s p H, deconvOut k s p W] := by
  have hg := h.geometry
  refine sampleMap_of_tab4 (fun u r i j =>
      sumL ((List.range (C * L.expander.variables)).flatMap fun q => (List.range L.geometry.kernel).flatMap fun d =>
        (List.range L.geometry.kernel).map fun e =>
          ((tapTranspose L.geometry H i d).elim 0 fun y => (tapTranspose L.geometry W j e).elim 0 fun z =>
            L.chan q (u (q / L.expander.variables) y z)) * L.weight.get [q, r, d, e]) * L.rescale) ?_ ?_
  · intro u v huv
    funext r i j
    congr 2
    apply List.flatMap_congr
    intro q hq
    apply List.flatMap_congr
    intro d _
    apply List.map_congr_left
    intro e _
    congr 1
    apply elim_congr
    intro y hy
    apply elim_congr
    intro z hz
    rw [huv _ (Nat.div_lt_of_lt_mul (by rw [Nat.mul_comm]; exact List.mem_range.1 hq)) _ (tapTranspose_lt hy) _ (tapTranspose_lt hz)]
  · intro B x hx hsh
    exact L.forwardT_ok h.kind h.expander hx hsh (by rw [hg]; exact h.weight) (by rw [hg]; exact convTransposeSize_plain hk hs hH.1 hH.2)
      (by rw [hg]; exact convTransposeSize_plain hk hs hW.1 hW.2)

/-- Chains of layers, each followed by a normalization. -/
theorem runStages_sampleMap {m : ℕ} {Ls : ℕ → ConvLayer K} {g : Option (ℕ → Fwd K)} {S : ℕ → List ℕ}
    (hL : ∀ i < m, SampleMap (Ls i).forward (S i) (S (i + 1))) (hg : ∀ f ∈ g, ∀ i < m, SampleMap (f i) (S (i + 1)) (S (i + 1))) :
    SampleMap (runStages (stagesOf m Ls g)) (S 0) (S m) := by
  induction m with
  | zero => exact sampleMap_id _
  | succ m ih =>
    have h0 := ih (fun i hi => hL i (by omega)) (fun f hf i hi => hg f hf i (by omega))
    have h1 := hL m (by omega)
    rw [stagesOf_succ]
    cases g with
    | none =>
      refine (h0.comp h1).congr fun B x _ _ _ => ?_
      rw [runStages_append]
      simp only [bind, Except.bind]
      cases runStages (stagesOf m Ls none) x with
      | error e => rfl
      | ok y =>
        simp only [Option.map_none, Option.toList_none, runStages, ConvStage.call, bind, Except.bind]
        cases (Ls m).forward y <;> rfl
    | some g =>
      refine ((h0.comp h1).comp (hg g rfl m (by omega))).congr fun B x _ _ _ => ?_
      rw [runStages_append]
      simp only [bind, Except.bind]
      cases runStages (stagesOf m Ls (some g)) x with
      | error e => rfl
      | ok y =>
        simp only [Option.map_some, Option.toList_some, runStages, ConvStage.call, bind, Except.bind]
        cases (Ls m).forward y with
        | error e => rfl
        | ok z =>
          dsimp only
          cases g m z <;> rfl

theorem stagesOf_inj {m : ℕ} {Ls Ls' : ℕ → ConvLayer K} {g : Option (ℕ → Fwd K)} (h : stagesOf m Ls g = stagesOf m Ls' g) : ∀ i < m, Ls i = Ls' i := by
  induction m with
  | zero => intro i hi; omega
  | succ m ih =>
    rw [stagesOf_succ, stagesOf_succ] at h
    obtain ⟨h1, h2⟩ := List.append_inj' h (by simp)
    intro i hi
    by_cases hm : i = m
    · subst hm
      have := (List.cons.inj h2).1
      exact ConvStage.conv.inj this
    · exact ih h1 i (by omega)

/-! ## pooling -/

theorem sampleMap_pool2 {C H W : ℕ} (hH : 1 ≤ H) (hW : 1 ≤ W) : SampleMap (K := K) (fun x => do let y ← adaptiveAvgPool 2 x; flatten1 y) [C, H, W] [C] := by
  constructor
  · intro B x _ hx hs
    obtain ⟨out, h1, h2, h3, -⟩ := pool2_flatten hs hH hW
    exact ⟨out, h1, h2, h3⟩
  · intro B B' x x' y y' b b' hb hb' hx hx' hs hs' hy hy' he i hi
    obtain ⟨out, h1, h2, h3, h4⟩ := pool2_flatten hs hH hW
    obtain ⟨out', h1', h2', h3', h4'⟩ := pool2_flatten hs' hH hW
    rw [h1] at hy
    rw [h1'] at hy'
    cases hy
    cases hy'
    match i, hi with
    | [o], ⟨ho, _⟩ =>
      rw [h4 b hb o ho, h4' b' hb' o ho]
      congr 2
      refine List.flatMap_congr fun i hi => List.map_congr_left fun j hj => ?_
      exact he [o, i, j] ⟨ho, List.mem_range.1 hi, List.mem_range.1 hj, trivial⟩

theorem sampleMap_pool1 {C H : ℕ} (hH : 1 ≤ H) : SampleMap (K := K) (fun x => do let y ← adaptiveAvgPool 1 x; flatten1 y) [C, H] [C] := by
  constructor
  · intro B x _ hx hs
    obtain ⟨out, h1, h2, h3, -⟩ := pool1_flatten hs hH
    exact ⟨out, h1, h2, h3⟩
  · intro B B' x x' y y' b b' hb hb' hx hx' hs hs' hy hy' he i hi
    obtain ⟨out, h1, h2, h3, h4⟩ := pool1_flatten hs hH
    obtain ⟨out', h1', h2', h3', h4'⟩ := pool1_flatten hs' hH
    rw [h1] at hy
    rw [h1'] at hy'
    cases hy
    cases hy'
    match i, hi with
    | [o], ⟨ho, _⟩ =>
      rw [h4 b hb o ho, h4' b' hb' o ho]
      congr 2
      refine List.map_congr_left fun j hj => ?_
      exact he [o, j] ⟨ho, List.mem_range.1 hj, trivial⟩

theorem get_rows (t : Tensor K) {B b q : ℕ} {s : List ℕ} (ht : t.shape = B :: s) (hq : q < numel s) : (t.reshape [B, numel s]).get [b, q] = t.get (b :: unravel s q) := by
  rw [Tensor.get_reshape (idx' := b :: unravel s q)]
  rw [ht]
  simp [ravel, numel, ravel_unravel hq]

theorem sampleMap_poolAll {d : ℕ} {s : List ℕ} (hd : s.length = d + 1) (hn : numel s ≠ 0) :
    SampleMap (K := K) (fun x => do let y ← adaptiveAvgPool (d + 1) x; flatten1 y) s [1] := by
  constructor
  · intro B x _ hx hs
    obtain ⟨out, h1, h2, h3, -⟩ := pool_all hs hd hn
    exact ⟨out, h1, h2, h3⟩
  · intro B B' x x' y y' b b' hb hb' hx hx' hs hs' hy hy' he i hi
    obtain ⟨out, h1, h2, h3, h4⟩ := pool_all hs hd hn
    obtain ⟨out', h1', h2', h3', h4'⟩ := pool_all hs' hd hn
    rw [h1] at hy
    rw [h1'] at hy'
    cases hy
    cases hy'
    match i, hi with
    | [o], ⟨ho, _⟩ =>
      obtain rfl : o = 0 := by omega
      rw [h4 b hb, h4' b' hb']
      congr 2
      refine List.map_congr_left fun q hq => ?_
      rw [List.mem_range] at hq
      rw [get_rows x hs hq, get_rows x' hs' hq]
      exact he _ (inShape_unravel hq)

theorem sampleMap_flatten1 (c : ℕ) (s : List ℕ) : SampleMap (K := K) flatten1 (c :: s) [numel (c :: s)] := by
  refine (sampleMap_flatten (c :: s)).congr fun B x hB _ hs => ?_
  rw [flattenRows_ok x hs (by omega)]
  unfold flatten1
  rw [hs]

/-! ## linear layers -/

theorem linear_sampleMap {w b : Tensor K} {I O : ℕ} (hw : w.shape = [O, I]) : SampleMap (linearForward w b) [I] [O] := by
  have e : ∀ B (x : Tensor K), x.shape = [B, I] →
      linearForward w b x = .ok (Tensor.tab2 B O fun s r => sumL ((List.range I).map fun q => x.get [s, q] * w.get [r, q]) + b.get [r]) := by
    intro B x hx
    unfold linearForward
    simp only [hx, hw, if_true]
  constructor
  · intro B x _ _ hs
    exact ⟨_, e B x hs, Tensor.wf_tab2 _ _ _, rfl⟩
  · intro B B' x x' y y' s s' hs hs' hx hx' hsh hsh' hy hy' he i hi
    rw [e B x hsh] at hy
    rw [e B' x' hsh'] at hy'
    cases hy
    cases hy'
    match i, hi with
    | [r], ⟨hr, _⟩ =>
      rw [Tensor.get_tab2 hs hr, Tensor.get_tab2 hs' hr]
      congr 2
      refine List.map_congr_left fun q hq => ?_
      rw [he [q] ⟨List.mem_range.1 hq, trivial⟩]

theorem viewFirst_sampleMap {c : ℕ} (hc : 1 ≤ c) : SampleMap (K := K) (viewFirst [c, 1, 1]) [c] [c, 1, 1] := by
  have hn : numel [c, 1, 1] = c := by simp [numel]
  have e : ∀ B (x : Tensor K), x.shape = [B, c] → viewFirst [c, 1, 1] x = .ok (x.reshape [B, c, 1, 1]) := by
    intro B x hx
    have hx' : numel x.shape = B * c := by rw [hx]; simp [numel]
    unfold viewFirst
    rw [hn, hx', if_neg (by omega), if_pos (Nat.mul_mod_left _ _), Nat.mul_div_cancel _ (by omega)]
  have g : ∀ (x : Tensor K) (B b r : ℕ), x.shape = [B, c] → (x.reshape [B, c, 1, 1]).get [b, r, 0, 0] = x.get [b, r] := by
    intro x B b r hx
    rw [Tensor.get_reshape (idx' := [b, r])]
    rw [hx]
    simp [ravel, numel]
  constructor
  · intro B x _ hx hs
    exact ⟨_, e B x hs, Tensor.wf_reshape hx (by rw [hs]; simp [numel]), rfl⟩
  · intro B B' x x' y y' b b' hb hb' hx hx' hs hs' hy hy' he i hi
    rw [e B x hs] at hy
    rw [e B' x' hs'] at hy'
    cases hy
    cases hy'
    match i, hi with
    | [r, u, v], ⟨hr, hu, hv, _⟩ =>
      obtain rfl : u = 0 := by omega
      obtain rfl : v = 0 := by omega
      rw [g x B b r hs, g x' B' b' r hs']
      exact he [r] ⟨hr, trivial⟩

/-! ## batch normalization -/

theorem eval2_sampleMap (N : BatchNorm K) (C H W : ℕ) : SampleMap N.eval2 [C, H, W] [C, H, W] := by
  refine sampleMap_of_tab4 (fun u r i j => if r < C ∧ i < H ∧ j < W then N.entry r (N.runningMean r) (N.runningVar r) (u r i j) else 0) ?_ ?_
  · intro u v huv
    funext r i j
    by_cases h : r < C ∧ i < H ∧ j < W
    · rw [if_pos h, if_pos h, huv r h.1 i h.2.1 j h.2.2]
    · rw [if_neg h, if_neg h]
  · intro B x _ hs
    unfold BatchNorm.eval2
    simp only [hs]
    congr 1
    apply tab4_congr
    intro s _ r hr i hi j hj
    rw [if_pos ⟨hr, hi, hj⟩]

/-! ## blocks -/

/-- Which block of a concatenation a position belongs to. -/
theorem exists_block (f : ℕ → ℕ) : ∀ (n q : ℕ), q < ∑ i ∈ Finset.range n, f i → ∃ i < n, ∃ p < f i, q = (∑ j ∈ Finset.range i, f j) + p := by
  intro n
  induction n with
  | zero => intro q hq; simp at hq
  | succ n ih =>
    intro q hq
    by_cases h : q < ∑ i ∈ Finset.range n, f i
    · obtain ⟨i, hi, p, hp, e⟩ := ih q h
      exact ⟨i, by omega, p, hp, e⟩
    · rw [Finset.sum_range_succ] at hq
      exact ⟨n, by omega, q - ∑ i ∈ Finset.range n, f i, by omega, by omega⟩

end HOL
