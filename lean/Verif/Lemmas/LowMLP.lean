import Verif.Props.Trainable
import Verif.Props.NetworkContinuity

/-! # Construction of `LowOrderMLP` -/

namespace HOL
open TorchScalar Relation
variable {K : Type} [TorchScalar K]

/-- Arguments of a linear layer; the other arguments are not looked at. -/
def linArgs (inF outF : ℕ) : FcArgs K :=
  { n := .int 0, inFeatures := inF, outFeatures := outF, segments := none, periodicity := none, numInputLayers := 0, scale := 0
    rescaleOutput := false, initialization := "" }

/-- Normalization and nonlinearity, those that are asked for. -/
def lowPre (normalization : Option (Fwd K)) (nonLinearity : Option ℕ) (nl : Fwd K) : List (Fwd K) :=
  normalization.toList ++ if nonLinearity.isSome then [nl] else []

theorem Heap.Later.refl (h : Heap K) : h.Later h := fun _ m hm => ⟨m, hm, .refl m⟩

theorem Heap.Later.prefix {h h1 h2 : Heap K} (hl : h1.Later h2) {D : List (Mod K)} (e : h1 = h ++ D) : h.Later h2 := by
  intro i m hm
  apply hl
  rw [e, List.getElem?_append_left (List.getElem?_eq_some_iff.1 hm).1]
  exact hm

theorem later_other {h h' : Heap K} (hl : h.Later h') (ho : h'.Ordered) {j : ℕ} {f : Fwd K} (hj : h[j]? = some (.other f)) :
    h'[j]? = some (.other f) ∧ h'.forward j = f := by
  obtain ⟨m', h1, h2⟩ := hl j _ hj
  cases h2
  refine ⟨h1, ?_⟩
  rw [Heap.forward_eq ho h1]
  rfl

/-- The first layer, and the others with `pre` before each. -/
def withPre (pre : List (Fwd K)) (F : ℕ → Fwd K) : List ℕ → List (Fwd K)
  | [] => []
  | i :: is => F i :: is.flatMap fun l => pre ++ [F l]

/-- What the list of layers of a network under construction looks like: the linear layers `ids` with the widths `ws`, and before each but
the first the functions `pre`. -/
structure LowInv (h0 : Heap K) (pre : List (Fwd K)) (ids ws : List ℕ) (s : Build K) : Prop where
  grows : ∃ D, s.2 = h0 ++ D
  ordered : s.2.Ordered
  bound : ∀ j ∈ s.1, j < s.2.length
  fresh : ∀ j ∈ ids, h0.length ≤ j ∧ j ∈ s.1
  nodup : ids.Nodup
  size : ws.length = ids.length + 1
  layer : ∀ k < ids.length, IsLayer (.leaf .linear) (linArgs (ws.getD k 0) (ws.getD (k + 1) 0)) s.2 (ids.getD k 0)
  others : ∀ j ∈ s.1, j ∉ ids → ∃ f, s.2[j]? = some (.other f)
  forward : ∀ h : Heap K, s.2.Later h → h.Ordered → s.1.map h.forward = withPre pre h.forward ids

theorem IsLayer.append {kind : FcKind} {a : FcArgs K} {h : Heap K} {j : ℕ} (hl : IsLayer kind a h j) (D : List (Mod K)) :
    IsLayer kind a (h ++ D) j := by
  obtain ⟨rng, base, ms, e1, e2, e3⟩ := hl
  refine ⟨rng, base, ms, e1, e2, fun k m hk => ?_⟩
  obtain ⟨m', h1, h2⟩ := e3 k m hk
  exact ⟨m', by rw [List.getElem?_append_left (List.getElem?_eq_some_iff.1 h1).1]; exact h1, h2⟩

theorem getElem?_append_of_some {α : Type} {l : List α} {i : ℕ} {a : α} (h : l[i]? = some a) (D : List α) : (l ++ D)[i]? = some a := by
  rw [List.getElem?_append_left (List.getElem?_eq_some_iff.1 h).1]; exact h

/-- Adding functions before the next layer. -/
structure LowMid (h0 : Heap K) (pre : List (Fwd K)) (ids ws : List ℕ) (s0 s : Build K) : Prop where
  base : LowInv h0 pre ids ws s0
  grows : ∃ D, s.2 = s0.2 ++ D
  ordered : s.2.Ordered
  added : ∃ js, s.1 = s0.1 ++ js ∧ (∀ j ∈ js, ∃ f, s.2[j]? = some (.other f)) ∧
    ∀ h : Heap K, s.2.Later h → h.Ordered → js.map h.forward = pre

theorem appendPreLow_mid {h0 : Heap K} {normalization : Option (Fwd K)} {nonLinearity : Option ℕ} {nl : Fwd K}
    (hnl : ∀ j ∈ nonLinearity, h0[j]? = some (.other nl)) {ids ws : List ℕ} {s : Build K}
    (hs : LowInv h0 (lowPre normalization nonLinearity nl) ids ws s) :
    LowMid h0 (lowPre normalization nonLinearity nl) ids ws s (appendPreLow normalization nonLinearity s) := by
  obtain ⟨D0, hD0⟩ := hs.grows
  cases normalization with
  | none =>
    cases nonLinearity with
    | none =>
      exact ⟨hs, ⟨[], by simp [appendPreLow]⟩, hs.ordered, [], by simp [appendPreLow], by simp, fun h _ _ => by simp [lowPre]⟩
    | some i =>
      have hi : s.2[i]? = some (.other nl) := by rw [hD0]; exact getElem?_append_of_some (hnl i rfl) _
      refine ⟨hs, ⟨[], by simp [appendPreLow]⟩, hs.ordered, [i], rfl, ?_, ?_⟩
      · intro j hj
        rw [List.mem_singleton] at hj
        subst hj
        exact ⟨nl, hi⟩
      · intro h hl ho
        show [h.forward i] = [nl]
        rw [(later_other hl ho hi).2]
  | some f =>
    have ho1 : Heap.Ordered (s.2 ++ [.other f]) := hs.ordered.append_one (by intro j hj; cases hj)
    have hf : (s.2 ++ [.other f])[s.2.length]? = some (.other f) := by simp
    cases nonLinearity with
    | none =>
      refine ⟨hs, ⟨[.other f], rfl⟩, ho1, [s.2.length], rfl, ?_, ?_⟩
      · intro j hj
        rw [List.mem_singleton] at hj
        subst hj
        exact ⟨f, hf⟩
      · intro h hl ho
        show [h.forward s.2.length] = [f]
        rw [(later_other hl ho hf).2]
    | some i =>
      have hi : (s.2 ++ [.other f])[i]? = some (.other nl) := by
        apply getElem?_append_of_some
        rw [hD0]; exact getElem?_append_of_some (hnl i rfl) _
      refine ⟨hs, ⟨[.other f], rfl⟩, ho1, [s.2.length, i], by simp [appendPreLow], ?_, ?_⟩
      · intro j hj
        rw [List.mem_cons, List.mem_singleton] at hj
        rcases hj with rfl | rfl
        · exact ⟨f, hf⟩
        · exact ⟨nl, hi⟩
      · intro h hl ho
        show [h.forward s.2.length, h.forward i] = [f, nl]
        rw [(later_other hl ho hf).2, (later_other hl ho hi).2]

/-- A new linear layer at the end. -/
theorem linearInit_inv (rng : Rng K) {h0 : Heap K} {pre : List (Fwd K)} {ids ws : List ℕ} {s0 s : Build K} (hs : LowMid h0 pre ids ws s0 s)
    (hne : ids ≠ []) {inF outF : ℕ} (hin : ws.getD ids.length 0 = inF) :
    LowInv h0 pre (ids ++ [s.2.length]) (ws ++ [outF]) (linearInit rng inF outF s) := by
  obtain ⟨D0, hD0⟩ := hs.base.grows
  obtain ⟨D1, hD1⟩ := hs.grows
  obtain ⟨js, hjs, hother, hfw⟩ := hs.added
  have hlen0 : s0.2.length ≤ s.2.length := by rw [hD1, List.length_append]; omega
  have hlen : h0.length ≤ s.2.length := by rw [hD1, hD0]; simp only [List.length_append]; omega
  set m : Mod K := .linear (Tensor.tab2 outF inF (rng s.2.length)) (Tensor.tab1 outF fun o => rng s.2.length o inF) with hm
  have e2 : (linearInit rng inF outF s).2 = s.2 ++ [m] := rfl
  have e1 : (linearInit rng inF outF s).1 = s.1 ++ [s.2.length] := rfl
  have hlt : ∀ j ∈ s.1, j < s.2.length := by
    intro j hj
    rw [hjs, List.mem_append] at hj
    rcases hj with hj | hj
    · have := hs.base.bound j hj; omega
    · obtain ⟨f, hf⟩ := hother j hj
      exact (List.getElem?_eq_some_iff.1 hf).1
  have hids : ∀ j ∈ ids, j < s.2.length := fun j hj => by
    have := hs.base.bound j (hs.base.fresh j hj).2; omega
  have hwl := hs.base.size
  have ho1 : Heap.Ordered (s.2 ++ [m]) := hs.ordered.append_one (by intro j hj; cases hj)
  refine ⟨⟨D0 ++ D1 ++ [m], by rw [e2, hD1, hD0]; simp⟩, by rw [e2]; exact ho1, ?_, ?_, ?_, ?_, ?_, ?_, ?_⟩
  · intro j hj
    rw [e1, List.mem_append, List.mem_singleton] at hj
    rw [e2, List.length_append, List.length_singleton]
    rcases hj with hj | rfl
    · have := hlt j hj; omega
    · omega
  · intro j hj
    rw [List.mem_append, List.mem_singleton] at hj
    rw [e1, List.mem_append, List.mem_singleton, hjs, List.mem_append]
    rcases hj with hj | rfl
    · exact ⟨(hs.base.fresh j hj).1, Or.inl (Or.inl (hs.base.fresh j hj).2)⟩
    · exact ⟨hlen, Or.inr rfl⟩
  · rw [List.nodup_append]
    refine ⟨hs.base.nodup, by simp, ?_⟩
    intro a ha b hb
    rw [List.mem_singleton] at hb
    have := hids a ha
    omega
  · simp only [List.length_append, List.length_singleton]; omega
  · intro k hk
    rw [List.length_append, List.length_singleton] at hk
    rw [e2]
    by_cases hk' : k < ids.length
    · have h1 : (ids ++ [s.2.length]).getD k 0 = ids.getD k 0 := List.getD_append _ _ _ _ hk'
      have h2 : (ws ++ [outF]).getD k 0 = ws.getD k 0 := List.getD_append _ _ _ _ (by omega)
      have h3 : (ws ++ [outF]).getD (k + 1) 0 = ws.getD (k + 1) 0 := List.getD_append _ _ _ _ (by omega)
      rw [h1, h2, h3, hD1]
      rw [List.append_assoc]
      exact (hs.base.layer k hk').append _
    · have hk2 : k = ids.length := by omega
      subst hk2
      have h1 : (ids ++ [s.2.length]).getD ids.length 0 = s.2.length := by simp
      have h2 : (ws ++ [outF]).getD ids.length 0 = inF := by
        rw [List.getD_append _ _ _ _ (by omega)]; exact hin
      have h3 : (ws ++ [outF]).getD (ids.length + 1) 0 = outF := by
        rw [← hwl]; simp
      rw [h1, h2, h3]
      refine ⟨rng, s.2.length, [m], by simp [fcMods, leafMods, linArgs, hm], rfl, ?_⟩
      intro k m' hk'
      cases k with
      | zero =>
        simp only [List.getElem?_cons_zero, Option.some.injEq] at hk'
        subst hk'
        exact ⟨m, by simp, .refl m⟩
      | succ k => simp at hk'
  · intro j hj hni
    rw [e1, List.mem_append, List.mem_singleton] at hj
    rw [List.mem_append, List.mem_singleton, not_or] at hni
    rcases hj with hj | hj
    · rw [hjs, List.mem_append] at hj
      rcases hj with hj | hj
      · obtain ⟨f, hf⟩ := hs.base.others j hj hni.1
        refine ⟨f, ?_⟩
        rw [e2, hD1, List.append_assoc]
        exact getElem?_append_of_some hf _
      · obtain ⟨f, hf⟩ := hother j hj
        exact ⟨f, by rw [e2]; exact getElem?_append_of_some hf _⟩
    · exact absurd hj hni.2
  · intro h hl ho
    have hl1 : s.2.Later h := hl.prefix e2
    have hl0 : s0.2.Later h := hl1.prefix hD1
    rw [e1, List.map_append, hjs, List.map_append, hs.base.forward h hl0 ho, hfw h hl1 ho]
    cases ids with
    | nil => exact absurd rfl hne
    | cons i is => simp [withPre]

/-- The first linear layer. -/
theorem linearInit_first (rng : Rng K) {h0 : Heap K} (hord : h0.Ordered) (pre : List (Fwd K)) (inF outF : ℕ) :
    LowInv h0 pre [h0.length] [inF, outF] (linearInit rng inF outF (([] : List ℕ), h0)) := by
  set m : Mod K := .linear (Tensor.tab2 outF inF (rng h0.length)) (Tensor.tab1 outF fun o => rng h0.length o inF) with hm
  have e2 : (linearInit rng inF outF (([] : List ℕ), h0)).2 = h0 ++ [m] := rfl
  have e1 : (linearInit rng inF outF (([] : List ℕ), h0)).1 = [h0.length] := rfl
  refine ⟨⟨[m], rfl⟩, by rw [e2]; exact hord.append_one (by intro j hj; cases hj), ?_, ?_, by simp, rfl, ?_, ?_, ?_⟩
  · intro j hj
    rw [e1, List.mem_singleton] at hj
    rw [e2]; simp [hj]
  · intro j hj
    rw [List.mem_singleton] at hj
    rw [e1]; simp [hj]
  · intro k hk
    have : k = 0 := by simpa using hk
    subst this
    refine ⟨rng, h0.length, [m], by simp [fcMods, leafMods, linArgs, hm], rfl, ?_⟩
    intro k m' hk'
    cases k with
    | zero =>
      simp only [List.getElem?_cons_zero, Option.some.injEq] at hk'
      subst hk'
      exact ⟨m, by rw [e2]; simp, .refl m⟩
    | succ k => simp at hk'
  · intro j hj hni
    rw [e1] at hj
    exact absurd hj hni
  · intro h _ _
    rw [e1]; simp [withPre]

/-- Widths of the layers: input, `H + 1` times hidden, output. -/
def lowWidths (inW outW H hidW : ℕ) : List ℕ := inW :: List.replicate (H + 1) hidW ++ [outW]

/-- The list of layers of the whole network. -/
theorem lowMlpInit_inv (rng : Rng K) {h0 : Heap K} (hord : h0.Ordered) (inW outW H hidW : ℕ) {nonLinearity : Option ℕ}
    (normalization : Option (Fwd K)) {nl : Fwd K} (hnl : ∀ j ∈ nonLinearity, h0[j]? = some (.other nl)) :
    ∃ ids s, ids.length = H + 2 ∧ LowInv h0 (lowPre normalization nonLinearity nl) ids (lowWidths inW outW H hidW) s ∧
      lowMlpInit rng inW outW H hidW nonLinearity normalization h0 = (s.2.length + 1, s.2 ++ [.seq s.1, .wrap s.2.length]) := by
  have loop : ∀ k, ∃ ids, ids.length = k + 1 ∧ LowInv h0 (lowPre normalization nonLinearity nl) ids (inW :: List.replicate (k + 1) hidW)
      ((List.range k).foldl (fun s _ => linearInit rng hidW hidW (appendPreLow normalization nonLinearity s))
        (linearInit rng inW hidW (([] : List ℕ), h0))) := by
    intro k
    induction k with
    | zero => exact ⟨[h0.length], rfl, linearInit_first rng hord _ inW hidW⟩
    | succ k ih =>
      obtain ⟨ids, h1, h2⟩ := ih
      rw [List.range_succ, List.foldl_append, List.foldl_cons, List.foldl_nil]
      have hne : ids ≠ [] := by intro h; rw [h] at h1; cases h1
      have h3 := linearInit_inv rng (appendPreLow_mid hnl h2) hne (inF := hidW) (outF := hidW) (by
        rw [h1]; simp [List.getD_cons_succ, List.getD_replicate])
      have e : inW :: List.replicate (k + 1) hidW ++ [hidW] = inW :: List.replicate (k + 1 + 1) hidW := by
        rw [List.cons_append, ← List.replicate_succ']
      rw [e] at h3
      exact ⟨_, by simp [h1], h3⟩
  obtain ⟨ids, h1, h2⟩ := loop H
  have hne : ids ≠ [] := by intro h; rw [h] at h1; cases h1
  have h3 := linearInit_inv rng (appendPreLow_mid hnl h2) hne (inF := hidW) (outF := outW) (by
    rw [h1]; simp [List.getD_cons_succ, List.getD_replicate])
  exact ⟨_, _, by simp [h1], h3, rfl⟩

end HOL
