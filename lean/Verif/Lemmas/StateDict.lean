import Verif.Model.StateDict
import Verif.Lemmas.Net

/-! # Lemmas on saving and loading weights -/

namespace HOL
open TorchScalar Relation
variable {K : Type}

/-- A module without the values of its parameters. -/
def Mod.shell : Mod K → Mod K
  | .pw L => .pw { L with w := ⟨[], []⟩ }
  | .fn L => .fn { L with w := ⟨[], []⟩ }
  | .polyND L => .polyND { L with w := ⟨[], []⟩ }
  | .pwND L => .pwND { L with w := ⟨[], []⟩ }
  | .product L => .product { L with weight := ⟨[], []⟩, bias := L.bias.map fun _ => ⟨[], []⟩ }
  | .linear _ _ => .linear ⟨[], []⟩ ⟨[], []⟩
  | m => m

theorem Mod.ext_shell {m m' : Mod K} (hs : m.shell = m'.shell) (hp : m.ownParams = m'.ownParams) : m = m' := by
  cases m <;> cases m' <;> simp only [Mod.shell, reduceCtorEq] at hs
  case pw.pw L L' => cases L; cases L'; simp_all [Mod.ownParams]
  case fn.fn L L' => cases L; cases L'; simp_all [Mod.ownParams]
  case polyND.polyND L L' => cases L; cases L'; simp_all [Mod.ownParams]
  case pwND.pwND L L' => cases L; cases L'; simp_all [Mod.ownParams]
  case product.product L L' =>
    cases L with
    | mk a b c d e f =>
    cases L' with
    | mk a' b' c' d' e' f' =>
    cases f <;> cases f' <;> simp_all [Mod.ownParams]
  case linear.linear => simp_all [Mod.ownParams]
  all_goals exact hs

theorem Mod.setParam_shell (m : Mod K) (n : String) (t : Tensor K) : (m.setParam n t).shell = m.shell := by
  cases m <;> simp only [Mod.setParam] <;> (try split) <;> (try split) <;> (try rfl)
  rename_i L _ _
  simp only [Mod.shell, Option.map_map]
  rfl

theorem Mod.setParam_own (m : Mod K) (n : String) (t : Tensor K) : (m.setParam n t).ownParams = m.ownParams.map fun p => if p.1 = n then (p.1, t) else p := by
  cases m with
  | pw L => by_cases h : n = "w" <;> simp [Mod.setParam, Mod.ownParams, h, eq_comm]
  | fn L => by_cases h : n = "w" <;> simp [Mod.setParam, Mod.ownParams, h, eq_comm]
  | polyND L => by_cases h : n = "w" <;> simp [Mod.setParam, Mod.ownParams, h, eq_comm]
  | pwND L => by_cases h : n = "w" <;> simp [Mod.setParam, Mod.ownParams, h, eq_comm]
  | product L =>
    by_cases h : n = "weight"
    · subst h
      cases hb : L.bias <;> simp [Mod.setParam, Mod.ownParams, hb]
    · by_cases h' : n = "bias"
      · subst h'
        cases hb : L.bias <;> simp [Mod.setParam, Mod.ownParams, hb]
      · have h1 : ¬ "weight" = n := fun e => h e.symm
        have h2 : ¬ "bias" = n := fun e => h' e.symm
        cases hb : L.bias <;> simp [Mod.setParam, Mod.ownParams, h, h', hb, h1, h2]
  | linear w b =>
    by_cases h : n = "weight"
    · subst h
      simp [Mod.setParam, Mod.ownParams]
    · by_cases h' : n = "bias"
      · subst h'
        simp [Mod.setParam, Mod.ownParams]
      · have h1 : ¬ "weight" = n := fun e => h e.symm
        have h2 : ¬ "bias" = n := fun e => h' e.symm
        simp [Mod.setParam, Mod.ownParams, h, h', h1, h2]
  | _ => rfl

theorem Mod.ownParams_nodup (m : Mod K) : (m.ownParams.map Prod.fst).Nodup := by
  cases m with
  | product L => cases hb : L.bias <;> simp [Mod.ownParams, hb]
  | linear w b => simp [Mod.ownParams]
  | _ => simp [Mod.ownParams]

theorem Mod.namedChildren_snd (m : Mod K) : m.namedChildren.map Prod.snd = m.children := by
  cases m with
  | seq cs => simp [Mod.namedChildren, Mod.children, List.map_map, Function.comp_def]
  | switch a b norm => cases norm <;> simp [Mod.namedChildren, Mod.children]
  | _ => rfl

theorem Mod.namedChildren_keys (m : Mod K) : (m.namedChildren.map Prod.fst).Nodup := by
  cases m with
  | seq cs =>
    simp only [Mod.namedChildren, List.map_map, Function.comp_def]
    have : (cs.zipIdx.map fun c => Key.item c.2) = (cs.zipIdx.map Prod.snd).map Key.item := by rw [List.map_map]; rfl
    rw [this, List.zipIdx_map_snd]
    refine List.Nodup.map (fun a b e => by injection e) ?_
    exact List.nodup_range'
  | switch a b norm => cases norm <;> simp [Mod.namedChildren]
  | mlp => simp [Mod.namedChildren]
  | _ => simp [Mod.namedChildren]

theorem Mod.shell_own {m m' : Mod K} (h : m.shell = m'.shell) : m.ownParams.map Prod.fst = m'.ownParams.map Prod.fst := by
  cases m <;> cases m' <;> simp only [Mod.shell, reduceCtorEq] at h <;> (try rfl)
  case product.product L L' =>
    have e : L.bias.isSome = L'.bias.isSome := by
      have := congrArg ProductLayer.bias (Mod.product.inj h)
      dsimp only at this
      cases h1 : L.bias <;> cases h2 : L'.bias <;> simp_all
    cases h1 : L.bias <;> cases h2 : L'.bias <;> simp_all [Mod.ownParams]

theorem Mod.shell_named {m m' : Mod K} (h : m.shell = m'.shell) : m.namedChildren = m'.namedChildren := by
  cases m <;> cases m' <;> simp only [Mod.shell, reduceCtorEq] at h <;> first | rfl | (cases h; rfl)

theorem Mod.shell_hidden {m m' : Mod K} (h : m.shell = m'.shell) : m.hidden = m'.hidden := by
  cases m <;> cases m' <;> simp only [Mod.shell, reduceCtorEq] at h <;> first | rfl | (cases h; rfl)

theorem Mod.shell_refs {m m' : Mod K} (h : m.shell = m'.shell) : m.refs = m'.refs := by
  unfold Mod.refs
  rw [Mod.shell_hidden h, ← m.namedChildren_snd, ← m'.namedChildren_snd, Mod.shell_named h]

/-! ## keys -/

theorem slotStep_congr (m : Mod K) {c c' : ℕ → List ParamSlot} (h : ∀ j ∈ m.children, c j = c' j) (i : ℕ) : slotStep c i m = slotStep c' i m := by
  unfold slotStep
  congr 1
  rw [List.flatMap_def, List.flatMap_def]
  congr 1
  refine List.map_congr_left fun a ha => ?_
  rw [h a.2]
  rw [← m.namedChildren_snd]
  exact List.mem_map_of_mem ha

theorem Heap.slots_eq [TorchScalar K] {h : Heap K} (ho : h.Ordered) {i : ℕ} {m : Mod K} (hm : h[i]? = some m) : h.slots i = slotStep h.slots i m := by
  have e := Heap.fold_getD ([] : List ParamSlot) slotStep h hm
  unfold Heap.slots
  rw [e]
  apply slotStep_congr
  intro j hj
  rw [if_pos (ho i m hm j (by simp [Mod.refs, hj]))]

theorem Heap.slots_none [TorchScalar K] {h : Heap K} {i : ℕ} (hm : h[i]? = none) : h.slots i = [] := Heap.fold_getD_none _ _ _ hm

theorem mem_slotStep {c : ℕ → List ParamSlot} {i : ℕ} {m : Mod K} {s : ParamSlot} :
    s ∈ slotStep c i m ↔ (∃ p ∈ m.ownParams, s = ([Key.attr p.1], i, p.1)) ∨ ∃ k j, (k, j) ∈ m.namedChildren ∧ ∃ s' ∈ c j, s = (k :: s'.1, s'.2) := by
  unfold slotStep
  simp only [List.mem_append, List.mem_map, List.mem_flatMap]
  constructor
  · rintro (⟨p, hp, rfl⟩ | ⟨⟨k, j⟩, hc, s', hs', rfl⟩)
    · exact Or.inl ⟨p, hp, rfl⟩
    · exact Or.inr ⟨k, j, hc, s', hs', rfl⟩
  · rintro (⟨p, hp, rfl⟩ | ⟨k, j, hc, s', hs', rfl⟩)
    · exact Or.inl ⟨p, hp, rfl⟩
    · exact Or.inr ⟨(k, j), hc, s', hs', rfl⟩

theorem mem_children_of_named {m : Mod K} {k : Key} {j : ℕ} (h : (k, j) ∈ m.namedChildren) : j ∈ m.children := by
  rw [← m.namedChildren_snd]
  exact List.mem_map_of_mem (f := Prod.snd) h

theorem Heap.slots_ne_nil [TorchScalar K] {h : Heap K} (ho : h.Ordered) {i : ℕ} {s : ParamSlot} (hs : s ∈ h.slots i) : s.1 ≠ [] := by
  cases hm : h[i]? with
  | none => rw [Heap.slots_none hm] at hs; cases hs
  | some m =>
    rw [Heap.slots_eq ho hm, mem_slotStep] at hs
    rcases hs with ⟨p, -, rfl⟩ | ⟨k, j, -, s', -, rfl⟩ <;> simp

/-- A key leads to one parameter. -/
theorem Heap.slots_inj [TorchScalar K] {h : Heap K} (ho : h.Ordered) : ∀ (i : ℕ) (s t : ParamSlot), s ∈ h.slots i → t ∈ h.slots i → s.1 = t.1 → s = t := by
  intro i
  induction i using Nat.strong_induction_on with
  | _ i ih =>
    intro s t hs ht e
    cases hm : h[i]? with
    | none => rw [Heap.slots_none hm] at hs; cases hs
    | some m =>
      rw [Heap.slots_eq ho hm, mem_slotStep] at hs ht
      rcases hs with ⟨p, hp, rfl⟩ | ⟨k, j, hc, s', hs', rfl⟩ <;> rcases ht with ⟨q, hq, rfl⟩ | ⟨k', j', hc', t', ht', rfl⟩
      · dsimp only at e
        have : p.1 = q.1 := by simpa using e
        rw [this]
      · dsimp only at e
        have := Heap.slots_ne_nil ho ht'
        simp at e
        exact absurd e.2.symm (by simpa using this)
      · dsimp only at e
        have := Heap.slots_ne_nil ho hs'
        simp at e
        exact absurd e.2 (by simpa using this)
      · dsimp only at e
        obtain ⟨e1, e2⟩ := List.cons.inj e
        subst e1
        have hj : j = j' := by
          have := List.inj_on_of_nodup_map m.namedChildren_keys hc hc' rfl
          exact (Prod.mk.inj this).2
        subst hj
        have := ih j (ho i m hm j (by simp [Mod.refs, mem_children_of_named hc])) s' t' hs' ht' e2
        rw [this]

/-- The parameters with keys are those of the registered modules. -/
theorem Heap.mem_slots [TorchScalar K] {h : Heap K} (ho : h.Ordered) : ∀ (i j : ℕ) (n : String),
    (∃ π, (π, j, n) ∈ h.slots i) ↔ ReflTransGen h.Child i j ∧ ∃ m, h[j]? = some m ∧ n ∈ m.ownParams.map Prod.fst := by
  intro i
  induction i using Nat.strong_induction_on with
  | _ i ih =>
    intro j n
    constructor
    · rintro ⟨π, hs⟩
      cases hm : h[i]? with
      | none => rw [Heap.slots_none hm] at hs; cases hs
      | some m =>
        rw [Heap.slots_eq ho hm, mem_slotStep] at hs
        rcases hs with ⟨p, hp, e⟩ | ⟨k, j', hc, s', hs', e⟩
        · simp only [Prod.mk.injEq] at e
          obtain ⟨-, rfl, rfl⟩ := e
          exact ⟨.refl, m, hm, List.mem_map_of_mem hp⟩
        · simp only [Prod.mk.injEq] at e
          have hj' := mem_children_of_named hc
          have := (ih j' (ho i m hm j' (by simp [Mod.refs, hj'])) j n).1 ⟨s'.1, by rw [e.2]; exact hs'⟩
          exact ⟨ReflTransGen.head ⟨m, hm, hj'⟩ this.1, this.2⟩
    · rintro ⟨hr, m, hm, hn⟩
      rcases ReflTransGen.cases_head hr with rfl | ⟨j', hc, hr'⟩
      · obtain ⟨p, hp, rfl⟩ := List.mem_map.1 hn
        exact ⟨_, by rw [Heap.slots_eq ho hm, mem_slotStep]; exact Or.inl ⟨p, hp, rfl⟩⟩
      · obtain ⟨m', hm', hj'⟩ := hc
        obtain ⟨π, hs⟩ := (ih j' (ho i m' hm' j' (by simp [Mod.refs, hj'])) j n).2 ⟨hr', m, hm, hn⟩
        rw [← m'.namedChildren_snd] at hj'
        obtain ⟨⟨k, _⟩, hc, rfl⟩ := List.mem_map.1 hj'
        exact ⟨k :: π, by rw [Heap.slots_eq ho hm', mem_slotStep]; exact Or.inr ⟨k, _, hc, _, hs, rfl⟩⟩

/-! ## loading -/

theorem lookup_of_nodup {α β : Type} [BEq α] [LawfulBEq α] {l : List (α × β)} (hd : (l.map Prod.fst).Nodup) {p : α × β} (hp : p ∈ l) : l.lookup p.1 = some p.2 := by
  induction l with
  | nil => cases hp
  | cons q l ih =>
    rw [List.map_cons, List.nodup_cons] at hd
    rcases List.mem_cons.1 hp with rfl | hp
    · simp [List.lookup]
    · have hne : p.1 ≠ q.1 := fun e => hd.1 (e ▸ List.mem_map_of_mem hp)
      rw [List.lookup_cons]
      have : (p.1 == q.1) = false := by simpa using hne
      rw [this]
      exact ih hd.2 hp

theorem Heap.param_eq {h : Heap K} {j : ℕ} {m : Mod K} (hm : h[j]? = some m) {p : String × Tensor K} (hp : p ∈ m.ownParams) : h.param j p.1 = p.2 := by
  unfold Heap.param
  rw [hm]
  show (m.ownParams.lookup p.1).getD _ = _
  rw [lookup_of_nodup m.ownParams_nodup hp]
  rfl

theorem loadOne_some {st : List (List Key × Tensor K)} {h : Heap K} {s : ParamSlot} {t : Tensor K} {m : Mod K} (ht : st.lookup s.1 = some t) (hm : h[s.2.1]? = some m) :
    loadOne st h s = if t.shape = (h.param s.2.1 s.2.2).shape then h.set s.2.1 (m.setParam s.2.2 t) else h := by
  unfold loadOne
  rw [ht, hm]

theorem loadOne_none {st : List (List Key × Tensor K)} {h : Heap K} {s : ParamSlot} (ht : st.lookup s.1 = none) : loadOne st h s = h := by
  unfold loadOne
  rw [ht]

theorem loadOne_other (st : List (List Key × Tensor K)) (h : Heap K) (s : ParamSlot) {j : ℕ} (hj : j ≠ s.2.1) : (loadOne st h s)[j]? = h[j]? := by
  unfold loadOne
  split
  · split
    · rw [List.getElem?_set_ne (fun e => hj e.symm)]
    · rfl
  · rfl

theorem loadOne_shell (st : List (List Key × Tensor K)) (h : Heap K) (s : ParamSlot) (j : ℕ) : ((loadOne st h s)[j]?).map Mod.shell = (h[j]?).map Mod.shell := by
  by_cases hj : j = s.2.1
  · unfold loadOne
    split
    · rename_i t m ht hm
      split
      · subst hj
        have hlt := (List.getElem?_eq_some_iff.1 hm).1
        rw [List.getElem?_set_self hlt, hm]
        simp only [Option.map_some, Mod.setParam_shell]
      · rfl
    · rfl
  · rw [loadOne_other st h s hj]

theorem loadFold_shell (st : List (List Key × Tensor K)) (S : List ParamSlot) (h : Heap K) (j : ℕ) : ((S.foldl (loadOne st) h)[j]?).map Mod.shell = (h[j]?).map Mod.shell := by
  induction S generalizing h with
  | nil => rfl
  | cons s S ih => rw [List.foldl_cons, ih, loadOne_shell]

theorem loadFold_other (st : List (List Key × Tensor K)) (S : List ParamSlot) (h : Heap K) {j : ℕ} (hj : ∀ s ∈ S, s.2.1 ≠ j) : (S.foldl (loadOne st) h)[j]? = h[j]? := by
  induction S generalizing h with
  | nil => rfl
  | cons s S ih =>
    rw [List.foldl_cons, ih _ fun t ht => hj t (List.mem_cons_of_mem _ ht)]
    exact loadOne_other st h s fun e => hj s List.mem_cons_self e.symm

/-- What of a state fits a parameter. -/
def fitting (st : List (List Key × Tensor K)) (h : Heap K) (s : ParamSlot) : Option (Tensor K) :=
  (st.lookup s.1).filter fun t => decide (t.shape = (h.param s.2.1 s.2.2).shape)

/-- Modules after loading: parameters with a fitting value have it, the rest is as before. All keys of a parameter have to give the same value. -/
theorem loadFold_spec (st : List (List Key × Tensor K)) (h : Heap K) (val : ℕ → String → Option (Tensor K)) (S : List ParamSlot)
    (hS : ∀ s ∈ S, (∃ m, h[s.2.1]? = some m ∧ s.2.2 ∈ m.ownParams.map Prod.fst) ∧ fitting st h s = val s.2.1 s.2.2) {j : ℕ} {m : Mod K} (hm : h[j]? = some m) :
    ∃ m', (S.foldl (loadOne st) h)[j]? = some m' ∧ m'.shell = m.shell ∧
      m'.ownParams = m.ownParams.map fun p => (p.1, if (j, p.1) ∈ S.map Prod.snd then (val j p.1).getD p.2 else p.2) := by
  induction S using List.reverseRecOn with
  | nil => exact ⟨m, hm, rfl, by simp⟩
  | append_singleton S s ih =>
    obtain ⟨m', e1, e2, e3⟩ := ih fun t ht => hS t (by simp [ht])
    rw [List.foldl_append, List.foldl_cons, List.foldl_nil]
    obtain ⟨⟨m0, hm0, hn⟩, hv⟩ := hS s (by simp)
    by_cases hj : j = s.2.1
    · subst hj
      rw [hm] at hm0
      cases hm0
      obtain ⟨p0, hp0, hpn⟩ := List.mem_map.1 hn
      have hp0' : h.param s.2.1 s.2.2 = p0.2 := by rw [← hpn]; exact Heap.param_eq hm hp0
      -- the current value has the same shape
      have hcur : ((S.foldl (loadOne st) h).param s.2.1 s.2.2).shape = (h.param s.2.1 s.2.2).shape := by
        have hmem : (p0.1, if (s.2.1, p0.1) ∈ S.map Prod.snd then (val s.2.1 p0.1).getD p0.2 else p0.2) ∈ m'.ownParams := by
          rw [e3]
          exact List.mem_map.2 ⟨p0, hp0, rfl⟩
        have := Heap.param_eq e1 hmem
        rw [← hpn]
        rw [this]
        rw [hpn, hp0']
        dsimp only
        split
        · rw [← hv]
          cases hf : fitting st h s with
          | none => rfl
          | some t =>
            unfold fitting at hf
            rw [Option.filter_eq_some_iff] at hf
            have := of_decide_eq_true hf.2
            rw [hp0'] at this
            exact this
        · rfl
      have hnew : ∀ q : String × Tensor K, q ∈ m.ownParams → ((s.2.1, q.1) ∈ (S ++ [s]).map Prod.snd ↔ (s.2.1, q.1) ∈ S.map Prod.snd ∨ q.1 = s.2.2) := by
        intro q _
        rw [List.map_append, List.mem_append]
        refine or_congr Iff.rfl ?_
        simp only [List.map_cons, List.map_nil, List.mem_singleton]
        constructor
        · intro e
          exact (Prod.ext_iff.1 e).2
        · intro e
          exact Prod.ext rfl e
      cases hl : st.lookup s.1 with
      | none =>
        have hval : val s.2.1 s.2.2 = none := by rw [← hv]; unfold fitting; rw [hl]; rfl
        refine ⟨m', ?_, e2, ?_⟩
        · rw [loadOne_none hl]
          exact e1
        · rw [e3]
          refine List.map_congr_left fun q hq => ?_
          simp only [hnew q hq]
          by_cases h1 : (s.2.1, q.1) ∈ S.map Prod.snd
          · rw [if_pos h1, if_pos (Or.inl h1)]
          · rw [if_neg h1]
            by_cases h2 : q.1 = s.2.2
            · rw [if_pos (Or.inr h2), h2, hval]
              rfl
            · rw [if_neg (not_or.2 ⟨h1, h2⟩)]
      | some t =>
        by_cases hsh : t.shape = (h.param s.2.1 s.2.2).shape
        · have hval : val s.2.1 s.2.2 = some t := by
            rw [← hv]
            unfold fitting
            rw [hl, Option.filter_some, if_pos (decide_eq_true hsh)]
          refine ⟨m'.setParam s.2.2 t, ?_, ?_, ?_⟩
          · rw [loadOne_some hl e1, if_pos (hsh.trans hcur.symm)]
            exact List.getElem?_set_self (List.getElem?_eq_some_iff.1 e1).1
          · rw [Mod.setParam_shell, e2]
          · rw [Mod.setParam_own, e3, List.map_map]
            refine List.map_congr_left fun q hq => ?_
            simp only [Function.comp_apply, hnew q hq]
            by_cases h2 : q.1 = s.2.2
            · rw [if_pos h2, if_pos (Or.inr h2), h2, hval]
              rfl
            · rw [if_neg h2]
              by_cases h1 : (s.2.1, q.1) ∈ S.map Prod.snd
              · rw [if_pos h1, if_pos (Or.inl h1)]
              · rw [if_neg h1, if_neg (not_or.2 ⟨h1, h2⟩)]
        · have hval : val s.2.1 s.2.2 = none := by
            rw [← hv]
            unfold fitting
            rw [hl, Option.filter_some, if_neg (by simpa using hsh)]
          refine ⟨m', ?_, e2, ?_⟩
          · rw [loadOne_some hl e1, if_neg (fun e => hsh (e.trans hcur))]
            exact e1
          · rw [e3]
            refine List.map_congr_left fun q hq => ?_
            simp only [hnew q hq]
            by_cases h1 : (s.2.1, q.1) ∈ S.map Prod.snd
            · rw [if_pos h1, if_pos (Or.inl h1)]
            · rw [if_neg h1]
              by_cases h2 : q.1 = s.2.2
              · rw [if_pos (Or.inr h2), h2, hval]
                rfl
              · rw [if_neg (not_or.2 ⟨h1, h2⟩)]
    · refine ⟨m', ?_, e2, ?_⟩
      · rw [loadOne_other st _ s hj]
        exact e1
      · rw [e3]
        refine List.map_congr_left fun q hq => ?_
        have : (j, q.1) ∈ (S ++ [s]).map Prod.snd ↔ (j, q.1) ∈ S.map Prod.snd := by
          rw [List.map_append, List.mem_append]
          simp only [List.map_cons, List.map_nil, List.mem_singleton]
          refine or_iff_left fun e => hj ?_
          exact (Prod.ext_iff.1 e).1
        simp only [this]

theorem ordered_of_shell {h h' : Heap K} (ho : h.Ordered) (hs : ∀ j : ℕ, (h'[j]?).map Mod.shell = (h[j]?).map Mod.shell) : h'.Ordered := by
  intro i m hm j hj
  have := hs i
  rw [hm] at this
  cases hm' : h[i]? with
  | none => rw [hm'] at this; cases this
  | some m' =>
    rw [hm'] at this
    simp only [Option.map_some, Option.some.injEq] at this
    rw [Mod.shell_refs this] at hj
    exact ho i m' hm' j hj

/-! ## networks that look the same -/

/-- Module `m` of one network and `m'` of another play the same part, where `φ` takes the modules of the second to those of the first: same names and shapes of parameters, same submodules, nothing in
Python lists, and with the parameters of `m` the second computes what `m` does. -/
structure Alike [TorchScalar K] (φ : ℕ → ℕ) (m m' : Mod K) : Prop where
  params : (m'.ownParams.map fun p => (p.1, p.2.shape)) = m.ownParams.map fun p => (p.1, p.2.shape)
  kids : (m'.namedChildren.map fun c => (c.1, φ c.2)) = m.namedChildren
  plain : m'.hidden = []
  fwd : ∀ (m'' : Mod K) (call call' : ℕ → Fwd K), m''.shell = m'.shell → m''.ownParams = m.ownParams → (∀ c ∈ m'.children, call' c = call (φ c)) → m''.forward call' = m.forward call

/-- All registered modules below `b` have their counterpart. -/
def Mirrors [TorchScalar K] (φ : ℕ → ℕ) (hA hB : Heap K) (b : ℕ) : Prop := Hered Mod.children (fun k m' => ∃ m, hA[φ k]? = some m ∧ Alike φ m m') hB b

theorem Mirrors.slots [TorchScalar K] {φ : ℕ → ℕ} {hA hB : Heap K} (oA : hA.Ordered) (oB : hB.Ordered) {b : ℕ} (h : Mirrors φ hA hB b) :
    hA.slots (φ b) = (hB.slots b).map fun s => (s.1, φ s.2.1, s.2.2) := by
  induction h with
  | mk hm hP hc ih =>
    rename_i i m'
    obtain ⟨m, hmA, ha⟩ := hP
    rw [Heap.slots_eq oA hmA, Heap.slots_eq oB hm]
    unfold slotStep
    rw [List.map_append, List.map_map, List.map_flatMap]
    congr 1
    · have e : ∀ l l' : List (String × Tensor K), (l.map fun p => (p.1, p.2.shape)) = (l'.map fun p => (p.1, p.2.shape)) → l.map Prod.fst = l'.map Prod.fst := by
        intro l l' e
        have := congrArg (List.map Prod.fst) e
        simpa [List.map_map, Function.comp_def] using this
      have e' := e _ _ ha.params
      have q : ∀ l : List (String × Tensor K), (l.map fun p => (([Key.attr p.1], φ i, p.1) : ParamSlot)) = (l.map Prod.fst).map fun n => ([Key.attr n], φ i, n) := by
        intro l
        rw [List.map_map]
        rfl
      rw [q, ← e', ← q]
      rfl
    · rw [← ha.kids, List.flatMap_map, List.flatMap_def, List.flatMap_def]
      congr 1
      refine List.map_congr_left fun c hcm => ?_
      rw [ih c.2 (mem_children_of_named (k := c.1) hcm), List.map_map, List.map_map]
      rfl

theorem Mirrors.child [TorchScalar K] {φ : ℕ → ℕ} {hA hB : Heap K} {b j : ℕ} (h : Mirrors φ hA hB b) (hr : ReflTransGen hB.Child b j) :
    ∃ m', hB[j]? = some m' ∧ ∃ m, hA[φ j]? = some m ∧ Alike φ m m' := Hered.child h hr

/-- Loading the state of a network into one that looks the same. -/
theorem Mirrors.load [TorchScalar K] {φ : ℕ → ℕ} {hA hB : Heap K} (oA : hA.Ordered) (oB : hB.Ordered) {b : ℕ} (h : Mirrors φ hA hB b) :
    ∃ hB', hB.loadStateDict b (hA.stateDict (φ b)) = (.ok (), hB') ∧ hB'.forward b = hA.forward (φ b) ∧ hB'.Ordered ∧
      (∀ j, ¬ ReflTransGen hB.Child b j → hB'[j]? = hB[j]?) ∧ ∀ (j : ℕ) (m : Mod K), hB[j]? = some m → ∃ m' : Mod K, hB'[j]? = some m' ∧ m'.shell = m.shell ∧
        (m'.ownParams.map fun p => (p.1, p.2.shape)) = m.ownParams.map fun p => (p.1, p.2.shape) := by
  set st := hA.stateDict (φ b) with hst
  have hsl := h.slots oA oB
  -- every key gives the value of the counterpart
  have look : ∀ s ∈ hB.slots b, st.lookup s.1 = some (hA.param (φ s.2.1) s.2.2) := by
    intro s hs
    have e : st = (hB.slots b).map fun s => (s.1, hA.param (φ s.2.1) s.2.2) := by
      rw [hst]
      unfold Heap.stateDict
      rw [hsl, List.map_map]
      rfl
    rw [e]
    have key : ∀ l : List ParamSlot, (∀ t ∈ l, t.1 = s.1 → t = s) → s ∈ l → (l.map fun s => (s.1, hA.param (φ s.2.1) s.2.2)).lookup s.1 = some (hA.param (φ s.2.1) s.2.2) := by
      intro l
      induction l with
      | nil => intro _ hl; cases hl
      | cons t l ih =>
        intro hinj hl
        rw [List.map_cons, List.lookup_cons]
        by_cases ht : s.1 = t.1
        · have : (s.1 == t.1) = true := by simpa using ht
          rw [this, hinj t List.mem_cons_self ht.symm]
        · have hb : (s.1 == t.1) = false := by simpa using ht
          rw [hb]
          refine ih (fun t ht => hinj t (List.mem_cons_of_mem _ ht)) ?_
          rcases List.mem_cons.1 hl with rfl | hl
          · exact absurd rfl ht
          · exact hl
    exact key _ (fun t ht e => Heap.slots_inj oB b t s ht hs e) hs
  have own : ∀ s ∈ hB.slots b, ReflTransGen hB.Child b s.2.1 ∧ ∃ m, hB[s.2.1]? = some m ∧ s.2.2 ∈ m.ownParams.map Prod.fst := fun s hs =>
    (Heap.mem_slots oB b s.2.1 s.2.2).1 ⟨s.1, hs⟩
  -- names and values of counterparts
  have counter : ∀ {m m' : Mod K} {j : ℕ}, hA[φ j]? = some m → Alike φ m m' → ∀ p' ∈ m'.ownParams, ∃ p ∈ m.ownParams, p.1 = p'.1 ∧ p.2.shape = p'.2.shape ∧ hA.param (φ j) p'.1 = p.2 := by
    intro m m' j hmA ha p' hp'
    have : (p'.1, p'.2.shape) ∈ m.ownParams.map fun p => (p.1, p.2.shape) := by
      rw [← ha.params]
      exact List.mem_map.2 ⟨p', hp', rfl⟩
    obtain ⟨p, hp, e⟩ := List.mem_map.1 this
    obtain ⟨e1, e2⟩ := Prod.mk.inj e
    exact ⟨p, hp, e1, e2, by rw [← e1]; exact Heap.param_eq hmA hp⟩
  have shapes : ∀ s ∈ hB.slots b, (hA.param (φ s.2.1) s.2.2).shape = (hB.param s.2.1 s.2.2).shape := by
    intro s hs
    obtain ⟨hr, m', hm', hn⟩ := own s hs
    obtain ⟨m'', hm'', m, hmA, ha⟩ := h.child hr
    rw [hm'] at hm''
    cases hm''
    obtain ⟨p', hp', e⟩ := List.mem_map.1 hn
    obtain ⟨p, hp, -, e2, e3⟩ := counter hmA ha p' hp'
    rw [← e, e3, e2, Heap.param_eq hm' hp']
  set hB' := (hB.slots b).foldl (loadOne st) hB with hB'def
  have spec : ∀ (j : ℕ) (m : Mod K), hB[j]? = some m → ∃ m' : Mod K, hB'[j]? = some m' ∧ m'.shell = m.shell ∧
      m'.ownParams = m.ownParams.map fun p => (p.1, if (j, p.1) ∈ (hB.slots b).map Prod.snd then hA.param (φ j) p.1 else p.2) := by
    intro j m hm
    exact loadFold_spec st hB (fun j n => some (hA.param (φ j) n)) (hB.slots b) (fun s hs => ⟨(own s hs).2, by
      unfold fitting
      rw [look s hs, Option.filter_some, if_pos (decide_eq_true (shapes s hs))]⟩) hm
  have oB' : hB'.Ordered := ordered_of_shell oB (loadFold_shell st _ _)
  refine ⟨hB', ?_, ?_, oB', ?_, ?_⟩
  · unfold Heap.loadStateDict
    dsimp only
    rw [if_neg]
    rw [Bool.or_eq_true, not_or]
    constructor
    · rw [List.any_eq_true]
      rintro ⟨s, hs, e⟩
      unfold slotFails at e
      rw [look s hs] at e
      exact absurd (shapes s hs) (by simpa using e)
    · rw [List.any_eq_true]
      rintro ⟨e, he, hall⟩
      rw [List.all_eq_true] at hall
      rw [hst] at he
      unfold Heap.stateDict at he
      rw [hsl, List.map_map, List.mem_map] at he
      obtain ⟨s, hs, rfl⟩ := he
      have := hall s hs
      simp at this
  · have all : ∀ j, ReflTransGen hB.Child b j → hB'.forward j = hA.forward (φ j) := by
      intro j
      induction j using Nat.strong_induction_on with
      | _ j ih =>
        intro hr
        obtain ⟨m', hm', m, hmA, ha⟩ := h.child hr
        obtain ⟨m'', e1, e2, e3⟩ := spec j m' hm'
        rw [Heap.forward_eq oB' e1, Heap.forward_eq oA hmA]
        refine ha.fwd m'' _ _ e2 ?_ ?_
        · rw [e3]
          have hin : ∀ p ∈ m'.ownParams, (j, p.1) ∈ (hB.slots b).map Prod.snd := by
            intro p hp
            obtain ⟨π, hπ⟩ := (Heap.mem_slots oB b j p.1).2 ⟨hr, m', hm', List.mem_map_of_mem hp⟩
            exact List.mem_map.2 ⟨_, hπ, rfl⟩
          have e4 : (m'.ownParams.map fun p => (p.1, if (j, p.1) ∈ (hB.slots b).map Prod.snd then hA.param (φ j) p.1 else p.2))
              = (m'.ownParams.map Prod.fst).map fun n => (n, hA.param (φ j) n) := by
            rw [List.map_map]
            refine List.map_congr_left fun p hp => ?_
            rw [if_pos (hin p hp)]
            rfl
          have e5 : m'.ownParams.map Prod.fst = m.ownParams.map Prod.fst := by
            have := congrArg (List.map Prod.fst) ha.params
            simpa [List.map_map, Function.comp_def] using this
          rw [e4, e5, List.map_map]
          conv_rhs => rw [← List.map_id m.ownParams]
          refine List.map_congr_left fun p hp => ?_
          rw [Function.comp_apply, Heap.param_eq hmA hp]
          rfl
        · intro c hc
          exact ih c (oB j m' hm' c (by simp [Mod.refs, hc])) (hr.tail ⟨m', hm', hc⟩)
    exact all b .refl
  · intro j hj
    exact loadFold_other st _ _ fun s hs e => hj (e ▸ (own s hs).1)
  · intro j m hm
    obtain ⟨m', e1, e2, e3⟩ := spec j m hm
    refine ⟨m', e1, e2, ?_⟩
    rw [e3, List.map_map]
    refine List.map_congr_left fun p hp => ?_
    simp only [Function.comp_apply, Prod.mk.injEq, true_and]
    split
    · rename_i hin
      obtain ⟨s, hs, e⟩ := List.mem_map.1 hin
      have := shapes s hs
      rw [e] at this
      rw [this, Heap.param_eq hm hp]
    · rfl

end HOL
