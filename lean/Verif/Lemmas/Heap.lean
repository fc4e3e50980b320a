import Verif.Spec.Network
import Mathlib.Tactic.Linarith
import Mathlib.Data.List.GetD

/-! # Lemmas about heaps of modules -/

namespace HOL
open TorchScalar
variable {K : Type} [TorchScalar K]

set_option linter.unusedSectionVars false

namespace Heap

variable {β : Type} (d : β) (step : (ℕ → β) → ℕ → Mod K → β)

theorem fold_nil : Heap.fold d step [] = [] := rfl

theorem fold_append_one (h : Heap K) (m : Mod K) :
    Heap.fold d step (h ++ [m]) = Heap.fold d step h ++
      [step (fun i => (Heap.fold d step h).getD i d) (Heap.fold d step h).length m] := by
  unfold Heap.fold
  rw [List.foldl_append]
  rfl

theorem fold_length (h : Heap K) : (Heap.fold d step h).length = h.length := by
  induction h using List.reverseRecOn with
  | nil => rfl
  | append_singleton h m ih => rw [fold_append_one, List.length_append, ih]; simp

/-- Later modules do not matter. -/
theorem fold_getD_append (h h' : Heap K) {i : ℕ} (hi : i < h.length) :
    (Heap.fold d step (h ++ h')).getD i d = (Heap.fold d step h).getD i d := by
  induction h' using List.reverseRecOn with
  | nil => rw [List.append_nil]
  | append_singleton h' m ih =>
    rw [← List.append_assoc, fold_append_one, List.getD_append, ih]
    rw [fold_length, List.length_append]; omega

/-- The recursive equation. -/
theorem fold_getD (h : Heap K) {i : ℕ} {m : Mod K} (hm : h[i]? = some m) :
    (Heap.fold d step h).getD i d
      = step (fun j => if j < i then (Heap.fold d step h).getD j d else d) i m := by
  obtain ⟨hi, rfl⟩ := List.getElem?_eq_some_iff.1 hm
  have e : h = (h.take i ++ [h[i]]) ++ h.drop (i + 1) := by
    rw [List.take_append_getElem, List.take_append_drop]
  have hl : (h.take i).length = i := by rw [List.length_take]; omega
  have e1 : (Heap.fold d step h).getD i d = (Heap.fold d step (h.take i ++ [h[i]])).getD i d := by
    conv_lhs => rw [e]
    apply fold_getD_append
    rw [List.length_append, hl]; simp
  rw [e1, fold_append_one, List.getD_append_right _ _ _ _ (by rw [fold_length, hl]), fold_length, hl]
  simp only [Nat.sub_self, List.getD_cons_zero]
  congr 1
  funext j
  by_cases hj : j < i
  · rw [if_pos hj]
    conv_rhs => rw [← List.take_append_drop i h]
    rw [fold_getD_append _ _ _ _ (by omega)]
  · rw [if_neg hj, List.getD_eq_default _ _ (by rw [fold_length, hl]; omega)]

theorem fold_getD_none (h : Heap K) {i : ℕ} (hm : h[i]? = none) : (Heap.fold d step h).getD i d = d := by
  apply List.getD_eq_default
  rw [fold_length]
  exact List.getElem?_eq_none_iff.1 hm

end Heap

theorem seqForward_congr {l : List ℕ} {c c' : ℕ → Fwd K} (h : ∀ j ∈ l, c j = c' j) :
    seqForward (l.map c) = seqForward (l.map c') := by
  have : l.map c = l.map c' := List.map_congr_left h
  rw [this]

theorem mapM_congr {α β : Type} {l : List α} {f g : α → Py β} (h : ∀ a ∈ l, f a = g a) : l.mapM f = l.mapM g := by
  induction l with
  | nil => rfl
  | cons a l ih =>
    rw [List.mapM_cons, List.mapM_cons, h a (by simp), ih fun b hb => h b (by simp [hb])]

theorem Mod.forward_congr (m : Mod K) {c c' : ℕ → Fwd K} (h : ∀ j ∈ m.refs, c j = c' j) : m.forward c = m.forward c' := by
  funext x
  cases m with
  | linearRelu f =>
    simp only [Mod.forward]
    rw [h f (by simp [Mod.refs, Mod.children, Mod.hidden])]
  | switch inF layers norm =>
    simp only [Mod.forward]
    rw [mapM_congr (g := fun l => c' l x) fun a ha => by rw [h a (by simp [Mod.refs, Mod.hidden, ha])]]
    cases norm with
    | none => rfl
    | some n =>
      have := h n (by simp [Mod.refs, Mod.children])
      simp only [this]
  | sum layers =>
    simp only [Mod.forward]
    rw [mapM_congr (g := fun l => c' l x) fun a ha => by rw [h a (by simp [Mod.refs, Mod.hidden, ha])]]
  | seq cs =>
    simp only [Mod.forward]
    rw [seqForward_congr fun j hj => h j (by simp [Mod.refs, Mod.hidden, Mod.children, hj])]
  | mlp a b e f => simp only [Mod.forward]; rw [h f (by simp [Mod.refs, Mod.children])]
  | wrap f => simp only [Mod.forward]; rw [h f (by simp [Mod.refs, Mod.children])]
  | _ => rfl

/-- `module(x)` in terms of the submodules. -/
theorem Heap.forward_eq {h : Heap K} (ho : h.Ordered) {i : ℕ} {m : Mod K} (hm : h[i]? = some m) :
    h.forward i = m.forward h.forward := by
  have e := Heap.fold_getD (noFwd : Fwd K) (fun call _ m => m.forward call) h hm
  unfold Heap.forward
  rw [e]
  apply Mod.forward_congr
  intro j hj
  rw [if_pos (ho i m hm j hj)]

theorem Heap.forward_append (h h' : Heap K) {i : ℕ} (hi : i < h.length) : Heap.forward (h ++ h') i = Heap.forward h i := by
  unfold Heap.forward
  rw [Heap.fold_getD_append _ _ _ _ hi]

/-- The enumeration of the modules below `i`, given what has been seen. -/
def Heap.visit (h : Heap K) (i : ℕ) (memo : List ℕ) : List ℕ :=
  (h.fold (fun memo => memo) visitor).getD i (fun memo => memo) memo

theorem Heap.modules_eq_visit (h : Heap K) (i : ℕ) : h.modules i = h.visit i [] := rfl

theorem Heap.visit_eq {h : Heap K} (ho : h.Ordered) {i : ℕ} {m : Mod K} (hm : h[i]? = some m) (memo : List ℕ) :
    h.visit i memo = if i ∈ memo then memo else m.children.foldl (fun memo c => h.visit c memo) (memo ++ [i]) := by
  unfold Heap.visit
  rw [Heap.fold_getD _ visitor h hm]
  unfold visitor
  split
  · rfl
  · have : ∀ (l : List ℕ) (mm : List ℕ), (∀ c ∈ l, c < i) →
        l.foldl (fun memo c => (if c < i then (h.fold (fun memo => memo) visitor).getD c (fun memo => memo) else fun memo => memo) memo) mm
        = l.foldl (fun memo c => (h.fold (fun memo => memo) visitor).getD c (fun memo => memo) memo) mm := by
      intro l
      induction l with
      | nil => intros; rfl
      | cons c l ih =>
        intro mm hl
        simp only [List.foldl_cons]
        rw [if_pos (hl c (by simp)), ih _ fun c hc => hl c (by simp [hc])]
    exact this _ _ fun c hc => ho i m hm c (by simp [Mod.refs, hc])

/-- Two heaps that agree on a set closed under references compute the same there. -/
theorem Heap.forward_frame {h h' : Heap K} (ho : h.Ordered) (ho' : h'.Ordered) (S : ℕ → Prop)
    (hS : ∀ i, S i → h[i]? = h'[i]?) (hcl : ∀ (i : ℕ) (m : Mod K), S i → h[i]? = some m → ∀ j ∈ m.refs, S j) :
    ∀ i, S i → h.forward i = h'.forward i := by
  intro i
  induction i using Nat.strong_induction_on with
  | _ i ih =>
    intro hi
    cases hm : h[i]? with
    | none =>
      have hm' := (hS i hi).symm.trans hm
      unfold Heap.forward
      rw [Heap.fold_getD_none _ _ _ hm, Heap.fold_getD_none _ _ _ hm']
    | some m =>
      have hm' := (hS i hi).symm.trans hm
      rw [Heap.forward_eq ho hm, Heap.forward_eq ho' hm']
      apply Mod.forward_congr
      intro j hj
      exact ih j (ho i m hm j hj) (hcl i m hi hm j hj)

theorem Heap.Ordered.append {h : Heap K} (ho : h.Ordered) {l : List (Mod K)}
    (hl : ∀ k m, l[k]? = some m → ∀ j ∈ m.refs, j < h.length + k) : Heap.Ordered (h ++ l) := by
  intro i m hm j hj
  rcases Nat.lt_or_ge i h.length with hi | hi
  · rw [List.getElem?_append_left hi] at hm
    exact ho i m hm j hj
  · rw [List.getElem?_append_right hi] at hm
    have := hl _ m hm j hj
    omega

theorem Heap.Ordered.append_one {h : Heap K} (ho : h.Ordered) {m : Mod K} (hm : ∀ j ∈ m.refs, j < h.length) :
    Heap.Ordered (h ++ [m]) := by
  apply ho.append
  intro k m' hk j hj
  cases k with
  | zero => simp at hk; subst hk; exact hm j hj
  | succ k => simp at hk

/-- Replacing a module by one with the same references keeps the order. -/
theorem Heap.Ordered.set {h : Heap K} (ho : h.Ordered) {i : ℕ} {m m' : Mod K} (hm : h[i]? = some m)
    (hr : m'.refs = m.refs) : Heap.Ordered (h.set i m') := by
  intro j q hq r hrj
  by_cases e : i = j
  · subst e
    have hi : i < h.length := (List.getElem?_eq_some_iff.1 hm).1
    rw [List.getElem?_set_self hi] at hq
    cases hq
    rw [hr] at hrj
    exact ho i m hm r hrj
  · rw [List.getElem?_set_ne e] at hq
    exact ho j q hq r hrj

/-! ## enumeration -/

/-- Folding over modules without registered children keeps first occurrences. -/
def firsts {α : Type} [DecidableEq α] (memo : List α) (l : List α) : List α :=
  l.foldl (fun memo a => if a ∈ memo then memo else memo ++ [a]) memo

theorem firsts_nil {α : Type} [DecidableEq α] (memo : List α) : firsts memo [] = memo := rfl
theorem firsts_cons {α : Type} [DecidableEq α] (memo : List α) (a : α) (l : List α) :
    firsts memo (a :: l) = firsts (if a ∈ memo then memo else memo ++ [a]) l := rfl

theorem firsts_spec {α : Type} [DecidableEq α] (l : List α) : ∀ memo : List α, memo.Nodup →
    (firsts memo l).Nodup ∧ ∀ a, a ∈ firsts memo l ↔ a ∈ memo ∨ a ∈ l := by
  induction l with
  | nil => intro memo h; simp [firsts_nil, h]
  | cons b l ih =>
    intro memo h
    rw [firsts_cons]
    by_cases hb : b ∈ memo
    · rw [if_pos hb]
      obtain ⟨h1, h2⟩ := ih memo h
      refine ⟨h1, fun a => ?_⟩
      rw [h2]
      constructor
      · rintro (h | h) <;> simp [h]
      · rintro (h | h)
        · exact Or.inl h
        · rcases List.mem_cons.1 h with rfl | h
          · exact Or.inl hb
          · exact Or.inr h
    · rw [if_neg hb]
      obtain ⟨h1, h2⟩ := ih (memo ++ [b]) (by
        rw [List.nodup_append]
        exact ⟨h, by simp, by intro x hx y hy; simp at hy; subst hy; intro e; exact hb (e ▸ hx)⟩)
      refine ⟨h1, fun a => ?_⟩
      rw [h2]
      simp only [List.mem_append, List.mem_cons]
      tauto

theorem firsts_map {α β : Type} [DecidableEq α] [DecidableEq β] (f : α → β) (l : List α) : ∀ memo : List α,
    (∀ a ∈ memo ++ l, ∀ b ∈ memo ++ l, f a = f b → a = b) →
    firsts (memo.map f) (l.map f) = (firsts memo l).map f := by
  induction l with
  | nil => intro memo _; rfl
  | cons b l ih =>
    intro memo hinj
    rw [List.map_cons, firsts_cons, firsts_cons]
    by_cases hb : b ∈ memo
    · rw [if_pos hb, if_pos (List.mem_map_of_mem hb)]
      apply ih
      intro x hx y hy
      apply hinj x _ y _ <;> simp only [List.mem_append, List.mem_cons] at * <;> tauto
    · rw [if_neg hb, if_neg]
      · rw [← ih (memo ++ [b])]
        · simp
        · intro x hx y hy
          apply hinj x _ y _ <;> simp only [List.mem_append, List.mem_cons] at * <;> tauto
      · intro h
        obtain ⟨a, ha, e⟩ := List.mem_map.1 h
        have := hinj a (by simp [ha]) b (by simp) e
        exact hb (this ▸ ha)

theorem Heap.visit_leaf {h : Heap K} (ho : h.Ordered) {i : ℕ} {m : Mod K} (hm : h[i]? = some m) (hc : m.children = [])
    (memo : List ℕ) : h.visit i memo = if i ∈ memo then memo else memo ++ [i] := by
  rw [Heap.visit_eq ho hm, hc]
  rfl

/-- `Sequential` of modules without registered children. -/
theorem Heap.modules_seq {h : Heap K} (ho : h.Ordered) {i : ℕ} {cs : List ℕ} (hm : h[i]? = some (.seq cs))
    (hc : ∀ c ∈ cs, ∃ m, h[c]? = some m ∧ m.children = []) : h.modules i = firsts [i] cs := by
  rw [Heap.modules_eq_visit, Heap.visit_eq ho hm]
  simp only [List.not_mem_nil, if_false, List.nil_append]
  have : ∀ (l memo : List ℕ), (∀ c ∈ l, ∃ m, h[c]? = some m ∧ m.children = []) →
      l.foldl (fun memo c => h.visit c memo) memo = firsts memo l := by
    intro l
    induction l with
    | nil => intros; rfl
    | cons c l ih =>
      intro memo hl
      obtain ⟨m, hm, hch⟩ := hl c (by simp)
      rw [List.foldl_cons, Heap.visit_leaf ho hm hch, ih _ fun c hc => hl c (by simp [hc]), firsts_cons]
  exact this cs [i] hc

end HOL
