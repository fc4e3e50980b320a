import Verif.Prelude
import Mathlib.Tactic.Ring
import Mathlib.Tactic.Linarith

/-!
# Row-major tensors

`Tensor α` is a shape and the row-major list of its entries, the logical content of a
contiguous `torch.Tensor`. `view`/`reshape`/`flatten` keep the list of entries and change the shape,
`permute` and fancy indexing build new tensors entry by entry.
-/

namespace HOL

/-- Number of entries of a shape (`Tensor.numel`). -/
def numel : List ℕ → ℕ
  | [] => 1
  | s :: ss => s * numel ss

/-- Row-major flat position of a multi-index. -/
def ravel : List ℕ → List ℕ → ℕ
  | _ :: ss, i :: is => i * numel ss + ravel ss is
  | _, _ => 0

/-- Multi-index of a row-major flat position. -/
def unravel : List ℕ → ℕ → List ℕ
  | [], _ => []
  | _ :: ss, q => q / numel ss :: unravel ss (q % numel ss)

/-- The multi-index is inside the shape. -/
def InShape : List ℕ → List ℕ → Prop
  | [], [] => True
  | s :: ss, i :: is => i < s ∧ InShape ss is
  | _, _ => False

theorem ravel_lt : ∀ {s idx : List ℕ}, InShape s idx → ravel s idx < numel s
  | [], [], _ => by simp [ravel, numel]
  | s :: ss, i :: is, h => by
    obtain ⟨h1, h2⟩ := h
    have := ravel_lt h2
    simp only [ravel, numel]
    calc i * numel ss + ravel ss is < i * numel ss + numel ss := by omega
      _ = (i + 1) * numel ss := by ring
      _ ≤ s * numel ss := Nat.mul_le_mul_right _ h1
  | [], _ :: _, h => absurd h (by simp [InShape])
  | _ :: _, [], h => absurd h (by simp [InShape])

theorem unravel_ravel : ∀ {s idx : List ℕ}, InShape s idx → unravel s (ravel s idx) = idx
  | [], [], _ => rfl
  | s :: ss, i :: is, h => by
    obtain ⟨_, h2⟩ := h
    have hlt := ravel_lt h2
    have hpos : 0 < numel ss := lt_of_le_of_lt (Nat.zero_le _) hlt
    simp only [ravel, unravel]
    rw [Nat.add_comm, Nat.add_mul_div_right _ _ hpos, Nat.div_eq_of_lt hlt, Nat.add_mul_mod_self_right,
      Nat.mod_eq_of_lt hlt, unravel_ravel h2]
    simp
  | [], _ :: _, h => absurd h (by simp [InShape])
  | _ :: _, [], h => absurd h (by simp [InShape])

theorem inShape_unravel : ∀ {s : List ℕ} {q : ℕ}, q < numel s → InShape s (unravel s q)
  | [], _, _ => trivial
  | s :: ss, q, h => by
    simp only [numel] at h
    have hpos : 0 < numel ss := by
      rcases Nat.eq_zero_or_pos (numel ss) with h0 | h0
      · rw [h0] at h; simp at h
      · exact h0
    refine ⟨?_, inShape_unravel (Nat.mod_lt _ hpos)⟩
    exact (Nat.div_lt_iff_lt_mul hpos).2 h

theorem ravel_unravel : ∀ {s : List ℕ} {q : ℕ}, q < numel s → ravel s (unravel s q) = q
  | [], q, h => by simp [numel] at h; simp [ravel, h]
  | s :: ss, q, h => by
    simp only [numel] at h
    have hpos : 0 < numel ss := by
      rcases Nat.eq_zero_or_pos (numel ss) with h0 | h0
      · rw [h0] at h; simp at h
      · exact h0
    simp only [unravel, ravel]
    rw [ravel_unravel (Nat.mod_lt _ hpos)]
    exact Nat.div_add_mod' q (numel ss)

/-- Logical content of a contiguous `torch.Tensor`. -/
structure Tensor (α : Type) where
  shape : List ℕ
  data : List α
  deriving DecidableEq

namespace Tensor
variable {α β : Type}

/-- The list of entries has the length announced by the shape. -/
def WF (t : Tensor α) : Prop := t.data.length = numel t.shape

/-- Build a tensor from the function giving each entry. -/
def tabulate (s : List ℕ) (f : List ℕ → α) : Tensor α :=
  ⟨s, (List.range (numel s)).map fun q => f (unravel s q)⟩

/-- Entry at a multi-index, `0` outside (only used inside, where the value is the entry). -/
def get [Zero α] (t : Tensor α) (idx : List ℕ) : α := t.data.getD (ravel t.shape idx) 0

/-- `t[idx] = v`. -/
def set (t : Tensor α) (idx : List ℕ) (v : α) : Tensor α :=
  ⟨t.shape, t.data.set (ravel t.shape idx) v⟩

/-- Entry-wise function application. -/
def map (f : α → β) (t : Tensor α) : Tensor β := ⟨t.shape, t.data.map f⟩

/-- `reshape`/`view`/`flatten`: same entries, new shape. -/
def reshape (t : Tensor α) (s : List ℕ) : Tensor α := ⟨s, t.data⟩

/-- One-dimensional tensor from entries. -/
def tab1 (a : ℕ) (f : ℕ → α) : Tensor α := tabulate [a] fun i => f (i.getD 0 0)
/-- Two-dimensional tensor from entries. -/
def tab2 (a b : ℕ) (f : ℕ → ℕ → α) : Tensor α :=
  tabulate [a, b] fun i => f (i.getD 0 0) (i.getD 1 0)
/-- Three-dimensional tensor from entries. -/
def tab3 (a b c : ℕ) (f : ℕ → ℕ → ℕ → α) : Tensor α :=
  tabulate [a, b, c] fun i => f (i.getD 0 0) (i.getD 1 0) (i.getD 2 0)
/-- Four-dimensional tensor from entries. -/
def tab4 (a b c d : ℕ) (f : ℕ → ℕ → ℕ → ℕ → α) : Tensor α :=
  tabulate [a, b, c, d] fun i => f (i.getD 0 0) (i.getD 1 0) (i.getD 2 0) (i.getD 3 0)
/-- Five-dimensional tensor from entries. -/
def tab5 (a b c d e : ℕ) (f : ℕ → ℕ → ℕ → ℕ → ℕ → α) : Tensor α :=
  tabulate [a, b, c, d, e] fun i =>
    f (i.getD 0 0) (i.getD 1 0) (i.getD 2 0) (i.getD 3 0) (i.getD 4 0)

@[simp] theorem shape_tabulate (s : List ℕ) (f : List ℕ → α) : (tabulate s f).shape = s := rfl
@[simp] theorem shape_tab1 (a : ℕ) (f : ℕ → α) : (tab1 a f).shape = [a] := rfl
@[simp] theorem shape_tab2 (a b : ℕ) (f : ℕ → ℕ → α) : (tab2 a b f).shape = [a, b] := rfl
@[simp] theorem shape_tab3 (a b c : ℕ) (f : ℕ → ℕ → ℕ → α) :
    (tab3 a b c f).shape = [a, b, c] := rfl
@[simp] theorem shape_tab4 (a b c d : ℕ) (f : ℕ → ℕ → ℕ → ℕ → α) :
    (tab4 a b c d f).shape = [a, b, c, d] := rfl
@[simp] theorem shape_tab5 (a b c d e : ℕ) (f : ℕ → ℕ → ℕ → ℕ → ℕ → α) :
    (tab5 a b c d e f).shape = [a, b, c, d, e] := rfl
@[simp] theorem shape_map (f : α → β) (t : Tensor α) : (t.map f).shape = t.shape := rfl
@[simp] theorem shape_reshape (t : Tensor α) (s : List ℕ) : (t.reshape s).shape = s := rfl
@[simp] theorem shape_set (t : Tensor α) (idx : List ℕ) (v : α) : (t.set idx v).shape = t.shape := rfl
@[simp] theorem data_reshape (t : Tensor α) (s : List ℕ) : (t.reshape s).data = t.data := rfl

@[simp] theorem length_data_tabulate (s : List ℕ) (f : List ℕ → α) :
    (tabulate s f).data.length = numel s := by simp [tabulate]

theorem wf_tabulate (s : List ℕ) (f : List ℕ → α) : (tabulate s f).WF := by simp [WF]

theorem wf_tab1 (a : ℕ) (f : ℕ → α) : (tab1 a f).WF := wf_tabulate _ _
theorem wf_tab2 (a b : ℕ) (f : ℕ → ℕ → α) : (tab2 a b f).WF := wf_tabulate _ _
theorem wf_tab3 (a b c : ℕ) (f : ℕ → ℕ → ℕ → α) : (tab3 a b c f).WF := wf_tabulate _ _
theorem wf_tab4 (a b c d : ℕ) (f : ℕ → ℕ → ℕ → ℕ → α) : (tab4 a b c d f).WF := wf_tabulate _ _
theorem wf_tab5 (a b c d e : ℕ) (f : ℕ → ℕ → ℕ → ℕ → ℕ → α) : (tab5 a b c d e f).WF :=
  wf_tabulate _ _
theorem wf_map {t : Tensor α} (h : t.WF) (f : α → β) : (t.map f).WF := by simpa [WF, map] using h
theorem wf_reshape {t : Tensor α} (h : t.WF) {s : List ℕ} (hs : numel s = numel t.shape) :
    (t.reshape s).WF := by simp only [WF, reshape]; rw [hs]; exact h

theorem data_tabulate_getD [Zero α] {s : List ℕ} {f : List ℕ → α} {q : ℕ} (h : q < numel s) :
    (tabulate s f).data.getD q 0 = f (unravel s q) := by
  simp [tabulate, List.getD_eq_getElem?_getD, h]

theorem get_tabulate [Zero α] {s idx : List ℕ} {f : List ℕ → α} (h : InShape s idx) :
    (tabulate s f).get idx = f idx := by
  have := data_tabulate_getD (f := f) (ravel_lt h)
  rw [unravel_ravel h] at this
  exact this

theorem get_tab1 [Zero α] {a i : ℕ} {f : ℕ → α} (hi : i < a) : (tab1 a f).get [i] = f i :=
  get_tabulate (by simp [InShape, hi])
theorem get_tab2 [Zero α] {a b i j : ℕ} {f : ℕ → ℕ → α} (hi : i < a) (hj : j < b) :
    (tab2 a b f).get [i, j] = f i j :=
  get_tabulate (by simp [InShape, hi, hj])
theorem get_tab3 [Zero α] {a b c i j k : ℕ} {f : ℕ → ℕ → ℕ → α} (hi : i < a) (hj : j < b)
    (hk : k < c) : (tab3 a b c f).get [i, j, k] = f i j k :=
  get_tabulate (by simp [InShape, hi, hj, hk])
theorem get_tab4 [Zero α] {a b c d i j k l : ℕ} {f : ℕ → ℕ → ℕ → ℕ → α} (hi : i < a) (hj : j < b)
    (hk : k < c) (hl : l < d) : (tab4 a b c d f).get [i, j, k, l] = f i j k l :=
  get_tabulate (by simp [InShape, hi, hj, hk, hl])
theorem get_tab5 [Zero α] {a b c d e i j k l m : ℕ} {f : ℕ → ℕ → ℕ → ℕ → ℕ → α} (hi : i < a)
    (hj : j < b) (hk : k < c) (hl : l < d) (hm : m < e) :
    (tab5 a b c d e f).get [i, j, k, l, m] = f i j k l m :=
  get_tabulate (by simp [InShape, hi, hj, hk, hl, hm])

/-- Reading a reshaped tensor: equal flat positions hold equal entries. -/
theorem get_reshape [Zero α] (t : Tensor α) {s idx idx' : List ℕ}
    (h : ravel s idx = ravel t.shape idx') : (t.reshape s).get idx = t.get idx' := by
  simp [get, reshape, h]

theorem get_map [Zero α] [Zero β] {f : α → β} {t : Tensor α} {idx : List ℕ} (hwf : t.WF)
    (h : InShape t.shape idx) : (t.map f).get idx = f (t.get idx) := by
  have hlt : ravel t.shape idx < t.data.length := by rw [hwf]; exact ravel_lt h
  simp [get, map, List.getD_eq_getElem?_getD, List.getElem?_eq_getElem hlt]

/-- Two well formed tensors with the same shape and entries are equal. -/
theorem ext_get [Zero α] {t u : Tensor α} (ht : t.WF) (hu : u.WF) (hs : t.shape = u.shape)
    (h : ∀ idx, InShape t.shape idx → t.get idx = u.get idx) : t = u := by
  obtain ⟨ts, td⟩ := t
  obtain ⟨us, ud⟩ := u
  simp only at hs
  subst hs
  simp only [WF] at ht hu
  congr 1
  apply List.ext_getElem (by rw [ht, hu])
  intro q h1 h2
  have hq : q < numel ts := by rw [← ht]; exact h1
  have := h (unravel ts q) (inShape_unravel hq)
  simpa [get, ravel_unravel hq, List.getD_eq_getElem?_getD, List.getElem?_eq_getElem h1,
    List.getElem?_eq_getElem h2] using this

theorem ravel_inj {s i j : List ℕ} (hi : InShape s i) (hj : InShape s j)
    (h : ravel s i = ravel s j) : i = j := by
  rw [← unravel_ravel hi, h, unravel_ravel hj]

theorem wf_set {t : Tensor α} (h : t.WF) (idx : List ℕ) (v : α) : (t.set idx v).WF := by
  simpa [WF, set] using h

theorem get_set_self [Zero α] {t : Tensor α} {idx : List ℕ} {v : α} (hwf : t.WF)
    (h : InShape t.shape idx) : (t.set idx v).get idx = v := by
  have hlt : ravel t.shape idx < t.data.length := by rw [hwf]; exact ravel_lt h
  simp [get, set, List.getD_eq_getElem?_getD, hlt]

theorem get_set_ne [Zero α] {t : Tensor α} {idx idx' : List ℕ} {v : α}
    (h : InShape t.shape idx) (h' : InShape t.shape idx') (hne : idx ≠ idx') :
    (t.set idx v).get idx' = t.get idx' := by
  have : ravel t.shape idx ≠ ravel t.shape idx' := fun e => hne (ravel_inj h h' e)
  simp [get, set, List.getD_eq_getElem?_getD, this]

end Tensor

theorem inShape1 {a i : ℕ} : InShape [a] [i] ↔ i < a := by simp [InShape]
theorem inShape2 {a b i j : ℕ} : InShape [a, b] [i, j] ↔ i < a ∧ j < b := by simp [InShape]
theorem inShape3 {a b c i j k : ℕ} : InShape [a, b, c] [i, j, k] ↔ i < a ∧ j < b ∧ k < c := by
  simp [InShape]
theorem inShape4 {a b c d i j k l : ℕ} :
    InShape [a, b, c, d] [i, j, k, l] ↔ i < a ∧ j < b ∧ k < c ∧ l < d := by simp [InShape]

theorem inShape2_exists {a b : ℕ} {idx : List ℕ} (h : InShape [a, b] idx) :
    ∃ i j, idx = [i, j] ∧ i < a ∧ j < b := by
  match idx, h with
  | [i, j], h => exact ⟨i, j, rfl, by simpa [InShape] using h⟩

theorem inShape3_exists {a b c : ℕ} {idx : List ℕ} (h : InShape [a, b, c] idx) :
    ∃ i j k, idx = [i, j, k] ∧ i < a ∧ j < b ∧ k < c := by
  match idx, h with
  | [i, j, k], h => exact ⟨i, j, k, rfl, by simpa [InShape] using h⟩

theorem inShape4_exists {a b c d : ℕ} {idx : List ℕ} (h : InShape [a, b, c, d] idx) :
    ∃ i j k l, idx = [i, j, k, l] ∧ i < a ∧ j < b ∧ k < c ∧ l < d := by
  match idx, h with
  | [i, j, k, l], h => exact ⟨i, j, k, l, rfl, by simpa [InShape] using h⟩

theorem inShape5_exists {a b c d e : ℕ} {idx : List ℕ} (h : InShape [a, b, c, d, e] idx) :
    ∃ i j k l m, idx = [i, j, k, l, m] ∧ i < a ∧ j < b ∧ k < c ∧ l < d ∧ m < e := by
  match idx, h with
  | [i, j, k, l, m], h => exact ⟨i, j, k, l, m, rfl, by simpa [InShape] using h⟩

theorem tabulate_congr {α : Type} {s : List ℕ} {f g : List ℕ → α}
    (h : ∀ idx, InShape s idx → f idx = g idx) : Tensor.tabulate s f = Tensor.tabulate s g := by
  unfold Tensor.tabulate
  congr 1
  apply List.map_congr_left
  intro q hq
  exact h _ (inShape_unravel (List.mem_range.1 hq))

theorem tab1_congr {α : Type} {a : ℕ} {f g : ℕ → α} (h : ∀ i < a, f i = g i) :
    Tensor.tab1 a f = Tensor.tab1 a g := by
  apply tabulate_congr
  intro idx hidx
  match idx, hidx with
  | [i], hi => simpa using h i (by simpa [InShape] using hi)

theorem tab2_congr {α : Type} {a b : ℕ} {f g : ℕ → ℕ → α}
    (h : ∀ i < a, ∀ j < b, f i j = g i j) : Tensor.tab2 a b f = Tensor.tab2 a b g := by
  apply tabulate_congr
  intro idx hidx
  obtain ⟨i, j, rfl, hi, hj⟩ := inShape2_exists hidx
  simpa using h i hi j hj

theorem tab3_congr {α : Type} {a b c : ℕ} {f g : ℕ → ℕ → ℕ → α}
    (h : ∀ i < a, ∀ j < b, ∀ k < c, f i j k = g i j k) :
    Tensor.tab3 a b c f = Tensor.tab3 a b c g := by
  apply tabulate_congr
  intro idx hidx
  obtain ⟨i, j, k, rfl, hi, hj, hk⟩ := inShape3_exists hidx
  simpa using h i hi j hj k hk

theorem tab4_congr {α : Type} {a b c d : ℕ} {f g : ℕ → ℕ → ℕ → ℕ → α}
    (h : ∀ i < a, ∀ j < b, ∀ k < c, ∀ l < d, f i j k l = g i j k l) :
    Tensor.tab4 a b c d f = Tensor.tab4 a b c d g := by
  apply tabulate_congr
  intro idx hidx
  obtain ⟨i, j, k, l, rfl, hi, hj, hk, hl⟩ := inShape4_exists hidx
  simpa using h i hi j hj k hk l hl

/-- Broadcasting rule for one einsum/elementwise axis. -/
def bcast (a b : ℕ) : Py ℕ :=
  if a = b then .ok a else if a = 1 then .ok b else if b = 1 then .ok a else .error .runtimeError

/-- Index on an axis of size `d` that may be broadcast. -/
def bidx (d i : ℕ) : ℕ := if d = 1 then 0 else i

@[simp] theorem bcast_self (a : ℕ) : bcast a a = .ok a := by simp [bcast]

theorem bidx_of_lt {d i : ℕ} (h : i < d) : bidx d i = i := by
  unfold bidx; split <;> omega

end HOL
