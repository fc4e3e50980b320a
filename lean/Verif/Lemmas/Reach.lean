import Verif.Lemmas.Heap
import Verif.Spec.Network

/-! # `modules()` enumerates exactly the registered descendants, once each -/

namespace HOL
open Relation
variable {K : Type} [TorchScalar K]

set_option linter.unusedSectionVars false

/-- Elements below `k` have their children in the memo. -/
def Heap.ClosedBelow (h : Heap K) (memo : List ℕ) (k : ℕ) : Prop :=
  ∀ a ∈ memo, a < k → ∀ (m : Mod K), h[a]? = some m → ∀ c ∈ m.children, c ∈ memo

theorem Heap.child_lt {h : Heap K} (ho : h.Ordered) {i j : ℕ} (hc : h.Child i j) : j < i := by
  obtain ⟨m, hm, hj⟩ := hc
  exact ho i m hm j (by simp [Mod.refs, hj])

theorem Heap.reach_le {h : Heap K} (ho : h.Ordered) {i j : ℕ} (hc : ReflTransGen h.Child i j) : j ≤ i := by
  induction hc with
  | refl => exact le_rfl
  | tail _ h2 ih => have := Heap.child_lt ho h2; omega

theorem Heap.visit_none {h : Heap K} {i : ℕ} (hi : h[i]? = none) (memo : List ℕ) : h.visit i memo = memo := by
  unfold Heap.visit
  rw [Heap.fold_getD_none _ _ _ hi]

/-- Depth first search. -/
theorem Heap.visit_spec {h : Heap K} (ho : h.Ordered) : ∀ (i : ℕ) (memo : List ℕ) (k : ℕ), i < h.length → i < k →
    h.ClosedBelow memo k → memo.Nodup →
    h.ClosedBelow (h.visit i memo) k ∧ (h.visit i memo).Nodup ∧ (∀ a ∈ memo, a ∈ h.visit i memo) ∧ i ∈ h.visit i memo ∧
      ∀ a ∈ h.visit i memo, a ∈ memo ∨ ReflTransGen h.Child i a := by
  intro i
  induction i using Nat.strong_induction_on with
  | _ i ih =>
    intro memo k hi hk hcl hnd
    obtain ⟨m, hm⟩ : ∃ m, h[i]? = some m := ⟨h[i], List.getElem?_eq_getElem hi⟩
    rw [Heap.visit_eq ho hm]
    by_cases hmem : i ∈ memo
    · rw [if_pos hmem]
      exact ⟨hcl, hnd, fun a ha => ha, hmem, fun a ha => Or.inl ha⟩
    · rw [if_neg hmem]
      have hch : ∀ c ∈ m.children, c < i := fun c hc => ho i m hm c (by simp [Mod.refs, hc])
      have key : ∀ (l : List ℕ) (mm : List ℕ), (∀ c ∈ l, c < i) → h.ClosedBelow mm i → mm.Nodup →
          h.ClosedBelow (l.foldl (fun memo c => h.visit c memo) mm) i ∧ (l.foldl (fun memo c => h.visit c memo) mm).Nodup ∧
          (∀ a ∈ mm, a ∈ l.foldl (fun memo c => h.visit c memo) mm) ∧ (∀ c ∈ l, c ∈ l.foldl (fun memo c => h.visit c memo) mm) ∧
          ∀ a ∈ l.foldl (fun memo c => h.visit c memo) mm, a ∈ mm ∨ ∃ c ∈ l, ReflTransGen h.Child c a := by
        intro l
        induction l with
        | nil => intro mm _ h1 h2; exact ⟨h1, h2, fun a ha => ha, by simp, fun a ha => Or.inl ha⟩
        | cons c l ihl =>
          intro mm hl h1 h2
          have hc := hl c (by simp)
          obtain ⟨v1, v2, v3, v4, v5⟩ := ih c hc mm i (by omega) hc h1 h2
          obtain ⟨w1, w2, w3, w4, w5⟩ := ihl (h.visit c mm) (fun c hc => hl c (by simp [hc])) v1 v2
          simp only [List.foldl_cons]
          refine ⟨w1, w2, fun a ha => w3 a (v3 a ha), ?_, ?_⟩
          · intro a ha
            rcases List.mem_cons.1 ha with rfl | ha
            · exact w3 _ v4
            · exact w4 a ha
          · intro a ha
            rcases w5 a ha with h' | ⟨c', hc', hr⟩
            · rcases v5 a h' with h' | h'
              · exact Or.inl h'
              · exact Or.inr ⟨c, by simp, h'⟩
            · exact Or.inr ⟨c', by simp [hc'], hr⟩
      have hcl' : h.ClosedBelow (memo ++ [i]) i := by
        intro a ha hai m' hm' c hc
        rw [List.mem_append, List.mem_singleton] at ha
        rcases ha with ha | ha
        · rw [List.mem_append]; exact Or.inl (hcl a ha (by omega) m' hm' c hc)
        · omega
      have hnd' : (memo ++ [i]).Nodup := by
        rw [List.nodup_append]
        exact ⟨hnd, by simp, by intro x hx y hy; simp at hy; subst hy; intro e; exact hmem (e ▸ hx)⟩
      obtain ⟨k1, k2, k3, k4, k5⟩ := key m.children (memo ++ [i]) hch hcl' hnd'
      refine ⟨?_, k2, fun a ha => k3 a (by simp [ha]), k3 i (by simp), ?_⟩
      · intro a ha hak m' hm' c hc
        rcases k5 a ha with h' | ⟨c', hc', hr⟩
        · rw [List.mem_append, List.mem_singleton] at h'
          rcases h' with h' | rfl
          · exact k3 c (by simp [hcl a h' hak m' hm' c hc])
          · rw [hm] at hm'
            cases hm'
            exact k4 c hc
        · have := Heap.reach_le ho hr
          have := hch c' hc'
          exact k1 a ha (by omega) m' hm' c hc
      · intro a ha
        rcases k5 a ha with h' | ⟨c', hc', hr⟩
        · rw [List.mem_append, List.mem_singleton] at h'
          rcases h' with h' | rfl
          · exact Or.inl h'
          · exact Or.inr ReflTransGen.refl
        · exact Or.inr (ReflTransGen.head ⟨m, hm, hc'⟩ hr)

theorem Heap.modules_nodup {h : Heap K} (ho : h.Ordered) {i : ℕ} (hi : i < h.length) : (h.modules i).Nodup := by
  rw [Heap.modules_eq_visit]
  exact (Heap.visit_spec ho i [] (i + 1) hi (by omega) (by intro a ha; simp at ha) List.nodup_nil).2.1

/-- `list(module.modules())` lists the module and its registered descendants. -/
theorem Heap.mem_modules {h : Heap K} (ho : h.Ordered) {i : ℕ} (hi : i < h.length) {j : ℕ} :
    j ∈ h.modules i ↔ ReflTransGen h.Child i j := by
  rw [Heap.modules_eq_visit]
  obtain ⟨h1, -, -, h4, h5⟩ := Heap.visit_spec ho i [] (i + 1) hi (by omega) (by intro a ha; simp at ha) List.nodup_nil
  constructor
  · intro hj
    rcases h5 j hj with h | h
    · simp at h
    · exact h
  · intro hr
    induction hr with
    | refl => exact h4
    | tail hr hc ih =>
      obtain ⟨m, hm, hj⟩ := hc
      exact h1 _ ih (by have := Heap.reach_le ho hr; omega) m hm _ hj

end HOL
