import Verif.Lemmas.NetDepth

/-! # Loops over two networks whose second modules do not correspond -/

namespace HOL
open TorchScalar

section
variable {K : Type} [TorchScalar K] (op : PwLayer K → PwLayer K → Eff (PwLayer K))

theorem firsts_two {s x x' : ℕ} (l : List ℕ) (h1 : x ≠ s) (h2 : x' ≠ s) (h3 : x' ≠ x) :
    ∃ t, firsts [s] (x :: x' :: l) = s :: x :: x' :: t := by
  rw [firsts_cons, if_neg (by simpa using h1), firsts_cons, if_neg (by simp [h2, h3])]
  obtain ⟨t, ht⟩ := firsts_prefix l (([s] ++ [x]) ++ [x'])
  exact ⟨t, ht⟩

/-- A layer with the method, applied to a module of another kind. -/
theorem transferBody_other {h : Heap K} {i j : ℕ} {f : Fwd K}
    (hi : (∃ L, h[i]? = some (.pw L)) ∨ ∃ I las, h[i]? = some (.switch I las none)) (hj : h[j]? = some (.other f)) :
    transferBody op (i, j) h = (.error .attributeError, h) := by
  unfold transferBody
  rcases hi with ⟨L, hi⟩ | ⟨I, las, hi⟩
  · simp only [hi, Option.map_some, Option.getD_some, Mod.hasMethod, if_true]
    unfold Heap.method
    rw [method_pw op hi]
    simp only [pairOp, hi, hj]
  · simp only [hi, Option.map_some, Option.getD_some, Mod.hasMethod, if_true]
    unfold Heap.method
    rw [Heap.fold_getD _ _ h hi]
    simp only [methodOp, hj]

/-- The first pair of modules is processed, the second raises. -/
theorem transfer_mismatch {h : Heap K} (ho : h.Ordered) {na nb sa sb : ℕ} (hma : h.model na = .ok sa) (hmb : h.model nb = .ok sb)
    {x x' y y' : ℕ} {ra rb : List ℕ} (hsa : h[sa]? = some (.seq (x :: x' :: ra))) (hsb : h[sb]? = some (.seq (y :: y' :: rb)))
    (hca : ∀ c ∈ x :: x' :: ra, ∃ m, h[c]? = some m ∧ m.children = [] ∧ m.isSeq = false)
    (hcb : ∀ c ∈ y :: y' :: rb, ∃ m, h[c]? = some m ∧ m.children = [] ∧ m.isSeq = false)
    (hx : x' ≠ x) (hy : y' ≠ y) (hP : PairOK op h (x, y)) (hnd : ((prims h (x, y)).map Prod.snd).Nodup)
    (hsrc : ∀ s ∈ prims h (x, y), ∀ t ∈ prims h (x, y), s.1 ≠ t.2)
    (hi : (∃ L, h[x']? = some (.pw L)) ∨ ∃ I las, h[x']? = some (.switch I las none)) {f : Fwd K} (hj : h[y']? = some (.other f)) :
    ∃ h', transferNetwork op na nb h = (.error .attributeError, h') ∧ h.Skel h' ∧
      (∀ j, (∀ q ∈ prims h (x, y), j ≠ q.2) → h'[j]? = h[j]?) ∧
      ∀ q ∈ prims h (x, y), ∀ La Lb, h[q.1]? = some (.pw La) → h[q.2]? = some (.pw Lb) → h'[q.2]? = some (.pw (op La Lb).2) := by
  have ne : ∀ {s : ℕ} {cs : List ℕ}, h[s]? = some (.seq cs) → ∀ c ∈ cs, c ≠ s := by
    intro s cs hs c hc e
    have := ho s _ hs c (by simp only [Mod.refs, Mod.children, Mod.hidden, List.nil_append]; exact hc)
    omega
  obtain ⟨ta, hta⟩ := firsts_two ra (ne hsa x (by simp)) (ne hsa x' (by simp)) hx
  obtain ⟨tb, htb⟩ := firsts_two rb (ne hsb y (by simp)) (ne hsb y' (by simp)) hy
  have q1 : ∀ q ∈ prims h (x, y), ∃ La Lb, h[q.1]? = some (.pw La) ∧ h[q.2]? = some (.pw Lb) ∧ (op La Lb).1 = .ok () := by
    intro q hq
    rcases hP with ⟨La, Lb, a, b, c⟩ | ⟨ia, ib, las, lbs, a, b, c⟩ | ⟨f, a, b⟩
    · have hpr : prims h (x, y) = [(x, y)] := by unfold prims; simp only at a; simp only [a]
      rw [hpr, List.mem_singleton] at hq
      subst hq
      exact ⟨La, Lb, a, b, c⟩
    · have hpr : prims h (x, y) = las.zip lbs := by unfold prims; simp only at a b; simp only [a, b]
      rw [hpr] at hq
      exact c q hq
    · have hpr : prims h (x, y) = [] := by unfold prims; simp only at a; simp only [a]
      rw [hpr] at hq; cases hq
  obtain ⟨h', e1, e2, e3, e4⟩ := forEach_pairs op (prims h (x, y)) h q1 hnd hsrc
  refine ⟨h', ?_, e2, fun j hj' => e3 j (by
    intro hm
    obtain ⟨q, hq, rfl⟩ := List.mem_map.1 hm
    exact hj' q hq rfl), e4⟩
  unfold transferNetwork
  rw [hma, hmb]
  dsimp only
  rw [Heap.layers_seq ho hsa hca hta, Heap.layers_seq ho hsb hcb htb, List.zip_cons_cons, List.zip_cons_cons]
  change forEach (transferBody op) _ h = _
  rw [forEach, transferBody_eq op ho hP h (Heap.Skel.refl h), e1]
  dsimp only
  rw [forEach, transferBody_other op ?_ (e2.same hj (by simp))]
  rcases hi with ⟨L, hL⟩ | ⟨I, las, hL⟩
  · obtain ⟨L', e⟩ := e2.pw hL
    exact Or.inl ⟨L', e⟩
  · exact Or.inr ⟨I, las, e2.same hL (by simp)⟩

end

end HOL
