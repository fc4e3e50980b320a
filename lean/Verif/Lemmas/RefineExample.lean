import Verif.Model.RefineExample
import Verif.Props.NetworkRefinementLimits

/-! # Lemmas for the training schedule of examples/invariant_mnist.py -/

namespace HOL
open TorchScalar
variable {K : Type} [TorchScalar K]

/-- The weights of the piecewise layers are proper tensors. -/
def Heap.Proper (h : Heap K) : Prop := ∀ (i : ℕ) (L : PwLayer K), h[i]? = some (.pw L) → L.w.WF

/-- The operation only replaces the weights of the second layer. -/
def Reweights (op : PwLayer K → PwLayer K → Eff (PwLayer K)) : Prop :=
  ∀ La Lb, Lb.w.WF → ∃ w, (op La Lb).2 = { Lb with w := w } ∧ w.shape = Lb.w.shape ∧ w.WF

/-! ## interpolation of layers -/

theorem sliceAssign_keeps {w v w' : Tensor K} {a b s t : ℕ} (h : sliceAssign w a b s t v = .ok w') : w'.shape = w.shape ∧ w'.WF := by
  unfold sliceAssign at h
  split at h
  · rename_i d0 d1 d2 hs
    split at h
    · simp only at h
      split at h
      · cases h
        exact ⟨hs.symm ▸ rfl, Tensor.wf_tabulate _ _⟩
      · cases h
    · cases h
  · cases h

theorem forLoop_inv {σ : Type} (Inv : σ → Prop) (n : ℕ) (body : ℕ → σ → Eff σ) (hb : ∀ k < n, ∀ s, Inv s → Inv (body k s).2) (s : σ)
    (hs : Inv s) : Inv (forLoop n body s).2 := by
  induction n with
  | zero => exact hs
  | succ n ih =>
    have h1 := ih fun k hk => hb k (by omega)
    simp only [forLoop]
    rcases hr : forLoop n body s with ⟨r, s'⟩
    rw [hr] at h1
    cases r with
    | ok _ => exact hb n (by omega) s' h1
    | error e => exact h1

theorem interpolateLayer_reweights : Reweights (interpolateLayer (K := K)) := by
  intro La Lb hwf
  have triv : ∃ w, Lb = { Lb with w := w } ∧ w.shape = Lb.w.shape ∧ w.WF := ⟨Lb.w, rfl, rfl, hwf⟩
  unfold interpolateLayer
  split
  · exact triv
  · split
    · refine forLoop_inv (fun L => ∃ w, L = { Lb with w := w } ∧ w.shape = Lb.w.shape ∧ w.WF) _ _ (fun a _ L hL => ?_) _ triv
      refine forLoop_inv (fun L => ∃ w, L = { Lb with w := w } ∧ w.shape = Lb.w.shape ∧ w.WF) _ _ (fun b _ L hL => ?_) _ hL
      refine forLoop_inv (fun L => ∃ w, L = { Lb with w := w } ∧ w.shape = Lb.w.shape ∧ w.WF) _ _ (fun i _ L hL => ?_) _ hL
      obtain ⟨w, rfl, hs, hw⟩ := hL
      unfold interpolateStep PwLayer.assign
      split
      · rename_i w' hw'
        simp only [bind, Except.bind] at hw'
        repeat' split at hw'
        all_goals first | (cases hw'; done) | skip
        obtain ⟨k1, k2⟩ := sliceAssign_keeps hw'
        exact ⟨w', rfl, k1.trans hs, k2⟩
      · exact ⟨w, rfl, hs, hw⟩
    · exact triv

/-! ## interpolation of networks -/

theorem Heap.Later.proper {h h' : Heap K} (hl : h.Later h') (hlen : h'.length = h.length) (hp : h.Proper) : h'.Proper := by
  intro i L hi
  have hlt : i < h.length := by rw [← hlen]; exact (List.getElem?_eq_some_iff.1 hi).1
  obtain ⟨m', e, t⟩ := hl i _ (List.getElem?_eq_getElem hlt)
  rw [hi] at e
  cases e
  generalize hm : h[i] = m at t
  cases t with
  | refl => exact hp i L (by rw [List.getElem?_eq_getElem hlt, hm])
  | pw L0 w hs hw => exact hw

theorem Heap.Later.ordered {h h' : Heap K} (hl : h.Later h') (hlen : h'.length = h.length) (ho : h.Ordered) : h'.Ordered := by
  intro i m hi j hj
  have hlt : i < h.length := by rw [← hlen]; exact (List.getElem?_eq_some_iff.1 hi).1
  obtain ⟨m', e, t⟩ := hl i _ (List.getElem?_eq_getElem hlt)
  rw [hi] at e
  cases e
  generalize hm : h[i] = m0 at t
  have : m.refs = m0.refs := by cases t <;> rfl
  rw [this] at hj
  exact ho i m0 (by rw [List.getElem?_eq_getElem hlt, hm]) j hj

/-- What interpolation keeps: starting from `h`, only weights have changed, and they are proper. -/
structure Heap.Kept (h h' : Heap K) : Prop where
  later : h.Later h'
  len : h'.length = h.length
  proper : h'.Proper

theorem Heap.Kept.setPw {h h1 : Heap K} (hk : h.Kept h1) {b : ℕ} {L : PwLayer K} (hb : h1[b]? = some (.pw L)) {w : Tensor K}
    (hs : w.shape = L.w.shape) (hw : w.WF) : h.Kept (h1.set b (.pw { L with w := w })) := by
  obtain ⟨k1, k2, k3⟩ := hk
  have hlt := (List.getElem?_eq_some_iff.1 hb).1
  have l : h1.Later (h1.set b (.pw { L with w := w })) := by
    intro i m hm
    by_cases e : b = i
    · subst e
      rw [hb] at hm
      cases hm
      exact ⟨_, by rw [List.getElem?_set_self hlt], .pw L w hs hw⟩
    · exact ⟨m, by rw [List.getElem?_set_ne e]; exact hm, .refl m⟩
  exact ⟨k1.trans l, by rw [List.length_set]; exact k2, l.proper (by rw [List.length_set]) k3⟩

theorem pairOp_kept {op : PwLayer K → PwLayer K → Eff (PwLayer K)} (hop : Reweights op) {h h1 : Heap K} (s : h.Kept h1) (i b : ℕ) :
    h.Kept (pairOp op i b h1).2 := by
  unfold pairOp
  split
  · rename_i La Lb e1 e2
    obtain ⟨w, f1, f2, f3⟩ := hop La Lb (s.proper b Lb e2)
    dsimp only
    rw [f1]
    exact s.setPw e2 f2 f3
  · exact s

theorem method_kept {op : PwLayer K → PwLayer K → Eff (PwLayer K)} (hop : Reweights op) {h h0 : Heap K} :
    ∀ (i b : ℕ) (h1 : Heap K), h.Kept h1 →
    h.Kept (((h0.fold (fun _ h => (.error .attributeError, h)) (methodOp op)).getD i (fun _ h => (.error .attributeError, h))) b h1).2 := by
  intro i
  induction i using Nat.strong_induction_on with
  | _ i ih =>
    intro b h1 s
    cases hm : h0[i]? with
    | none => rw [Heap.fold_getD_none _ _ h0 hm]; exact s
    | some m =>
      rw [Heap.fold_getD _ _ h0 hm]
      cases m with
      | pw L =>
        simp only [methodOp]
        exact pairOp_kept hop s i b
      | «switch» inF las nm =>
        simp only [methodOp]
        split
        · rename_i ib lbs nb hb
          have key := forEach_inv (fun (p : ℕ × ℕ) h' => (if p.1 < i then
              (h0.fold (fun _ h => (.error .attributeError, h)) (methodOp op)).getD p.1 (fun _ h => (.error .attributeError, h))
              else (fun _ h => (.error .attributeError, h))) p.2 h') (fun h2 => h.Kept h2) (las.zip lbs) (by
            intro p hp h2 s2
            beta_reduce
            split
            · rename_i hlt
              exact ih p.1 hlt p.2 h2 s2
            · exact s2) h1 s
          exact key
        · exact s
      | _ => exact s

theorem transferNetwork_kept {op : PwLayer K → PwLayer K → Eff (PwLayer K)} (hop : Reweights op) {h : Heap K} (hp : h.Proper) (a b : ℕ) :
    h.Kept (transferNetwork op a b h).2 := by
  have triv : h.Kept h := ⟨fun _ m hm => ⟨m, hm, .refl m⟩, rfl, hp⟩
  unfold transferNetwork
  split
  · refine forEach_inv _ (fun h2 => h.Kept h2) _ ?_ h triv
    intro p hp h2 s2
    beta_reduce
    split
    · exact method_kept hop p.1 p.2 h2 s2
    · exact s2
  · exact triv

/-! ## constructing networks -/

omit [TorchScalar K] in
theorem Heap.Proper.append {h D : Heap K} (hp : h.Proper) (hD : ∀ L : PwLayer K, Mod.pw L ∈ D → L.w.WF) : Heap.Proper (h ++ D) := by
  intro i L hi
  by_cases hlt : i < h.length
  · rw [List.getElem?_append_left hlt] at hi; exact hp i L hi
  · rw [List.getElem?_append_right (by omega)] at hi
    exact hD L (List.mem_of_getElem? hi)

omit [TorchScalar K] in
theorem orderedEmpty : Heap.Ordered ([] : Heap K) := by intro i m h; simp at h

omit [TorchScalar K] in
theorem proper_nil : Heap.Proper ([] : Heap K) := by intro i L h; simp at h

theorem leafMods_proper {rng : Rng K} {k : LeafKind} {a : FcArgs K} {base : ℕ} {ms : List (Mod K)} (h : leafMods rng k a base = .ok ms) :
    ∀ L : PwLayer K, Mod.pw L ∈ ms → L.w.WF := by
  cases k with
  | pw cls =>
    simp only [leafMods] at h
    split at h
    · cases h
      intro L hL
      simp only [List.mem_singleton, Mod.pw.injEq] at hL
      subst hL
      unfold PwLayer.init
      exact Tensor.wf_tabulate _ _
    · cases h
  | _ =>
    simp only [leafMods, bind, Except.bind] at h
    repeat' split at h
    all_goals first | (cases h; done) | skip
    all_goals
      cases h
      intro L hL
      simp at hL

theorem sublayers_proper {sub : ℕ → Py (List (Mod K))} (hs : ∀ b ms, sub b = .ok ms → ∀ L : PwLayer K, Mod.pw L ∈ ms → L.w.WF) :
    ∀ (num base : ℕ) (r : List (Mod K) × List ℕ), sublayers sub num base = .ok r → ∀ L : PwLayer K, Mod.pw L ∈ r.1 → L.w.WF := by
  intro num
  induction num with
  | zero => intro base r h L hL; cases h; cases hL
  | succ num ih =>
    intro base r h L hL
    simp only [sublayers, bind, Except.bind] at h
    split at h
    · cases h
    · rename_i ms hms
      split at h
      · cases h
      · rename_i rest hrest
        cases h
        rcases List.mem_append.1 hL with hL | hL
        · exact hs _ _ hms L hL
        · exact ih _ _ hrest L hL

theorem fcMods_proper {rng : Rng K} {k : FcKind} {a : FcArgs K} {base : ℕ} {ms : List (Mod K)} (h : fcMods rng k a base = .ok ms) :
    ∀ L : PwLayer K, Mod.pw L ∈ ms → L.w.WF := by
  cases k with
  | leaf k => exact leafMods_proper h
  | «switch» cls =>
    simp only [fcMods, switchMods, bind, Except.bind] at h
    split at h
    · cases h
    · rename_i r hr
      cases h
      intro L hL
      rcases List.mem_append.1 hL with hL | hL
      · exact sublayers_proper (fun b ms hb => leafMods_proper hb) _ _ _ hr L hL
      · simp at hL

theorem fcLayer_proper {rng : Rng K} {t : String} {a : FcArgs K} {h : Heap K} {r : ℕ × Heap K} (e : fcLayer rng t a h = .ok r)
    (hp : h.Proper) : Heap.Proper r.2 := by
  unfold fcLayer at e
  split at e
  · cases e
  · simp only [bind, Except.bind] at e
    split at e
    · cases e
    · rename_i ms hms
      cases e
      exact hp.append (fcMods_proper hms)

omit [TorchScalar K] in
theorem Heap.Proper.appendOther {h : Heap K} (hp : h.Proper) {m : Mod K} (hm : ∀ L : PwLayer K, m ≠ .pw L) : Heap.Proper (h ++ [m]) := by
  refine hp.append fun L hL => ?_
  simp only [List.mem_singleton] at hL
  exact absurd hL.symm (hm L)

theorem appendPre_proper {c : MLPArgs K} {drop : ℕ} {s : Build K} (hp : Heap.Proper s.2) : Heap.Proper (appendPre c drop s).2 := by
  unfold appendPre
  cases c.normalization <;> cases c.nonLinearity <;> dsimp only <;> split <;>
    first | exact hp | exact hp.appendOther (by simp)

theorem hiddenLoop_proper {rng : Rng K} {c : MLPArgs K} {drop : ℕ} : ∀ (k : ℕ) (s s' : Build K), hiddenLoop rng c drop k s = .ok s' →
    Heap.Proper s.2 → Heap.Proper s'.2 := by
  intro k
  induction k with
  | zero => intro s s' e hp; cases e; exact hp
  | succ k ih =>
    intro s s' e hp
    simp only [hiddenLoop, bind, Except.bind] at e
    split at e
    · cases e
    · rename_i s1 h1
      have p1 := ih _ _ h1 hp
      simp only [hiddenStep, bind, Except.bind] at e
      split at e
      · cases e
      · rename_i r hr
        have p2 := fcLayer_proper hr (appendPre_proper p1)
        split at e <;> cases e
        · exact p2.appendOther (by simp)
        · exact p2

theorem mlpInit_proper {rng : Rng K} {c : MLPArgs K} {h : Heap K} {r : ℕ × Heap K} (e : mlpInit rng c h = .ok r) (hp : h.Proper) :
    Heap.Proper r.2 := by
  simp only [mlpInit, bind, Except.bind] at e
  split at e
  · cases e
  · rename_i inp h1
    split at e
    · cases e
    · rename_i s hs
      split at e
      · cases e
      · rename_i out ho
        cases e
        have p1 := fcLayer_proper h1 (hp.appendOther (by simp))
        have p2 := hiddenLoop_proper _ _ _ hs p1
        have p3 := fcLayer_proper ho (appendPre_proper p2)
        refine p3.append fun L hL => ?_
        simp at hL

end HOL
