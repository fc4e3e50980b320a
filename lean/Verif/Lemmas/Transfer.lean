import Verif.Lemmas.Heap
import Verif.Spec.Network

/-! # Loops over two networks in parallel -/

namespace HOL
variable {K : Type} [TorchScalar K]

set_option linter.unusedSectionVars false

theorem forEach_append {α : Type} (body : α → Heap K → HEff K) (l l' : List α) (h : Heap K) :
    forEach body (l ++ l') h = match forEach body l h with
      | (.ok _, h') => forEach body l' h'
      | (.error e, h') => (.error e, h') := by
  induction l generalizing h with
  | nil => rfl
  | cons a l ih =>
    simp only [List.cons_append, forEach]
    rcases hb : body a h with ⟨r, h'⟩
    cases r with
    | ok _ => simp only; exact ih h'
    | error e => rfl

theorem forEach_inv {α : Type} (body : α → Heap K → HEff K) (Inv : Heap K → Prop) (l : List α)
    (hb : ∀ a ∈ l, ∀ h, Inv h → Inv (body a h).2) (h : Heap K) (hi : Inv h) : Inv (forEach body l h).2 := by
  induction l generalizing h with
  | nil => exact hi
  | cons a l ih =>
    simp only [forEach]
    have h1 := hb a (by simp) h hi
    rcases hr : body a h with ⟨r, h'⟩
    rw [hr] at h1
    cases r with
    | ok _ => exact ih (fun b hb' => hb b (by simp [hb'])) h' h1
    | error e => exact h1

/-- Replace each action by a loop of smaller actions. -/
theorem forEach_flatMap {α β : Type} (body : α → Heap K → HEff K) (body2 : β → Heap K → HEff K) (f : α → List β)
    (Inv : Heap K → Prop) (l : List α) (h1 : ∀ a ∈ l, ∀ h, Inv h → body a h = forEach body2 (f a) h)
    (h2 : ∀ b h, Inv h → Inv (body2 b h).2) (h : Heap K) (hi : Inv h) :
    forEach body l h = forEach body2 (l.flatMap f) h := by
  induction l generalizing h with
  | nil => rfl
  | cons a l ih =>
    rw [List.flatMap_cons, forEach_append]
    simp only [forEach]
    rw [h1 a (by simp) h hi]
    have h3 := forEach_inv body2 Inv (f a) (fun b _ => h2 b) h hi
    rcases hr : forEach body2 (f a) h with ⟨r, h'⟩
    rw [hr] at h3
    cases r with
    | ok _ => exact ih (fun b hb => h1 b (by simp [hb])) h' h3
    | error e => rfl

/-- Same modules except for the contents of piecewise layers. -/
def Heap.Skel (h h' : Heap K) : Prop :=
  h'.length = h.length ∧ ∀ i : ℕ, h'[i]? = h[i]? ∨ ∃ L L', h[i]? = some (.pw L) ∧ h'[i]? = some (.pw L')

theorem Heap.Skel.refl (h : Heap K) : h.Skel h := ⟨rfl, fun _ => Or.inl rfl⟩

theorem Heap.Skel.pw {h h' : Heap K} (s : h.Skel h') {i : ℕ} {L : PwLayer K} (hi : h[i]? = some (.pw L)) :
    ∃ L', h'[i]? = some (.pw L') := by
  rcases s.2 i with e | ⟨_, L', _, e⟩
  · exact ⟨L, e.trans hi⟩
  · exact ⟨L', e⟩

theorem Heap.Skel.same {h h' : Heap K} (s : h.Skel h') {i : ℕ} {m : Mod K} (hi : h[i]? = some m) (hm : ∀ L, m ≠ .pw L) :
    h'[i]? = some m := by
  rcases s.2 i with e | ⟨L, _, e, _⟩
  · exact e.trans hi
  · rw [hi] at e; cases e; exact absurd rfl (hm L)

theorem Heap.Skel.set {h h' : Heap K} (s : h.Skel h') {i : ℕ} {L : PwLayer K} (hi : h'[i]? = some (.pw L)) (L' : PwLayer K) :
    h.Skel (h'.set i (.pw L')) := by
  refine ⟨by rw [List.length_set, s.1], fun j => ?_⟩
  by_cases e : i = j
  · subst e
    have hlt : i < h'.length := (List.getElem?_eq_some_iff.1 hi).1
    rcases s.2 i with e | ⟨L0, _, e, _⟩
    · exact Or.inr ⟨L, L', e ▸ hi, List.getElem?_set_self hlt⟩
    · exact Or.inr ⟨L0, L', e, List.getElem?_set_self hlt⟩
  · rw [List.getElem?_set_ne e]; exact s.2 j

theorem Heap.Skel.ordered {h h' : Heap K} (s : h.Skel h') (ho : h.Ordered) : h'.Ordered := by
  intro i m hm j hj
  rcases s.2 i with e | ⟨L, L', _, e⟩
  · exact ho i m (e ▸ hm) j hj
  · rw [e] at hm; cases hm; simp [Mod.refs, Mod.hidden, Mod.children] at hj

variable (op : PwLayer K → PwLayer K → Eff (PwLayer K))

def pairBody (p : ℕ × ℕ) (h : Heap K) : HEff K := pairOp op p.1 p.2 h

theorem pairBody_skel {h : Heap K} (p : ℕ × ℕ) (h' : Heap K) (s : h.Skel h') : h.Skel (pairBody op p h').2 := by
  unfold pairBody pairOp
  split
  · rename_i La Lb e1 e2
    exact s.set e2 _
  · exact s

/-- Independent layer operations. -/
theorem forEach_pairs (Q : List (ℕ × ℕ)) : ∀ (h : Heap K),
    (∀ q ∈ Q, ∃ La Lb, h[q.1]? = some (.pw La) ∧ h[q.2]? = some (.pw Lb) ∧ (op La Lb).1 = .ok ()) →
    (Q.map Prod.snd).Nodup → (∀ q ∈ Q, ∀ r ∈ Q, q.1 ≠ r.2) →
    ∃ h', forEach (pairBody op) Q h = (.ok (), h') ∧ h.Skel h' ∧ (∀ j, j ∉ Q.map Prod.snd → h'[j]? = h[j]?) ∧
      ∀ q ∈ Q, ∀ La Lb, h[q.1]? = some (.pw La) → h[q.2]? = some (.pw Lb) → h'[q.2]? = some (.pw (op La Lb).2) := by
  induction Q with
  | nil => intro h _ _ _; exact ⟨h, rfl, Heap.Skel.refl h, fun _ _ => rfl, by simp⟩
  | cons q Q ih =>
    intro h hQ hnd hsrc
    obtain ⟨La, Lb, ha, hb, hok⟩ := hQ q (by simp)
    rw [List.map_cons, List.nodup_cons] at hnd
    have hlt : q.2 < h.length := (List.getElem?_eq_some_iff.1 hb).1
    have hstep : pairBody op q h = (.ok (), h.set q.2 (.pw (op La Lb).2)) := by
      unfold pairBody pairOp
      rw [ha, hb]
      simp only [hok]
    have hne : ∀ r ∈ Q, q.2 ≠ r.1 ∧ q.2 ≠ r.2 := by
      intro r hr
      refine ⟨fun e => hsrc r (by simp [hr]) q (by simp) e.symm, fun e => hnd.1 ?_⟩
      rw [e]; exact List.mem_map_of_mem hr
    obtain ⟨h', e1, e2, e3, e4⟩ := ih (h.set q.2 (.pw (op La Lb).2)) (by
      intro r hr
      obtain ⟨n1, n2⟩ := hne r hr
      rw [List.getElem?_set_ne n1, List.getElem?_set_ne n2]
      exact hQ r (by simp [hr])) hnd.2 (fun r hr t ht => hsrc r (by simp [hr]) t (by simp [ht]))
    have hsk : h.Skel (h.set q.2 (.pw (op La Lb).2)) := (Heap.Skel.refl h).set hb _
    refine ⟨h', ?_, ?_, ?_, ?_⟩
    · simp only [forEach, hstep, e1]
    · refine ⟨e2.1.trans hsk.1, fun j => ?_⟩
      rcases e2.2 j with a | ⟨L1, L2, a, b⟩
      · rw [a]; exact hsk.2 j
      · right
        rcases hsk.2 j with c | ⟨L3, L4, c, d⟩
        · exact ⟨L1, L2, c ▸ a, b⟩
        · exact ⟨L3, L2, c, b⟩
    · intro j hj
      rw [List.map_cons, List.mem_cons, not_or] at hj
      rw [e3 j hj.2, List.getElem?_set_ne (fun e => hj.1 e.symm)]
    · intro r hr L1 L2 h1 h2
      rcases List.mem_cons.1 hr with rfl | hr
      · rw [ha] at h1; rw [hb] at h2
        cases h1; cases h2
        rw [e3 _ hnd.1, List.getElem?_set_self hlt]
      · obtain ⟨n1, n2⟩ := hne r hr
        apply e4 r hr
        · rw [List.getElem?_set_ne n1]; exact h1
        · rw [List.getElem?_set_ne n2]; exact h2

/-- The layer operations performed for a pair of modules. -/
def prims (h : Heap K) (p : ℕ × ℕ) : List (ℕ × ℕ) :=
  match h[p.1]?, h[p.2]? with
  | some (.pw _), _ => [p]
  | some (.switch _ las _), some (.switch _ lbs _) => las.zip lbs
  | _, _ => []

/-- The two modules correspond and the operations on them succeed. -/
def PairOK (h : Heap K) (p : ℕ × ℕ) : Prop :=
  (∃ La Lb, h[p.1]? = some (.pw La) ∧ h[p.2]? = some (.pw Lb) ∧ (op La Lb).1 = .ok ()) ∨
  (∃ ia ib las lbs, h[p.1]? = some (.switch ia las none) ∧ h[p.2]? = some (.switch ib lbs none) ∧
    ∀ q ∈ las.zip lbs, ∃ La Lb, h[q.1]? = some (.pw La) ∧ h[q.2]? = some (.pw Lb) ∧ (op La Lb).1 = .ok ()) ∨
  ∃ f, h[p.1]? = some (.other f) ∧ h[p.2]? = some (.other f)

theorem PairOK.children {op : PwLayer K → PwLayer K → Eff (PwLayer K)} {h : Heap K} {p : ℕ × ℕ} (hp : PairOK op h p) :
    (∃ m, h[p.1]? = some m ∧ m.children = [] ∧ m.isSeq = false) ∧ (∃ m, h[p.2]? = some m ∧ m.children = [] ∧ m.isSeq = false) := by
  rcases hp with ⟨La, Lb, a, b, _⟩ | ⟨ia, ib, las, lbs, a, b, _⟩ | ⟨f, a, b⟩
  · exact ⟨⟨_, a, rfl, rfl⟩, ⟨_, b, rfl, rfl⟩⟩
  · exact ⟨⟨_, a, rfl, rfl⟩, ⟨_, b, rfl, rfl⟩⟩
  · exact ⟨⟨_, a, rfl, rfl⟩, ⟨_, b, rfl, rfl⟩⟩

def transferBody (p : ℕ × ℕ) (h : Heap K) : HEff K :=
  if ((h[p.1]?).map Mod.hasMethod).getD false then h.method op p.1 p.2 else (.ok (), h)

theorem method_pw {h : Heap K} {i : ℕ} {L : PwLayer K} (hi : h[i]? = some (.pw L)) :
    (h.fold (fun _ h => (.error .attributeError, h)) (methodOp op)).getD i (fun _ h => (.error .attributeError, h))
      = fun b h' => pairOp op i b h' := by
  rw [Heap.fold_getD _ _ h hi]
  rfl

theorem transferBody_eq {h : Heap K} (ho : h.Ordered) {p : ℕ × ℕ} (hp : PairOK op h p) (h' : Heap K) (s : h.Skel h') :
    transferBody op p h' = forEach (pairBody op) (prims h p) h' := by
  have one : ∀ q : ℕ × ℕ, forEach (pairBody op) [q] h' = pairOp op q.1 q.2 h' := by
    intro q
    simp only [forEach, pairBody]
    rcases pairOp op q.1 q.2 h' with ⟨r, h''⟩
    cases r <;> rfl
  unfold transferBody
  rcases hp with ⟨La, Lb, a, b, _⟩ | ⟨ia, ib, las, lbs, a, b, hq⟩ | ⟨f, a, b⟩
  · obtain ⟨L', e⟩ := s.pw a
    have hpr : prims h p = [p] := by unfold prims; rw [a]
    rw [hpr, e, one]
    simp only [Option.map_some, Option.getD_some, Mod.hasMethod, if_true]
    unfold Heap.method
    rw [method_pw op e]
  · have ea := s.same a (by simp)
    have eb := s.same b (by simp)
    have hpr : prims h p = las.zip lbs := by unfold prims; rw [a, b]
    rw [hpr, ea]
    simp only [Option.map_some, Option.getD_some, Mod.hasMethod, if_true]
    unfold Heap.method
    rw [Heap.fold_getD _ _ h' ea]
    simp only [methodOp, eb]
    have hlas : ∀ q ∈ las.zip lbs, q.1 < p.1 := by
      intro q hqm
      exact ho p.1 _ a q.1 (by simp [Mod.refs, Mod.hidden, (List.of_mem_zip hqm).1])
    have hcongr : ∀ (l : List (ℕ × ℕ)) (f g : ℕ × ℕ → Heap K → HEff K) (hh : Heap K), (∀ q ∈ l, f q = g q) →
        forEach f l hh = forEach g l hh := by
      intro l f g
      induction l with
      | nil => intro hh _; rfl
      | cons q l ih =>
        intro hh hl
        simp only [forEach]
        rw [hl q (by simp)]
        rcases g q hh with ⟨r, h''⟩
        cases r with
        | ok _ => exact ih h'' fun q hq => hl q (by simp [hq])
        | error e => rfl
    apply hcongr
    intro q hqm
    obtain ⟨La, Lb, c, d, _⟩ := hq q hqm
    obtain ⟨L', e⟩ := s.pw c
    funext hh
    rw [if_pos (hlas q hqm), method_pw op e]
    rfl
  · have ea := s.same a (by simp)
    have hpr : prims h p = [] := by unfold prims; rw [a]
    rw [hpr, ea]
    simp [Mod.hasMethod, forEach]

theorem firsts_prefix {α : Type} [DecidableEq α] (l : List α) : ∀ memo : List α, ∃ t, firsts memo l = memo ++ t := by
  induction l with
  | nil => intro memo; exact ⟨[], by simp [firsts_nil]⟩
  | cons a l ih =>
    intro memo
    rw [firsts_cons]
    split
    · exact ih memo
    · obtain ⟨t, ht⟩ := ih (memo ++ [a])
      exact ⟨a :: t, by rw [ht]; simp⟩

/-- The entries of `layers` for a `Sequential` of childless modules: distinct entries in order of first occurrence. -/
theorem Heap.layers_seq {h : Heap K} (ho : h.Ordered) {i : ℕ} {cs t : List ℕ} (hm : h[i]? = some (.seq cs))
    (hc : ∀ c ∈ cs, ∃ m, h[c]? = some m ∧ m.children = [] ∧ m.isSeq = false) (ht : firsts [i] cs = i :: t) :
    h.layers i = t := by
  unfold Heap.layers
  rw [Heap.modules_seq ho hm fun c hc' => by obtain ⟨m, a, b, _⟩ := hc c hc'; exact ⟨m, a, b⟩, ht]
  have hsp := firsts_spec cs [i] (by simp)
  rw [ht] at hsp
  rw [List.filter_cons]
  simp only [hm, Option.map_some, Mod.isSeq, Option.getD_some, Bool.not_true, Bool.false_eq_true, if_false]
  apply List.filter_eq_self.2
  intro a ha
  have h1 := (hsp.2 a).1 (by simp [ha])
  have hne : a ≠ i := by
    intro e
    have := (List.nodup_cons.1 hsp.1).1
    exact this (e ▸ ha)
  simp only [List.mem_singleton] at h1
  rcases h1 with h1 | h1
  · exact absurd h1 hne
  · obtain ⟨m, e, _, hs⟩ := hc a h1
    simp [e, hs]

/-- What `interpolate_high_order_mlp` / `hp_refine_high_order_mlp` do to two networks of the same structure. -/
theorem transferNetwork_spec {h : Heap K} (ho : h.Ordered) {na nb sa sb : ℕ} (hma : h.model na = .ok sa) (hmb : h.model nb = .ok sb)
    {P : List (ℕ × ℕ)} (hsa : h[sa]? = some (.seq (P.map Prod.fst))) (hsb : h[sb]? = some (.seq (P.map Prod.snd)))
    (hfst : ∀ p ∈ P, ∀ q ∈ P, p.1 = q.1 → p = q) (hsnd : ∀ p ∈ P, ∀ q ∈ P, p.2 = q.2 → p = q)
    (hP : ∀ p ∈ P, PairOK op h p) (hnd : ∀ p ∈ P, ((prims h p).map Prod.snd).Nodup)
    (hdisj : ∀ p ∈ P, ∀ q ∈ P, p ≠ q → ∀ s ∈ prims h p, ∀ t ∈ prims h q, s.2 ≠ t.2)
    (hsrc : ∀ p ∈ P, ∀ q ∈ P, ∀ s ∈ prims h p, ∀ t ∈ prims h q, s.1 ≠ t.2) :
    ∃ h', transferNetwork op na nb h = (.ok (), h') ∧ h.Skel h' ∧
      (∀ j, (∀ p ∈ P, ∀ q ∈ prims h p, j ≠ q.2) → h'[j]? = h[j]?) ∧
      ∀ p ∈ P, ∀ q ∈ prims h p, ∀ La Lb, h[q.1]? = some (.pw La) → h[q.2]? = some (.pw Lb) →
        h'[q.2]? = some (.pw (op La Lb).2) := by
  have hA : ∀ c ∈ P.map Prod.fst, ∃ m, h[c]? = some m ∧ m.children = [] ∧ m.isSeq = false := by
    intro c hc
    obtain ⟨p, hp, rfl⟩ := List.mem_map.1 hc
    exact (hP p hp).children.1
  have hB : ∀ c ∈ P.map Prod.snd, ∃ m, h[c]? = some m ∧ m.children = [] ∧ m.isSeq = false := by
    intro c hc
    obtain ⟨p, hp, rfl⟩ := List.mem_map.1 hc
    exact (hP p hp).children.2
  have hsa' : ∀ p ∈ P, p.1 ≠ sa := by
    intro p hp e
    have := ho sa _ hsa p.1 (by simp only [Mod.refs, Mod.children, Mod.hidden, List.nil_append]; exact List.mem_map_of_mem hp)
    omega
  have hsb' : ∀ p ∈ P, p.2 ≠ sb := by
    intro p hp e
    have := ho sb _ hsb p.2 (by simp only [Mod.refs, Mod.children, Mod.hidden, List.nil_append]; exact List.mem_map_of_mem hp)
    omega
  obtain ⟨T, hT⟩ := firsts_prefix P [(sa, sb)]
  rw [List.singleton_append] at hT
  have hTs := firsts_spec P [(sa, sb)] (by simp)
  rw [hT] at hTs
  have hTnd : T.Nodup := (List.nodup_cons.1 hTs.1).2
  have hTP : ∀ p ∈ T, p ∈ P := by
    intro p hp
    have h1 := (hTs.2 p).1 (by simp [hp])
    rcases h1 with h1 | h1
    · rw [List.mem_singleton] at h1
      exact absurd (h1 ▸ hp) (List.nodup_cons.1 hTs.1).1
    · exact h1
  have hPT : ∀ p ∈ P, p ∈ T := by
    intro p hp
    have h1 := (hTs.2 p).2 (Or.inr hp)
    rcases List.mem_cons.1 h1 with h1 | h1
    · exact absurd (by rw [h1]) (hsa' p hp)
    · exact h1
  have fA : firsts [sa] (P.map Prod.fst) = sa :: T.map Prod.fst := by
    have := firsts_map Prod.fst P [(sa, sb)] (by
      intro a ha b hb e
      rw [List.singleton_append, List.mem_cons] at ha hb
      rcases ha with rfl | ha <;> rcases hb with rfl | hb
      · rfl
      · exact absurd e.symm (hsa' b hb)
      · exact absurd e (hsa' a ha)
      · exact hfst a ha b hb e)
    rw [hT] at this
    exact this
  have fB : firsts [sb] (P.map Prod.snd) = sb :: T.map Prod.snd := by
    have := firsts_map Prod.snd P [(sa, sb)] (by
      intro a ha b hb e
      rw [List.singleton_append, List.mem_cons] at ha hb
      rcases ha with rfl | ha <;> rcases hb with rfl | hb
      · rfl
      · exact absurd e.symm (hsb' b hb)
      · exact absurd e (hsb' a ha)
      · exact hsnd a ha b hb e)
    rw [hT] at this
    exact this
  have hzip : (h.layers sa).zip (h.layers sb) = T := by
    rw [Heap.layers_seq ho hsa hA fA, Heap.layers_seq ho hsb hB fB, List.zip_map']
    simp
  have hnet : transferNetwork op na nb h = forEach (transferBody op) T h := by
    unfold transferNetwork
    rw [hma, hmb]
    simp only [hzip]
    rfl
  rw [hnet, forEach_flatMap (transferBody op) (pairBody op) (prims h) h.Skel T
    (fun p hp h' s => transferBody_eq op ho (hP p (hTP p hp)) h' s) (fun q h' s => pairBody_skel op q h' s) h (Heap.Skel.refl h)]
  have q1 : ∀ q ∈ T.flatMap (prims h), ∃ La Lb, h[q.1]? = some (.pw La) ∧ h[q.2]? = some (.pw Lb) ∧ (op La Lb).1 = .ok () := by
    intro q hq
    obtain ⟨p, hp, hqp⟩ := List.mem_flatMap.1 hq
    rcases hP p (hTP p hp) with ⟨La, Lb, a, b, c⟩ | ⟨ia, ib, las, lbs, a, b, c⟩ | ⟨f, a, b⟩
    · have hpr : prims h p = [p] := by unfold prims; rw [a]
      rw [hpr, List.mem_singleton] at hqp
      subst hqp
      exact ⟨La, Lb, a, b, c⟩
    · have hpr : prims h p = las.zip lbs := by unfold prims; rw [a, b]
      rw [hpr] at hqp
      exact c q hqp
    · have hpr : prims h p = [] := by unfold prims; rw [a]
      rw [hpr] at hqp; cases hqp
  have q2 : ((T.flatMap (prims h)).map Prod.snd).Nodup := by
    rw [List.map_flatMap, List.nodup_flatMap]
    refine ⟨fun p hp => hnd p (hTP p hp), ?_⟩
    apply hTnd.imp_of_mem
    intro p q hp hq hne t h1 h2
    obtain ⟨s1, m1, rfl⟩ := List.mem_map.1 h1
    obtain ⟨s2, m2, e⟩ := List.mem_map.1 h2
    exact hdisj p (hTP p hp) q (hTP q hq) hne s1 m1 s2 m2 e.symm
  have q3 : ∀ q ∈ T.flatMap (prims h), ∀ r ∈ T.flatMap (prims h), q.1 ≠ r.2 := by
    intro q hq r hr
    obtain ⟨p, hp, hqp⟩ := List.mem_flatMap.1 hq
    obtain ⟨p', hp', hrp⟩ := List.mem_flatMap.1 hr
    exact hsrc p (hTP p hp) p' (hTP p' hp') q hqp r hrp
  obtain ⟨h', e1, e2, e3, e4⟩ := forEach_pairs op (T.flatMap (prims h)) h q1 q2 q3
  refine ⟨h', e1, e2, ?_, ?_⟩
  · intro j hj
    apply e3
    intro hm
    obtain ⟨q, hq, rfl⟩ := List.mem_map.1 hm
    obtain ⟨p, hp, hqp⟩ := List.mem_flatMap.1 hq
    exact hj p (hTP p hp) q hqp rfl
  · intro p hp q hq
    exact e4 q (List.mem_flatMap.2 ⟨p, hPT p hp, hq⟩)

end HOL
