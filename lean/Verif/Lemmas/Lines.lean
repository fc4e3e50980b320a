import Verif.Lemmas.SharedBackward

/-!
# Lemmas: all parameters of a module moved at once

Modules are affine in every single entry of their parameters, hence differentiable along every line of parameters, and the derivative is the sum over the entries.
-/

namespace HOL
open TorchScalar Spec Filter

namespace GLayer

/-- An entry of a parameter: number of the parameter and index. -/
abbrev Entry := ℕ × List ℕ

/-- The layer has this entry. -/
def Has (l : GLayer ℝ) (e : Entry) : Prop := ∃ p, l.params[e.1]? = some p ∧ InShape p.shape e.2

/-- The layer with another value of one entry. -/
noncomputable def setEntry (l : GLayer ℝ) (e : Entry) (t : ℝ) : GLayer ℝ :=
  match l.params[e.1]? with
  | some p => l.setParam e.1 (p.set e.2 t)
  | none => l

theorem setEntry_eq {l : GLayer ℝ} {e : Entry} {p : Tensor ℝ} (hp : l.params[e.1]? = some p) (t : ℝ) : l.setEntry e t = l.setParam e.1 (p.set e.2 t) := by
  unfold setEntry
  rw [hp]

theorem setParam_params {l : GLayer ℝ} {k : ℕ} {p0 : Tensor ℝ} (hk : l.params[k]? = some p0) (p : Tensor ℝ) (k' : ℕ) :
    (l.setParam k p).params[k']? = if k' = k then some p else l.params[k']? := by
  cases l with
  | pw L => match k, k' with
    | 0, 0 => rfl
    | 0, _ + 1 => rfl
    | _ + 1, _ => simp [GLayer.params] at hk
  | fn L => match k, k' with
    | 0, 0 => rfl
    | 0, _ + 1 => rfl
    | _ + 1, _ => simp [GLayer.params] at hk
  | product L => match k, k' with
    | 0, 0 => rfl
    | 0, 1 => rfl
    | 0, _ + 2 => rfl
    | 1, 0 => rfl
    | 1, 1 => rfl
    | 1, k' + 2 => 
      rw [if_neg (by omega)]
      rfl
    | _ + 2, _ => simp [GLayer.params] at hk
  | linear w b => match k, k' with
    | 0, 0 => rfl
    | 0, 1 => rfl
    | 0, _ + 2 => rfl
    | 1, 0 => rfl
    | 1, 1 => rfl
    | 1, k' + 2 => 
      rw [if_neg (by omega)]
      rfl
    | _ + 2, _ => simp [GLayer.params] at hk
  | relu => simp [GLayer.params] at hk

theorem setParam_twice (l : GLayer ℝ) (k : ℕ) (p q : Tensor ℝ) : (l.setParam k p).setParam k q = l.setParam k q := by
  cases l with
  | pw L => rfl
  | fn L => rfl
  | product L => cases k <;> rfl
  | linear w b => cases k <;> rfl
  | relu => rfl

theorem setParam_comm {l : GLayer ℝ} {k k' : ℕ} {p0 q0 : Tensor ℝ} (hk : l.params[k]? = some p0) (hk' : l.params[k']? = some q0) (hne : k ≠ k') (p q : Tensor ℝ) :
    (l.setParam k p).setParam k' q = (l.setParam k' q).setParam k p := by
  cases l with
  | pw L => match k, k' with
    | 0, 0 => exact absurd rfl hne
    | _ + 1, _ => simp [GLayer.params] at hk
    | _, _ + 1 => simp [GLayer.params] at hk'
  | fn L => match k, k' with
    | 0, 0 => exact absurd rfl hne
    | _ + 1, _ => simp [GLayer.params] at hk
    | _, _ + 1 => simp [GLayer.params] at hk'
  | product L => match k, k' with
    | 0, 0 => exact absurd rfl hne
    | 1, 1 => exact absurd rfl hne
    | 0, 1 => rfl
    | 1, 0 => rfl
    | _ + 2, _ => simp [GLayer.params] at hk
    | _, _ + 2 => simp [GLayer.params] at hk'
  | linear w b => match k, k' with
    | 0, 0 => exact absurd rfl hne
    | 1, 1 => exact absurd rfl hne
    | 0, 1 => rfl
    | 1, 0 => rfl
    | _ + 2, _ => simp [GLayer.params] at hk
    | _, _ + 2 => simp [GLayer.params] at hk'
  | relu => simp [GLayer.params] at hk

theorem Has.set {l : GLayer ℝ} {e e' : Entry} (h : l.Has e) (h' : l.Has e') (t : ℝ) : (l.setEntry e' t).Has e := by
  obtain ⟨p, hp, hin⟩ := h
  obtain ⟨p', hp', hin'⟩ := h'
  rw [setEntry_eq hp']
  unfold Has
  rw [setParam_params hp']
  by_cases hk : e.1 = e'.1
  · rw [if_pos hk]
    refine ⟨_, rfl, ?_⟩
    rw [hk, hp'] at hp
    obtain rfl := Option.some.inj hp
    exact hin
  · rw [if_neg hk]
    exact ⟨p, hp, hin⟩

theorem setEntry_fits {l : GLayer ℝ} {I O : ℕ} (h : l.Fits I O) {e : Entry} (he : l.Has e) (t : ℝ) : (l.setEntry e t).Fits I O := by
  obtain ⟨p, hp, -⟩ := he
  rw [setEntry_eq hp]
  exact setParam_fits h hp _ _

theorem setEntry_smooth {l : GLayer ℝ} {e : Entry} (he : l.Has e) (t v : ℝ) : (l.setEntry e t).SmoothAt v ↔ l.SmoothAt v := by
  obtain ⟨p, hp, -⟩ := he
  rw [setEntry_eq hp]
  exact setParam_smooth _ _ _ _

theorem get_set2 {p : Tensor ℝ} {i j q : List ℕ} (s t : ℝ) (hj : InShape p.shape j) (hq : InShape p.shape q) (hne : j ≠ q) : ((p.set i s).set j t).get q = (p.set i s).get q :=
  Tensor.get_set_ne (t := p.set i s) hj hq hne

theorem set_set {p : Tensor ℝ} (hw : p.WF) {idx : List ℕ} (hin : InShape p.shape idx) (s t : ℝ) : (p.set idx s).set idx t = p.set idx t := by
  refine Tensor.ext_get (Tensor.wf_set (Tensor.wf_set hw _ _) _ _) (Tensor.wf_set hw _ _) rfl fun i hi => ?_
  by_cases h : i = idx
  · rw [h, Tensor.get_set_self (Tensor.wf_set hw _ _) hin, Tensor.get_set_self hw hin]
  · rw [get_set2 _ _ hin hi (Ne.symm h), Tensor.get_set_ne hin hi (Ne.symm h), Tensor.get_set_ne hin hi (Ne.symm h)]

theorem set_comm {p : Tensor ℝ} (hw : p.WF) {i j : List ℕ} (hi : InShape p.shape i) (hj : InShape p.shape j) (hne : i ≠ j) (s t : ℝ) : (p.set i s).set j t = (p.set j t).set i s := by
  refine Tensor.ext_get (Tensor.wf_set (Tensor.wf_set hw _ _) _ _) (Tensor.wf_set (Tensor.wf_set hw _ _) _ _) rfl fun q hq => ?_
  by_cases h1 : q = i
  · subst h1
    rw [get_set2 _ _ hj hq (Ne.symm hne), Tensor.get_set_self hw hi, Tensor.get_set_self (Tensor.wf_set hw _ _) hi]
  · by_cases h2 : q = j
    · subst h2
      rw [Tensor.get_set_self (Tensor.wf_set hw _ _) hj, get_set2 _ _ hi hq hne, Tensor.get_set_self hw hj]
    · rw [get_set2 _ _ hj hq (Ne.symm h2), Tensor.get_set_ne hi hq (Ne.symm h1), get_set2 _ _ hi hq (Ne.symm h1), Tensor.get_set_ne hj hq (Ne.symm h2)]

theorem setEntry_twice {l : GLayer ℝ} {I O : ℕ} (h : l.Fits I O) {e : Entry} (he : l.Has e) (s t : ℝ) : (l.setEntry e s).setEntry e t = l.setEntry e t := by
  obtain ⟨p, hp, hin⟩ := he
  have hp' : (l.setEntry e s).params[e.1]? = some (p.set e.2 s) := by rw [setEntry_eq hp, setParam_params hp, if_pos rfl]
  rw [setEntry_eq hp', setEntry_eq hp, setEntry_eq hp, setParam_twice, set_set (params_wf h hp) hin]

theorem setEntry_comm {l : GLayer ℝ} {I O : ℕ} (h : l.Fits I O) {e e' : Entry} (he : l.Has e) (he' : l.Has e') (hne : e ≠ e') (s t : ℝ) :
    (l.setEntry e s).setEntry e' t = (l.setEntry e' t).setEntry e s := by
  obtain ⟨p, hp, hin⟩ := he
  obtain ⟨p', hp', hin'⟩ := he'
  by_cases hk : e.1 = e'.1
  · have hpp : p' = p := by
      rw [← hk, hp] at hp'
      exact (Option.some.inj hp').symm
    subst hpp
    have hidx : e.2 ≠ e'.2 := fun h2 => hne (Prod.ext hk h2)
    have h1 : (l.setEntry e s).params[e'.1]? = some (p'.set e.2 s) := by rw [setEntry_eq hp, setParam_params hp, if_pos hk.symm]
    have h2 : (l.setEntry e' t).params[e.1]? = some (p'.set e'.2 t) := by rw [setEntry_eq hp', setParam_params hp', if_pos hk]
    rw [setEntry_eq h1, setEntry_eq h2, setEntry_eq hp, setEntry_eq hp', ← hk, setParam_twice, setParam_twice, set_comm (params_wf h hp) hin hin' hidx]
  · have h1 : (l.setEntry e s).params[e'.1]? = some p' := by rw [setEntry_eq hp, setParam_params hp, if_neg (Ne.symm hk)]; exact hp'
    have h2 : (l.setEntry e' t).params[e.1]? = some p := by rw [setEntry_eq hp', setParam_params hp', if_neg hk]; exact hp
    rw [setEntry_eq h1, setEntry_eq h2, setEntry_eq hp, setEntry_eq hp', setParam_comm hp hp' hk]

/-- The output as a vector. -/
noncomputable def vecFn (l : GLayer ℝ) (S T : List ℕ) (Y : Fin (numel S) → ℝ) : Fin (numel T) → ℝ :=
  match l.forward (ofVec S Y) with
  | .ok y => fun p => y.get (unravel T p)
  | .error _ => 0

theorem vecFn_eq {l : GLayer ℝ} {S T : List ℕ} {Y : Fin (numel S) → ℝ} {v : Fin (numel T) → ℝ} (h : l.forward (ofVec S Y) = .ok (ofVec T v)) : l.vecFn S T Y = v := by
  unfold vecFn
  rw [h]
  funext p
  exact ofVec_get_unravel v p

section
variable {P : Picks ℝ} (hP : P.Valid) {B I O : ℕ} {X : Fin (numel [B, I]) → ℝ}

/-- The layer has the sizes and is smooth at the entries of the batch. -/
def Ready (l : GLayer ℝ) (B I O : ℕ) (X : Fin (numel [B, I]) → ℝ) : Prop := l.Fits I O ∧ ∀ idx, InShape [B, I] idx → l.SmoothAt ((ofVec [B, I] X).get idx)

theorem Ready.set {l : GLayer ℝ} (h : l.Ready B I O X) {e : Entry} (he : l.Has e) (t : ℝ) : (l.setEntry e t).Ready B I O X :=
  ⟨setEntry_fits h.1 he t, fun idx hin => (setEntry_smooth he t _).2 (h.2 idx hin)⟩

/-- How fast one entry moves the output. -/
noncomputable def slope (l : GLayer ℝ) (S T : List ℕ) (Y : Fin (numel S) → ℝ) (e : Entry) : Fin (numel T) → ℝ := (l.setEntry e 1).vecFn S T Y - (l.setEntry e 0).vecFn S T Y

theorem Ready.line {l : GLayer ℝ} (h : l.Ready B I O X) {e : Entry} (he : l.Has e) (t : ℝ) (Y : Fin (numel [B, I]) → ℝ) :
    (l.setEntry e t).vecFn [B, I] [B, O] Y = (l.setEntry e 0).vecFn [B, I] [B, O] Y + t • l.slope [B, I] [B, O] Y e := by
  obtain ⟨p, hp, hin⟩ := he
  obtain ⟨U, C, hU⟩ := GLayer.affine l h.1 hp hin (matVec B I Y)
  rw [← ofVec_ofMat] at hU
  have key : ∀ t, (l.setEntry e t).vecFn [B, I] [B, O] Y = vecMat B O fun b o => U b o + (t - p.get e.2) * C b o := by
    intro t
    refine vecFn_eq ?_
    rw [setEntry_eq hp, hU t, ofMat_ofVec]
  unfold slope
  rw [key t, key 0, key 1, ← map_sub, ← map_smul, ← map_add]
  congr 1
  funext b o
  simp only [Pi.add_apply, Pi.smul_apply, Pi.sub_apply, smul_eq_mul]
  ring

include hP


theorem Ready.run {l : GLayer ℝ} (h : l.Ready B I O X) (Y : Fin (numel [B, I]) → ℝ) : l.forward (ofVec [B, I] Y) = .ok (ofVec [B, O] (l.vecFn [B, I] [B, O] Y)) := by
  obtain ⟨F, A, hF, -, -⟩ := stage_vec hP (.base (.dense l)) (S := [B, I]) (T := [B, O]) ⟨B, I, O, rfl, rfl, h.1⟩ X h.2
  have hF' : l.forward (ofVec [B, I] Y) = .ok (ofVec [B, O] (F Y)) := hF Y
  rw [vecFn_eq hF', hF']

theorem Ready.deriv {l : GLayer ℝ} (h : l.Ready B I O X) : ∃ A : (Fin (numel [B, I]) → ℝ) →L[ℝ] Fin (numel [B, O]) → ℝ, HasFDerivAt (l.vecFn [B, I] [B, O]) A X := by
  obtain ⟨F, A, hF, hA, -⟩ := stage_vec hP (.base (.dense l)) (S := [B, I]) (T := [B, O]) ⟨B, I, O, rfl, rfl, h.1⟩ X h.2
  have : l.vecFn [B, I] [B, O] = F := by
    funext Y
    exact vecFn_eq (hF Y)
  rw [this]
  exact ⟨A, hA⟩

end

/-! ## moving entries along a line -/

/-- Entries `es` moved to `a e + t * b e`. -/
noncomputable def move (a b : Entry → ℝ) (es : List Entry) (t : ℝ) (l : GLayer ℝ) : GLayer ℝ := es.foldr (fun e l' => l'.setEntry e (a e + t * b e)) l

theorem move_spec {I O : ℕ} (a b : Entry → ℝ) (es : List Entry) (t : ℝ) {l : GLayer ℝ} (h : l.Fits I O) (hes : ∀ e ∈ es, l.Has e) :
    (move a b es t l).Fits I O ∧ (∀ e, l.Has e → (move a b es t l).Has e) ∧ (∀ v, (move a b es t l).SmoothAt v ↔ l.SmoothAt v) ∧
      ∀ e, e ∉ es → l.Has e → ∀ c, (move a b es t l).setEntry e c = move a b es t (l.setEntry e c) := by
  induction es with
  | nil => exact ⟨h, fun e he => he, fun v => Iff.rfl, fun e _ _ c => rfl⟩
  | cons e0 es ih =>
    obtain ⟨h1, h2, h3, h4⟩ := ih fun e he => hes e (List.mem_cons_of_mem _ he)
    have h0 := h2 e0 (hes e0 List.mem_cons_self)
    refine ⟨setEntry_fits h1 h0 _, fun e he => (h2 e he).set h0 _, fun v => (setEntry_smooth h0 _ v).trans (h3 v), fun e hne he c => ?_⟩
    show ((move a b es t l).setEntry e0 _).setEntry e c = (move a b es t (l.setEntry e c)).setEntry e0 _
    rw [← h4 e (fun hm => hne (List.mem_cons_of_mem _ hm)) he c]
    exact setEntry_comm h1 h0 (h2 e he) (fun heq => hne (heq ▸ List.mem_cons_self)) _ _

theorem move_ready {B I O : ℕ} {X : Fin (numel [B, I]) → ℝ} (a b : Entry → ℝ) (es : List Entry) (t : ℝ) {l : GLayer ℝ} (h : l.Ready B I O X) (hes : ∀ e ∈ es, l.Has e) :
    (move a b es t l).Ready B I O X := by
  obtain ⟨h1, -, h3, -⟩ := move_spec a b es t h.1 hes
  exact ⟨h1, fun idx hin => (h3 _).2 (h.2 idx hin)⟩

theorem move_deriv {P : Picks ℝ} (hP : P.Valid) {B I O : ℕ} {X : Fin (numel [B, I]) → ℝ} (a b : Entry → ℝ) (es : List Entry) : es.Nodup → ∀ l : GLayer ℝ, l.Ready B I O X → (∀ e ∈ es, l.Has e) →
    ∃ A : (ℝ × (Fin (numel [B, I]) → ℝ)) →L[ℝ] Fin (numel [B, O]) → ℝ,
      HasFDerivAt (fun q : ℝ × (Fin (numel [B, I]) → ℝ) => (move a b es q.1 l).vecFn [B, I] [B, O] q.2) A (0, X) ∧
      A (1, 0) = (es.map fun e => b e • (move a b es 0 l).slope [B, I] [B, O] X e).sum := by
  induction es with
  | nil =>
    intro _ l h _
    obtain ⟨A, hA⟩ := h.deriv hP
    refine ⟨A.comp (ContinuousLinearMap.snd ℝ ℝ _), HasFDerivAt.comp (g := l.vecFn [B, I] [B, O]) (0, X) hA hasFDerivAt_snd, ?_⟩
    show A 0 = 0
    exact map_zero A
  | cons e es ih =>
    intro hnd l h hes
    obtain ⟨hne, hnd'⟩ := List.nodup_cons.1 hnd
    have he : l.Has e := hes e List.mem_cons_self
    have hes' : ∀ e' ∈ es, l.Has e' := fun e' h' => hes e' (List.mem_cons_of_mem _ h')
    have hset : ∀ c, ∀ e' ∈ es, (l.setEntry e c).Has e' := fun c e' h' => (hes' e' h').set he c
    obtain ⟨A0, d0, s0⟩ := ih hnd' _ (h.set he 0) (hset 0)
    obtain ⟨A1, d1, s1⟩ := ih hnd' _ (h.set he 1) (hset 1)
    -- the family as a line between two families
    have hM := fun t => move_spec a b es t h.1 hes'
    have hR := fun t => move_ready a b es t h hes'
    have hcomm : ∀ t c, (move a b es t l).setEntry e c = move a b es t (l.setEntry e c) := fun t c => (hM t).2.2.2 e hne he c
    have hfam : (fun q : ℝ × (Fin (numel [B, I]) → ℝ) => (move a b (e :: es) q.1 l).vecFn [B, I] [B, O] q.2) = fun q : ℝ × (Fin (numel [B, I]) → ℝ) =>
        (move a b es q.1 (l.setEntry e 0)).vecFn [B, I] [B, O] q.2 + (a e + q.1 * b e) •
          ((move a b es q.1 (l.setEntry e 1)).vecFn [B, I] [B, O] q.2 - (move a b es q.1 (l.setEntry e 0)).vecFn [B, I] [B, O] q.2) := by
      funext q
      show ((move a b es q.1 l).setEntry e (a e + q.1 * b e)).vecFn [B, I] [B, O] q.2 = _
      rw [(hR q.1).line ((hM q.1).2.1 e he), slope, hcomm, hcomm]
    have hc : HasFDerivAt (fun q : ℝ × (Fin (numel [B, I]) → ℝ) => a e + q.1 * b e) (b e • ContinuousLinearMap.fst ℝ ℝ (Fin (numel [B, I]) → ℝ)) (0, X) := by
      have := ((ContinuousLinearMap.fst ℝ ℝ (Fin (numel [B, I]) → ℝ)).hasFDerivAt (x := ((0 : ℝ), X))).mul_const (b e)
      exact this.const_add (a e)
    rw [hfam]
    refine ⟨_, d0.add (hc.smul (d1.sub d0)), ?_⟩
    have hN := hR 0
    obtain ⟨N, hNeq⟩ : ∃ N, N = move a b es 0 l := ⟨_, rfl⟩
    have hA : ∀ e' ∈ es, (N.setEntry e (a e)).slope [B, I] [B, O] X e'
        = (N.setEntry e 0).slope [B, I] [B, O] X e' + a e • ((N.setEntry e 1).slope [B, I] [B, O] X e' - (N.setEntry e 0).slope [B, I] [B, O] X e') := by
      intro e' h'
      rw [hNeq]
      have hee : e ≠ e' := fun h => hne (h ▸ h')
      have k1 := (hM 0).2.1 e he
      have k2 := (hM 0).2.1 e' (hes' e' h')
      have lin : ∀ c d, (((move a b es 0 l).setEntry e c).setEntry e' d).vecFn [B, I] [B, O] X
          = ((((move a b es 0 l).setEntry e' d)).setEntry e 0).vecFn [B, I] [B, O] X + c • ((move a b es 0 l).setEntry e' d).slope [B, I] [B, O] X e := by
        intro c d
        rw [setEntry_comm hN.1 k1 k2 hee, (hN.set k2 d).line (k1.set k2 d)]
      unfold slope
      rw [lin, lin, lin, lin, lin, lin]
      funext r
      simp only [Pi.add_apply, Pi.sub_apply, Pi.smul_apply, smul_eq_mul]
      ring
    have hbase : move a b (e :: es) 0 l = N.setEntry e (a e) := by
      rw [hNeq]
      show (move a b es 0 l).setEntry e (a e + 0 * b e) = _
      rw [zero_mul, add_zero]
    have hself : (N.setEntry e (a e)).slope [B, I] [B, O] X e = (N.setEntry e 1).vecFn [B, I] [B, O] X - (N.setEntry e 0).vecFn [B, I] [B, O] X := by
      unfold slope
      rw [hNeq, setEntry_twice hN.1 ((hM 0).2.1 e he), setEntry_twice hN.1 ((hM 0).2.1 e he)]
    rw [hbase, List.map_cons, List.sum_cons, hself]
    have hsum : (es.map fun e' => b e' • (N.setEntry e (a e)).slope [B, I] [B, O] X e').sum
        = (es.map fun e' => b e' • (N.setEntry e 0).slope [B, I] [B, O] X e').sum + a e • ((es.map fun e' => b e' • (N.setEntry e 1).slope [B, I] [B, O] X e').sum
          - (es.map fun e' => b e' • (N.setEntry e 0).slope [B, I] [B, O] X e').sum) := by
      clear ih hnd hnd' hne hes hset d0 s0 d1 s1 hM hR hcomm hfam hN hNeq hbase hself hes'
      induction es with
      | nil => simp
      | cons e' es ih =>
        simp only [List.map_cons, List.sum_cons]
        rw [ih fun e'' h'' => hA e'' (List.mem_cons_of_mem _ h''), hA e' List.mem_cons_self]
        funext r
        simp only [Pi.add_apply, Pi.sub_apply, Pi.smul_apply, smul_eq_mul]
        ring
    rw [hsum]
    rw [← hcomm 0 0, ← hNeq] at s0
    rw [← hcomm 0 1, ← hNeq] at s1
    rw [← s0, ← s1, hNeq, hcomm, hcomm]
    funext r
    show A0 (1, 0) r + ((a e + 0 * b e) * (A1 (1, 0) r - A0 (1, 0) r) + (b e * 1) * ((move a b es 0 (l.setEntry e 1)).vecFn [B, I] [B, O] X r - (move a b es 0 (l.setEntry e 0)).vecFn [B, I] [B, O] X r))
      = b e * ((move a b es 0 (l.setEntry e 1)).vecFn [B, I] [B, O] X r - (move a b es 0 (l.setEntry e 0)).vecFn [B, I] [B, O] X r) + (A0 (1, 0) r + a e * (A1 (1, 0) r - A0 (1, 0) r))
    ring

/-! ## all entries -/

/-- All entries of the parameters. -/
noncomputable def entries (l : GLayer ℝ) : List Entry := (List.range l.params.length).flatMap fun k => ((List.range (numel (l.params.getD k ⟨[], []⟩).shape)).map (unravel (l.params.getD k ⟨[], []⟩).shape)).map fun idx => (k, idx)

theorem mem_entries {l : GLayer ℝ} {e : Entry} : e ∈ l.entries ↔ l.Has e := by
  unfold entries Has
  rw [List.mem_flatMap]
  constructor
  · rintro ⟨k, hk, he⟩
    obtain ⟨idx, hi, rfl⟩ := List.mem_map.1 he
    obtain ⟨r, hr, rfl⟩ := List.mem_map.1 hi
    have hk' := List.mem_range.1 hk
    have hg : l.params[k]? = some (l.params.getD k ⟨[], []⟩) := by
      rw [List.getElem?_eq_getElem hk', List.getD_eq_getElem _ _ hk']
    exact ⟨_, hg, inShape_unravel (List.mem_range.1 hr)⟩
  · rintro ⟨p, hp, hin⟩
    have hk : e.1 < l.params.length := (List.getElem?_eq_some_iff.1 hp).1
    have hg : l.params.getD e.1 ⟨[], []⟩ = p := by rw [List.getD_eq_getElem?_getD, hp]; rfl
    refine ⟨e.1, List.mem_range.2 hk, ?_⟩
    rw [hg]
    exact List.mem_map.2 ⟨e.2, List.mem_map.2 ⟨ravel p.shape e.2, List.mem_range.2 (ravel_lt hin), unravel_ravel hin⟩, rfl⟩

theorem nodup_entries (l : GLayer ℝ) : l.entries.Nodup := by
  unfold entries
  refine List.nodup_flatMap.2 ⟨fun k _ => ?_, ?_⟩
  · refine List.Nodup.map (fun i j hij => (Prod.mk.inj hij).2) (List.Nodup.map_on (fun r hr r' hr' he => ?_) List.nodup_range)
    rw [← ravel_unravel (List.mem_range.1 hr), he, ravel_unravel (List.mem_range.1 hr')]
  · refine List.Pairwise.imp ?_ List.nodup_range
    intro k k' hne
    show List.Disjoint _ _
    intro e he he'
    obtain ⟨_, _, rfl⟩ := List.mem_map.1 he
    obtain ⟨_, _, h2⟩ := List.mem_map.1 he'
    exact hne (Prod.mk.inj h2).1.symm

/-- A parameter moved along a line. -/
noncomputable def lineParam (t : ℝ) (p : Tensor ℝ) (V : List ℕ → ℝ) : Tensor ℝ := Tensor.tabulate p.shape fun idx => p.get idx + t * V idx

/-- The layer with all parameters moved along a line. -/
noncomputable def along (V : Entry → ℝ) (t : ℝ) : GLayer ℝ → GLayer ℝ
  | .pw L => .pw { L with w := lineParam t L.w fun idx => V (0, idx) }
  | .fn L => .fn { L with w := lineParam t L.w fun idx => V (0, idx) }
  | .product L => .product { L with weight := lineParam t L.weight fun idx => V (0, idx), bias := L.bias.map fun b => lineParam t b fun idx => V (1, idx) }
  | .linear w b => .linear (lineParam t w fun idx => V (0, idx)) (lineParam t b fun idx => V (1, idx))
  | .relu => .relu

theorem foldr_set (f : List ℕ → ℝ) (ids : List (List ℕ)) {p : Tensor ℝ} (hw : p.WF) (hin : ∀ i ∈ ids, InShape p.shape i) :
    (ids.foldr (fun i q => q.set i (f i)) p).shape = p.shape ∧ (ids.foldr (fun i q => q.set i (f i)) p).WF ∧
      ∀ i, InShape p.shape i → (ids.foldr (fun i q => q.set i (f i)) p).get i = if i ∈ ids then f i else p.get i := by
  induction ids with
  | nil => exact ⟨rfl, hw, fun i _ => by rw [if_neg (by simp)]; rfl⟩
  | cons j ids ih =>
    obtain ⟨h1, h2, h3⟩ := ih fun i hi => hin i (List.mem_cons_of_mem _ hi)
    have hj : InShape (ids.foldr (fun i q => q.set i (f i)) p).shape j := by rw [h1]; exact hin j List.mem_cons_self
    refine ⟨h1, Tensor.wf_set h2 _ _, fun i hi => ?_⟩
    rw [List.foldr_cons]
    by_cases hij : i = j
    · subst hij
      rw [Tensor.get_set_self h2 hj, if_pos List.mem_cons_self]
    · rw [Tensor.get_set_ne hj (by rw [h1]; exact hi) (Ne.symm hij), h3 i hi]
      simp only [List.mem_cons, hij, false_or]

theorem foldr_all (f : List ℕ → ℝ) {p : Tensor ℝ} (hw : p.WF) : ((List.range (numel p.shape)).map (unravel p.shape)).foldr (fun i q => q.set i (f i)) p = Tensor.tabulate p.shape f := by
  obtain ⟨h1, h2, h3⟩ := foldr_set f ((List.range (numel p.shape)).map (unravel p.shape)) hw (fun i hi => by
    obtain ⟨r, hr, rfl⟩ := List.mem_map.1 hi
    exact inShape_unravel (List.mem_range.1 hr))
  refine Tensor.ext_get h2 (Tensor.wf_tabulate _ _) h1 fun i hi => ?_
  rw [h1] at hi
  rw [h3 i hi, if_pos, Tensor.get_tabulate hi]
  exact List.mem_map.2 ⟨ravel p.shape i, List.mem_range.2 (ravel_lt hi), unravel_ravel hi⟩

/-- The value of an entry. -/
noncomputable def value (l : GLayer ℝ) (e : Entry) : ℝ := ((l.params[e.1]?).map fun p => p.get e.2).getD 0

theorem move_along {l : GLayer ℝ} {I O : ℕ} (h : l.Fits I O) (V : Entry → ℝ) (t : ℝ) : move l.value V l.entries t l = l.along V t := by
  have hmap : ∀ (a b : Entry → ℝ) (k : ℕ) (ids : List (List ℕ)) (l : GLayer ℝ), move a b (ids.map fun idx => (k, idx)) t l = ids.foldr (fun i l' => l'.setEntry (k, i) (a (k, i) + t * b (k, i))) l := by
    intro a b k ids l
    unfold move
    rw [List.foldr_map]
  cases l with
  | pw L =>
    have key : ∀ (f : List ℕ → ℝ) (ids : List (List ℕ)), ids.foldr (fun i l' => GLayer.setEntry l' (0, i) (f i)) (.pw L) = .pw { L with w := ids.foldr (fun i q => q.set i (f i)) L.w } := by
      intro f ids
      induction ids with
      | nil => rfl
      | cons i ids ih => rw [List.foldr_cons, ih]; rfl
    have he : (GLayer.pw L).entries = (((List.range (numel L.w.shape)).map (unravel L.w.shape)).map fun idx => (0, idx)) ++ [] := rfl
    rw [he, List.append_nil, hmap, key, foldr_all _ h.1.w_wf]
    rfl
  | fn L =>
    have key : ∀ (f : List ℕ → ℝ) (ids : List (List ℕ)), ids.foldr (fun i l' => GLayer.setEntry l' (0, i) (f i)) (.fn L) = .fn { L with w := ids.foldr (fun i q => q.set i (f i)) L.w } := by
      intro f ids
      induction ids with
      | nil => rfl
      | cons i ids ih => rw [List.foldr_cons, ih]; rfl
    have he : (GLayer.fn L).entries = (((List.range (numel L.w.shape)).map (unravel L.w.shape)).map fun idx => (0, idx)) ++ [] := rfl
    rw [he, List.append_nil, hmap, key, foldr_all _ h.1.w_wf]
    rfl
  | product L =>
    obtain ⟨bias, hb, -, hbw⟩ := h.1.bias
    have key0 : ∀ (L : ProductLayer ℝ) (f : List ℕ → ℝ) (ids : List (List ℕ)), ids.foldr (fun i l' => GLayer.setEntry l' (0, i) (f i)) (.product L) = .product { L with weight := ids.foldr (fun i q => q.set i (f i)) L.weight } := by
      intro L f ids
      induction ids with
      | nil => rfl
      | cons i ids ih => rw [List.foldr_cons, ih]; rfl
    have key1 : ∀ (f : List ℕ → ℝ) (ids : List (List ℕ)), ids.foldr (fun i l' => GLayer.setEntry l' (1, i) (f i)) (.product L) = .product { L with bias := some (ids.foldr (fun i q => q.set i (f i)) bias) } := by
      intro f ids
      induction ids with
      | nil => rw [List.foldr_nil, List.foldr_nil, ← hb]
      | cons i ids ih => rw [List.foldr_cons, ih]; rfl
    have he : (GLayer.product L).entries = (((List.range (numel L.weight.shape)).map (unravel L.weight.shape)).map fun idx => (0, idx))
        ++ ((((List.range (numel bias.shape)).map (unravel bias.shape)).map fun idx => (1, idx)) ++ []) := by
      unfold entries GLayer.params
      dsimp only
      rw [hb]
      rfl
    have hv : ∀ i, (GLayer.product L).value (1, i) = bias.get i := by
      intro i
      unfold value GLayer.params
      dsimp only
      rw [hb]
      rfl
    rw [he, List.append_nil]
    have happ : ∀ (a b : Entry → ℝ) (x y : List Entry) (l : GLayer ℝ), move a b (x ++ y) t l = move a b x t (move a b y t l) := by
      intro a b x y l
      unfold move
      rw [List.foldr_append]
    rw [happ, hmap, hmap, key1, foldr_all _ hbw, key0]
    dsimp only
    rw [foldr_all _ h.1.w_wf]
    unfold along
    dsimp only
    rw [hb]
    simp only [hv]
    rfl
  | linear w b =>
    obtain ⟨-, hww, -, hbw⟩ := h
    have key0 : ∀ (b : Tensor ℝ) (f : List ℕ → ℝ) (ids : List (List ℕ)), ids.foldr (fun i l' => GLayer.setEntry l' (0, i) (f i)) (.linear w b) = .linear (ids.foldr (fun i q => q.set i (f i)) w) b := by
      intro b f ids
      induction ids with
      | nil => rfl
      | cons i ids ih => rw [List.foldr_cons, ih]; rfl
    have key1 : ∀ (f : List ℕ → ℝ) (ids : List (List ℕ)), ids.foldr (fun i l' => GLayer.setEntry l' (1, i) (f i)) (.linear w b) = .linear w (ids.foldr (fun i q => q.set i (f i)) b) := by
      intro f ids
      induction ids with
      | nil => rfl
      | cons i ids ih => rw [List.foldr_cons, ih]; rfl
    have he : (GLayer.linear w b).entries = (((List.range (numel w.shape)).map (unravel w.shape)).map fun idx => (0, idx))
        ++ ((((List.range (numel b.shape)).map (unravel b.shape)).map fun idx => (1, idx)) ++ []) := rfl
    have happ : ∀ (a b : Entry → ℝ) (x y : List Entry) (l : GLayer ℝ), move a b (x ++ y) t l = move a b x t (move a b y t l) := by
      intro a b x y l
      unfold move
      rw [List.foldr_append]
    rw [he, List.append_nil, happ, hmap, hmap, key1, foldr_all _ hbw, key0, foldr_all _ hww]
    rfl
  | relu => rfl

theorem lineParam_zero {p : Tensor ℝ} (hw : p.WF) {t : ℝ} {V : List ℕ → ℝ} (h : ∀ idx, InShape p.shape idx → t * V idx = 0) : lineParam t p V = p := by
  refine Tensor.ext_get (Tensor.wf_tabulate _ _) hw rfl fun i hi => ?_
  unfold lineParam
  rw [Tensor.get_tabulate (by exact hi), h i hi, add_zero]

theorem along_zero {l : GLayer ℝ} {I O : ℕ} (h : l.Fits I O) {V : Entry → ℝ} {t : ℝ} (hz : ∀ e, l.Has e → t * V e = 0) : l.along V t = l := by
  cases l with
  | pw L =>
    unfold along
    dsimp only
    rw [lineParam_zero h.1.w_wf fun idx hin => hz (0, idx) ⟨L.w, rfl, hin⟩]
  | fn L =>
    unfold along
    dsimp only
    rw [lineParam_zero h.1.w_wf fun idx hin => hz (0, idx) ⟨L.w, rfl, hin⟩]
  | product L =>
    obtain ⟨bias, hb, -, hbw⟩ := h.1.bias
    unfold along
    dsimp only
    rw [lineParam_zero h.1.w_wf fun idx hin => hz (0, idx) ⟨L.weight, rfl, hin⟩, hb, Option.map_some,
      lineParam_zero hbw fun idx hin => hz (1, idx) ⟨bias, by unfold GLayer.params; dsimp only; rw [hb]; rfl, hin⟩, ← hb]
  | linear w b =>
    unfold along
    dsimp only
    rw [lineParam_zero h.2.1 fun idx hin => hz (0, idx) ⟨w, rfl, hin⟩, lineParam_zero h.2.2.2 fun idx hin => hz (1, idx) ⟨b, rfl, hin⟩]
  | relu => rfl

end GLayer

end HOL
