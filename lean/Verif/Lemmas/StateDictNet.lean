import Verif.Lemmas.StateDict

/-! # Networks built with the same arguments look the same -/

namespace HOL
open TorchScalar Relation MLPArgs
variable {K : Type} [TorchScalar K]

/-- Names and shapes of parameters. -/
def Mod.sig (m : Mod K) : List (String × List ℕ) := m.ownParams.map fun p => (p.1, p.2.shape)

theorem Mod.Trained.same {m m' : Mod K} (h : m.Trained m') : m'.shell = m.shell ∧ m'.sig = m.sig := by
  cases h with
  | refl => exact ⟨rfl, rfl⟩
  | pw L w hs hw => exact ⟨rfl, by simp [Mod.sig, Mod.ownParams, hs]⟩
  | fn L w hs hw => exact ⟨rfl, by simp [Mod.sig, Mod.ownParams, hs]⟩
  | product L w b hs hb =>
    refine ⟨?_, ?_⟩
    · simp only [Mod.shell, Option.map_map]
      rfl
    · cases hL : L.bias with
      | none => simp [Mod.sig, Mod.ownParams, hs, hL]
      | some b0 => simp [Mod.sig, Mod.ownParams, hs, hL, hb b0 hL]
  | linear w b w' b' hs hb => exact ⟨rfl, by simp [Mod.sig, Mod.ownParams, hs, hb]⟩

theorem eq_of_shell_none {m m' : Mod K} (h : m.shell = m'.shell) (ho : m'.ownParams = []) : m = m' := Mod.ext_shell h (by
  have := Mod.shell_own h
  rw [ho] at this ⊢
  simpa using this)

theorem Alike.leaf {φ : ℕ → ℕ} {m m' : Mod K} (hs : m'.shell = m.shell) (hp : m'.sig = m.sig) (hc : m'.namedChildren = []) (hh : m'.hidden = []) : Alike φ m m' where
  params := hp
  kids := by rw [← Mod.shell_named hs, hc]; rfl
  plain := hh
  fwd := by
    intro m'' call call' h1 h2 _
    obtain rfl := Mod.ext_shell (h1.trans hs) h2
    refine Mod.forward_congr _ fun j hj => ?_
    rw [Mod.refs, Mod.shell_hidden h1, hh, ← m''.namedChildren_snd, Mod.shell_named h1, hc] at hj
    cases hj

theorem IsLayer.mirrors {kind : FcKind} {a : FcArgs K} (hu : Usable kind a) (hk : ∀ cls, kind ≠ .switch cls) {hA hB : Heap K} {jA jB : ℕ} (lA : IsLayer kind a hA jA) (lB : IsLayer kind a hB jB)
    {φ : ℕ → ℕ} (e0 : φ jB = jA) (e1 : φ (jB - 1) = jA - 1) : Mirrors φ hA hB jB := by
  obtain ⟨rA, bA, msA, a1, a2, a3⟩ := lA
  obtain ⟨rB, bB, msB, b1, b2, b3⟩ := lB
  have single : ∀ m m' : Mod K, msA = [m] → msB = [m'] → m'.shell = m.shell → m'.sig = m.sig → m'.namedChildren = [] → m'.hidden = [] → Mirrors φ hA hB jB := by
    rintro m m' rfl rfl hs hg hc hh
    obtain ⟨t, t1, t2⟩ := a3 0 m rfl
    obtain ⟨t', t1', t2'⟩ := b3 0 m' rfl
    obtain ⟨q1, q2⟩ := t2.same
    obtain ⟨q1', q2'⟩ := t2'.same
    have ea : jA = bA + 0 := by simpa using a2
    have eb : jB = bB + 0 := by simpa using b2
    refine .mk (by rw [eb]; exact t1') ⟨t, by rw [e0, ea]; exact t1, ?_⟩ ?_
    · refine Alike.leaf (q1'.trans (hs.trans q1.symm)) (q2'.trans (hg.trans q2.symm)) ?_ ?_
      · rw [Mod.shell_named q1', hc]
      · rw [Mod.shell_hidden q1', hh]
    · intro j hj
      rw [← t'.namedChildren_snd, Mod.shell_named q1', hc] at hj
      cases hj
  match kind, hu with
  | .leaf .linear, _ => cases a1; cases b1; exact single _ _ rfl rfl rfl rfl rfl rfl
  | .leaf .product, _ => cases a1; cases b1; exact single _ _ rfl rfl rfl rfl rfl rfl
  | .leaf .linearRelu, _ =>
    cases a1
    cases b1
    obtain ⟨t0, t1, t2⟩ := a3 0 _ rfl
    obtain ⟨u0, u1, u2⟩ := a3 1 _ rfl
    obtain ⟨t0', t1', t2'⟩ := b3 0 _ rfl
    obtain ⟨u0', u1', u2'⟩ := b3 1 _ rfl
    cases u2
    cases u2'
    have ea : jA = bA + 1 := by simp at a2; omega
    have eb : jB = bB + 1 := by simp at b2; omega
    have ef : φ bB = bA := by
      have : jB - 1 = bB := by omega
      rw [this] at e1
      omega
    obtain ⟨q1, q2⟩ := t2.same
    obtain ⟨q1', q2'⟩ := t2'.same
    refine .mk (m := .linearRelu bB) (by rw [eb]; exact u1') ⟨.linearRelu bA, by rw [e0, ea]; exact u1, ⟨rfl, ?_, rfl, ?_⟩⟩ ?_
    · simp only [Mod.namedChildren, List.map_cons, List.map_nil, ef]
    · intro m'' call call' h1 _ h3
      obtain rfl := eq_of_shell_none h1 rfl
      funext x
      simp only [Mod.forward]
      rw [h3 bB (by simp [Mod.children]), ef]
    · intro j hj
      have : j = bB := by simpa [Mod.children] using hj
      rw [this]
      refine .mk t1' ⟨t0, by rw [ef]; exact t1, ?_⟩ ?_
      · refine Alike.leaf (q1'.trans q1.symm) (q2'.trans q2.symm) ?_ ?_
        · rw [Mod.shell_named q1']; rfl
        · rw [Mod.shell_hidden q1']; rfl
      · intro j hj
        rw [← t0'.namedChildren_snd, Mod.shell_named q1'] at hj
        cases hj
  | .leaf (.pw cls), ⟨n, s, hn, hs, _⟩ =>
    simp only [fcMods, leafMods, hn, hs] at a1 b1
    cases a1; cases b1; exact single _ _ rfl rfl rfl rfl rfl rfl
  | .switch cls, _ => exact absurd rfl (hk cls)
  | .leaf .polynomial, ⟨n, hn, hpos⟩ =>
    simp only [fcMods, leafMods, hn, polynomialInit, FnLayer.init] at a1 b1
    rw [lagrangePolyFlat_numBasis hpos] at a1 b1
    cases a1; cases b1; exact single _ _ rfl rfl rfl rfl rfl rfl
  | .leaf .fourier, ⟨n, hn, hpos⟩ =>
    simp only [fcMods, leafMods, hn, fourierSeriesInit, FnLayer.init] at a1 b1
    cases a1; cases b1; exact single _ _ rfl rfl rfl rfl rfl rfl

/-- Modules without parameters. -/
theorem Alike.other {φ : ℕ → ℕ} (f : Fwd K) : Alike φ (.other f) (.other f) := Alike.leaf rfl rfl rfl rfl

/-- Positions of the second network in the first. -/
def shiftTo (bA bB k : ℕ) : ℕ := if k < bB then k else k - bB + bA

theorem blk_shift (c : MLPArgs K) (bA bB si sh so i : ℕ) : c.blk ⟨bA, si, sh, so⟩ i + bB = c.blk ⟨bB, si, sh, so⟩ i + bA := by
  induction i with
  | zero => show bA + 1 + si + bB = bB + 1 + si + bA; omega
  | succ i ih => rw [blk_succ, blk_succ]; dsimp only; omega

theorem shiftTo_eq {bA bB k k' : ℕ} (h : k' + bB = k + bA) (hk : bB ≤ k) : shiftTo bA bB k = k' := by
  unfold shiftTo
  rw [if_neg (by omega)]
  omega

theorem Net.mirrors {c : MLPArgs K} {kind kindIn : FcKind} {bA bB si sh so : ℕ} (hg : si = kindSize kindIn ∧ sh = kindSize kind ∧ so = kindSize kind) (hsi : 0 < si) (hsh : 0 < sh) (hso : 0 < so)
    {nlF : Fwd K} {hA hB : Heap K} (nA : Net c kind kindIn ⟨bA, si, sh, so⟩ nlF hA) (nB : Net c kind kindIn ⟨bB, si, sh, so⟩ nlF hB) (hnl : ∀ j ∈ c.nonLinearity, j < bB)
    (hI : Usable kindIn c.inputArgs) (hH : Usable kind c.hiddenArgs) (hO : Usable kind c.outputArgs) (hk : ∀ cls, kind ≠ .switch cls) (hki : ∀ cls, kindIn ≠ .switch cls)
    (hres : c.resnet = false ∨ c.hiddenLayers ≤ 1) :
    Mirrors (shiftTo bA bB) hA hB (c.netId ⟨bB, si, sh, so⟩) ∧ shiftTo bA bB (c.netId ⟨bB, si, sh, so⟩) = c.netId ⟨bA, si, sh, so⟩ := by
  have hblk := fun i => blk_shift c bA bB si sh so i
  have hbase := fun i => blk_base c ⟨bB, si, sh, so⟩ i
  have hbaseA := fun i => blk_base c ⟨bA, si, sh, so⟩ i
  have enet : shiftTo bA bB (c.netId ⟨bB, si, sh, so⟩) = c.netId ⟨bA, si, sh, so⟩ := by
    have h1 := hblk c.hiddenLayers
    have h2 := hbase c.hiddenLayers
    refine shiftTo_eq ?_ ?_ <;> unfold netId <;> dsimp only at * <;> omega
  have eseq : shiftTo bA bB (c.netId ⟨bB, si, sh, so⟩ - 1) = c.netId ⟨bA, si, sh, so⟩ - 1 := by
    have h1 := hblk c.hiddenLayers
    have h2 := hbase c.hiddenLayers
    refine shiftTo_eq ?_ ?_ <;> unfold netId <;> dsimp only at * <;> omega
  have ecore : ∀ i, shiftTo bA bB (c.coreId ⟨bB, si, sh, so⟩ i) = c.coreId ⟨bA, si, sh, so⟩ i ∧ shiftTo bA bB (c.coreId ⟨bB, si, sh, so⟩ i - 1) = c.coreId ⟨bA, si, sh, so⟩ i - 1 := by
    intro i
    have h1 := hblk i
    have h2 := hbase i
    have h3 : 0 < c.size ⟨bB, si, sh, so⟩ i := by unfold size; split <;> assumption
    have h4 : c.size ⟨bA, si, sh, so⟩ i = c.size ⟨bB, si, sh, so⟩ i := rfl
    constructor <;> refine shiftTo_eq ?_ ?_ <;> unfold coreId <;> (try rw [h4]) <;> dsimp only at * <;> omega
  have elay : ∀ i, c.layId ⟨bB, si, sh, so⟩ i = c.coreId ⟨bB, si, sh, so⟩ i ∧ c.layId ⟨bA, si, sh, so⟩ i = c.coreId ⟨bA, si, sh, so⟩ i := by
    intro i
    have : c.resnet = false ∨ i = 0 ∨ c.hiddenLayers ≤ i := by
      rcases hres with h | h
      · exact Or.inl h
      · rcases Nat.eq_zero_or_pos i with h' | h'
        · exact Or.inr (Or.inl h')
        · exact Or.inr (Or.inr (by omega))
    exact ⟨layId_eq _ this, layId_eq _ this⟩
  have einp : shiftTo bA bB (bB + si) = bA + si := shiftTo_eq (by omega) (by omega)
  have edrop : shiftTo bA bB bB = bA := shiftTo_eq (by omega) (by omega)
  have eslot : ∀ s ∈ c.plan, shiftTo bA bB (c.slotId ⟨bB, si, sh, so⟩ s) = c.slotId ⟨bA, si, sh, so⟩ s := by
    intro s hs
    rcases mem_plan.1 hs with rfl | ⟨rfl, h1⟩ | ⟨rfl, h1⟩ | ⟨i, hi, rfl, h1⟩ | ⟨i, hi, rfl⟩
    · exact einp
    · obtain ⟨j, hj⟩ := Option.isSome_iff_exists.1 h1
      have := hnl j hj
      simp only [slotId, hj, Option.getD_some]
      unfold shiftTo
      rw [if_pos this]
    · exact edrop
    · have h1 := hblk i
      have h2 := hbase i
      refine shiftTo_eq ?_ ?_ <;> simp only [slotId] <;> dsimp only at * <;> omega
    · show shiftTo bA bB (c.layId _ i) = c.layId _ i
      rw [(elay i).1, (elay i).2]
      exact (ecore i).1
  refine ⟨?_, enet⟩
  have slot : ∀ s ∈ c.plan, Mirrors (shiftTo bA bB) hA hB (c.slotId ⟨bB, si, sh, so⟩ s) := by
    intro s hs
    have fn : s.isLayer = false → Mirrors (shiftTo bA bB) hA hB (c.slotId ⟨bB, si, sh, so⟩ s) := by
      intro hl
      refine .mk (nB.fns s hs hl) ⟨_, by rw [eslot s hs]; exact nA.fns s hs hl, Alike.other _⟩ ?_
      intro j hj
      cases hj
    rcases mem_plan.1 hs with rfl | ⟨rfl, h1⟩ | ⟨rfl, h1⟩ | ⟨i, hi, rfl, h1⟩ | ⟨i, hi, rfl⟩
    · refine IsLayer.mirrors hI hki nA.inp nB.inp einp ?_
      exact shiftTo_eq (by simp only [slotId]; omega) (by simp only [slotId]; omega)
    · exact fn rfl
    · exact fn rfl
    · exact fn rfl
    · show Mirrors _ _ _ (c.layId _ i)
      by_cases hlt : i < c.hiddenLayers
      · rw [(elay i).1]
        exact IsLayer.mirrors hH hk (nA.hid i hlt) (nB.hid i hlt) (ecore i).1 (ecore i).2
      · have : i = c.hiddenLayers := by omega
        subst this
        have oA := nA.out
        have oB := nB.out
        rw [(elay _).2] at oA
        rw [(elay _).1] at oB ⊢
        exact IsLayer.mirrors hO hk oA oB (ecore _).1 (ecore _).2
  have elast : shiftTo bA bB (c.layId ⟨bB, si, sh, so⟩ c.hiddenLayers) = c.layId ⟨bA, si, sh, so⟩ c.hiddenLayers := by
    rw [(elay _).1, (elay _).2]
    exact (ecore _).1
  have hdrop : Mirrors (shiftTo bA bB) hA hB bB := .mk nB.drop ⟨_, by rw [edrop]; exact nA.drop, Alike.other _⟩ (by intro j hj; cases hj)
  have hseq : Mirrors (shiftTo bA bB) hA hB (c.netId ⟨bB, si, sh, so⟩ - 1) := by
    refine .mk (m := .seq (c.plan.map (c.slotId ⟨bB, si, sh, so⟩))) nB.seq ⟨.seq (c.plan.map (c.slotId ⟨bA, si, sh, so⟩)), by rw [eseq]; exact nA.seq, ⟨rfl, ?_, rfl, ?_⟩⟩ ?_
    · simp only [Mod.namedChildren, List.map_map]
      have : (c.plan.map (c.slotId ⟨bA, si, sh, so⟩)) = (c.plan.map (c.slotId ⟨bB, si, sh, so⟩)).map (shiftTo bA bB) := by
        rw [List.map_map]
        exact List.map_congr_left fun s hs => (eslot s hs).symm
      rw [this, List.zipIdx_map (l := c.plan.map (c.slotId ⟨bB, si, sh, so⟩)), List.map_map]
      rfl
    · intro m'' call call' h1 _ h3
      obtain rfl := eq_of_shell_none h1 rfl
      funext x
      simp only [Mod.forward, List.map_map]
      refine congrArg (fun l => seqForward l x) (List.map_congr_left fun s hs => ?_)
      rw [Function.comp_apply, Function.comp_apply, h3 _ (List.mem_map_of_mem hs), eslot s hs]
    · intro j hj
      simp only [Mod.children, List.mem_map] at hj
      obtain ⟨s, hs, rfl⟩ := hj
      exact slot s hs
  refine .mk (m := .mlp bB (bB + si) (c.layId ⟨bB, si, sh, so⟩ c.hiddenLayers) (c.netId ⟨bB, si, sh, so⟩ - 1)) nB.net ⟨.mlp bA (bA + si) (c.layId ⟨bA, si, sh, so⟩ c.hiddenLayers) (c.netId ⟨bA, si, sh, so⟩ - 1), by rw [enet]; exact nA.net, ⟨rfl, ?_, rfl, ?_⟩⟩ ?_
  · simp only [Mod.namedChildren, List.map_cons, List.map_nil, edrop, einp, elast, eseq]
  · intro m'' call call' h1 _ h3
    obtain rfl := eq_of_shell_none h1 rfl
    funext x
    simp only [Mod.forward]
    rw [h3 _ (by simp [Mod.children]), eseq]
  · intro j hj
    simp only [Mod.children, List.mem_cons, List.not_mem_nil, or_false] at hj
    rcases hj with rfl | rfl | rfl | rfl
    · exact hdrop
    · exact slot .inp (mem_plan.2 (Or.inl rfl))
    · exact slot (.lay c.hiddenLayers) (mem_plan.2 (Or.inr (Or.inr (Or.inr (Or.inr ⟨_, le_rfl, rfl⟩)))))
    · exact hseq

end HOL
