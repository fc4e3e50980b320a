import Verif.Spec.Modules
import Verif.Lemmas.ConvNet

/-! # Reading configurations -/

namespace HOL
open Spec
variable {K : Type} [TorchScalar K]

theorem toNat_cNat (n : ℕ) : (cNat n : Cfg K).toNat = .ok n := by simp [cNat, Cfg.toNat]

theorem toNats_map (l : List ℕ) : Cfg.toNats (l.map (cNat : ℕ → Cfg K)) = .ok l := by
  unfold Cfg.toNats
  rw [List.mapM_map]
  have := mapM_ok (f := fun n => (cNat n : Cfg K).toNat) (g := fun n => n) (l := l) (fun n _ => toNat_cNat n)
  exact this.trans (by simp)

theorem toNatList_cNats (l : List ℕ) : (cNats l : Cfg K).toNatList = .ok l := toNats_map l

theorem toIntOrList_c (v : IntOrList) : (cIntOrList v : Cfg K).toIntOrList = .ok v := by
  cases v with
  | int n => simp [cIntOrList, cNat, Cfg.toIntOrList]
  | list l => simp [cIntOrList, cNats, Cfg.toIntOrList, toNats_map, bind, Except.bind]

theorem toNatOrNats_c (v : OneOrMany ℕ) : (cOneOrMany v : Cfg K).toNatOrNats = .ok v := by
  cases v with
  | one n => simp [cOneOrMany, cNat, Cfg.toNatOrNats]
  | many l => simp [cOneOrMany, cNats, Cfg.toNatOrNats, toNats_map, bind, Except.bind]

theorem toStrOrStrs_c (v : OneOrMany String) : (cStrs v : Cfg K).toStrOrStrs = .ok v := by
  cases v with
  | one s => rfl
  | many l =>
    have : (l.map (.str : String → Cfg K)).mapM Cfg.toStr = .ok l := by
      rw [List.mapM_map]
      have := mapM_ok (f := fun s => (.str s : Cfg K).toStr) (g := fun s => s) (l := l) (fun s _ => rfl)
      exact this.trans (by simp)
    simp [cStrs, Cfg.toStrOrStrs, this, bind, Except.bind]

theorem toOption_intOrList (v : Option IntOrList) : (cOption cIntOrList v : Cfg K).toOption Cfg.toIntOrList = .ok v := by
  rcases v with - | v
  · rfl
  · have := toIntOrList_c (K := K) v
    cases v <;> simp_all [cOption, cIntOrList, cNat, cNats, Cfg.toOption, bind, Except.bind]

theorem toOption_oneOrMany (v : Option (OneOrMany ℕ)) : (cOption cOneOrMany v : Cfg K).toOption Cfg.toNatOrNats = .ok v := by
  rcases v with - | v
  · rfl
  · have := toNatOrNats_c (K := K) v
    cases v <;> simp_all [cOption, cOneOrMany, cNat, cNats, Cfg.toOption, bind, Except.bind]

theorem toOption_num (v : Option K) : (cOption .num v : Cfg K).toOption Cfg.toScalar = .ok v := by
  cases v <;> rfl

end HOL
