import Verif.FmaEq
import Verif.ConvEqS
import Verif.PropsConv
/-!
# Converting with contraction
-/

namespace Repro
namespace Fmt
variable {F : Fmt}

theorem mac_of_exact [F.OK] (c : Bool) (z : Flt) {x y : Flt} (hx : F.Finite x) (hy : F.Finite y) {r : Int} {m e : Nat}
    (hr : F.toInt x * F.toInt y = r * 2 ^ F.eta) (hme : r.natAbs = m * 2 ^ e) (hm : m < 2 ^ F.p)
    (hb : m * 2 ^ e < 2 ^ (F.p + F.emax - 2)) : F.mac c x y z = F.add z (F.mul x y) := by
  have h := mul_exact hx hy hr hme hm hb
  exact mac_eq (fma_exact z hx hy h.1 (by rw [h.2, hr]))

theorem car_mac [F.OK] (v : Bool) (z : Flt) {c q : Flt} {n : Int} {a : Nat} (hc : F.Finite c) (hcn : F.toInt c = n * 2 ^ F.eta)
    (hn : n.natAbs ≤ 2 ^ (F.p - 1)) (hq : F.Finite q) (hqa : F.toInt q = 2 ^ a) (ha : a < F.emax - 2) :
    F.mac v c q z = F.add z (F.mul c q) := by
  have ⟨hp, _, _, _, he, _⟩ := F.facts
  have hlt : n.natAbs < 2 ^ F.p := by have := two_p (F := F); have := pow_pos' (F.p - 1); omega
  refine mac_of_exact v z hc hq (r := n * 2 ^ a) (m := n.natAbs) (e := a) ?_ (natAbs_mul_pow _ _) hlt (mul_pow_lt hlt (by omega))
  rw [hcn, hqa]; ring

theorem down_mac [F.OK] (v : Bool) (z : Flt) {x : Flt} (hx : F.Finite x) {d : Nat} (hd : d ≤ F.eta) {r : Int} (hr : F.toInt x = r * 2 ^ d) {m e : Nat}
    (hme : r.natAbs = m * 2 ^ e) (hm : m < 2 ^ F.p) (hb : m * 2 ^ e < 2 ^ (F.p + F.emax - 2)) :
    F.mac v x (F.pow2 (-(d : Int))) z = F.add z (F.mul x (F.pow2 (-(d : Int)))) := by
  have ⟨hp, _, _, _, he, _, _, het, _⟩ := F.facts
  have h2 := pow2_ok (F := F) (e := -(d : Int)) (n := F.eta - d) (by omega) (by omega)
  refine mac_of_exact v z hx h2.1 (r := r) ?_ hme hm hb
  rw [hr, h2.2.1, mul_assoc, ← pow_add]; congr 2; omega

theorem carS_mac [F.OK] (v : Bool) (y : Flt) {d : Nat} (hd : d ≤ F.eta) {j : Nat} (hj : 1 ≤ j) {c : Int} {z : Bool} (hc : c.natAbs ≤ 2 ^ (F.p - 1))
    (hs : d ≤ F.p - 3 + F.uexp j ∧ F.uexp j + F.p < F.emax + d) :
    F.mac v (F.carF z c) (F.mul (F.div (F.bins j) F.six) (F.pow2 (-(d : Int)))) y
      = F.add y (F.mul (F.carF z c) (F.mul (F.div (F.bins j) F.six) (F.pow2 (-(d : Int))))) := by
  have ⟨hp, hW, _, _, he, _⟩ := F.facts
  have h6 := bin6_ok (F := F) j
  rw [sexp_pos hj] at h6
  have hcf := carF_ok (F := F) (z := z) (c := c) (Nat.le_trans hc pow_p1_le)
  have h1 := mul_down (F := F) h6.1 hd (r := 2 ^ (F.p - 3 + F.uexp j - d)) (m := 1) (e := F.p - 3 + F.uexp j - d)
    (by rw [h6.2, ← pow_add]; congr 1; omega) (by rw [Int.natAbs_pow, Nat.one_mul]; rfl) (Nat.one_lt_two_pow (by omega))
    (by rw [Nat.one_mul]; exact Nat.pow_lt_pow_right (by omega) (by omega))
  exact car_mac v y hcf.1 hcf.2 hc h1.1 h1.2 (by omega)

theorem priS_mac [F.OK] (v : Bool) (y : Flt) {d : Nat} (hd : d ≤ F.eta) {j : Nat} (hj : 1 ≤ j) {b : Int} (hb : F.Win b) (hs : d ≤ F.uexp j ∧ F.uexp j ≤ F.emax - 2) :
    F.mac v (F.sub (F.mkPri j b) (F.bins j)) (F.pow2 (-(d : Int))) y = F.add y (F.mul (F.sub (F.mkPri j b) (F.bins j)) (F.pow2 (-(d : Int)))) := by
  have ⟨hp, hW, _, _, he, _⟩ := F.facts
  have h := offset_ok (F := F) (j := j) hb
  rw [sexp_pos hj] at h
  have hlt : b.natAbs < 2 ^ F.p := by
    have h1 := two_p (F := F); have h2 := two_p1 (F := F)
    have h3 : ((2 ^ (F.p - 2) : Nat) : Int) = 2 ^ (F.p - 2) := by push_cast; rfl
    unfold Win at hb; omega
  exact down_mac v y h.1 hd (r := b * 2 ^ (F.uexp j - d)) (m := b.natAbs) (e := F.uexp j - d)
    (by rw [h.2, mul_assoc, ← pow_add]; congr 2; omega) (natAbs_mul_pow _ _) hlt (mul_pow_lt hlt (by omega))

theorem carS0_mac [F.OK] (v : Bool) (y : Flt) {d : Nat} (hd : d ≤ F.eta) {c : Int} {z : Bool} (hc : c.natAbs ≤ 2 ^ (F.p - 1))
    (hs : d ≤ F.p - 3 + F.sexp 0 ∧ F.uexp 0 + F.p < F.emax + d) :
    F.mac v (F.carF z c) (F.mul (F.mul (F.div (F.bins 0) F.six) (F.pow2 (-(d : Int)))) F.expansion) y
      = F.add y (F.mul (F.carF z c) (F.mul (F.mul (F.div (F.bins 0) F.six) (F.pow2 (-(d : Int)))) F.expansion)) := by
  have ⟨hp, hW, hWp, _, he, he1, hbi, het, _⟩ := F.facts
  have h6 := bin6_ok (F := F) 0
  have hcf := carF_ok (F := F) (z := z) (c := c) (Nat.le_trans hc pow_p1_le)
  have hu0 := uexp_zero (F := F)
  have hs0 : F.sexp 0 = F.emax - 2 := sexp_zero
  have h1 := mul_down (F := F) h6.1 hd (r := 2 ^ (F.p - 3 + F.sexp 0 - d)) (m := 1) (e := F.p - 3 + F.sexp 0 - d)
    (by rw [h6.2, ← pow_add]; congr 1; omega) (by rw [Int.natAbs_pow, Nat.one_mul]; rfl) (Nat.one_lt_two_pow (by omega))
    (by rw [Nat.one_mul]; exact Nat.pow_lt_pow_right (by omega) (by omega))
  have hex : F.expansion = F.pow2 ((F.p - F.W + 1 : Nat) : Int) := by unfold expansion; congr 1; omega
  have e3 : ((2 : Int) ^ (F.p - 3 + F.sexp 0 - d) * 2 ^ (F.p - F.W + 1)) = 2 ^ (F.p - 3 + F.uexp 0 - d) := by
    rw [← pow_add]; congr 1; omega
  have h3 := mul_up (F := F) h1.1 (d := F.p - F.W + 1) (m := 1) (e := F.p - 3 + F.uexp 0 - d) (by omega)
    (by rw [h1.2, e3, Int.natAbs_pow, Nat.one_mul]; rfl) (Nat.one_lt_two_pow (by omega))
    (by rw [Nat.one_mul]; exact Nat.pow_lt_pow_right (by omega) (by omega))
  rw [h1.2, e3, ← hex] at h3
  exact car_mac v y hcf.1 hcf.2 hc h3.1 h3.2 (by omega)

theorem priS0_mac [F.OK] (v : Bool) (y : Flt) {d : Nat} (hd : d ≤ F.eta) {b : Int} (hb : F.Win b) (hs : d ≤ F.sexp 0 ∧ F.uexp 0 ≤ F.emax - 2 + d) :
    F.mac v (F.mul (F.sub (F.mkPri 0 b) (F.bins 0)) (F.pow2 (-(d : Int)))) F.expansion y
      = F.add y (F.mul (F.mul (F.sub (F.mkPri 0 b) (F.bins 0)) (F.pow2 (-(d : Int)))) F.expansion) := by
  have ⟨hp, hW, hWp, _, he, he1, hbi, het, _⟩ := F.facts
  have h := offset_ok (F := F) (j := 0) hb
  have hu0 := uexp_zero (F := F)
  have hs0 : F.sexp 0 = F.emax - 2 := sexp_zero
  have hlt : b.natAbs < 2 ^ F.p := by
    have h1 := two_p (F := F); have h2 := two_p1 (F := F)
    have h3 : ((2 ^ (F.p - 2) : Nat) : Int) = 2 ^ (F.p - 2) := by push_cast; rfl
    unfold Win at hb; omega
  have h1 := mul_down (F := F) h.1 hd (r := b * 2 ^ (F.sexp 0 - d)) (m := b.natAbs) (e := F.sexp 0 - d)
    (by rw [h.2, mul_assoc, ← pow_add]; congr 2; omega) (natAbs_mul_pow _ _) hlt (mul_pow_lt hlt (by omega))
  have hex : F.expansion = F.pow2 ((F.p - F.W + 1 : Nat) : Int) := by unfold expansion; congr 1; omega
  apply mac_eq
  rw [hex]
  refine fma_up y h1.1 (by omega) ?_
  have : F.val (F.mul (F.sub (F.mkPri 0 b) (F.bins 0)) (F.pow2 (-(d : Int)))).mag = b.natAbs * 2 ^ (F.sexp 0 - d) := by
    rw [← toInt_natAbs, h1.2, natAbs_mul_pow]
  rw [this, Nat.mul_assoc, ← Nat.pow_add]
  exact mul_pow_lt hlt (by omega)

theorem foldl_congr_mem {α β : Type} {f g : β → α → β} : ∀ (l : List α) (s : β), (∀ s a, a ∈ l → f s a = g s a) → l.foldl f s = l.foldl g s
  | [], _, _ => rfl
  | a :: l, s, h => by
    rw [List.foldl_cons, List.foldl_cons, h s a List.mem_cons_self]
    exact foldl_congr_mem l _ (fun s b hb => h s b (List.mem_cons_of_mem _ hb))

/-- `binned_ddmconv` of a nonzero state may be contracted. -/
theorem ddmconvC_eq [F.OK] (hF : F = f64) (v : Nat → Bool × Bool) {fold k : Nat} {B C : Nat → Int} {Z : Nat → Bool} (hfold : 2 ≤ fold)
    (hk : k ≤ F.maxIndex) (hB : ∀ j, F.Win (B j)) (hC : ∀ j, (C j).natAbs ≤ 2 ^ (F.p - 1)) :
    F.ddmconvC v fold (F.midZ fold k B C Z) = F.ddmconv fold (F.midZ fold k B C Z) := by
  have hp : F.p = 53 := by rw [hF]; rfl
  have hW : F.W = 40 := by rw [hF]; rfl
  have hem : F.emax = 2047 := by rw [hF]; rfl
  have het : F.eta = 1074 := by rw [hF]; decide
  have hmi : F.maxIndex = 51 := by rw [hF]; decide
  have hme : F.maxExp = 1024 := by rw [hF]; rfl
  have hue : ∀ j, F.uexp j = 2059 - 40 * min j 51 := by
    intro j; unfold uexp; rw [het, hme, hW, hmi]
  have hdown : F.convDown = F.pow2 (-((66 : Nat) : Int)) := by unfold convDown; rw [hp, hW]; rfl
  have h3 : 3 * F.p / F.W = 3 := by rw [hp, hW]
  unfold ddmconvC ddmconv
  rw [nth_pri_midZ (by omega), mkPri_isZero (hB _), mkPri_isNaNInf (hB _), dmindex_mkPri (hB _) hk, h3]
  simp only [Bool.false_eq_true, if_false]
  have hloop : ∀ (i n : Nat) (Y : Flt), 1 ≤ i → i + n ≤ fold → 3 ≤ k + i →
      (List.range' i n).foldl (F.convStepC v (F.midZ fold k B C Z) k) Y = (List.range' i n).foldl (F.convStep (F.midZ fold k B C Z) k) Y := by
    intro i n Y h1 h2 h3
    apply foldl_congr_mem
    intro s a ha
    rw [List.mem_range'_1] at ha
    unfold convStepC convStep
    dsimp only
    rw [nth_car_midZ (by omega)]
    have hc := carF_ok (F := F) (z := Z (k + a)) (c := C (k + a)) (Nat.le_trans (hC _) pow_p1_le)
    have h6 := bin6_ok (F := F) (k + a)
    rw [car_mac _ s hc.1 hc.2 (hC _) h6.1 h6.2 (by rw [sexp_pos (by omega), hue]; omega)]
  have hloopS : ∀ (i n : Nat) (Y : Flt), 1 ≤ i → i + n ≤ fold → (1 ≤ n → k + i + n ≤ 3) → (1 ≤ n → 2 ≤ k + i) →
      (List.range' i n).foldl (F.convStepSC v (F.midZ fold k B C Z) k) Y = (List.range' i n).foldl (F.convStepS (F.midZ fold k B C Z) k) Y := by
    intro i n Y h1 h2 h3 h4
    apply foldl_congr_mem
    intro s a ha
    rw [List.mem_range'_1] at ha
    unfold convStepSC convStepS
    dsimp only
    rw [nth_car_midZ (by omega), nth_pri_midZ' (i := a - 1) (by omega), hdown]
    rw [carS_mac _ s (by omega) (by omega) (hC _) (by rw [hue]; omega), priS_mac _ _ (by omega) (by omega) (hB _) (by rw [hue]; omega)]
  by_cases hk4 : k ≤ 3
  swap
  · rw [if_neg hk4, if_neg hk4]
    rw [nth_car_midZ (by omega)]
    have hc := carF_ok (F := F) (z := Z (k + 0)) (c := C (k + 0)) (Nat.le_trans (hC _) pow_p1_le)
    have h6 := bin6_ok (F := F) k
    rw [car_mac _ zero hc.1 hc.2 (hC _) h6.1 h6.2 (by rw [sexp_pos (by omega), hue]; omega)]
    rw [hloop _ _ _ (by omega) (by omega) (by omega)]
  · rw [if_pos hk4, if_pos hk4]
    have hlast : ∀ (c : Bool) (Y : Flt), k + (fold - 1) ≤ 3 →
        F.mac c (F.sub (nth (F.midZ fold k B C Z).pri (fold - 1)) (F.bins (k + (fold - 1)))) F.convDown Y
          = F.add Y (F.mul (F.sub (nth (F.midZ fold k B C Z).pri (fold - 1)) (F.bins (k + (fold - 1)))) F.convDown) := by
      intro c Y h
      rw [nth_pri_midZ' (by omega), hdown]
      exact priS_mac _ _ (by omega) (by omega) (hB _) (by rw [hue]; omega)
    have hstart : (if k = 0 then
          (F.mac (v 1).2 (F.mul (F.sub (F.mkPri k (B k)) (F.bins 0)) F.convDown) F.expansion
            (F.mac (v 1).1 (nth (F.midZ fold k B C Z).car 1) (F.mul (F.div (F.bins 1) F.six) F.convDown)
              (F.mac (v 0).1 (nth (F.midZ fold k B C Z).car 0) (F.mul (F.mul (F.div (F.bins 0) F.six) F.convDown) F.expansion) zero)), 2)
        else (F.mac (v 0).1 (nth (F.midZ fold k B C Z).car 0) (F.mul (F.div (F.bins k) F.six) F.convDown) zero, 1) : Flt × Nat)
        = (if k = 0 then
          (F.add (F.add (F.add zero (F.mul (nth (F.midZ fold k B C Z).car 0) (F.mul (F.mul (F.div (F.bins 0) F.six) F.convDown) F.expansion)))
            (F.mul (nth (F.midZ fold k B C Z).car 1) (F.mul (F.div (F.bins 1) F.six) F.convDown)))
            (F.mul (F.mul (F.sub (F.mkPri k (B k)) (F.bins 0)) F.convDown) F.expansion), 2)
        else (F.add zero (F.mul (nth (F.midZ fold k B C Z).car 0) (F.mul (F.div (F.bins k) F.six) F.convDown)), 1) : Flt × Nat) := by
      by_cases hk0 : k = 0
      · subst hk0
        rw [if_pos rfl, if_pos rfl, nth_car_midZ (by omega), nth_car_midZ (by omega), hdown]
        rw [carS0_mac _ zero (by omega) (hC _) (by rw [sexp_zero, hue]; omega), carS_mac _ _ (by omega) (by omega) (hC _) (by rw [hue]; omega),
          priS0_mac _ _ (by omega) (hB _) (by rw [sexp_zero, hue]; omega)]
      · rw [if_neg hk0, if_neg hk0, nth_car_midZ (by omega), hdown]
        rw [carS_mac _ zero (by omega) (by omega) (hC _) (by rw [hue]; omega)]
    rw [hstart]
    generalize hst : (if k = 0 then _ else _ : Flt × Nat) = start
    have hs2 : start.2 = (if k = 0 then 2 else 1) := by
      rw [← hst]; split <;> rfl
    have hsge : 1 ≤ start.2 ∧ start.2 ≤ 2 ∧ (k = 0 → start.2 = 2) ∧ (k ≠ 0 → start.2 = 1) := by
      rw [hs2]; by_cases hk0 : k = 0 <;> simp [hk0]
    rw [hloopS start.2 _ _ (by omega) (by omega) (by omega) (by omega)]
    by_cases hif : max start.2 (min fold (3 - k)) = fold
    · rw [if_pos hif, if_pos hif, hlast _ _ (by omega)]
    · rw [if_neg hif, if_neg hif]
      rw [hloop _ _ _ (by omega) (by omega) (by omega)]

end Fmt

open Fmt

/-- `binned_ssmconv` of a nonzero state may be contracted. -/
theorem ssmconvC_eq (v : Nat → Bool × Bool) {fold k : Nat} {B C : Nat → Int} {Z : Nat → Bool} (hfold : 2 ≤ fold)
    (hk : k ≤ f32.maxIndex) (hB : ∀ j, f32.Win (B j)) (hC : ∀ j, (C j).natAbs ≤ 2 ^ (f32.p - 1)) :
    ssmconvC v fold (f32.midZ fold k B C Z) = ssmconv fold (f32.midZ fold k B C Z) := by
  have hem : f32.emax = 255 := rfl
  have hem' : f64.emax = 2047 := rfl
  have hp : f32.p = 24 := rfl
  have hp' : f64.p = 53 := rfl
  have hcar : ∀ (j i : Nat) (c : Bool) (Y : Flt), i < fold → f64.mac c (widen (nth (f32.midZ fold k B C Z).car i)) (sbin6 j) Y
      = f64.add Y (f64.mul (widen (nth (f32.midZ fold k B C Z).car i)) (sbin6 j)) := by
    intro j i c Y hi
    rw [nth_car_midZ hi]
    have hcf := carF_ok (F := f32) (z := Z (k + i)) (c := C (k + i)) (Nat.le_trans (hC _) pow_p1_le)
    have hw := widen_ok hcf.1
    have h6 := sbin6_ok j
    have hs := sexp_le (F := f32) j
    exact car_mac (F := f64) c Y hw.1 (n := C (k + i)) (by
        rw [hw.2.1, hcf.2, mul_assoc, ← pow_add]; congr 1)
      (Nat.le_trans (hC _) (Nat.pow_le_pow_right (by omega) (by omega))) h6.1 h6.2 (by omega)
  have hexp : ∀ (x : Flt) (c : Bool) (Y : Flt) (m e : Nat), f64.Finite x → (f64.toInt x).natAbs = m * 2 ^ e → m < 2 ^ f64.p → e ≤ 2000 →
      f64.mac c x (widen f32.expansion) Y = f64.add Y (f64.mul x (widen f32.expansion)) := by
    intro x c Y m e hx hme hm he
    refine mac_of_exact (F := f64) c Y hx sexpand_ok.1 (r := f64.toInt x * 2 ^ 12) (m := m) (e := e + 12) ?_ ?_ hm ?_
    · rw [sexpand_ok.2, mul_assoc, ← pow_add]; congr 2
    · rw [natAbs_mul_pow, hme, Nat.pow_add]; ring
    · exact mul_pow_lt hm (by omega)
  have hloop : ∀ (i n : Nat) (Y : Flt), i + n ≤ fold →
      (List.range' i n).foldl (sconvStepC v (f32.midZ fold k B C Z) k) Y = (List.range' i n).foldl (sconvStep (f32.midZ fold k B C Z) k) Y := by
    intro i n Y h2
    apply foldl_congr_mem
    intro s a ha
    rw [List.mem_range'_1] at ha
    unfold sconvStepC sconvStep
    dsimp only
    rw [hcar _ _ _ _ (by omega)]
  have hstart : (if k = 0 then
        (f64.mac (v 1).2 (widen (f32.sub (f32.mkPri k (B k)) (f32.bins 0))) (widen f32.expansion)
          (f64.mac (v 1).1 (widen (nth (f32.midZ fold k B C Z).car 1)) (sbin6 1)
            (f64.mac (v 0).1 (f64.mul (widen (nth (f32.midZ fold k B C Z).car 0)) (sbin6 0)) (widen f32.expansion) zero)), 2)
      else (f64.mac (v 0).1 (widen (nth (f32.midZ fold k B C Z).car 0)) (sbin6 k) zero, 1) : Flt × Nat)
      = (if k = 0 then
        (f64.add (f64.add (f64.add zero (f64.mul (f64.mul (widen (nth (f32.midZ fold k B C Z).car 0)) (sbin6 0)) (widen f32.expansion)))
          (f64.mul (widen (nth (f32.midZ fold k B C Z).car 1)) (sbin6 1)))
          (f64.mul (widen (f32.sub (f32.mkPri k (B k)) (f32.bins 0))) (widen f32.expansion)), 2)
      else (f64.add zero (f64.mul (widen (nth (f32.midZ fold k B C Z).car 0)) (sbin6 k)), 1) : Flt × Nat) := by
    by_cases hk0 : k = 0
    · subst hk0
      have hs0 : f32.sexp 0 = 253 := rfl
      have t0 := scar_ok (j := 0) (z := Z (0 + 0)) (hC (0 + 0))
      have t0e : f64.toInt (f64.mul (widen (nth (f32.midZ fold 0 B C Z).car 0)) (sbin6 0)) = C (0 + 0) * 2 ^ 1199 := by
        rw [nth_car_midZ (by omega), t0.2, hs0, hp, mul_assoc, mul_assoc, ← pow_add, ← pow_add]
      have t0f : f64.Finite (f64.mul (widen (nth (f32.midZ fold 0 B C Z).car 0)) (sbin6 0)) := by
        rw [nth_car_midZ (by omega)]; exact t0.1
      have hl1 : (C (0 + 0)).natAbs < 2 ^ f64.p :=
        Nat.lt_of_le_of_lt (hC (0 + 0)) (Nat.pow_lt_pow_right (by omega) (by omega))
      have hB0 : (B 0).natAbs < 2 ^ f64.p := by
        have h := hB 0
        unfold Win at h
        have h3 : ((2 ^ (f32.p - 2) : Nat) : Int) = 2 ^ (f32.p - 2) := by push_cast; rfl
        have : 2 ^ (f32.p - 2) ≤ 2 ^ f64.p := Nat.pow_le_pow_right (by omega) (by omega)
        omega
      have t2 := offset_ok (F := f32) (j := 0) (hB 0)
      have t3 := widen_ok t2.1
      have t3e : f64.toInt (widen (f32.sub (f32.mkPri 0 (B 0)) (f32.bins 0))) = B 0 * 2 ^ 1178 := by
        rw [t3.2.1, t2.2, hs0, mul_assoc, ← pow_add]
      rw [if_pos rfl, if_pos rfl]
      rw [hexp _ (v 0).1 zero (C (0 + 0)).natAbs 1199 t0f (by rw [t0e, natAbs_mul_pow]) hl1 (by omega), hcar _ _ _ _ (by omega),
        hexp _ (v 1).2 _ (B 0).natAbs 1178 t3.1 (by rw [t3e, natAbs_mul_pow]) hB0 (by omega)]
    · rw [if_neg hk0, if_neg hk0, hcar _ _ _ _ (by omega)]
  unfold ssmconvC ssmconv
  rw [nth_pri_midZ (by omega), mkPri_isZero (hB _), mkPri_isNaNInf (hB _), dmindex_mkPri (hB _) hk]
  simp only [Bool.false_eq_true, if_false]
  rw [hstart]
  generalize hst : (if k = 0 then _ else _ : Flt × Nat) = start
  have hs2 : start.2 = (if k = 0 then 2 else 1) := by
    rw [← hst]; split <;> rfl
  have hsge : start.2 ≤ 2 := by
    rw [hs2]; by_cases hk0 : k = 0 <;> simp [hk0]
  rw [hloop _ _ _ (by omega)]

/-- Converting a nonzero state, both formats. -/
theorem convertC_eq {F : Fmt} [h : F.OK] (v : Nat → Bool × Bool) {fold k : Nat} {B C : Nat → Int} {Z : Nat → Bool} (hfold : 2 ≤ fold)
    (hk : k ≤ F.maxIndex) (hB : ∀ j, F.Win (B j)) (hC : ∀ j, (C j).natAbs ≤ 2 ^ (F.p - 1)) :
    convertC v F fold (F.midZ fold k B C Z) = convert F fold (F.midZ fold k B C Z) := by
  unfold convertC convert
  rcases h.isDoubleOrFloat with hF | hF
  · have hne : F ≠ f32 := by rw [hF]; decide
    rw [if_neg hne, if_neg hne, ddmconvC_eq hF v hfold hk hB hC]
  · subst hF
    rw [if_pos rfl, if_pos rfl, ssmconvC_eq v hfold hk hB hC]

end Repro
