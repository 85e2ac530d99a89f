import Verif.Rnd
import Verif.Conv
/-!
# What the conversions compute

Every term the conversions add up is exact; the result is the sum of these terms in the order of the
code, rounded to 53 bits after every addition, and finally to the format of the result.
-/

namespace Repro
namespace Fmt
variable {F : Fmt}

/-- Exact contribution of carry `c` of bin `j` (a carry counts quarters `2^(p-3)` of the binade). -/
def carTerm (F : Fmt) (C : Nat → Int) (j : Nat) : Int := C j * 2 ^ (F.p - 3) * 2 ^ F.uexp j

/-- Exact contribution of the primary of bin `j` with offset `b`. -/
def priTerm (F : Fmt) (B : Nat → Int) (j : Nat) : Int := B j * 2 ^ F.uexp j

/-- Partial sums of the conversion, rounded to 53 bits: after `Y += car[i]*..; Y += pri[i-1] - ..`. -/
def convAcc (ct bt : Nat → Int) (k : Nat) : Nat → Int
  | 0 => rndZ 53 (ct k)
  | i + 1 => rndZ 53 (rndZ 53 (convAcc ct bt k i + ct (k + i + 1)) + bt (k + i))

/-- The last sum, before the final rounding. -/
def convTotal (ct bt : Nat → Int) (k fold : Nat) : Int := convAcc ct bt k (fold - 1) + bt (k + (fold - 1))

theorem pow2_ok [F.OK] {e : Int} {n : Nat} (h : (F.eta : Int) + e = n) (hn : n < F.p + F.emax - 2) :
    F.Finite (F.pow2 e) ∧ F.toInt (F.pow2 e) = 2 ^ n ∧ (F.pow2 e).neg = false := by
  have ⟨hp, _⟩ := F.facts
  unfold pow2
  have e1 : ((F.eta : Int) + e).toNat = n := by omega
  rw [e1]
  have h1 := roundMag_exact (F := F) (m := 1) (e := n) (Nat.one_lt_two_pow (by omega))
    (by rw [Nat.one_mul]; exact Nat.pow_lt_pow_right (by omega) hn)
  rw [Nat.one_mul] at h1
  refine ⟨h1.1, ?_, rfl⟩
  unfold toInt; dsimp only; rw [h1.2]; simp

/-- Scaling down by a power of two that divides the number. -/
theorem mul_down [F.OK] {x : Flt} (hx : F.Finite x) {d : Nat} (hd : d ≤ F.eta) {r : Int} (hr : F.toInt x = r * 2 ^ d) {m e : Nat}
    (hme : r.natAbs = m * 2 ^ e) (hm : m < 2 ^ F.p) (hb : m * 2 ^ e < 2 ^ (F.p + F.emax - 2)) :
    F.Finite (F.mul x (F.pow2 (-(d : Int)))) ∧ F.toInt (F.mul x (F.pow2 (-(d : Int)))) = r := by
  have ⟨hp, _, _, _, he, he1, hbi, het, _⟩ := F.facts
  have h1 := pow2_ok (F := F) (e := -(d : Int)) (n := F.eta - d) (by omega) (by omega)
  refine mul_exact hx h1.1 ?_ hme hm hb
  rw [hr, h1.2.1, mul_assoc, ← pow_add]; congr 2; omega

/-- Scaling up by a power of two. -/
theorem mul_up [F.OK] {x : Flt} (hx : F.Finite x) {d : Nat} (hd : F.eta + d < F.p + F.emax - 2) {m e : Nat}
    (hme : (F.toInt x * 2 ^ d).natAbs = m * 2 ^ e) (hm : m < 2 ^ F.p) (hb : m * 2 ^ e < 2 ^ (F.p + F.emax - 2)) :
    F.Finite (F.mul x (F.pow2 (d : Int))) ∧ F.toInt (F.mul x (F.pow2 (d : Int))) = F.toInt x * 2 ^ d := by
  have h1 := pow2_ok (F := F) (e := (d : Int)) (n := F.eta + d) (by omega) hd
  refine mul_exact hx h1.1 ?_ hme hm hb
  rw [h1.2.1, mul_assoc, ← pow_add]; congr 2; omega

theorem six_ok [F.OK] : F.Finite F.six ∧ F.val F.six.mag = 6 * 2 ^ F.eta ∧ F.six.neg = false := by
  have ⟨hp, _⟩ := F.facts
  have h := ofInt_ok (F := F) (c := 6) (by
    have : 2 ^ 3 ≤ 2 ^ F.p := Nat.pow_le_pow_right (by omega) (by omega)
    show 6 ≤ 2 ^ F.p
    omega)
  refine ⟨h.1, ?_, rfl⟩
  have := congrArg Int.natAbs h.2
  rw [toInt_natAbs] at this
  unfold six
  rw [this, Int.natAbs_mul, Int.natAbs_pow]; rfl

theorem win_zero (F : Fmt) : F.Win 0 := by unfold Win; have := ipow_pos (F.p - 2); omega

/-- `bins[j]/6.0` is a quarter of the binade of the stored primary. -/
theorem bin6_ok [F.OK] (j : Nat) : F.Finite (F.div (F.bins j) F.six) ∧
    F.toInt (F.div (F.bins j) F.six) = 2 ^ (F.p - 3 + F.sexp j) := by
  have ⟨hp, _, _, _, he, _⟩ := F.facts
  have h6 := six_ok (F := F)
  have hs := sexp_le (F := F) j
  have hb : F.Finite (F.bins j) := by rw [bins_eq]; exact mkPri_finite (win_zero F)
  have hn : (F.bins j).neg = false := by rw [bins_eq]; rfl
  have hv : F.val (F.bins j).mag = 6 * 2 ^ (F.p - 3 + F.sexp j) := by
    have h := mkPri_toInt (F := F) (j := j) (win_zero F)
    rw [← bins_eq] at h
    have := congrArg Int.natAbs h
    rw [toInt_natAbs] at this
    rw [this, add_zero, Int.natAbs_mul, Int.natAbs_mul, Int.natAbs_pow, Int.natAbs_pow]
    show 3 * 2 ^ (F.p - 2) * 2 ^ F.sexp j = _
    rw [two_p2, Nat.pow_add]; ring
  have h := div_exact (F := F) (m := 1) (e := F.p - 3 + F.sexp j) hb h6.1 hn h6.2.2
    (by rw [h6.2.1]; have := pow_pos' F.eta; omega) (by rw [hv, h6.2.1]; ring) (Nat.one_lt_two_pow (by omega))
    (by rw [Nat.one_mul]; exact Nat.pow_lt_pow_right (by omega) (by omega))
  refine ⟨h.1, ?_⟩
  rw [h.2]; push_cast; ring

/-- `pri[i] - bins[i]` is exact. -/
theorem offset_ok [F.OK] {j : Nat} {b : Int} (h : F.Win b) : F.Finite (F.sub (F.mkPri j b) (F.bins j)) ∧
    F.toInt (F.sub (F.mkPri j b) (F.bins j)) = b * 2 ^ F.sexp j := by
  rw [bins_eq, mkPri_eq, mkPri_eq]
  have := sub_mkF (F := F) (sexp_le j) h (win_zero F)
  rw [sub_zero] at this
  exact this

theorem natAbs_mul_pow (a : Int) (e : Nat) : (a * 2 ^ e).natAbs = a.natAbs * 2 ^ e := by
  rw [Int.natAbs_mul, Int.natAbs_pow]; rfl

theorem mul_pow_lt {a x e t : Nat} (h : a < 2 ^ x) (ht : x + e ≤ t) : a * 2 ^ e < 2 ^ t :=
  Nat.lt_of_lt_of_le (by rw [Nat.pow_add]; exact (Nat.mul_lt_mul_right (pow_pos' e)).2 h)
    (Nat.pow_le_pow_right (n := 2) (by omega) ht)

/-- `car[i] * q` where `q` is a power of two. -/
theorem car_mul [F.OK] {c q : Flt} {n : Int} {a : Nat} (hc : F.Finite c) (hcn : F.toInt c = n * 2 ^ F.eta)
    (hn : n.natAbs ≤ 2 ^ (F.p - 1)) (hq : F.Finite q) (hqa : F.toInt q = 2 ^ a) (ha : a < F.emax - 2) :
    F.Finite (F.mul c q) ∧ F.toInt (F.mul c q) = n * 2 ^ a := by
  have ⟨hp, _, _, _, he, _⟩ := F.facts
  have hlt : n.natAbs < 2 ^ F.p := by have := two_p (F := F); have := pow_pos' (F.p - 1); omega
  refine mul_exact hc hq (r := n * 2 ^ a) (m := n.natAbs) (e := a) ?_ (natAbs_mul_pow _ _) hlt (mul_pow_lt hlt (by omega))
  rw [hcn, hqa]; ring

/-- One floating point addition of the loop. -/
theorem acc_step [F.OK] (h53 : F.p = 53) {Y t : Flt} {a b : Int} (hY : F.Good Y a) (ht : F.Finite t) (hb : F.toInt t = b)
    (hlt : (rndZ 53 (a + b)).natAbs < 2 ^ (F.p + F.emax - 2)) : F.Good (F.add Y t) (rndZ 53 (a + b)) := by
  subst hb
  rw [← h53] at hlt ⊢
  exact add_good hY ht hlt

/-- A scaled-down accumulator: `Y * 2^d` is the partial sum `a`. -/
def GoodS (F : Fmt) (d : Nat) (Y : Flt) (a : Int) : Prop := ∃ a', F.Good Y a' ∧ a = a' * 2 ^ d

theorem acc_stepS [F.OK] (h53 : F.p = 53) {d : Nat} {Y t : Flt} {a b : Int} (hY : F.GoodS d Y a) (ht : F.Finite t)
    (hb : F.toInt t * 2 ^ d = b)
    (hlt : (rndZ 53 (a + b)).natAbs < 2 ^ (F.p + F.emax - 2 + d)) : F.GoodS d (F.add Y t) (rndZ 53 (a + b)) := by
  obtain ⟨a', h1, h2⟩ := hY
  have e : a + b = (a' + F.toInt t) * 2 ^ d := by rw [h2, ← hb]; ring
  refine ⟨rndZ 53 (a' + F.toInt t), ?_, ?_⟩
  · refine acc_step h53 h1 ht rfl ?_
    rw [e, rndZ_scale, natAbs_mul_pow, Nat.pow_add] at hlt
    exact (Nat.mul_lt_mul_right (pow_pos' d)).1 hlt
  · rw [e, rndZ_scale]

theorem nth_car_midZ {fold k i : Nat} {B C : Nat → Int} {Z : Nat → Bool} (hi : i < fold) :
    nth (F.midZ fold k B C Z).car i = F.carF (Z (k + i)) (C (k + i)) := by
  unfold midZ; exact nth_map_range' hi

theorem nth_pri_midZ' {fold k i : Nat} {B C : Nat → Int} {Z : Nat → Bool} (hi : i < fold) :
    nth (F.midZ fold k B C Z).pri i = F.mkPri (k + i) (B (k + i)) := by
  unfold midZ; exact nth_map_range' hi

/-- The unscaled loop. -/
theorem conv_loop [F.OK] (h53 : F.p = 53) {fold k : Nat} {B C : Nat → Int} {Z : Nat → Bool}
    (hB : ∀ j, F.Win (B j)) (hC : ∀ j, (C j).natAbs ≤ 2 ^ (F.p - 1)) (n : Nat) :
    ∀ (i : Nat) (Y : Flt), (∀ j, k + i < j → F.uexp j + F.p < F.emax) → (1 ≤ k + i) → F.Good Y (convAcc (F.carTerm C) (F.priTerm B) k i) → i + n < fold →
    (∀ l, i ≤ l → l < i + n →
      (rndZ 53 (convAcc (F.carTerm C) (F.priTerm B) k l + F.carTerm C (k + l + 1))).natAbs < 2 ^ (F.p + F.emax - 2) ∧
      (convAcc (F.carTerm C) (F.priTerm B) k (l + 1)).natAbs < 2 ^ (F.p + F.emax - 2)) →
    F.Good ((List.range' (i + 1) n).foldl (F.convStep (F.midZ fold k B C Z) k) Y) (convAcc (F.carTerm C) (F.priTerm B) k (i + n)) := by
  have ⟨hp, hW, _, _, he, _⟩ := F.facts
  induction n with
  | zero => intro i Y _ _ hY _ _; simpa using hY
  | succ n ih =>
    intro i Y hu hk hY hn hl
    rw [List.range'_succ, List.foldl_cons]
    have e : i + (n + 1) = (i + 1) + n := by omega
    rw [e]
    have hl0 := hl i (Nat.le_refl _) (by omega)
    refine ih (i + 1) _ (fun j hj => hu j (by omega)) (by omega) ?_ (by omega) (fun l h1 h2 => hl l (by omega) (by omega))
    unfold convStep
    dsimp only
    rw [nth_car_midZ (by omega), nth_pri_midZ' (i := i + 1 - 1) (by omega)]
    have hc := carF_ok (F := F) (z := Z (k + (i + 1))) (c := C (k + (i + 1))) (Nat.le_trans (hC _) pow_p1_le)
    have h6 := bin6_ok (F := F) (k + (i + 1))
    have hs : F.sexp (k + (i + 1)) = F.uexp (k + (i + 1)) := sexp_pos (by omega)
    have hu1 := hu (k + (i + 1)) (by omega)
    have t1 := car_mul (F := F) hc.1 hc.2 (hC _) h6.1 h6.2 (by rw [hs]; omega)
    have t2 := offset_ok (F := F) (j := k + (i + 1 - 1)) (hB (k + (i + 1 - 1)))
    have s1 := acc_step h53 hY t1.1 (b := F.carTerm C (k + i + 1)) (by
      rw [t1.2, hs, pow_add]; unfold carTerm
      have : k + (i + 1) = k + i + 1 := by omega
      rw [this]; ring) hl0.1
    refine acc_step h53 s1 t2.1 (b := F.priTerm B (k + i)) ?_ hl0.2
    rw [t2.2]; unfold priTerm
    have : k + (i + 1 - 1) = k + i := by omega
    rw [this, sexp_pos (by omega)]

/-- The terms in the scaled part. -/
theorem carS_ok [F.OK] {d : Nat} (hd : d ≤ F.eta) {j : Nat} (hj : 1 ≤ j) {c : Int} {z : Bool} (hc : c.natAbs ≤ 2 ^ (F.p - 1))
    (hs : d ≤ F.p - 3 + F.uexp j ∧ F.uexp j + F.p < F.emax + d) :
    F.Finite (F.mul (F.carF z c) (F.mul (F.div (F.bins j) F.six) (F.pow2 (-(d : Int))))) ∧
    F.toInt (F.mul (F.carF z c) (F.mul (F.div (F.bins j) F.six) (F.pow2 (-(d : Int))))) * 2 ^ d = c * 2 ^ (F.p - 3) * 2 ^ F.uexp j := by
  have ⟨hp, hW, _, _, he, _⟩ := F.facts
  have h6 := bin6_ok (F := F) j
  rw [sexp_pos hj] at h6
  have hcf := carF_ok (F := F) (z := z) (c := c) (Nat.le_trans hc pow_p1_le)
  have h1 := mul_down (F := F) h6.1 hd (r := 2 ^ (F.p - 3 + F.uexp j - d)) (m := 1) (e := F.p - 3 + F.uexp j - d)
    (by rw [h6.2, ← pow_add]; congr 1; omega) (by rw [Int.natAbs_pow, Nat.one_mul]; rfl) (Nat.one_lt_two_pow (by omega))
    (by rw [Nat.one_mul]; exact Nat.pow_lt_pow_right (by omega) (by omega))
  have h2 := car_mul (F := F) hcf.1 hcf.2 hc h1.1 h1.2 (by omega)
  refine ⟨h2.1, ?_⟩
  rw [h2.2, mul_assoc, mul_assoc, ← pow_add, ← pow_add]; congr 2; omega

theorem priS_ok [F.OK] {d : Nat} (hd : d ≤ F.eta) {j : Nat} (hj : 1 ≤ j) {b : Int} (hb : F.Win b) (hs : d ≤ F.uexp j ∧ F.uexp j ≤ F.emax - 2) :
    F.Finite (F.mul (F.sub (F.mkPri j b) (F.bins j)) (F.pow2 (-(d : Int)))) ∧
    F.toInt (F.mul (F.sub (F.mkPri j b) (F.bins j)) (F.pow2 (-(d : Int)))) * 2 ^ d = b * 2 ^ F.uexp j := by
  have ⟨hp, hW, _, _, he, _⟩ := F.facts
  have h := offset_ok (F := F) (j := j) hb
  rw [sexp_pos hj] at h
  have hlt : b.natAbs < 2 ^ F.p := by
    have h1 := two_p (F := F); have h2 := two_p1 (F := F)
    have h3 : ((2 ^ (F.p - 2) : Nat) : Int) = 2 ^ (F.p - 2) := by push_cast; rfl
    unfold Win at hb; omega
  have h1 := mul_down (F := F) h.1 hd (r := b * 2 ^ (F.uexp j - d)) (m := b.natAbs) (e := F.uexp j - d)
    (by rw [h.2, mul_assoc, ← pow_add]; congr 2; omega) (natAbs_mul_pow _ _) hlt (mul_pow_lt hlt (by omega))
  refine ⟨h1.1, ?_⟩
  rw [h1.2, mul_assoc, ← pow_add]; congr 2; omega

/-- Bin 0, which is stored compressed. -/
theorem carS0_ok [F.OK] {d : Nat} (hd : d ≤ F.eta) {c : Int} {z : Bool} (hc : c.natAbs ≤ 2 ^ (F.p - 1))
    (hs : d ≤ F.p - 3 + F.sexp 0 ∧ F.uexp 0 + F.p < F.emax + d) :
    F.Finite (F.mul (F.carF z c) (F.mul (F.mul (F.div (F.bins 0) F.six) (F.pow2 (-(d : Int)))) F.expansion)) ∧
    F.toInt (F.mul (F.carF z c) (F.mul (F.mul (F.div (F.bins 0) F.six) (F.pow2 (-(d : Int)))) F.expansion)) * 2 ^ d = c * 2 ^ (F.p - 3) * 2 ^ F.uexp 0 := by
  have ⟨hp, hW, hWp, _, he, he1, hbi, het, _⟩ := F.facts
  have h6 := bin6_ok (F := F) 0
  have hcf := carF_ok (F := F) (z := z) (c := c) (Nat.le_trans hc pow_p1_le)
  have hu0 := uexp_zero (F := F)
  have hs0 : F.sexp 0 = F.emax - 2 := sexp_zero
  have h1 := mul_down (F := F) h6.1 hd (r := 2 ^ (F.p - 3 + F.sexp 0 - d)) (m := 1) (e := F.p - 3 + F.sexp 0 - d)
    (by rw [h6.2, ← pow_add]; congr 1; omega) (by rw [Int.natAbs_pow, Nat.one_mul]; rfl) (Nat.one_lt_two_pow (by omega))
    (by rw [Nat.one_mul]; exact Nat.pow_lt_pow_right (by omega) (by omega))
  have hex : F.expansion = F.pow2 ((F.p - F.W + 1 : Nat) : Int) := by unfold expansion; congr 1; omega
  have e3 : ((2 : Int) ^ (F.p - 3 + F.sexp 0 - d) * 2 ^ (F.p - F.W + 1)) = 2 ^ (F.p - 3 + F.uexp 0 - d) := by
    rw [← pow_add]; congr 1; omega
  have h3 := mul_up (F := F) h1.1 (d := F.p - F.W + 1) (m := 1) (e := F.p - 3 + F.uexp 0 - d) (by omega)
    (by rw [h1.2, e3, Int.natAbs_pow, Nat.one_mul]; rfl) (Nat.one_lt_two_pow (by omega))
    (by rw [Nat.one_mul]; exact Nat.pow_lt_pow_right (by omega) (by omega))
  rw [h1.2, e3, ← hex] at h3
  have h2 := car_mul (F := F) hcf.1 hcf.2 hc h3.1 h3.2 (by omega)
  refine ⟨h2.1, ?_⟩
  rw [h2.2, mul_assoc, mul_assoc, ← pow_add, ← pow_add]; congr 2; omega

theorem priS0_ok [F.OK] {d : Nat} (hd : d ≤ F.eta) {b : Int} (hb : F.Win b) (hs : d ≤ F.sexp 0 ∧ F.uexp 0 ≤ F.emax - 2 + d) :
    F.Finite (F.mul (F.mul (F.sub (F.mkPri 0 b) (F.bins 0)) (F.pow2 (-(d : Int)))) F.expansion) ∧
    F.toInt (F.mul (F.mul (F.sub (F.mkPri 0 b) (F.bins 0)) (F.pow2 (-(d : Int)))) F.expansion) * 2 ^ d = b * 2 ^ F.uexp 0 := by
  have ⟨hp, hW, hWp, _, he, he1, hbi, het, _⟩ := F.facts
  have h := offset_ok (F := F) (j := 0) hb
  have hu0 := uexp_zero (F := F)
  have hs0 : F.sexp 0 = F.emax - 2 := sexp_zero
  have hlt : b.natAbs < 2 ^ F.p := by
    have h1 := two_p (F := F); have h2 := two_p1 (F := F)
    have h3 : ((2 ^ (F.p - 2) : Nat) : Int) = 2 ^ (F.p - 2) := by push_cast; rfl
    unfold Win at hb; omega
  have h1 := mul_down (F := F) h.1 hd (r := b * 2 ^ (F.sexp 0 - d)) (m := b.natAbs) (e := F.sexp 0 - d)
    (by rw [h.2, mul_assoc, ← pow_add]; congr 2; omega) (natAbs_mul_pow _ _) hlt (mul_pow_lt hlt (by omega))
  have hex : F.expansion = F.pow2 ((F.p - F.W + 1 : Nat) : Int) := by unfold expansion; congr 1; omega
  have e3 : (b * (2 : Int) ^ (F.sexp 0 - d) * 2 ^ (F.p - F.W + 1)) = b * 2 ^ (F.uexp 0 - d) := by
    rw [mul_assoc, ← pow_add]; congr 2; omega
  have h3 := mul_up (F := F) h1.1 (d := F.p - F.W + 1) (m := b.natAbs) (e := F.uexp 0 - d) (by omega)
    (by rw [h1.2, e3, natAbs_mul_pow]) hlt (mul_pow_lt hlt (by omega))
  rw [h1.2, e3, ← hex] at h3
  refine ⟨h3.1, ?_⟩
  rw [h3.2, mul_assoc, ← pow_add]; congr 2; omega

end Fmt
end Repro
