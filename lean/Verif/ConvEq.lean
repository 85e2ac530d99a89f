import Verif.ConvLemmas
/-!
# The conversions as rounded sums
-/

namespace Repro
namespace Fmt
variable {F : Fmt}

theorem rndZ_ge [F.OK] {n : Int} {e : Nat} (h : 2 ^ e ≤ n.natAbs) : 2 ^ e ≤ (rndZ F.p n).natAbs := by
  have ⟨hp, _⟩ := F.facts
  rw [rndZ_rk, Nat.zero_add]
  by_cases hk : 0 < F.rk n.natAbs 0
  · have h1 := (rk_rne (F := F) n.natAbs 0).2 hk
    rw [Nat.zero_add] at h1
    have hn0 : n.natAbs ≠ 0 := by have := pow_pos' e; omega
    have h2 : e ≤ Nat.log2 n.natAbs := (Nat.le_log2 hn0).2 h
    have h3 : 2 ^ (F.p - 1) * 2 ^ F.rk n.natAbs 0 ≤ rne n.natAbs (F.rk n.natAbs 0) * 2 ^ F.rk n.natAbs 0 := Nat.mul_le_mul_right _ h1
    rw [← Nat.pow_add] at h3
    refine Nat.le_trans (Nat.pow_le_pow_right (by omega) ?_) h3
    unfold rk at hk ⊢; omega
  · have hk0 : F.rk n.natAbs 0 = 0 := by omega
    rw [hk0, rne_zero_shift]; simpa using h

/-- Representable numbers below `2^(p+q)` are at most `2^(p+q) - 2^q`. -/
theorem repr_gap [F.OK] {a : Int} {q : Nat} (ha : rndZ F.p a = a) (h : a.natAbs < 2 ^ (F.p + q)) : a.natAbs + 2 ^ q ≤ 2 ^ (F.p + q) := by
  have ⟨hp, _⟩ := F.facts
  by_cases hb : 2 ^ (F.p - 1 + q) ≤ a.natAbs
  · have hl : Nat.log2 a.natAbs = F.p - 1 + q := log2_eq hb (by
      have : F.p - 1 + q + 1 = F.p + q := by omega
      rw [this]; exact h)
    have h1 := rndZ_natAbs F.p a
    rw [ha, hl] at h1
    have e : F.p - 1 + q - (F.p - 1) = q := by omega
    rw [e] at h1
    generalize rne a.natAbs q = r at h1
    rw [h1, Nat.pow_add] at h
    have hr : r < 2 ^ F.p := (Nat.mul_lt_mul_right (pow_pos' q)).1 h
    have h2 : (r + 1) * 2 ^ q ≤ 2 ^ F.p * 2 ^ q := Nat.mul_le_mul_right _ hr
    rw [h1, Nat.pow_add]
    rw [Nat.add_mul, Nat.one_mul] at h2
    exact h2
  · have e : 2 ^ (F.p + q) = 2 * 2 ^ (F.p - 1 + q) := by rw [← Nat.pow_succ']; congr 1; omega
    have : 2 ^ q ≤ 2 ^ (F.p - 1 + q) := Nat.pow_le_pow_right (by omega) (by omega)
    omega

/-- Adding something smaller than a quarter unit of the last binade does not overflow ... -/
theorem add_small_fin [F.OK] {a t : Int} {q : Nat} (ha : rndZ F.p a = a) (h : a.natAbs < 2 ^ (F.p + q)) (ht : 4 * t.natAbs < 2 ^ q) :
    (rndZ F.p (a + t)).natAbs < 2 ^ (F.p + q) := by
  have h1 := repr_gap ha h
  have h2 := rndZ_err (F := F) (n := a + t) (e := q) (by omega)
  omega

/-- ... and does not bring back a number that has overflowed. -/
theorem add_small_inf [F.OK] {a t : Int} {q : Nat} (h : 2 ^ (F.p + q) ≤ a.natAbs) (ht : 4 * t.natAbs < 2 ^ q) :
    2 ^ (F.p + q) ≤ (rndZ F.p (a + t)).natAbs ∧ (a + t < 0 ↔ a < 0) := by
  have hq : 2 ^ q ≤ 2 ^ (F.p + q) := Nat.pow_le_pow_right (by omega) (by omega)
  refine ⟨?_, by omega⟩
  by_cases hb : 2 ^ (F.p + q) ≤ (a + t).natAbs
  · exact rndZ_ge hb
  · by_contra hc
    have h1 := repr_gap (F := F) (q := q) (rndZ_idem (a + t)) (by omega)
    have h2 := rndZ_err (F := F) (n := a + t) (e := q) (by omega)
    omega

theorem convAcc_repr [F.OK] (h53 : F.p = 53) (ct bt : Nat → Int) (k i : Nat) : rndZ F.p (convAcc ct bt k i) = convAcc ct bt k i := by
  cases i <;> (unfold convAcc; rw [← h53]; exact rndZ_idem _)

/-- Sizes of the partial sums. -/
theorem convAcc_bound [F.OK] (h53 : F.p = 53) {ct bt : Nat → Int} {k Q : Nat} (hc : ∀ j, k ≤ j → (ct j).natAbs ≤ 2 ^ Q)
    (hb : ∀ j, k ≤ j → (bt j).natAbs ≤ 2 ^ Q) (i : Nat) (hi : 2 * i + 2 < 2 ^ F.p) :
    (convAcc ct bt k i).natAbs ≤ (2 * i + 1) * 2 ^ Q ∧
    (rndZ 53 (convAcc ct bt k i + ct (k + i + 1))).natAbs ≤ (2 * i + 2) * 2 ^ Q := by
  have key : ∀ i, 2 * i + 2 < 2 ^ F.p → (convAcc ct bt k i).natAbs ≤ (2 * i + 1) * 2 ^ Q →
      (rndZ 53 (convAcc ct bt k i + ct (k + i + 1))).natAbs ≤ (2 * i + 2) * 2 ^ Q := by
    intro i hi h
    rw [← h53]
    refine rndZ_le hi ?_
    have := hc (k + i + 1) (by omega)
    have e : (2 * i + 2) * 2 ^ Q = (2 * i + 1) * 2 ^ Q + 2 ^ Q := by ring
    omega
  have main : (convAcc ct bt k i).natAbs ≤ (2 * i + 1) * 2 ^ Q := by
    induction i with
    | zero =>
      unfold convAcc; rw [← h53]
      refine rndZ_le (by omega) ?_
      have := hc k (Nat.le_refl _)
      simpa using this
    | succ i ih =>
      have h1 := ih (by omega)
      have h2 := key i (by omega) h1
      unfold convAcc
      rw [← h53] at h2 ⊢
      refine rndZ_le (by omega) ?_
      have := hb (k + i) (by omega)
      have e : (2 * (i + 1) + 1) * 2 ^ Q = (2 * i + 2) * 2 ^ Q + 2 ^ Q := by ring
      omega
  exact ⟨main, key i hi main⟩

theorem carTerm_le {C : Nat → Int} (hC : ∀ j, (C j).natAbs ≤ 2 ^ (F.p - 1)) (j Q : Nat) (hQ : F.p - 1 + (F.p - 3) + F.uexp j ≤ Q) :
    (F.carTerm C j).natAbs ≤ 2 ^ Q := by
  unfold carTerm
  rw [natAbs_mul_pow, natAbs_mul_pow]
  have : (C j).natAbs * 2 ^ (F.p - 3) * 2 ^ F.uexp j ≤ 2 ^ (F.p - 1) * 2 ^ (F.p - 3) * 2 ^ F.uexp j :=
    Nat.mul_le_mul_right _ (Nat.mul_le_mul_right _ (hC j))
  rw [← Nat.pow_add, ← Nat.pow_add] at this
  exact Nat.le_trans this (Nat.pow_le_pow_right (by omega) hQ)

theorem priTerm_le {B : Nat → Int} (hB : ∀ j, F.Win (B j)) (j Q : Nat) (hQ : (F.p - 2) + F.uexp j ≤ Q) :
    (F.priTerm B j).natAbs ≤ 2 ^ Q := by
  unfold priTerm
  rw [natAbs_mul_pow]
  have h1 : (B j).natAbs ≤ 2 ^ (F.p - 2) := by
    have h := hB j
    unfold Win at h
    have h3 : ((2 ^ (F.p - 2) : Nat) : Int) = 2 ^ (F.p - 2) := by push_cast; rfl
    omega
  have : (B j).natAbs * 2 ^ F.uexp j ≤ 2 ^ (F.p - 2) * 2 ^ F.uexp j := Nat.mul_le_mul_right _ h1
  rw [← Nat.pow_add] at this
  exact Nat.le_trans this (Nat.pow_le_pow_right (by omega) hQ)

/-- The scaled loop. -/
theorem conv_loopS [F.OK] (h53 : F.p = 53) {d : Nat} (hdown : F.convDown = F.pow2 (-(d : Int))) (hd : d ≤ F.eta)
    {fold k : Nat} {B C : Nat → Int} {Z : Nat → Bool}
    (hB : ∀ j, F.Win (B j)) (hC : ∀ j, (C j).natAbs ≤ 2 ^ (F.p - 1)) (n : Nat) :
    ∀ (i : Nat) (Y : Flt), (∀ j, k + i ≤ j → j ≤ k + i + n → d ≤ F.uexp j ∧ F.uexp j + F.p < F.emax + d ∧ F.uexp j ≤ F.emax - 2) → (1 ≤ k + i) →
    F.GoodS d Y (convAcc (F.carTerm C) (F.priTerm B) k i) → i + n < fold →
    (∀ l, i ≤ l → l < i + n →
      (rndZ 53 (convAcc (F.carTerm C) (F.priTerm B) k l + F.carTerm C (k + l + 1))).natAbs < 2 ^ (F.p + F.emax - 2 + d) ∧
      (convAcc (F.carTerm C) (F.priTerm B) k (l + 1)).natAbs < 2 ^ (F.p + F.emax - 2 + d)) →
    F.GoodS d ((List.range' (i + 1) n).foldl (F.convStepS (F.midZ fold k B C Z) k) Y) (convAcc (F.carTerm C) (F.priTerm B) k (i + n)) := by
  have ⟨hp, hW, _, _, he, _⟩ := F.facts
  induction n with
  | zero => intro i Y _ _ hY _ _; simpa using hY
  | succ n ih =>
    intro i Y hu hk hY hn hl
    rw [List.range'_succ, List.foldl_cons]
    have e : i + (n + 1) = (i + 1) + n := by omega
    rw [e]
    have hl0 := hl i (Nat.le_refl _) (by omega)
    refine ih (i + 1) _ (fun j h1 h2 => hu j (by omega) (by omega)) (by omega) ?_ (by omega) (fun l h1 h2 => hl l (by omega) (by omega))
    unfold convStepS
    dsimp only
    rw [nth_car_midZ (by omega), nth_pri_midZ' (i := i + 1 - 1) (by omega), hdown]
    have e1 : k + (i + 1) = k + i + 1 := by omega
    have e2 : k + (i + 1 - 1) = k + i := by omega
    rw [e1, e2]
    have u1 := hu (k + i + 1) (by omega) (by omega)
    have u0 := hu (k + i) (by omega) (by omega)
    have t1 := carS_ok (F := F) hd (j := k + i + 1) (by omega) (z := Z (k + i + 1)) (hC (k + i + 1)) ⟨by omega, u1.2.1⟩
    have t2 := priS_ok (F := F) hd (j := k + i) hk (hB (k + i)) ⟨u0.1, u0.2.2⟩
    have s1 := acc_stepS h53 hY t1.1 (b := F.carTerm C (k + i + 1)) t1.2 hl0.1
    exact acc_stepS h53 s1 t2.1 (b := F.priTerm B (k + i)) t2.2 hl0.2

/-- Scaling up: exact or overflow. -/
theorem scale_up [F.OK] {d : Nat} {Y : Flt} {a : Int} (hY : F.GoodS d Y a) (hd : F.eta + d < F.p + F.emax - 2) :
    F.mul Y (F.pow2 (d : Int)) = F.ofUnits a := by
  obtain ⟨a', ⟨h1, h2, h3⟩, h4⟩ := hY
  have hp2 := pow2_ok (F := F) (e := (d : Int)) (n := F.eta + d) (by omega) hd
  have ⟨x1, x2⟩ := finite_iff.1 h1
  have ⟨y1, y2⟩ := finite_iff.1 hp2.1
  have hv : F.val (F.pow2 (d : Int)).mag = 2 ^ d * 2 ^ F.eta := by
    rw [← toInt_natAbs, hp2.2.1, Int.natAbs_pow]
    show 2 ^ (F.eta + d) = _
    rw [Nat.pow_add, Nat.mul_comm]
  unfold mul
  rw [x1, x2, y1, y2, hv, hp2.2.2]
  simp only [Bool.or_self, Bool.false_eq_true, if_false]
  rw [← Nat.mul_assoc, roundMag_shift]
  unfold ofUnits
  have e1 : F.val Y.mag * 2 ^ d = a.natAbs := by
    rw [← toInt_natAbs, h2, h4, natAbs_mul_pow]
  rw [e1]
  congr 1
  have hD := ipow_pos d
  by_cases ha : a' = 0
  · rw [h3 ha, h4, ha]; simp
  · have hs : a < 0 ↔ a' < 0 := by
      rw [h4]; constructor
      · intro h; by_contra hc; have := mul_nonneg (show (0:Int) ≤ a' by omega) (le_of_lt hD); omega
      · intro h; exact mul_neg_of_neg_of_pos h hD
    have ht : Y.neg = true ↔ a' < 0 := by
      rw [← h2]; unfold toInt
      have hv0 : F.val Y.mag ≠ 0 := by rw [← toInt_natAbs, h2]; omega
      cases Y.neg <;> simp <;> omega
    by_cases hn : a' < 0
    · rw [ht.2 hn]; simp [hs.2 hn]
    · have : Y.neg = false := by cases hY : Y.neg with
        | false => rfl
        | true => exact absurd (ht.1 hY) hn
      rw [this]; simp; omega

/-- `binned_ddmconv` of a nonzero state is the nearest number to the rounded partial sum plus the last term. -/
theorem ddmconv_eq [F.OK] (hF : F = f64) {fold k : Nat} {B C : Nat → Int} {Z : Nat → Bool} (hfold : 2 ≤ fold) (hfold' : fold < 2 ^ 50)
    (hk : k ≤ F.maxIndex) (hB : ∀ j, F.Win (B j)) (hC : ∀ j, (C j).natAbs ≤ 2 ^ (F.p - 1)) :
    F.ddmconv fold (F.midZ fold k B C Z) = F.ofUnits (convTotal (F.carTerm C) (F.priTerm B) k fold) := by
  have hp : F.p = 53 := by rw [hF]; rfl
  have hW : F.W = 40 := by rw [hF]; rfl
  have hem : F.emax = 2047 := by rw [hF]; rfl
  have het : F.eta = 1074 := by rw [hF]; decide
  have hmi : F.maxIndex = 51 := by rw [hF]; decide
  have hme : F.maxExp = 1024 := by rw [hF]; rfl
  have hue : ∀ j, F.uexp j = 2059 - 40 * min j 51 := by
    intro j; unfold uexp; rw [het, hme, hW, hmi]
  have hdown : F.convDown = F.pow2 (-((66 : Nat) : Int)) := by unfold convDown; rw [hp, hW]; rfl
  have hup : F.convUp = F.pow2 ((66 : Nat) : Int) := by unfold convUp; rw [hp, hW]; rfl
  have h2p : 2 ^ F.p = 2 ^ 53 := by rw [hp]
  -- the last term
  have hlast : F.sub (nth (F.midZ fold k B C Z).pri (fold - 1)) (F.bins (k + (fold - 1))) =
      F.sub (F.mkPri (k + (fold - 1)) (B (k + (fold - 1)))) (F.bins (k + (fold - 1))) := by
    rw [nth_pri_midZ' (by omega)]
  have hlastok := offset_ok (F := F) (j := k + (fold - 1)) (hB (k + (fold - 1)))
  rw [sexp_pos (by omega)] at hlastok
  unfold ddmconv
  rw [nth_pri_midZ (by omega), mkPri_isZero (hB _), mkPri_isNaNInf (hB _), dmindex_mkPri (hB _) hk]
  simp only [Bool.false_eq_true, if_false]
  rw [hlast]
  have h3 : 3 * F.p / F.W = 3 := by rw [hp, hW]
  rw [h3]
  have hbT : ∀ Q, 102 + F.uexp k ≤ Q → (∀ j, k ≤ j → (F.carTerm C j).natAbs ≤ 2 ^ Q) ∧ (∀ j, k ≤ j → (F.priTerm B j).natAbs ≤ 2 ^ Q) := by
    intro Q hQ
    refine ⟨fun j hj => carTerm_le hC j Q ?_, fun j hj => priTerm_le hB j Q ?_⟩ <;>
    · have := uexp_anti (F := F) hj
      omega
  have hM : F.p + F.emax - 2 = 2098 := by omega
  generalize hct : F.carTerm C = ct at hbT ⊢
  generalize hbt : F.priTerm B = bt at hbT ⊢
  by_cases hk4 : k ≤ 3
  swap
  · -- no scaling
    rw [if_neg hk4]
    have hQ := hbT 2001 (by rw [hue]; omega)
    have hall : ∀ l, l < fold → (convAcc ct bt k l).natAbs < 2 ^ (F.p + F.emax - 2) ∧
        (rndZ 53 (convAcc ct bt k l + ct (k + l + 1))).natAbs < 2 ^ (F.p + F.emax - 2) := by
      intro l hl
      have h := convAcc_bound hp hQ.1 hQ.2 l (by rw [h2p]; omega)
      have hx : (2 * l + 2) * 2 ^ 2001 < 2 ^ (F.p + F.emax - 2) := mul_pow_lt (x := 53) (by omega) (by omega)
      have hy : (2 * l + 1) * 2 ^ 2001 ≤ (2 * l + 2) * 2 ^ 2001 := Nat.mul_le_mul_right _ (by omega)
      exact ⟨Nat.lt_of_le_of_lt (Nat.le_trans h.1 hy) hx, Nat.lt_of_le_of_lt h.2 hx⟩
    have g0 : F.Good (F.add zero (F.mul (nth (F.midZ fold k B C Z).car 0) (F.div (F.bins k) F.six))) (convAcc ct bt k 0) := by
      rw [nth_car_midZ (by omega)]
      have hc := carF_ok (F := F) (z := Z (k + 0)) (c := C (k + 0)) (Nat.le_trans (hC _) pow_p1_le)
      have h6 := bin6_ok (F := F) k
      have hs : F.sexp k = F.uexp k := sexp_pos (by omega)
      have t1 := car_mul (F := F) hc.1 hc.2 (hC _) h6.1 h6.2 (by rw [hs, hue]; omega)
      have hb : F.toInt (F.mul (F.carF (Z (k + 0)) (C (k + 0))) (F.div (F.bins k) F.six)) = ct k := by
        rw [t1.2, hs, pow_add, ← hct]; unfold carTerm; simp only [Nat.add_zero]; ring
      have := acc_step hp good_zero t1.1 hb (by rw [zero_add]; exact (hall 0 (by omega)).1)
      rw [zero_add] at this
      exact this
    have g1 := conv_loop (F := F) (Z := Z) (fold := fold) (k := k) hp hB hC (fold - 1) 0 _ (fun j hj => by rw [hue]; omega) (by omega) (by rw [hct, hbt]; exact g0) (by omega)
      (fun l _ hl => by rw [hct, hbt]; exact ⟨(hall l (by omega)).2, (hall (l + 1) (by omega)).1⟩)
    rw [hct, hbt] at g1
    simp only [Nat.zero_add] at g1
    rw [add_ofUnits g1 hlastok.1, hlastok.2]
    unfold convTotal; rw [← hbt]; rfl
  -- scaled
  rw [if_pos hk4]
  have hQ := hbT 2161 (by rw [hue]; omega)
  have hallS : ∀ l, l ≤ 2 → (convAcc ct bt k l).natAbs < 2 ^ (F.p + F.emax - 2 + 66) ∧
      (rndZ 53 (convAcc ct bt k l + ct (k + l + 1))).natAbs < 2 ^ (F.p + F.emax - 2 + 66) ∧
      (rndZ 53 (convAcc ct bt k l + bt (k + l))).natAbs < 2 ^ (F.p + F.emax - 2 + 66) := by
    intro l hl
    have h := convAcc_bound hp hQ.1 hQ.2 l (by rw [h2p]; omega)
    have h' : (rndZ 53 (convAcc ct bt k l + bt (k + l))).natAbs ≤ (2 * l + 2) * 2 ^ 2161 := by
      rw [← hp]
      refine rndZ_le (by rw [h2p]; omega) ?_
      have := hQ.2 (k + l) (by omega)
      have e : (2 * l + 2) * 2 ^ 2161 = (2 * l + 1) * 2 ^ 2161 + 2 ^ 2161 := by ring
      omega
    have hx : (2 * l + 2) * 2 ^ 2161 < 2 ^ (F.p + F.emax - 2 + 66) := mul_pow_lt (x := 3) (by omega) (by omega)
    have hy : (2 * l + 1) * 2 ^ 2161 ≤ (2 * l + 2) * 2 ^ 2161 := Nat.mul_le_mul_right _ (by omega)
    exact ⟨Nat.lt_of_le_of_lt (Nat.le_trans h.1 hy) hx, Nat.lt_of_le_of_lt h.2 hx, Nat.lt_of_le_of_lt h' hx⟩
  have hS0 : F.GoodS 66 zero 0 := ⟨0, good_zero, by simp⟩
  generalize hst : (if k = 0 then _ else _ : Flt × Nat) = start
  have hstart : start.2 = (if k = 0 then 2 else 1) ∧ F.GoodS 66 start.1 (convAcc ct bt k (start.2 - 1)) := by
    by_cases hk0 : k = 0
    · subst hk0
      rw [if_pos rfl] at hst ⊢
      rw [← hst]
      refine ⟨rfl, ?_⟩
      dsimp only
      rw [nth_car_midZ (by omega), nth_car_midZ (by omega), hdown]
      have t0 := carS0_ok (F := F) (d := 66) (by omega) (z := Z (0 + 0)) (hC (0 + 0)) (by rw [sexp_zero, hue]; omega)
      have t1 := carS_ok (F := F) (d := 66) (by omega) (j := 1) (by omega) (z := Z (0 + 1)) (hC (0 + 1)) (by rw [hue]; omega)
      have t2 := priS0_ok (F := F) (d := 66) (by omega) (hB 0) (by rw [sexp_zero, hue]; omega)
      have s0 := acc_stepS hp hS0 t0.1 (b := ct 0) (by rw [t0.2, ← hct]; rfl) (by rw [zero_add]; exact (hallS 0 (by omega)).1)
      rw [zero_add (ct 0)] at s0
      have s1 := acc_stepS hp s0 t1.1 (b := ct 1) (by rw [t1.2, ← hct]; rfl) (by have := (hallS 0 (by omega)).2.1; exact this)
      exact acc_stepS hp s1 t2.1 (b := bt 0) (by rw [t2.2, ← hbt]; rfl) (by have := (hallS 1 (by omega)).1; exact this)
    · rw [if_neg hk0] at hst ⊢
      rw [← hst]
      refine ⟨rfl, ?_⟩
      dsimp only
      rw [nth_car_midZ (by omega), hdown]
      have t1 := carS_ok (F := F) (d := 66) (by omega) (j := k) (by omega) (z := Z (k + 0)) (hC (k + 0)) (by rw [hue]; omega)
      have s0 := acc_stepS hp hS0 t1.1 (b := ct k) (by rw [t1.2, ← hct]; rfl) (by rw [zero_add]; exact (hallS 0 (by omega)).1)
      rw [zero_add (ct k)] at s0
      exact s0
  obtain ⟨hs2, hsY⟩ := hstart
  have hsge : 1 ≤ start.2 ∧ start.2 ≤ 2 ∧ (k = 0 → start.2 = 2) ∧ (k ≠ 0 → start.2 = 1) := by
    rw [hs2]; by_cases hk0 : k = 0 <;> simp [hk0]
  generalize hsc : min fold (3 - k) = scaled
  -- after the scaled loop
  have hloopS : F.GoodS 66 ((List.range' start.2 (scaled - start.2)).foldl (F.convStepS (F.midZ fold k B C Z) k) start.1)
      (convAcc ct bt k (max start.2 scaled - 1)) := by
    have g := conv_loopS (F := F) (Z := Z) (fold := fold) (k := k) hp hdown (by omega) hB hC (scaled - start.2) (start.2 - 1) start.1
      (fun j h1 h2 => by rw [hue]; omega) (by omega) (by rw [hct, hbt]; exact hsY) (by omega)
      (fun l h1 h2 => by rw [hct, hbt]; exact ⟨(hallS l (by omega)).2.1, (hallS (l + 1) (by omega)).1⟩)
    rw [hct, hbt] at g
    have e1 : start.2 - 1 + 1 = start.2 := by omega
    have e2 : start.2 - 1 + (scaled - start.2) = max start.2 scaled - 1 := by omega
    rw [e1, e2] at g
    exact g
  generalize (List.range' start.2 (scaled - start.2)).foldl (F.convStepS (F.midZ fold k B C Z) k) start.1 = Y at hloopS ⊢
  generalize hi : max start.2 scaled = i at hloopS ⊢
  rw [hup]
  by_cases hif : i = fold
  · -- everything was scaled
    rw [if_pos hif, hdown]
    have t := priS_ok (F := F) (d := 66) (by omega) (j := k + (fold - 1)) (by omega) (hB (k + (fold - 1))) (by rw [hue]; omega)
    rw [hif] at hloopS
    have s := acc_stepS hp hloopS t.1 (b := bt (k + (fold - 1))) (by rw [t.2, ← hbt]; rfl)
      (by have := (hallS (fold - 1) (by omega)).2.2; exact this)
    rw [scale_up s (by omega)]
    unfold convTotal
    rw [← hp, ofUnits_rndZ]
  · rw [if_neg hif, scale_up hloopS (by omega)]
    -- the remaining terms are small
    have hsmall : ∀ l, i ≤ l + 1 → 4 * (ct (k + l + 1)).natAbs < 2 ^ 2045 ∧ 4 * (bt (k + l)).natAbs < 2 ^ 2045 := by
      intro l hl
      constructor
      · have h := carTerm_le hC (k + l + 1) 2041 (by rw [hue]; omega)
        rw [hct] at h
        have e : 2 ^ 2045 = 16 * 2 ^ 2041 := by rw [show 2045 = 4 + 2041 by rfl, Nat.pow_add]
        have := pow_pos' 2041
        omega
      · have h := priTerm_le hB (k + l) 2041 (by rw [hue]; omega)
        rw [hbt] at h
        have e : 2 ^ 2045 = 16 * 2 ^ 2041 := by rw [show 2045 = 4 + 2041 by rfl, Nat.pow_add]
        have := pow_pos' 2041
        omega
    have hM' : F.p + F.emax - 2 = F.p + 2045 := by omega
    by_cases hov : (convAcc ct bt k (i - 1)).natAbs < 2 ^ (F.p + F.emax - 2)
    · -- no overflow
      have hr := convAcc_repr hp ct bt k (i - 1)
      have hg := ofUnits_good (F := F) (n := convAcc ct bt k (i - 1)) (by rw [hr]; exact hov)
      rw [hr] at hg
      have hninf : F.isInf (F.ofUnits (convAcc ct bt k (i - 1))) = false := (finite_iff.1 hg.1).2
      rw [hninf]
      simp only [Bool.false_eq_true, if_false]
      have hacc : ∀ n, (convAcc ct bt k (i - 1 + n)).natAbs < 2 ^ (F.p + F.emax - 2) ∧
          (rndZ 53 (convAcc ct bt k (i - 1 + n) + ct (k + (i - 1 + n) + 1))).natAbs < 2 ^ (F.p + F.emax - 2) := by
        intro n
        have step : ∀ n, (convAcc ct bt k (i - 1 + n)).natAbs < 2 ^ (F.p + F.emax - 2) →
            (rndZ 53 (convAcc ct bt k (i - 1 + n) + ct (k + (i - 1 + n) + 1))).natAbs < 2 ^ (F.p + F.emax - 2) := by
          intro n hn
          rw [hM'] at hn ⊢
          have := add_small_fin (F := F) (convAcc_repr hp ct bt k _) hn (hsmall (i - 1 + n) (by omega)).1
          rw [hp] at this ⊢
          exact this
        have main : (convAcc ct bt k (i - 1 + n)).natAbs < 2 ^ (F.p + F.emax - 2) := by
          induction n with
          | zero => exact hov
          | succ n ih =>
            have h1 := step n ih
            show (convAcc ct bt k (i - 1 + n + 1)).natAbs < _
            unfold convAcc
            rw [hM'] at h1 ⊢
            have hid : rndZ F.p (rndZ 53 (convAcc ct bt k (i - 1 + n) + ct (k + (i - 1 + n) + 1))) = rndZ 53 (convAcc ct bt k (i - 1 + n) + ct (k + (i - 1 + n) + 1)) := by
              conv_lhs => rw [← hp]
              rw [rndZ_idem, hp]
            have := add_small_fin (F := F) hid h1 (hsmall (i - 1 + n) (by omega)).2
            rw [hp] at this
            rw [hp]
            exact this
        exact ⟨main, step n main⟩
      have g := conv_loop (F := F) (Z := Z) (fold := fold) (k := k) hp hB hC (fold - i) (i - 1) _ (fun j hj => by rw [hue]; omega) (by omega)
        (by rw [hct, hbt]; exact hg) (by omega)
        (fun l h1 h2 => by
          rw [hct, hbt]
          have a1 := hacc (l - (i - 1))
          have a2 := hacc (l + 1 - (i - 1))
          have e1 : i - 1 + (l - (i - 1)) = l := by omega
          have e2 : i - 1 + (l + 1 - (i - 1)) = l + 1 := by omega
          rw [e1] at a1; rw [e2] at a2
          exact ⟨a1.2, a2.1⟩)
      rw [hct, hbt] at g
      have e1 : i - 1 + 1 = i := by omega
      have e2 : i - 1 + (fold - i) = fold - 1 := by omega
      rw [e1, e2] at g
      rw [add_ofUnits g hlastok.1, hlastok.2]
      unfold convTotal; rw [← hbt]; rfl
    · -- overflow
      have hov' : 2 ^ (F.p + 2045) ≤ (convAcc ct bt k (i - 1)).natAbs := by rw [hM'] at hov; omega
      have hr := convAcc_repr hp ct bt k (i - 1)
      have hri : F.roundMag (convAcc ct bt k (i - 1)).natAbs 0 = F.infMag := roundMag_overflow (by rw [hr, hM']; exact hov')
      have hinf : F.isInf (F.ofUnits (convAcc ct bt k (i - 1))) = true := by
        unfold isInf ofUnits; simp [hri]
      rw [hinf]
      simp only [if_true]
      have hacc : ∀ n, 2 ^ (F.p + 2045) ≤ (convAcc ct bt k (i - 1 + n)).natAbs ∧
          (convAcc ct bt k (i - 1 + n) < 0 ↔ convAcc ct bt k (i - 1) < 0) := by
        intro n
        induction n with
        | zero => exact ⟨hov', Iff.rfl⟩
        | succ n ih =>
          have h1 := add_small_inf (F := F) ih.1 (hsmall (i - 1 + n) (by omega)).1
          have h2 := add_small_inf (F := F) h1.1 (hsmall (i - 1 + n) (by omega)).2
          have hsg1 := rndZ_sign (F := F) (convAcc ct bt k (i - 1 + n) + ct (k + (i - 1 + n) + 1))
          have hsg2 := rndZ_sign (F := F) (rndZ F.p (convAcc ct bt k (i - 1 + n) + ct (k + (i - 1 + n) + 1)) + bt (k + (i - 1 + n)))
          show 2 ^ (F.p + 2045) ≤ (convAcc ct bt k (i - 1 + n + 1)).natAbs ∧ (convAcc ct bt k (i - 1 + n + 1) < 0 ↔ _)
          have hu : convAcc ct bt k (i - 1 + n + 1) = rndZ F.p (rndZ F.p (convAcc ct bt k (i - 1 + n) + ct (k + (i - 1 + n) + 1)) + bt (k + (i - 1 + n))) := by
            rw [hp]; rfl
          rw [hu]
          exact ⟨h2.1, by rw [hsg2, h2.2, hsg1, h1.2, ih.2]⟩
      have hf := hacc (fold - i)
      have e2 : i - 1 + (fold - i) = fold - 1 := by omega
      rw [e2] at hf
      have hl := add_small_inf (F := F) hf.1 (hsmall (fold - 1) (by omega)).2
      unfold ofUnits
      rw [hri]
      unfold convTotal
      have hra : F.roundMag (convAcc ct bt k (fold - 1) + bt (k + (fold - 1))).natAbs 0 = F.infMag :=
        roundMag_overflow (by rw [hM']; exact hl.1)
      rw [hra]
      congr 1
      rw [decide_eq_decide, hl.2, hf.2]

end Fmt
end Repro
