import Verif.Deposit3
/-!
# The operations on binned values, in terms of exact totals
-/

namespace Repro
namespace Fmt
variable {F : Fmt}

/-! ### carries -/

theorem ofInt_ok [F.OK] {c : Int} (h : c.natAbs ≤ 2 ^ F.p) :
    F.Finite (F.ofInt c) ∧ F.toInt (F.ofInt c) = c * 2 ^ F.eta := by
  have ⟨hp, hW, hWp, _, he, he1, hb, het, _⟩ := F.facts
  have key : F.roundMag (c.natAbs * 2 ^ F.eta) 0 < F.infMag ∧
      F.val (F.roundMag (c.natAbs * 2 ^ F.eta) 0) = c.natAbs * 2 ^ F.eta := by
    rcases Nat.lt_or_eq_of_le h with h' | h'
    · apply roundMag_exact h'
      have : c.natAbs * 2 ^ F.eta < 2 ^ F.p * 2 ^ F.eta := Nat.mul_lt_mul_of_pos_right h' (pow_pos' _)
      rw [← Nat.pow_add] at this
      exact Nat.lt_of_lt_of_le this (Nat.pow_le_pow_right (by omega) (by omega))
    · have e : c.natAbs * 2 ^ F.eta = 1 * 2 ^ (F.p + F.eta) := by rw [h', ← Nat.pow_add, Nat.one_mul]
      rw [e]
      apply roundMag_exact
      · have : 2 ^ 1 ≤ 2 ^ F.p := Nat.pow_le_pow_right (by omega) (by omega)
        omega
      · rw [Nat.one_mul]; exact Nat.pow_lt_pow_right (by omega) (by omega)
  refine ⟨key.1, ?_⟩
  unfold toInt ofInt
  simp only [key.2]
  push_cast
  by_cases hc : c < 0
  · simp only [hc, decide_true, if_true]
    rw [abs_of_neg hc]; ring
  · simp only [hc, decide_false, Bool.false_eq_true, if_false]
    rw [abs_of_nonneg (by omega)]

theorem ofInt_zero [F.OK] : F.ofInt 0 = zero := by
  unfold ofInt zero
  have : F.roundMag 0 0 = 0 := by
    rw [roundMag_small (pow_pos' _)]; simp
  simp [this]

/-- Integer valued floats add like integers (the zero result is `+0`). -/
theorem add_ints [F.OK] {x y : Flt} {c d : Int} (hx : F.Finite x) (hy : F.Finite y)
    (hcx : F.toInt x = c * 2 ^ F.eta) (hdy : F.toInt y = d * 2 ^ F.eta)
    (hz : (x.neg && y.neg) = true → c + d ≠ 0) :
    F.add x y = F.ofInt (c + d) := by
  have hE := ipow_pos F.eta
  rw [add_finite hx hy, hcx, hdy]
  have e : c * 2 ^ F.eta + d * 2 ^ F.eta = (c + d) * 2 ^ F.eta := by ring
  rw [e]
  by_cases h0 : c + d = 0
  · rw [h0, ofInt_zero, zero_mul, if_pos rfl]
    have : (x.neg && y.neg) = false := by
      by_contra hc
      exact hz (by simpa using hc) h0
    rw [this]; rfl
  · rw [if_neg (by
      intro hc
      rcases mul_eq_zero.1 hc with h | h
      · exact h0 h
      · omega)]
    unfold ofInt
    have e1 : ((c + d) * 2 ^ F.eta < 0) ↔ (c + d < 0) := by
      constructor
      · intro h; by_contra hc
        have := mul_nonneg (show 0 ≤ c + d by omega) (le_of_lt hE)
        omega
      · intro h; exact mul_neg_of_neg_of_pos h hE
    have e2 : ((c + d) * 2 ^ F.eta).natAbs = (c + d).natAbs * 2 ^ F.eta := by
      rw [Int.natAbs_mul]; congr 1
    simp only [e1, e2]

theorem ofInt_neg_sign [F.OK] (c : Int) : (F.ofInt c).neg = decide (c < 0) := rfl

theorem add_ofInt [F.OK] {c d : Int} (hc : c.natAbs ≤ 2 ^ F.p) (hd : d.natAbs ≤ 2 ^ F.p) :
    F.add (F.ofInt c) (F.ofInt d) = F.ofInt (c + d) := by
  have h1 := ofInt_ok (F := F) hc
  have h2 := ofInt_ok (F := F) hd
  refine add_ints h1.1 h2.1 h1.2 h2.2 ?_
  simp only [ofInt_neg_sign, Bool.and_eq_true, decide_eq_true_eq]
  omega

/-! ### renormalisation of one bin -/

theorem set_quarter (a q r t : Nat) (hq : q < 4) (hr : r < 2 ^ t) :
    let m := (4 * a + q) * 2 ^ t + r
    ((m ^^^ (m &&& 2 ^ t)) ||| 2 ^ (t + 1)) = (4 * a + 2) * 2 ^ t + r ∧ (m >>> t) &&& 3 = q := by
  intro m
  have hm : m = 2 ^ t * (4 * a + q) + r := by simp only [m]; ring
  constructor
  · apply Nat.eq_of_testBit_eq
    intro i
    have e2 : (4 * a + 2) * 2 ^ t + r = 2 ^ t * (4 * a + 2) + r := by ring
    rw [e2, hm]
    simp only [Nat.testBit_or, Nat.testBit_xor, Nat.testBit_and, Nat.testBit_two_pow]
    rw [Nat.testBit_two_pow_mul_add _ hr, Nat.testBit_two_pow_mul_add _ hr]
    by_cases hi : i < t
    · have h1 : ¬ t = i := by omega
      have h2 : ¬ t + 1 = i := by omega
      simp [hi, h1, h2]
    · obtain ⟨d, rfl⟩ : ∃ d, i = t + d := ⟨i - t, by omega⟩
      have e3 : 4 * a + q = 2 ^ 2 * a + q := by ring
      have e4 : 4 * a + 2 = 2 ^ 2 * a + 2 := by ring
      have h1 : (t = t + d) ↔ d = 0 := by omega
      have h2 : (t + 1 = t + d) ↔ d = 1 := by omega
      simp only [hi, if_false, Nat.add_sub_cancel_left, h1, h2]
      rw [e3, e4, Nat.testBit_two_pow_mul_add _ (by omega), Nat.testBit_two_pow_mul_add _ (by omega)]
      rcases d with _ | _ | d
      · simp
      · have : (2 : Nat).testBit 1 = true := by decide
        simp [this]
      · have : ¬ (d + 1 + 1 < 2) := by omega
        simp [this]
  · have h1 : m >>> t = 4 * a + q := by
      rw [Nat.shiftRight_eq_div_pow, hm, Nat.mul_add_div (pow_pos' t), Nat.div_eq_of_lt hr]; omega
    rw [h1]
    have := Nat.and_two_pow_sub_one_eq_mod (4 * a + q) 2
    simp at this
    rw [this]; omega

theorem renorm_bin [F.OK] {j : Nat} {b : Int} (hw : F.Win b) :
    F.renormPri (F.mkPri j b) = F.mkPri j (b % 2 ^ (F.p - 3)) ∧
    ∀ c : Flt, F.renormCar (F.mkPri j b) c = F.add c (F.ofInt (b / 2 ^ (F.p - 3))) := by
  have ⟨hp, hW, hWp, _, he, he1, hb, het, _⟩ := F.facts
  have hT := ipow_pos (F.p - 3)
  have t1 : (2 : Int) ^ (F.p - 2) = 2 * 2 ^ (F.p - 3) := by exact_mod_cast two_p2 (F := F)
  have n1 := two_p1 (F := F)
  have n2 := two_p2 (F := F)
  have hm0 := Int.emod_nonneg b (ne_of_gt hT)
  have hm1 := Int.emod_lt_of_pos b hT
  have hdm := Int.mul_ediv_add_emod b (2 ^ (F.p - 3))
  unfold Win at hw
  obtain ⟨qz, hqz⟩ : ∃ qz, qz = b / 2 ^ (F.p - 3) := ⟨_, rfl⟩
  obtain ⟨rz, hrz⟩ : ∃ rz, rz = b % 2 ^ (F.p - 3) := ⟨_, rfl⟩
  rw [← hqz, ← hrz] at hdm
  rw [← hrz] at hm0 hm1
  have hq1 : -2 ≤ qz := by
    by_contra hc
    have : 2 ^ (F.p - 3) * qz ≤ 2 ^ (F.p - 3) * (-3) := mul_le_mul_of_nonneg_left (by omega) (le_of_lt hT)
    omega
  have hq2 : qz ≤ 1 := by
    by_contra hc
    have : 2 ^ (F.p - 3) * 2 ≤ 2 ^ (F.p - 3) * qz := mul_le_mul_of_nonneg_left (by omega) (le_of_lt hT)
    omega
  have hcp := cast_pow (F.p - 3)
  -- the magnitude split into quarters
  have hmag : ∀ z : Int, (-2 ≤ z) → (3 * 2 ^ (F.p - 2) + (2 ^ (F.p - 3) * z + rz) : Int).toNat =
      ((z + 6).toNat) * 2 ^ (F.p - 3) + rz.toNat := by
    intro z hz
    have h6 : 0 ≤ z + 6 := by omega
    zify
    rw [Int.toNat_of_nonneg, Int.toNat_of_nonneg h6, Int.toNat_of_nonneg hm0]
    · rw [t1]; ring
    · have : 0 ≤ 2 ^ (F.p - 3) * (z + 2) := mul_nonneg (le_of_lt hT) (by omega)
      rw [t1]; nlinarith
  have hbmag : (F.mkPri j b).mag = (4 * (F.sexp j + 1) + (qz + 2).toNat) * 2 ^ (F.p - 3) + rz.toNat := by
    unfold mkPri
    dsimp only
    rw [← hdm, hmag qz hq1, n1, n2]
    have : (qz + 6).toNat = (qz + 2).toNat + 4 := by omega
    rw [this]; ring
  have hset := set_quarter (F.sexp j + 1) (qz + 2).toNat rz.toNat (F.p - 3) (by omega) (by omega)
  rw [← hbmag] at hset
  constructor
  · unfold renormPri
    have e : F.p - 2 = F.p - 3 + 1 := by omega
    rw [e, hset.1]
    unfold mkPri
    congr 1
    have := hmag 0 (by omega)
    rw [mul_zero, zero_add] at this
    rw [← hrz, this, n1, n2]
    have : (0 + 6 : Int).toNat = 6 := rfl
    rw [this]; ring
  · intro c
    unfold renormCar
    rw [hset.2, ← hqz]
    congr 2
    omega

theorem map_range'_congr {α} {k n : Nat} {f g : Nat → α} (h : ∀ j, k ≤ j → j < k + n → f j = g j) :
    (List.range' k n).map f = (List.range' k n).map g := by
  apply List.map_congr_left
  intro j hj
  rw [List.mem_range'_1] at hj
  exact h j hj.1 hj.2

theorem nth_map_range' {f : Nat → Flt} {k n i : Nat} (hi : i < n) :
    nth ((List.range' k n).map f) i = f (k + i) := by
  unfold nth
  rw [List.getD_eq_getElem?_getD, List.getElem?_map, List.getElem?_range' hi]
  simp

theorem range_map_shift {α} {k n : Nat} {f : Nat → α} :
    (List.range n).map (fun i => f (k + i)) = (List.range' k n).map f := by
  rw [List.range'_eq_map_range, List.map_map]; rfl

theorem nth_setzero (fold : Nat) : nth (List.replicate fold zero) 0 = zero := by
  unfold nth; cases fold <;> simp [List.replicate]

theorem zero_finite [F.OK] : F.Finite zero := by
  show 0 < F.infMag
  have := emax_big (F := F); have := pow_pos' F.p; omega

/-- A carry: the integer `c`, where `z` says that a zero is stored as `-0.0` (this happens after a
negation). -/
def carF (F : Fmt) (z : Bool) (c : Int) : Flt := if z = true ∧ c = 0 then ⟨true, 0⟩ else F.ofInt c

/-- `mid` with possible negative zeros among the carries. -/
def midZ (F : Fmt) (fold k : Nat) (B C : Nat → Int) (Z : Nat → Bool) : Binned :=
  ⟨(List.range' k fold).map (fun j => F.mkPri j (B j)),
   (List.range' k fold).map (fun j => F.carF (Z j) (C j))⟩

theorem carF_false (c : Int) : F.carF false c = F.ofInt c := by simp [carF]

theorem mid_eq_midZ (fold k : Nat) (B C : Nat → Int) :
    F.mid fold k B C = F.midZ fold k B C (fun _ => false) := by
  unfold mid midZ; simp only [carF_false]

theorem carF_ok [F.OK] {z : Bool} {c : Int} (h : c.natAbs ≤ 2 ^ F.p) :
    F.Finite (F.carF z c) ∧ F.toInt (F.carF z c) = c * 2 ^ F.eta := by
  unfold carF
  split
  · next h => 
    rw [h.2]
    refine ⟨zero_finite, ?_⟩
    unfold toInt
    have : F.val 0 = 0 := val_eq_zero.2 rfl
    simp [this]
  · exact ofInt_ok h

theorem add_carF_ofInt [F.OK] {z : Bool} {c d : Int} (hc : c.natAbs ≤ 2 ^ F.p) (hd : d.natAbs ≤ 2 ^ F.p) :
    F.add (F.carF z c) (F.ofInt d) = F.ofInt (c + d) := by
  have h1 := carF_ok (F := F) (z := z) hc
  have h2 := ofInt_ok (F := F) hd
  refine add_ints h1.1 h2.1 h1.2 h2.2 ?_
  rw [ofInt_neg_sign]
  unfold carF
  split
  · next h => rw [h.2]; simp; omega
  · rw [ofInt_neg_sign]; simp; omega

theorem add_carF [F.OK] {z z' : Bool} {c d : Int} (hc : c.natAbs ≤ 2 ^ F.p) (hd : d.natAbs ≤ 2 ^ F.p) :
    F.add (F.carF z c) (F.carF z' d) = F.carF (z && z' && decide (c = 0) && decide (d = 0)) (c + d) := by
  have h1 := carF_ok (F := F) (z := z) hc
  by_cases h : z' = true ∧ d = 0
  · by_cases h' : z = true ∧ c = 0
    · obtain ⟨rfl, rfl⟩ := h
      obtain ⟨rfl, rfl⟩ := h'
      have h2 := carF_ok (F := F) (z := true) hd
      rw [add_finite h1.1 h1.1, h1.2]
      simp [carF]
    · have e : F.carF z c = F.ofInt c := by unfold carF; rw [if_neg h']
      have h3 := carF_ok (F := F) (z := z') hd
      have h4 := ofInt_ok (F := F) hc
      have : (z && z' && decide (c = 0) && decide (d = 0)) = false := by
        cases z <;> simp_all
      rw [e, this, carF_false]
      refine add_ints h4.1 h3.1 h4.2 h3.2 ?_
      rw [ofInt_neg_sign, h.2]; simp; omega
  · have e : F.carF z' d = F.ofInt d := by unfold carF; rw [if_neg h]
    have : (z && z' && decide (c = 0) && decide (d = 0)) = false := by
      cases z <;> cases z' <;> simp_all
    rw [e, this, carF_false]
    exact add_carF_ofInt hc hd

/-- **Renormalisation** of a value given by primary offsets and carries. -/
theorem dmrenorm_midZ [F.OK] {fold k : Nat} {B C : Nat → Int} {Z : Nat → Bool} (hfold : 1 ≤ fold)
    (hB : ∀ j, k ≤ j → j < k + fold → F.Win (B j)) (hC : ∀ j, k ≤ j → j < k + fold → (C j).natAbs ≤ 2 ^ F.p) :
    F.dmrenorm (F.midZ fold k B C Z) = F.canon fold k (fun j => B j + C j * 2 ^ (F.p - 3)) := by
  have ⟨hp, hW, hWp, _, he, he1, hb, het, _⟩ := F.facts
  have hT := ipow_pos (F.p - 3)
  unfold dmrenorm
  have h0 : nth (F.midZ fold k B C Z).pri 0 = F.mkPri k (B k) := by
    unfold midZ; exact nth_map_range' (i := 0) (by omega)
  have hw0 := hB k (by omega) (by omega)
  rw [h0, mkPri_isZero hw0, mkPri_isNaNInf hw0]
  simp only [Bool.or_self, Bool.false_eq_true, if_false]
  unfold canon mid midZ
  dsimp only
  congr 1
  · rw [List.map_map]
    apply map_range'_congr
    intro j h1 h2
    show F.renormPri (F.mkPri j (B j)) = _
    rw [(renorm_bin (hB j h1 h2)).1, Int.add_mul_emod_self_right]
  · rw [List.zipWith_map, List.zipWith_self]
    apply map_range'_congr
    intro j h1 h2
    have hw := hB j h1 h2
    rw [(renorm_bin hw).2, add_carF_ofInt (hC j h1 h2)]
    · congr 1
      rw [Int.add_mul_ediv_right _ _ (ne_of_gt hT)]; ring
    · unfold Win at hw
      have t1 : (2 : Int) ^ (F.p - 2) = 2 * 2 ^ (F.p - 3) := by exact_mod_cast two_p2 (F := F)
      have a1 : B j / 2 ^ (F.p - 3) < 2 := Int.ediv_lt_of_lt_mul hT (by omega)
      have a2 : -2 ≤ B j / 2 ^ (F.p - 3) := (Int.le_ediv_iff_mul_le hT).2 (by omega)
      have : 2 ^ 1 ≤ 2 ^ F.p := Nat.pow_le_pow_right (by omega) (by omega)
      omega

theorem nth_pri_midZ {fold k : Nat} {B C : Nat → Int} {Z : Nat → Bool} (hfold : 1 ≤ fold) :
    nth (F.midZ fold k B C Z).pri 0 = F.mkPri k (B k) := by
  unfold midZ; exact nth_map_range' (i := 0) (by omega)

/-- **Update** of a value of index `k`. -/
theorem dmdupdate_midZ [F.OK] {fold k : Nat} {B C : Nat → Int} {Z : Nat → Bool} {x : Flt} (hfold : 1 ≤ fold)
    (hk : k ≤ F.maxIndex) (hB : F.Win (B k)) (hz : ∀ j, j < k → B j = 0 ∧ C j = 0 ∧ Z j = false) :
    F.dmdupdate fold x (F.midZ fold k B C Z) = F.midZ fold (min k (F.dindex x)) B C Z := by
  unfold dmdupdate
  rw [nth_pri_midZ hfold, mkPri_isZero hB, mkPri_isNaNInf hB, dmindex_mkPri hB hk]
  simp only [Bool.false_eq_true, if_false]
  split
  · next hlt =>
    rw [Nat.min_eq_right (by omega)]
    generalize F.dindex x = xi at *
    unfold midZ
    dsimp only
    rw [← range_map_shift (k := xi) (f := fun j => F.mkPri j (B j)),
      ← range_map_shift (k := xi) (f := fun j => F.carF (Z j) (C j))]
    congr 1
    · apply List.map_congr_left
      intro i hi
      rw [List.mem_range] at hi
      by_cases hs : i < k - xi
      · rw [if_pos hs, bins_eq, (hz (xi + i) (by omega)).1]
      · rw [if_neg hs, nth_map_range' (by omega)]
        have : k + (i - (k - xi)) = xi + i := by omega
        rw [this]
    · apply List.map_congr_left
      intro i hi
      rw [List.mem_range] at hi
      by_cases hs : i < k - xi
      · rw [if_pos hs, (hz (xi + i) (by omega)).2.1, (hz (xi + i) (by omega)).2.2, carF_false, ofInt_zero]
      · rw [if_neg hs, nth_map_range' (by omega)]
        have : k + (i - (k - xi)) = xi + i := by omega
        rw [this]
  · rw [Nat.min_eq_left (by omega)]

/-- **Update** of the zero value: an empty accumulator in the bins of `x`. -/
theorem dmdupdate_zero [F.OK] {fold : Nat} {x : Flt} :
    F.dmdupdate fold x (dmsetzero fold) =
      F.midZ fold (F.dindex x) (fun _ => 0) (fun _ => 0) (fun _ => false) := by
  unfold dmdupdate dmsetzero
  dsimp only
  rw [nth_setzero, isNaNInf_false zero_finite]
  have : isZero zero = true := rfl
  rw [this]
  simp only [Bool.false_eq_true, if_false, if_true]
  unfold midZ
  congr 1
  · rw [← range_map_shift]
    apply List.map_congr_left
    intro i _
    exact bins_eq _
  · simp only [carF_false, ofInt_zero]
    rw [List.map_const', List.length_range']

/-- Adding to one primary the offset of another one of the same bin. -/
theorem add_offset [F.OK] {j : Nat} {a b : Int} (ha : F.Win a) (hb : F.Win b) (hab : F.Win (a + b)) :
    F.add (F.mkPri j a) (F.sub (F.mkPri j b) (F.bins j)) = F.mkPri j (a + b) := by
  have w0 : F.Win 0 := by unfold Win; have := ipow_pos (F.p - 2); omega
  rw [bins_eq, mkPri_eq, mkPri_eq, mkPri_eq, mkPri_eq]
  obtain ⟨hf, ht⟩ := sub_mkF (F := F) (sexp_le j) hb w0
  have wa := win_mant ha
  have wab := win_mant hab
  have := add_mkF (F := F) (u := F.sexp j) (m := 3 * 2 ^ (F.p - 2) + a) (s := b) (sexp_le j) hf
    (le_of_lt wa.1) wa.2 (by rw [add_assoc]; exact wab.1) (by rw [add_assoc]; exact wab.2)
    (by rw [ht, sub_zero, sub_self, mul_zero]; exact ipow_pos _)
    (by rw [ht, sub_zero, sub_self, mul_zero]; have := ipow_pos (F.sexp j); omega)
  rw [this, add_assoc]

/-- **Merge** of two values given by offsets and carries. -/
theorem dmdmadd_midZ [F.OK] {fold kx ky : Nat} {Bx Cx By Cy : Nat → Int} {Zx Zy : Nat → Bool}
    (hfold : 1 ≤ fold) (hkx : kx ≤ F.maxIndex) (hky : ky ≤ F.maxIndex)
    (hBx : ∀ j, F.Win (Bx j)) (hBy : ∀ j, F.Win (By j)) (hBxy : ∀ j, F.Win (Bx j + By j))
    (hCx : ∀ j, (Cx j).natAbs ≤ 2 ^ F.p) (hCy : ∀ j, (Cy j).natAbs ≤ 2 ^ F.p)
    (hzx : ∀ j, j < kx → Bx j = 0 ∧ Cx j = 0) (hzy : ∀ j, j < ky → By j = 0 ∧ Cy j = 0) :
    ∃ Z, F.dmdmadd fold (F.midZ fold kx Bx Cx Zx) (F.midZ fold ky By Cy Zy) =
      F.dmrenorm (F.midZ fold (min kx ky) (fun j => Bx j + By j) (fun j => Cx j + Cy j) Z) := by
  refine ⟨fun j => if j < ky then Zx j else if j < kx then Zy j else
    (Zx j && Zy j && decide (Cx j = 0) && decide (Cy j = 0)), ?_⟩
  unfold dmdmadd
  rw [nth_pri_midZ hfold, nth_pri_midZ hfold, mkPri_isZero (hBx _), mkPri_isZero (hBy _),
    mkPri_isNaNInf (hBx _), mkPri_isNaNInf (hBy _),
    dmindex_mkPri (hBx _) hkx, dmindex_mkPri (hBy _) hky]
  simp only [Bool.or_self, Bool.false_eq_true, if_false]
  split
  · next hlt =>
    rw [Nat.min_eq_left (by omega)]
    congr 1
    unfold midZ
    dsimp only
    rw [← range_map_shift (k := kx) (f := fun j => F.mkPri j (Bx j + By j)),
      ← range_map_shift (k := kx) (f := fun j => F.carF (if j < ky then Zx j else if j < kx then Zy j else
        (Zx j && Zy j && decide (Cx j = 0) && decide (Cy j = 0))) (Cx j + Cy j))]
    congr 1
    · apply List.map_congr_left
      intro i hi
      rw [List.mem_range] at hi
      rw [nth_map_range' hi]
      by_cases hs : i < ky - kx
      · rw [if_pos hs, (hzy (kx + i) (by omega)).1, add_zero]
      · rw [if_neg hs, nth_map_range' (by omega)]
        have : ky + (i - (ky - kx)) = kx + i := by omega
        rw [this]
        exact add_offset (hBx _) (hBy _) (hBxy _)
    · apply List.map_congr_left
      intro i hi
      rw [List.mem_range] at hi
      rw [nth_map_range' hi]
      by_cases hs : i < ky - kx
      · rw [if_pos hs, if_pos (by omega), (hzy (kx + i) (by omega)).2, add_zero]
      · rw [if_neg hs, nth_map_range' (by omega), if_neg (by omega), if_neg (by omega)]
        have : ky + (i - (ky - kx)) = kx + i := by omega
        rw [this]
        exact add_carF (hCx _) (hCy _)
  · next hlt =>
    rw [Nat.min_eq_right (by omega)]
    congr 1
    unfold midZ
    dsimp only
    rw [← range_map_shift (k := ky) (f := fun j => F.mkPri j (Bx j + By j)),
      ← range_map_shift (k := ky) (f := fun j => F.carF (if j < ky then Zx j else if j < kx then Zy j else
        (Zx j && Zy j && decide (Cx j = 0) && decide (Cy j = 0))) (Cx j + Cy j))]
    congr 1
    · apply List.map_congr_left
      intro i hi
      rw [List.mem_range] at hi
      rw [nth_map_range' hi]
      by_cases hs : i < kx - ky
      · rw [if_pos hs, (hzx (ky + i) (by omega)).1, zero_add]
      · rw [if_neg hs, nth_map_range' (by omega)]
        have : kx + (i - (kx - ky)) = ky + i := by omega
        rw [this, add_comm (Bx _)]
        exact add_offset (hBy _) (hBx _) (by rw [add_comm]; exact hBxy _)
    · apply List.map_congr_left
      intro i hi
      rw [List.mem_range] at hi
      rw [nth_map_range' hi]
      by_cases hs : i < kx - ky
      · rw [if_pos hs, if_neg (by omega), if_pos (by omega), (hzx (ky + i) (by omega)).2, zero_add]
      · rw [if_neg hs, nth_map_range' (by omega), if_neg (by omega), if_neg (by omega)]
        have : kx + (i - (kx - ky)) = ky + i := by omega
        rw [this, add_comm (Cx _), add_carF (hCy _) (hCx _)]
        congr 1
        cases Zx (ky + i) <;> cases Zy (ky + i) <;> simp [Bool.and_comm]

/-- Mirroring a primary at the reference value of its bin. -/
theorem sub_offset [F.OK] {j : Nat} {b : Int} (hb : F.Win b) :
    F.sub (F.bins j) (F.sub (F.mkPri j b) (F.bins j)) = F.mkPri j (-b) := by
  have w0 : F.Win 0 := by unfold Win; have := ipow_pos (F.p - 2); omega
  have wn : F.Win (-b) := by unfold Win at *; omega
  rw [bins_eq, mkPri_eq, mkPri_eq, mkPri_eq]
  obtain ⟨hf, ht⟩ := sub_mkF (F := F) (sexp_le j) hb w0
  have wa := win_mant w0
  have wab := win_mant wn
  have hff : F.Finite (fneg (F.sub (F.mkF (F.sexp j) (3 * 2 ^ (F.p - 2) + b)) (F.mkF (F.sexp j) (3 * 2 ^ (F.p - 2) + 0)))) := hf
  have htt : F.toInt (fneg (F.sub (F.mkF (F.sexp j) (3 * 2 ^ (F.p - 2) + b)) (F.mkF (F.sexp j) (3 * 2 ^ (F.p - 2) + 0)))) = -b * 2 ^ F.sexp j := by
    rw [toInt_fneg, ht]; ring
  have := add_mkF (F := F) (u := F.sexp j) (m := 3 * 2 ^ (F.p - 2) + 0) (s := -b) (sexp_le j) hff
    (le_of_lt wa.1) wa.2 (by rw [add_zero]; exact wab.1) (by rw [add_zero]; exact wab.2)
    (by rw [htt, sub_self, mul_zero]; exact ipow_pos _)
    (by rw [htt, sub_self, mul_zero]; have := ipow_pos (F.sexp j); omega)
  unfold sub at this ⊢
  rw [this, add_zero]

theorem fneg_carF [F.OK] (z : Bool) (c : Int) : ∃ z', fneg (F.carF z c) = F.carF z' (-c) := by
  by_cases h : c = 0
  · subst h
    cases z
    · refine ⟨true, ?_⟩
      rw [carF_false, ofInt_zero]; simp [carF, fneg, zero]
    · refine ⟨false, ?_⟩
      rw [carF_false, neg_zero, ofInt_zero]; simp [carF, fneg, zero]
  · refine ⟨false, ?_⟩
    rw [carF_false]
    unfold carF
    rw [if_neg (fun hh => h hh.2)]
    unfold fneg ofInt
    simp only [Int.natAbs_neg]
    congr 1
    by_cases h' : c < 0
    · have : ¬ (-c < 0) := by omega
      simp [h']; omega
    · have : (-c < 0) := by omega
      simp [h']; omega

/-- **Negation** of a value given by offsets and carries. -/
theorem dmnegate_midZ [F.OK] {fold k : Nat} {B C : Nat → Int} {Z : Nat → Bool} (hfold : 1 ≤ fold)
    (hk : k ≤ F.maxIndex) (hB : ∀ j, F.Win (B j)) (hz : ∀ j, j < k → Z j = false) :
    ∃ Z', (∀ j, j < k → Z' j = false) ∧
      F.dmnegate fold (F.midZ fold k B C Z) = F.midZ fold k (fun j => - B j) (fun j => - C j) Z' := by
  have hch : ∀ j, ∃ z', fneg (F.carF (Z j) (C j)) = F.carF z' (- C j) := fun j => fneg_carF _ _
  refine ⟨fun j => if j < k then false else (hch j).choose, fun j hj => by simp [hj], ?_⟩
  unfold dmnegate
  rw [nth_pri_midZ hfold, mkPri_isZero (hB _), dmindex_mkPri (hB _) hk]
  simp only [Bool.false_eq_true, if_false]
  unfold midZ
  dsimp only
  rw [← range_map_shift (k := k) (f := fun j => F.mkPri j (- B j)),
      ← range_map_shift (k := k) (f := fun j => F.carF (if j < k then false else (hch j).choose) (- C j))]
  congr 1
  · apply List.map_congr_left
    intro i hi
    rw [List.mem_range] at hi
    rw [nth_map_range' hi]
    exact sub_offset (hB _)
  · apply List.map_congr_left
    intro i hi
    rw [List.mem_range] at hi
    rw [nth_map_range' hi, if_neg (by omega)]
    exact (hch (k + i)).choose_spec

end Fmt
end Repro
