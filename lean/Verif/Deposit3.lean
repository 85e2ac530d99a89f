import Verif.Deposit2
/-!
# The complete deposit: top bin included
-/

namespace Repro
namespace Fmt
variable {F : Fmt}

theorem halfExpansion_eq [h : F.OK] : F.halfExpansion = F.pow2 ((F.p - F.W : Nat) : Int) := by
  rcases h.isDoubleOrFloat with rfl | rfl <;> decide +kernel

theorem mkF_expo [F.OK] {u : Nat} {m : Int} (h1 : 2 ^ (F.p - 1) ≤ m) (h2 : m < 2 ^ F.p) :
    F.expo (F.mkF u m) = u + 1 := by
  unfold expo mkF
  dsimp only
  have hm : 0 ≤ m := by have := ipow_pos (F.p - 1); omega
  have h1' : 2 ^ (F.p - 1) ≤ m.toNat := by
    zify; rw [Int.toNat_of_nonneg hm]; exact h1
  have h2' : m.toNat < 2 ^ F.p := by
    zify; rw [Int.toNat_of_nonneg hm]; exact h2
  have := two_p (F := F)
  rw [Nat.add_comm, Nat.add_mul_div_right _ _ (pow_pos' _)]
  have : m.toNat / 2 ^ (F.p - 1) = 1 := by apply Nat.div_eq_of_lt_le <;> omega
  omega

theorem mkPri_finite [F.OK] {j : Nat} {b : Int} (h : F.Win b) : F.Finite (F.mkPri j b) := by
  rw [mkPri_eq]; exact mkF_finite (sexp_le j) (win_mant h).2

theorem mkPri_expo [F.OK] {j : Nat} {b : Int} (h : F.Win b) : F.expo (F.mkPri j b) = F.sexp j + 1 := by
  rw [mkPri_eq]; exact mkF_expo (le_of_lt (win_mant h).1) (win_mant h).2

theorem mkPri_toInt [F.OK] {j : Nat} {b : Int} (h : F.Win b) :
    F.toInt (F.mkPri j b) = (3 * 2 ^ (F.p - 2) + b) * 2 ^ F.sexp j := by
  rw [mkPri_eq]; exact mkF_toInt (le_of_lt (win_mant h).1) (win_mant h).2

theorem mkPri_mag_ne [F.OK] {j : Nat} {b : Int} (h : F.Win b) : (F.mkPri j b).mag ≠ 0 := by
  intro hc
  have := mkPri_expo (F := F) (j := j) h
  unfold expo at this
  rw [hc] at this
  simp at this

theorem mkPri_isZero [F.OK] {j : Nat} {b : Int} (h : F.Win b) : isZero (F.mkPri j b) = false := by
  unfold isZero; simp [mkPri_mag_ne h]

theorem mkPri_isNaNInf [F.OK] {j : Nat} {b : Int} (h : F.Win b) : F.isNaNInf (F.mkPri j b) = false := by
  unfold isNaNInf; have := mkPri_finite (F := F) (j := j) h; unfold Finite at this; simp; omega

theorem dmindex_mkPri [F.OK] {j : Nat} {b : Int} (h : F.Win b) (hj : j ≤ F.maxIndex) :
    F.dmindex (F.mkPri j b) = j := by
  unfold dmindex
  rw [mkPri_expo h]
  have ⟨hp, hW, hWp, _, he, he1, hb, het, _⟩ := F.facts
  have ⟨h1, h2, h3, h4, h5, h6, h7, _⟩ := F.bfacts
  by_cases h0 : j = 0
  · subst h0
    rw [sexp_zero]
    apply Nat.div_eq_of_lt
    omega
  · rw [sexp_pos (by omega)]
    unfold uexp
    rw [Nat.min_eq_left hj]
    have : F.W * j ≤ F.W * F.maxIndex := Nat.mul_le_mul_left _ hj
    have e : F.maxExp + F.p - F.W + 1 + F.bias - (F.eta + F.maxExp + 1 - F.W - F.W * j + 1) = F.W * j := by
      omega
    rw [e, Nat.mul_div_cancel_left _ (by omega)]

theorem dmindex0_mkPri [F.OK] {j : Nat} {b : Int} (h : F.Win b) :
    F.dmindex0 (F.mkPri j b) = decide (j = 0) := by
  unfold dmindex0
  rw [mkPri_expo h]
  have ⟨hp, hW, hWp, _, he, he1, hb, het, _⟩ := F.facts
  by_cases h0 : j = 0
  · subst h0
    rw [sexp_zero]; simp; omega
  · rw [sexp_pos (by omega)]
    have := uexp_emax (F := F) (j := j) (by omega)
    simp [h0]; omega

theorem bins_eq [h : F.OK] (j : Nat) : F.bins j = F.mkPri j 0 := by
  have ⟨hp, hW, hWp, _, he, he1, hb, het, _⟩ := F.facts
  have ⟨h1, h2, h3, h4, h5, h6, h7, _⟩ := F.bfacts
  have key : ∀ (e : Int) (u : Nat), u ≤ F.emax - 2 → (F.eta + e - 2 : Int) = F.p - 2 + u →
      F.ldexp75 e = F.mkF u (3 * 2 ^ (F.p - 2) + 0) := by
    intro e u hu hee
    unfold ldexp75 mkF
    congr 1
    have ht : (F.eta + e - 2 : Int).toNat = F.p - 2 + u := by omega
    rw [ht]
    have hm : (3 * 2 ^ (F.p - 2) + 0 : Int).toNat = 3 * 2 ^ (F.p - 2) := by
      have := cast_pow (F.p - 2)
      omega
    rw [hm]
    have e3 : 3 * 2 ^ (F.p - 2 + u) = (3 * 2 ^ (F.p - 2)) * 2 ^ u := by rw [Nat.pow_add]; ring
    have t1 := two_p (F := F)
    have t2 := two_p1 (F := F)
    have tp := pow_pos' (F.p - 2)
    rw [roundMag_normal (u := u) (m := 3 * 2 ^ (F.p - 2))]
    · apply Nat.min_eq_left
      have := mkF_finite (F := F) (u := u) (m := 3 * 2 ^ (F.p - 2) + 0) hu (by
        have : (2 : Int) ^ F.p = 4 * 2 ^ (F.p - 2) := by
          have := cast_pow F.p
          have := cast_pow (F.p - 2)
          omega
        have := ipow_pos (F.p - 2)
        omega)
      unfold Finite mkF at this
      rw [hm] at this
      exact Nat.le_of_lt this
    · rw [e3, Nat.pow_add]; exact Nat.mul_le_mul_right _ (by omega)
    · rw [e3, Nat.pow_add]; exact Nat.mul_lt_mul_of_pos_right (by omega) (pow_pos' u)
    · rw [e3]; exact rne_exact _ _
  rw [mkPri_eq]
  unfold bins
  split
  · next h0 =>
    subst h0
    rw [sexp_zero]
    apply key _ _ (Nat.le_refl _)
    omega
  · next h0 =>
    have hle : F.W * min j F.maxIndex ≤ F.W * F.maxIndex := Nat.mul_le_mul_left _ (by omega)
    apply key _ _ (sexp_le j)
    rw [sexp_pos (by omega)]
    unfold uexp
    have : ((min j F.maxIndex : Nat) : Int) * F.W = ((F.W * min j F.maxIndex : Nat) : Int) := by
      push_cast; ring
    rw [this]
    omega

/-- scaling down by the compression does not change the slice taken by the top bin -/
theorem compress_ok [F.OK] {x : Flt} (hx : F.Finite x) :
    F.Finite (F.mul x F.compression) ∧
    (F.toInt (F.mul x F.compression)).natAbs ≤ 2 ^ ((F.emax - 2) + F.W - 1) ∧
    rha (F.toInt (F.mul x F.compression)) (F.emax - 2) = F.slice (F.toInt x) 0 := by
  have ⟨hp, hW, hWp, _, he, he1, hb, het, _⟩ := F.facts
  have ⟨h1, h2, h3, h4, h5, h6, h7, h8, _⟩ := F.bfacts
  obtain ⟨cf, cn, cv⟩ := pow2_val (F := F) (e := -((F.p : Int) - F.W + 1)) (by omega) (by omega)
  have hc : (((F.eta : Int) + -((F.p : Int) - F.W + 1)).toNat) = F.eta - (F.p - F.W + 1) := by omega
  rw [hc] at cv
  have hu0 := uexp_zero (F := F)
  have hfit := fits0_finite (F := F) hx
  unfold Fits at hfit
  obtain ⟨mant, e, d1, d2, d3, d4, d5, d6⟩ := val_decomp (F := F) x.mag
  by_cases hce : F.p - F.W + 1 ≤ e
  · have hd := mul_pow2_down (F := F) (c := F.p - F.W + 1) (mant := mant) (e := e - (F.p - F.W + 1))
      (by omega) hx cf cn cv (by rw [d1]; congr 2; omega) d2
    refine ⟨hd.1, ?_, ?_⟩
    · have hn : (F.toInt (F.mul x F.compression)).natAbs * 2 ^ (F.p - F.W + 1) = (F.toInt x).natAbs := by
        rw [← hd.2, Int.natAbs_mul]; congr 1
      have : (F.toInt (F.mul x F.compression)).natAbs * 2 ^ (F.p - F.W + 1) <
          2 ^ (F.emax - 2 + F.W - 1) * 2 ^ (F.p - F.W + 1) := by
        rw [hn, ← Nat.pow_add]
        refine Nat.lt_of_lt_of_le hfit (Nat.pow_le_pow_right (by omega) (by omega))
      exact Nat.le_of_lt (Nat.lt_of_mul_lt_mul_right this)
    · unfold slice resid
      rw [hu0, ← hd.2]
      exact (rha_scale _ _ _ (by omega)).symm
  · have hvx : F.val x.mag < 2 ^ (F.p + (F.p - F.W + 1)) := by
      rw [d1]
      have : mant * 2 ^ e < 2 ^ F.p * 2 ^ e := Nat.mul_lt_mul_of_pos_right d2 (pow_pos' e)
      rw [← Nat.pow_add] at this
      exact Nat.lt_of_lt_of_le this (Nat.pow_le_pow_right (by omega) (by omega))
    have hd := mul_pow2_small (F := F) (c := F.p - F.W + 1) (by omega) hx cf cv hvx
    have hna := toInt_natAbs (F := F) (F.mul x F.compression)
    have hna' := toInt_natAbs (F := F) x
    change F.Finite (F.mul x F.compression) ∧ F.val (F.mul x F.compression).mag ≤ 2 ^ F.p at hd
    refine ⟨hd.1, ?_, ?_⟩
    · rw [hna]
      exact Nat.le_trans hd.2 (Nat.pow_le_pow_right (by omega) (by omega))
    · have s1 : 2 ^ (F.p + 2) ≤ 2 ^ (F.emax - 2) := Nat.pow_le_pow_right (by omega) (by omega)
      have s2 : 2 ^ (F.p + (F.p - F.W + 1) + 1) ≤ 2 ^ (F.uexp 0) := Nat.pow_le_pow_right (by omega) (by omega)
      have s3 : 2 ^ (F.p + 2) = 4 * 2 ^ F.p := by rw [Nat.pow_add]; ring
      have s4 : 2 ^ (F.p + (F.p - F.W + 1) + 1) = 2 * 2 ^ (F.p + (F.p - F.W + 1)) := by rw [Nat.pow_succ]; ring
      have sp := pow_pos' F.p
      have hhd := hd.2
      have c1 := cast_pow (F.emax - 2)
      have c2 := cast_pow (F.uexp 0)
      unfold slice resid
      rw [rha_zero (by omega) (by omega) (by omega), rha_zero (by omega) (by omega) (by omega)]

theorem fits_bound_up [F.OK] {x : Flt} (hx : F.Finite x) : (F.toInt x).natAbs ≤ 2 ^ (F.uexp 0 + F.W - 1) :=
  Nat.le_of_lt (fits0_finite hx)

/-- The top-bin step of the deposit. -/
theorem step0 [F.OK] {x : Flt} (hx : F.Finite x) {b : Int} (hw : F.Win b)
    (hw' : F.Win (b + F.slice (F.toInt x) 0)) :
    F.add (or1 (F.mul x F.compression)) (F.mkPri 0 b) = F.mkPri 0 (b + F.slice (F.toInt x) 0) ∧
    (let M := F.mul (F.sub (F.mkPri 0 b) (F.mkPri 0 (b + F.slice (F.toInt x) 0))) F.halfExpansion
     F.Finite (F.add (F.add x M) M) ∧ F.toInt (F.add (F.add x M) M) = F.resid (F.toInt x) 1) := by
  have ⟨hp, hW, hWp, _, he, he1, hb, het, _⟩ := F.facts
  have ⟨h1, h2, h3, h4, h5, h6, h7, h8, _⟩ := F.bfacts
  have hu0 := uexp_zero (F := F)
  obtain ⟨yf, yb, ys⟩ := compress_ok (F := F) hx
  have hst := step_eq (F := F) (u := F.emax - 2) (by omega) (Nat.le_refl _) yf yb hw (by rw [ys]; exact hw')
  rw [ys] at hst
  have hpri : ∀ b, F.mkPri 0 b = F.mkF (F.emax - 2) (3 * 2 ^ (F.p - 2) + b) := by
    intro b; rw [mkPri_eq, sexp_zero]
  refine ⟨by rw [hpri, hpri]; exact hst.1, ?_⟩
  intro M
  -- the slice is at most 2^(W-1)
  have hsl := slice_le (F := F) (fits0_finite hx) 0
  obtain ⟨s, hs⟩ : ∃ s, s = F.slice (F.toInt x) 0 := ⟨_, rfl⟩
  have hdiff := sub_mkF (F := F) (u := F.emax - 2) (Nat.le_refl _) hw hw'
  rw [← hpri, ← hpri] at hdiff
  obtain ⟨D, hD⟩ : ∃ D, D = F.sub (F.mkPri 0 b) (F.mkPri 0 (b + F.slice (F.toInt x) 0)) := ⟨_, rfl⟩
  have hM : M = F.mul D F.halfExpansion := by rw [hD]
  clear_value M
  rw [← hD, ← hs] at hdiff
  rw [← hs] at hsl
  have hDt : F.toInt D = -s * 2 ^ (F.emax - 2) := by rw [hdiff.2]; ring
  have hDv : F.val D.mag = s.natAbs * 2 ^ (F.emax - 2) := by
    rw [← toInt_natAbs, hDt, Int.natAbs_mul, Int.natAbs_neg]; congr 1
  obtain ⟨cf, cn, cv⟩ := pow2_val (F := F) (e := ((F.p - F.W : Nat) : Int)) (by omega) (by omega)
  rw [← halfExpansion_eq] at cf cn cv
  have hc : (((F.eta : Int) + ((F.p - F.W : Nat) : Int)).toNat) = F.eta + (F.p - F.W) := by omega
  rw [hc] at cv
  have hMM := mul_pow2_up (F := F) (c := F.p - F.W) hdiff.1 cf cn cv (by
    rw [hDv]
    have : s.natAbs * 2 ^ (F.emax - 2) * 2 ^ (F.p - F.W) ≤ 2 ^ (F.W - 1) * 2 ^ (F.emax - 2) * 2 ^ (F.p - F.W) :=
      Nat.mul_le_mul_right _ (Nat.mul_le_mul_right _ hsl)
    refine Nat.lt_of_le_of_lt this ?_
    rw [← Nat.pow_add, ← Nat.pow_add]
    exact Nat.pow_lt_pow_right (by omega) (by omega))
  rw [← hM] at hMM
  have hMt : F.toInt M = - (s * 2 ^ (F.uexp 0 - 1)) := by
    rw [hMM.2, hDt]
    have : F.uexp 0 - 1 = (F.emax - 2) + (F.p - F.W) := by omega
    rw [this, pow_add]; ring
  -- both additions are exact
  have hbv := fits_bound_up (F := F) hx
  rw [toInt_natAbs] at hbv
  obtain ⟨mant, e, d1, d2, d3⟩ := lastplace (F := F) hbv
  have hs' : s = rha (F.toInt x) (F.uexp 0) := by rw [hs]; rfl
  have n1 : F.toInt x + F.toInt M = F.toInt x - s * 2 ^ (F.uexp 0 - 1) := by rw [hMt]; ring
  obtain ⟨m, hm1, hm2, hm3⟩ := repr_of_le (F := F) hx
    (n := F.toInt x - s * 2 ^ (F.uexp 0 - 1)) d1 d2
    (Int.dvd_sub (dvd_toInt d1) (pow_dvd_rha_mul (by omega) _))
    (by rw [← toInt_natAbs, hs']; exact rha_shrink_half (by omega))
  have a1 := add_exact (F := F) hx hMM.1 (m := m) (e := e) (by rw [n1]; exact hm1) hm2 hm3
  rw [n1] at a1
  have hhalf : (2 : Int) ^ F.uexp 0 = 2 * 2 ^ (F.uexp 0 - 1) := by
    rw [← pow_succ']; congr 1; omega
  have n2 : F.toInt (F.add x M) + F.toInt M = F.toInt x - s * 2 ^ (F.uexp 0) := by
    rw [a1.2, hMt, hhalf]; ring
  obtain ⟨m', hm1', hm2', hm3'⟩ := repr_of_le (F := F) hx
    (n := F.toInt x - s * 2 ^ (F.uexp 0)) d1 d2
    (Int.dvd_sub (dvd_toInt d1) (pow_dvd_rha_mul (by omega) _))
    (by rw [← toInt_natAbs, hs']; exact rha_shrink (by omega))
  have a2 := add_exact (F := F) a1.1 hMM.1 (m := m') (e := e) (by rw [n2]; exact hm1') hm2' hm3'
  rw [n2] at a2
  refine ⟨a2.1, ?_⟩
  rw [a2.2, hs']
  rfl

theorem isNaNInf_false {x : Flt} (hx : F.Finite x) : F.isNaNInf x = false := by
  unfold isNaNInf; unfold Finite at hx; simp; omega

/-- **Deposit.** A number that fits in the bins of the accumulator adds its slice to every bin. -/
theorem dmddeposit_eq [F.OK] {fold k : Nat} {x : Flt} {B : Nat → Int} (hfold : 2 ≤ fold)
    (hk : k ≤ F.maxIndex) (hx : F.Finite x) (hf : F.Fits (F.toInt x) k)
    (hB : ∀ j, k ≤ j → j < k + fold → F.Win (B j) ∧ F.Win (B j + F.slice (F.toInt x) j)) :
    F.dmddeposit x ((List.range' k fold).map (fun j => F.mkPri j (B j))) =
      (List.range' k fold).map (fun j => F.mkPri j (B j + F.slice (F.toInt x) j)) := by
  have hB0 := (hB k (by omega) (by omega)).1
  obtain ⟨n, rfl⟩ : ∃ n, fold = n + 1 := ⟨fold - 1, by omega⟩
  have hnth : nth ((List.range' k (n + 1)).map (fun j => F.mkPri j (B j))) 0 = F.mkPri k (B k) := by
    simp [List.range'_succ, nth]
  unfold dmddeposit
  rw [hnth, isNaNInf_false hx, mkPri_isNaNInf hB0, dmindex0_mkPri hB0]
  simp only [Bool.or_self, Bool.false_eq_true, if_false]
  have hfin0 := fits0_finite (F := F) hx
  by_cases h0 : k = 0
  · subst h0
    simp only [decide_true, if_true]
    rw [List.range'_succ, List.map_cons]
    dsimp only
    have hs := step0 (F := F) hx hB0 (hB 0 (by omega) (by omega)).2
    rw [hs.1]
    rw [List.map_cons]
    congr 1
    exact depositLoop_eq (F.toInt x) hfin0 n 1 _ B (by omega) hs.2.1 hs.2.2
      (fun j h1 h2 => hB j (by omega) (by omega))
  · simp only [h0, decide_false, Bool.false_eq_true, if_false]
    exact depositLoop_eq (F.toInt x) hfin0 (n + 1) k x B (by omega) hx
      (resid_of_fits hk hf k (Nat.le_refl _)).symm hB

end Fmt
end Repro
