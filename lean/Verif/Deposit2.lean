import Verif.Deposit
/-!
# Indices, bins, and the complete deposit
-/

namespace Repro
namespace Fmt
variable {F : Fmt}

/-- numeric facts about the bins of the two formats -/
theorem bfacts (F : Fmt) [h : F.OK] :
    F.W * F.maxIndex + 5 ≤ F.eta + F.maxExp + 1 - F.W ∧
    F.eta + F.maxExp + 1 - F.W = F.emax - 2 + (F.p - F.W + 1) ∧
    F.maxExp + F.p - F.W + 1 + F.bias = F.eta + F.maxExp + 1 - F.W + 1 ∧
    F.p + 1 < 2 * F.W ∧ (F.maxExp + F.bias - 1) / F.W ≤ F.maxIndex ∧ 2 ≤ F.maxIndex ∧
    F.p + 2 * F.W < F.emax ∧ F.W ≤ F.eta ∧ F.W < F.maxExp := by
  rcases h.isDoubleOrFloat with rfl | rfl <;> decide

theorem uexp_ge [F.OK] (j : Nat) : 5 ≤ F.uexp j := by
  have ⟨h1, _⟩ := F.bfacts
  unfold uexp
  have : F.W * min j F.maxIndex ≤ F.W * F.maxIndex := Nat.mul_le_mul_left _ (Nat.min_le_right _ _)
  omega

theorem uexp_zero [F.OK] : F.uexp 0 = F.emax - 2 + (F.p - F.W + 1) := by
  have ⟨h1, h2, _⟩ := F.bfacts
  unfold uexp; simp; omega

theorem uexp_succ_le [F.OK] (j : Nat) : F.uexp j ≤ F.uexp (j + 1) + F.W := by
  have ⟨h1, _⟩ := F.bfacts
  unfold uexp
  by_cases h : j < F.maxIndex
  · rw [Nat.min_eq_left (by omega), Nat.min_eq_left (by omega), Nat.mul_add]; omega
  · rw [Nat.min_eq_right (by omega), Nat.min_eq_right (by omega)]; omega

theorem uexp_succ_le' [F.OK] (j : Nat) : F.uexp (j + 1) ≤ F.uexp j := by
  unfold uexp
  have : F.W * min j F.maxIndex ≤ F.W * min (j + 1) F.maxIndex := Nat.mul_le_mul_left _ (by omega)
  omega

theorem uexp_anti [F.OK] {i j : Nat} (h : i ≤ j) : F.uexp j ≤ F.uexp i := by
  unfold uexp
  have : F.W * min i F.maxIndex ≤ F.W * min j F.maxIndex := Nat.mul_le_mul_left _ (by omega)
  omega

theorem uexp_lt [F.OK] {i k : Nat} (h : i < k) (hk : k ≤ F.maxIndex) : F.uexp k + F.W ≤ F.uexp i := by
  have ⟨h1, _⟩ := F.bfacts
  unfold uexp
  rw [Nat.min_eq_left hk, Nat.min_eq_left (by omega)]
  have : F.W * (i + 1) ≤ F.W * k := Nat.mul_le_mul_left _ h
  have h3 : F.W * k ≤ F.W * F.maxIndex := Nat.mul_le_mul_left _ hk
  rw [Nat.mul_add] at this
  omega

theorem uexp_emax [F.OK] {j : Nat} (h : 1 ≤ j) : F.uexp j < F.emax - 2 := by
  have ⟨h1, h2, h3, h4, h5, h6, h7, _⟩ := F.bfacts
  have : F.uexp j ≤ F.uexp 1 := uexp_anti h
  unfold uexp at this ⊢
  rw [Nat.min_eq_left (show 1 ≤ F.maxIndex by omega), Nat.mul_one] at this
  have ⟨hp, hW, hWp, _, he, he1, hb, het, _⟩ := F.facts
  omega

theorem sexp_le [F.OK] (j : Nat) : F.sexp j ≤ F.emax - 2 := by
  unfold sexp
  split
  · omega
  · exact Nat.le_of_lt (uexp_emax (by omega))

theorem sexp_pos {j : Nat} (h : 1 ≤ j) : F.sexp j = F.uexp j := by
  unfold sexp; rw [if_neg (by omega)]

theorem sexp_zero : F.sexp 0 = F.emax - 2 := by simp [sexp]

/-! ### index of a number -/

/-- `r` fits in bin `k`: it is less than half a unit of the bin before. -/
def Fits (F : Fmt) (r : Int) (k : Nat) : Prop := r.natAbs < 2 ^ (F.uexp k + F.W - 1)

theorem dindex_le_max [F.OK] (x : Flt) : F.dindex x ≤ F.maxIndex := by
  have ⟨h1, h2, h3, h4, h5, h6, h7, _⟩ := F.bfacts
  unfold dindex
  split
  · split
    · exact Nat.le_refl _
    · exact Nat.min_le_right _ _
  · refine Nat.le_trans (Nat.div_le_div_right ?_) h5
    omega

theorem dindex_upper [F.OK] {x : Flt} (hx : F.Finite x) :
    F.val x.mag < 2 ^ (F.eta + F.maxExp - F.W * F.dindex x) := by
  have ⟨hp, hW, hWp, _, he, he1, hb, het, _⟩ := F.facts
  have ⟨h1, h2, h3, h4, h5, h6, h7, _⟩ := F.bfacts
  have hmax := dindex_le_max (F := F) x
  have hmaxW : F.W * F.dindex x ≤ F.W * F.maxIndex := Nat.mul_le_mul_left _ hmax
  by_cases h0 : F.expo x = 0
  · have hs : x.mag < 2 ^ (F.p - 1) := by
      unfold expo at h0
      by_contra hc
      have := Nat.div_pos (Nat.not_lt.1 hc) (pow_pos' (F.p - 1))
      omega
    have hv : F.val x.mag = x.mag := val_small (by have := two_p (F := F); omega)
    rw [hv]
    by_cases hz : x.mag = 0
    · rw [hz]; exact pow_pos' _
    · have hi : F.W * F.dindex x ≤ F.maxExp + F.eta - (Nat.log2 x.mag + 1) := by
        have hle : F.dindex x ≤ (F.maxExp + F.eta - (Nat.log2 x.mag + 1)) / F.W := by
          unfold dindex
          rw [if_pos h0, if_neg (by simp [isZero, hz])]
          exact Nat.min_le_left _ _
        have := Nat.mul_le_mul_left F.W hle
        have := Nat.mul_div_le (F.maxExp + F.eta - (Nat.log2 x.mag + 1)) F.W
        omega
      have hl : Nat.log2 x.mag < F.p - 1 := by rw [Nat.log2_lt hz]; exact hs
      have h9 : x.mag < 2 ^ (Nat.log2 x.mag + 1) := Nat.lt_log2_self
      exact Nat.lt_of_lt_of_le h9 (Nat.pow_le_pow_right (by omega) (by omega))
  · obtain ⟨mant, e, d1, d2, d3, d4, d5, d6⟩ := val_decomp (F := F) x.mag
    have hex : F.expo x < F.emax := by
      unfold expo
      rw [Nat.div_lt_iff_lt_mul (pow_pos' _)]; exact hx
    have hv : F.val x.mag < 2 ^ (F.p + e) := by
      rw [d1, Nat.pow_add]; exact Nat.mul_lt_mul_of_pos_right d2 (pow_pos' e)
    refine Nat.lt_of_lt_of_le hv (Nat.pow_le_pow_right (by omega) ?_)
    have hi : F.W * F.dindex x ≤ F.maxExp + F.bias - F.expo x := by
      unfold dindex; rw [if_neg h0]; exact Nat.mul_div_le _ _
    have : e = F.expo x - 1 := d6
    omega

theorem dindex_lower [F.OK] {x : Flt} (hx : F.Finite x) (hk : F.dindex x < F.maxIndex) :
    2 ^ (F.eta + F.maxExp - F.W * (F.dindex x + 1)) ≤ F.val x.mag := by
  have ⟨hp, hW, hWp, _, he, he1, hb, het, _⟩ := F.facts
  have ⟨h1, h2, h3, h4, h5, h6, h7, _⟩ := F.bfacts
  have hWpos : 0 < F.W := by omega
  by_cases h0 : F.expo x = 0
  · have hs : x.mag < 2 ^ (F.p - 1) := by
      unfold expo at h0
      by_contra hc
      have := Nat.div_pos (Nat.not_lt.1 hc) (pow_pos' (F.p - 1))
      omega
    have hv : F.val x.mag = x.mag := val_small (by have := two_p (F := F); omega)
    by_cases hz : x.mag = 0
    · exfalso
      unfold dindex at hk
      rw [if_pos h0, if_pos (by simp [isZero, hz])] at hk
      omega
    · have hd : F.dindex x = (F.maxExp + F.eta - (Nat.log2 x.mag + 1)) / F.W := by
        unfold dindex at hk ⊢
        rw [if_pos h0, if_neg (by simp [isZero, hz])] at hk ⊢
        omega
      rw [hv]
      refine Nat.le_trans (Nat.pow_le_pow_right (by omega) ?_) (Nat.log2_self_le hz)
      have := Nat.lt_mul_div_succ (F.maxExp + F.eta - (Nat.log2 x.mag + 1)) hWpos
      rw [← hd] at this
      have hl : Nat.log2 x.mag < F.p - 1 := by rw [Nat.log2_lt hz]; exact hs
      omega
  · obtain ⟨mant, e, d1, d2, d3, d4, d5, d6⟩ := val_decomp (F := F) x.mag
    have hex : F.expo x < F.emax := by
      unfold expo
      rw [Nat.div_lt_iff_lt_mul (pow_pos' _)]; exact hx
    have hd : F.dindex x = (F.maxExp + F.bias - F.expo x) / F.W := by
      unfold dindex; rw [if_neg h0]
    have := Nat.lt_mul_div_succ (F.maxExp + F.bias - F.expo x) hWpos
    rw [← hd] at this
    have h8 : e = F.expo x - 1 := d6
    have hmant : 2 ^ (F.p - 1) ≤ mant := by
      rcases d3 with d3 | d3
      · subst d3
        have hq : F.expo x = 1 := by omega
        have : x.mag / 2 ^ (F.p - 1) = 1 := hq
        have hge : 2 ^ (F.p - 1) ≤ x.mag := by
          by_contra hc
          rw [Nat.div_eq_of_lt (by omega)] at this; omega
        have hlt : x.mag < 2 ^ F.p := by
          have := (Nat.div_lt_iff_lt_mul (pow_pos' (F.p - 1))).1 (show x.mag / 2 ^ (F.p - 1) < 2 by omega)
          have := two_p (F := F); omega
        rw [val_small hlt] at d1; simp at d1; omega
      · exact d3
    rw [d1]
    refine Nat.le_trans (Nat.pow_le_pow_right (by omega) (show _ ≤ F.p - 1 + e by omega)) ?_
    rw [Nat.pow_add]
    exact Nat.mul_le_mul_right _ hmant

theorem fits_dindex [F.OK] {x : Flt} (hx : F.Finite x) : F.Fits (F.toInt x) (F.dindex x) := by
  unfold Fits
  rw [toInt_natAbs]
  have h := dindex_upper (F := F) hx
  have hmax := dindex_le_max (F := F) x
  have ⟨h1, h2, h3, h4, h5, h6, h7, _⟩ := F.bfacts
  have ⟨hp, hW, hWp, _, he, he1, hb, het, _⟩ := F.facts
  have hmaxW : F.W * F.dindex x ≤ F.W * F.maxIndex := Nat.mul_le_mul_left _ hmax
  unfold uexp
  rw [Nat.min_eq_left hmax]
  have : F.eta + F.maxExp + 1 - F.W - F.W * F.dindex x + F.W - 1 = F.eta + F.maxExp - F.W * F.dindex x := by
    omega
  rw [this]; exact h

theorem fits_mono [F.OK] {r : Int} {i k : Nat} (h : i ≤ k) (hf : F.Fits r k) : F.Fits r i := by
  unfold Fits at *
  have := uexp_anti (F := F) h
  exact Nat.lt_of_lt_of_le hf (Nat.pow_le_pow_right (by omega) (by omega))

/-! ### residuals and slices -/

theorem resid_of_fits [F.OK] {r : Int} {k : Nat} (hk : k ≤ F.maxIndex) (hf : F.Fits r k) :
    ∀ j, j ≤ k → F.resid r j = r := by
  intro j
  induction j with
  | zero => intro _; rfl
  | succ j ih =>
    intro hj
    have h1 := ih (by omega)
    unfold resid
    rw [h1]
    have hu := uexp_lt (F := F) (show j < k by omega) hk
    have hge := uexp_ge (F := F) j
    have hz : rha r (F.uexp j) = 0 := by
      unfold Fits at hf
      have ⟨hp, hW, _⟩ := F.facts
      have h2 : 2 ^ (F.uexp k + F.W - 1) ≤ 2 ^ (F.uexp j - 1) := Nat.pow_le_pow_right (by omega) (by omega)
      have h3 : (2 : Int) ^ F.uexp j = 2 * 2 ^ (F.uexp j - 1) := by
        rw [← pow_succ']; congr 1; omega
      have h4 := cast_pow (F.uexp j - 1)
      apply rha_zero <;> omega
    rw [hz]; simp

theorem slice_of_fits [F.OK] {r : Int} {k : Nat} (hk : k ≤ F.maxIndex) (hf : F.Fits r k) :
    ∀ j, j < k → F.slice r j = 0 := by
  intro j hj
  unfold slice
  rw [resid_of_fits hk hf j (by omega)]
  have hu := uexp_lt (F := F) hj hk
  have hge := uexp_ge (F := F) j
  unfold Fits at hf
  have ⟨hp, hW, _⟩ := F.facts
  have h2 : 2 ^ (F.uexp k + F.W - 1) ≤ 2 ^ (F.uexp j - 1) := Nat.pow_le_pow_right (by omega) (by omega)
  have h3 : (2 : Int) ^ F.uexp j = 2 * 2 ^ (F.uexp j - 1) := by
    rw [← pow_succ']; congr 1; omega
  have h4 := cast_pow (F.uexp j - 1)
  apply rha_zero <;> omega

/-- bound on the remainder entering bin `j` -/
def RB (F : Fmt) (r : Int) (j : Nat) : Prop := (F.resid r j).natAbs ≤ 2 ^ (F.uexp j + F.W - 1)

theorem resid_succ_bound [F.OK] (r : Int) (j : Nat) :
    2 * (F.resid r (j + 1)) ≤ 2 ^ F.uexp j ∧ - 2 ^ F.uexp j ≤ 2 * F.resid r (j + 1) := by
  have hge := uexp_ge (F := F) j
  exact rha_rem (F.resid r j) (F.uexp j) (by omega)

theorem RB_succ [F.OK] (r : Int) (j : Nat) : F.RB r (j + 1) := by
  unfold RB
  have h := resid_succ_bound (F := F) r j
  have hge := uexp_ge (F := F) j
  have hs := uexp_succ_le (F := F) j
  have ⟨hp, hW, _⟩ := F.facts
  have h3 : (2 : Int) ^ F.uexp j = 2 * 2 ^ (F.uexp j - 1) := by
    rw [← pow_succ']; congr 1; omega
  have h4 := cast_pow (F.uexp j - 1)
  have : 2 ^ (F.uexp j - 1) ≤ 2 ^ (F.uexp (j + 1) + F.W - 1) := Nat.pow_le_pow_right (by omega) (by omega)
  omega

theorem RB_zero [F.OK] {r : Int} (hf : F.Fits r 0) : F.RB r 0 := by
  unfold RB resid; unfold Fits at hf; omega

theorem RB_all [F.OK] {r : Int} (hf : F.Fits r 0) (j : Nat) : F.RB r j := by
  cases j with
  | zero => exact RB_zero hf
  | succ j => exact RB_succ r j

theorem slice_le [F.OK] {r : Int} (hf : F.Fits r 0) (j : Nat) : (F.slice r j).natAbs ≤ 2 ^ (F.W - 1) := by
  have hge := uexp_ge (F := F) j
  have ⟨hp, hW, _⟩ := F.facts
  exact rha_le (by omega) (by omega) (RB_all hf j)

theorem fits0_finite [F.OK] {x : Flt} (hx : F.Finite x) : F.Fits (F.toInt x) 0 :=
  fits_mono (Nat.zero_le _) (fits_dindex hx)

/-! ### the slicing loop -/

theorem depositLoop_eq [F.OK] (r : Int) (hr : F.Fits r 0) : ∀ (fold k : Nat) (x : Flt) (B : Nat → Int),
    1 ≤ k → F.Finite x → F.toInt x = F.resid r k →
    (∀ j, k ≤ j → j < k + fold → F.Win (B j) ∧ F.Win (B j + F.slice r j)) →
    F.depositLoop x ((List.range' k fold).map (fun j => F.mkPri j (B j))) =
      (List.range' k fold).map (fun j => F.mkPri j (B j + F.slice r j)) := by
  intro fold
  induction fold with
  | zero => intro k x B _ _ _ _; rfl
  | succ n ih =>
    intro k x B hk hx ht hB
    have hge := uexp_ge (F := F) k
    have hw := hB k (by omega) (by omega)
    have hbd : (F.toInt x).natAbs ≤ 2 ^ (F.uexp k + F.W - 1) := by rw [ht]; exact RB_all hr k
    have hsl : rha (F.toInt x) (F.uexp k) = F.slice r k := by rw [ht]; rfl
    have hue : F.uexp k ≤ F.emax - 2 := Nat.le_of_lt (uexp_emax hk)
    have hpri : ∀ b, F.mkPri k b = F.mkF (F.uexp k) (3 * 2 ^ (F.p - 2) + b) := by
      intro b; rw [mkPri_eq, sexp_pos hk]
    have hst := step_eq (F := F) (u := F.uexp k) (by omega) hue hx hbd hw.1 (by rw [hsl]; exact hw.2)
    have hrem := step_rem (F := F) (u := F.uexp k) (by omega) hue hx hbd hw.1 (by rw [hsl]; exact hw.2)
    rw [hsl] at hst hrem
    rw [← hpri, ← hpri] at hst hrem
    cases n with
    | zero =>
      simp only [List.range'_succ, List.range'_zero, List.map_cons, List.map_nil, depositLoop]
      rw [hst.2]
    | succ n' =>
      have ih' := ih (k + 1) (F.add x (F.sub (F.mkPri k (B k)) (F.mkPri k (B k + F.slice r k)))) B
        (by omega) hrem.1 (by
          rw [hrem.2, ht]
          show _ = F.resid r k - rha (F.resid r k) (F.uexp k) * 2 ^ F.uexp k
          rfl) (fun j h1 h2 => hB j (by omega) (by omega))
      rw [List.range'_succ, List.map_cons, List.map_cons, ← ih', List.range'_succ, List.map_cons]
      simp only [depositLoop]
      rw [hst.1]

/-! ### multiplication by powers of two -/

theorem log2_mul_pow {n t : Nat} (hn : n ≠ 0) : Nat.log2 (n * 2 ^ t) = Nat.log2 n + t := by
  apply log2_eq
  · rw [Nat.pow_add]; exact Nat.mul_le_mul_right _ (Nat.log2_self_le hn)
  · have : Nat.log2 n + t + 1 = (Nat.log2 n + 1) + t := by omega
    rw [this, Nat.pow_add]
    exact Nat.mul_lt_mul_of_pos_right Nat.lt_log2_self (pow_pos' t)

theorem rne_scale (n s t : Nat) : rne (n * 2 ^ t) (s + t) = rne n s := by
  unfold rne
  have hT := pow_pos' t
  rw [Nat.pow_add, Nat.mul_div_mul_right _ _ hT, Nat.mul_mod_mul_right]
  have e1 : (2 * (n % 2 ^ s * 2 ^ t) > 2 ^ s * 2 ^ t) ↔ (2 * (n % 2 ^ s) > 2 ^ s) := by
    rw [← Nat.mul_assoc]
    exact Nat.mul_lt_mul_right hT
  have e2 : (2 * (n % 2 ^ s * 2 ^ t) = 2 ^ s * 2 ^ t) ↔ (2 * (n % 2 ^ s) = 2 ^ s) := by
    rw [← Nat.mul_assoc]
    exact Nat.mul_left_inj (by omega)
  simp only [e1, e2]

theorem roundMag_scale (n s t : Nat) : F.roundMag (n * 2 ^ t) (s + t) = F.roundMag n s := by
  by_cases hn : n = 0
  · subst hn
    have hz : ∀ s, rne 0 s = 0 := by
      intro s; unfold rne; simp
    unfold roundMag; simp [hz, Nat.log2_zero]
  · unfold roundMag
    rw [log2_mul_pow hn]
    have e : Nat.log2 n + t - (s + t + (F.p - 1)) = Nat.log2 n - (s + (F.p - 1)) := by omega
    rw [e]
    have e2 : s + t + (Nat.log2 n - (s + (F.p - 1))) = (s + (Nat.log2 n - (s + (F.p - 1)))) + t := by omega
    simp only [e2, rne_scale]

theorem mul_finite {x y : Flt} (hx : F.Finite x) (hy : F.Finite y) :
    F.mul x y = ⟨x.neg != y.neg, F.roundMag (F.val x.mag * F.val y.mag) F.eta⟩ := by
  have ⟨a, b⟩ := finite_iff.1 hx
  have ⟨c, d⟩ := finite_iff.1 hy
  unfold mul
  simp [a, b, c, d]

/-- Multiplying by a nonnegative power of two is exact when it does not overflow. -/
theorem mul_pow2_up [F.OK] {x y : Flt} {c : Nat} (hx : F.Finite x) (hy : F.Finite y) (hyn : y.neg = false)
    (hyv : F.val y.mag = 2 ^ (F.eta + c)) (hb : F.val x.mag * 2 ^ c < 2 ^ (F.p + F.emax - 2)) :
    F.Finite (F.mul x y) ∧ F.toInt (F.mul x y) = F.toInt x * 2 ^ c := by
  obtain ⟨mant, e, d1, d2, d3, d4, d5, d6⟩ := val_decomp (F := F) x.mag
  have e1 : F.val x.mag * 2 ^ (F.eta + c) = (F.val x.mag * 2 ^ c) * 2 ^ F.eta := by
    rw [Nat.pow_add]; ring
  rw [mul_finite hx hy, hyv, e1, hyn]
  have e2 : F.roundMag (F.val x.mag * 2 ^ c * 2 ^ F.eta) F.eta = F.roundMag (F.val x.mag * 2 ^ c) 0 := by
    have := roundMag_scale (F := F) (F.val x.mag * 2 ^ c) 0 F.eta
    rwa [Nat.zero_add] at this
  have e3 : F.val x.mag * 2 ^ c = mant * 2 ^ (e + c) := by rw [d1, Nat.pow_add]; ring
  rw [e2]
  rw [e3] at hb ⊢
  have ⟨r1, r2⟩ := roundMag_exact (F := F) d2 hb
  refine ⟨r1, ?_⟩
  unfold toInt
  simp only [r2, d1]
  cases x.neg <;> simp <;> ring

/-- Multiplying by a negative power of two is exact when nothing falls below the least subnormal. -/
theorem mul_pow2_down [F.OK] {x y : Flt} {c : Nat} (hc : c ≤ F.eta) (hx : F.Finite x) (hy : F.Finite y)
    (hyn : y.neg = false) (hyv : F.val y.mag = 2 ^ (F.eta - c)) {mant e : Nat}
    (hv : F.val x.mag = mant * 2 ^ (e + c)) (hm : mant < 2 ^ F.p) :
    F.Finite (F.mul x y) ∧ F.toInt (F.mul x y) * 2 ^ c = F.toInt x := by
  have e1 : F.val x.mag * 2 ^ (F.eta - c) = (mant * 2 ^ e) * 2 ^ F.eta := by
    have : 2 ^ F.eta = 2 ^ c * 2 ^ (F.eta - c) := two_pow_split hc
    rw [hv, this, Nat.pow_add]; ring
  rw [mul_finite hx hy, hyv, e1, hyn]
  have e2 : F.roundMag (mant * 2 ^ e * 2 ^ F.eta) F.eta = F.roundMag (mant * 2 ^ e) 0 := by
    have := roundMag_scale (F := F) (mant * 2 ^ e) 0 F.eta
    rwa [Nat.zero_add] at this
  rw [e2]
  have hlt := val_lt (F := F) hx
  have hb : mant * 2 ^ e < 2 ^ (F.p + F.emax - 2) := by
    refine Nat.lt_of_le_of_lt ?_ hlt
    rw [hv]; exact Nat.mul_le_mul_left _ (Nat.pow_le_pow_right (by omega) (by omega))
  have ⟨r1, r2⟩ := roundMag_exact (F := F) hm hb
  refine ⟨r1, ?_⟩
  unfold toInt
  simp only [r2, hv]
  cases x.neg <;> simp <;> ring

theorem rne_le (n t m : Nat) (h : n ≤ m * 2 ^ t) : rne n t ≤ m := by
  unfold rne
  have hT := pow_pos' t
  have hdm := Nat.div_add_mod n (2 ^ t)
  have hlt := Nat.mod_lt n hT
  generalize n / 2 ^ t = q at *
  generalize n % 2 ^ t = r at *
  generalize 2 ^ t = T at *
  dsimp only
  have hq : q ≤ m := by
    by_contra hc
    have : T * (m + 1) ≤ T * q := Nat.mul_le_mul_left _ (by omega)
    have : T * (m + 1) = m * T + T := by ring
    omega
  split
  · next hh =>
    by_contra hc
    have : q = m := by omega
    subst this
    have : T * q = q * T := by ring
    omega
  · exact hq

/-- A small number times a negative power of two stays small. -/
theorem mul_pow2_small [F.OK] {x y : Flt} {c : Nat} (hc : c ≤ F.eta) (hx : F.Finite x) (hy : F.Finite y)
    (hyv : F.val y.mag = 2 ^ (F.eta - c)) (hv : F.val x.mag < 2 ^ (F.p + c)) :
    F.Finite (F.mul x y) ∧ F.val (F.mul x y).mag ≤ 2 ^ F.p := by
  have ⟨hp, hW, hWp, _, he, he1, hb, het, _⟩ := F.facts
  rw [mul_finite hx hy, hyv]
  have e1 : F.roundMag (F.val x.mag * 2 ^ (F.eta - c)) F.eta = F.roundMag (F.val x.mag) c := by
    have := roundMag_scale (F := F) (F.val x.mag) c (F.eta - c)
    rwa [Nat.add_sub_cancel' hc] at this
  rw [e1]
  have hk : Nat.log2 (F.val x.mag) - (c + (F.p - 1)) = 0 := by
    by_cases h0 : F.val x.mag = 0
    · rw [h0]; simp
    · have := (Nat.log2_lt h0).2 hv
      omega
  have hr : F.roundMag (F.val x.mag) c ≤ 2 ^ F.p := by
    unfold roundMag
    simp only [hk, Nat.zero_mul, Nat.zero_add, Nat.add_zero]
    refine Nat.le_trans (Nat.min_le_left _ _) ?_
    apply rne_le
    rw [← Nat.pow_add]; omega
  refine ⟨?_, ?_⟩
  · show F.roundMag (F.val x.mag) c < F.infMag
    have := emax_big (F := F)
    omega
  · show F.val (F.roundMag (F.val x.mag) c) ≤ 2 ^ F.p
    rcases Nat.lt_or_eq_of_le hr with h | h
    · rw [val_small h]; omega
    · rw [h]
      have h2 := val_mk (F := F) (u := 1) (m := 2 ^ (F.p - 1)) (Nat.le_refl _) (by rw [two_p]; have := pow_pos' (F.p - 1); omega)
      have : 1 * 2 ^ (F.p - 1) + 2 ^ (F.p - 1) = 2 ^ F.p := by rw [two_p]; omega
      rw [this] at h2
      rw [h2, two_p]; omega

theorem pow2_val [F.OK] {e : Int} (h1 : 0 ≤ (F.eta : Int) + e) (h2 : (F.eta : Int) + e < F.p + F.emax - 2) :
    F.Finite (F.pow2 e) ∧ (F.pow2 e).neg = false ∧ F.val (F.pow2 e).mag = 2 ^ ((F.eta : Int) + e).toNat := by
  have ⟨hp, hW, hWp, _, he, he1, hb, het, _⟩ := F.facts
  have := roundMag_exact (F := F) (m := 1) (e := ((F.eta : Int) + e).toNat)
    (by have : 2 ^ 1 ≤ 2 ^ F.p := Nat.pow_le_pow_right (by omega) (by omega)
        omega)
    (by rw [Nat.one_mul]; exact Nat.pow_lt_pow_right (by omega) (by omega))
  rw [Nat.one_mul] at this
  exact ⟨this.1, rfl, this.2⟩

end Fmt
end Repro
