import Verif.Spec
import Verif.FloatLemmas
/-!
# Depositing a number adds its slices
-/

namespace Repro
namespace Fmt
variable {F : Fmt}

theorem two_p [F.OK] : 2 ^ F.p = 2 * 2 ^ (F.p - 1) := by
  have ⟨hp, _⟩ := F.facts
  rw [← Nat.pow_succ']; congr 1; omega

theorem two_p1 [F.OK] : 2 ^ (F.p - 1) = 2 * 2 ^ (F.p - 2) := by
  have ⟨hp, _⟩ := F.facts
  rw [← Nat.pow_succ']; congr 1; omega

theorem two_p2 [F.OK] : 2 ^ (F.p - 2) = 2 * 2 ^ (F.p - 3) := by
  have ⟨hp, _⟩ := F.facts
  rw [← Nat.pow_succ']; congr 1; omega

/-- casting powers of two -/
theorem cast_pow (a : Nat) : ((2 ^ a : Nat) : Int) = 2 ^ a := by push_cast; rfl

theorem ipow_pos (a : Nat) : (0 : Int) < 2 ^ a := by
  rw [← cast_pow]; exact_mod_cast pow_pos' a

/-! ### primaries as floats -/

/-- float with last-place exponent `u` and mantissa `m` -/
def mkF (F : Fmt) (u : Nat) (m : Int) : Flt := ⟨false, u * 2 ^ (F.p - 1) + m.toNat⟩

theorem mkF_toInt [F.OK] {u : Nat} {m : Int} (h1 : 2 ^ (F.p - 1) ≤ m) (h2 : m < 2 ^ F.p) :
    F.toInt (F.mkF u m) = m * 2 ^ u := by
  unfold toInt mkF
  have hm : 0 ≤ m := by have := ipow_pos (F.p - 1); omega
  have h1' : 2 ^ (F.p - 1) ≤ m.toNat := by
    zify; rw [Int.toNat_of_nonneg hm]; exact h1
  have h2' : m.toNat < 2 ^ F.p := by
    zify; rw [Int.toNat_of_nonneg hm]; exact h2
  simp only [Bool.false_eq_true, if_false]
  rw [val_mk h1' h2']
  push_cast; rw [Int.toNat_of_nonneg hm]

theorem mkF_finite [F.OK] {u : Nat} {m : Int} (hu : u ≤ F.emax - 2) (h2 : m < 2 ^ F.p) :
    F.Finite (F.mkF u m) := by
  have ⟨hp, _, _, _, he, _⟩ := F.facts
  unfold Finite mkF infMag
  dsimp only
  have h2' : m.toNat < 2 ^ F.p := by
    by_cases hm : 0 ≤ m
    · zify; rw [Int.toNat_of_nonneg hm]; exact h2
    · have := pow_pos' F.p; omega
  have : (u + 2) * 2 ^ (F.p - 1) ≤ F.emax * 2 ^ (F.p - 1) := Nat.mul_le_mul_right _ (by omega)
  have : (u + 2) * 2 ^ (F.p - 1) = u * 2 ^ (F.p - 1) + 2 * 2 ^ (F.p - 1) := by ring
  have := two_p (F := F)
  omega

/-- Adding `y`, which is closest to `s` units, to a primary moves it by exactly `s` units as long as
it stays in its binade. -/
theorem add_mkF [F.OK] {u : Nat} {m s : Int} {y : Flt} (hu : u ≤ F.emax - 2) (hy : F.Finite y)
    (h1 : 2 ^ (F.p - 1) ≤ m) (h2 : m < 2 ^ F.p)
    (h3 : 2 ^ (F.p - 1) < m + s) (h4 : m + s < 2 ^ F.p)
    (h5 : 2 * (F.toInt y - s * 2 ^ u) < 2 ^ u) (h6 : - 2 ^ u < 2 * (F.toInt y - s * 2 ^ u)) :
    F.add (F.mkF u m) y = F.mkF u (m + s) := by
  have hmf := mkF_finite (F := F) hu h2
  rw [add_finite hmf hy, mkF_toInt h1 h2]
  generalize F.toInt y = v at *
  have hU := ipow_pos u
  have hP := ipow_pos (F.p - 1)
  have hsum : (m + s) * 2 ^ u = m * 2 ^ u + s * 2 ^ u := by ring
  have hlo : (2 ^ (F.p - 1) + 1) * 2 ^ u ≤ (m + s) * 2 ^ u := by
    apply mul_le_mul_of_nonneg_right _ (le_of_lt hU); omega
  have hlo' : (2 ^ (F.p - 1) + 1 : Int) * 2 ^ u = 2 ^ (F.p - 1) * 2 ^ u + 2 ^ u := by ring
  have hhi : (m + s) * 2 ^ u ≤ (2 ^ F.p - 1) * 2 ^ u := by
    apply mul_le_mul_of_nonneg_right _ (le_of_lt hU); omega
  have hhi' : (2 ^ F.p - 1 : Int) * 2 ^ u = 2 ^ F.p * 2 ^ u - 2 ^ u := by ring
  have hPU : (0 : Int) < 2 ^ (F.p - 1) * 2 ^ u := mul_pos hP hU
  obtain ⟨t, ht⟩ : ∃ t, t = m * 2 ^ u + v := ⟨_, rfl⟩
  rw [← ht]
  have ht0 : 0 < t := by omega
  rw [if_neg (by omega)]
  have hneg : decide (t < 0) = false := by simp; omega
  rw [hneg]
  unfold mkF
  congr 1
  obtain ⟨n, hnn⟩ : ∃ n, t.natAbs = n := ⟨_, rfl⟩
  have hn : (n : Int) = t := by omega
  rw [hnn]
  obtain ⟨M, hM⟩ : ∃ M : Nat, (M : Int) = m + s := ⟨(m+s).toNat, by
    rw [Int.toNat_of_nonneg]; omega⟩
  have hMt : (m + s).toNat = M := by omega
  have hr : rne n u = M := by
    apply rne_near
    · zify; rw [hn, hM]; linarith
    · zify; rw [hn, hM]; linarith
  have e1 : 2 ^ (F.p - 1 + u) ≤ n := by
    zify; rw [hn, pow_add]; omega
  have e2 : n < 2 ^ (F.p + u) := by
    zify; rw [hn, pow_add]; omega
  rw [roundMag_normal e1 e2 hr, hMt]
  apply Nat.min_eq_left
  have := mkF_finite (F := F) (u := u) (m := m + s) hu h4
  unfold Finite mkF at this
  rw [hMt] at this
  exact Nat.le_of_lt this

theorem add_comm' (x y : Flt) (hx : F.Finite x) (hy : F.Finite y) : F.add x y = F.add y x := by
  rw [add_finite hx hy, add_finite hy hx, Int.add_comm, Bool.and_comm]

/-! ### the last-bit trick -/

theorem or1_finite [F.OK] {x : Flt} (hx : F.Finite x) : F.Finite (or1 x) := by
  unfold Finite or1 at *
  dsimp only
  have h1 : (x.mag ||| 1) / 2 = x.mag / 2 := by
    have := Nat.or_div_two_pow (a := x.mag) (b := 1) (n := 1)
    simpa using this
  have h2 : F.infMag = 2 * (F.emax * 2 ^ (F.p - 2)) := by
    rw [infMag_eq, two_p1]; ring
  omega

/-- Setting the last bit avoids ties: the closest multiple of `2^u` to `x|1` is `x` rounded half
away from zero, strictly. -/
theorem or1_near [F.OK] {x : Flt} {u : Nat} (hu : 2 ≤ u)
    (hb : F.val x.mag ≤ 2 ^ (u + F.W - 1)) :
    2 * (F.toInt (or1 x) - rha (F.toInt x) u * 2 ^ u) < 2 ^ u ∧
    - 2 ^ u < 2 * (F.toInt (or1 x) - rha (F.toInt x) u * 2 ^ u) := by
  have ⟨hp, hW, hWp, _⟩ := F.facts
  obtain ⟨mant, e, h1, h2, h3, h4, h5, h6⟩ := val_decomp (F := F) x.mag
  -- the last place of x is far below the unit
  have he : e + 2 ≤ u := by
    rcases h3 with h3 | h3
    · omega
    · have hh : 2 ^ (F.p - 1) * 2 ^ e ≤ 2 ^ (u + F.W - 1) := by
        refine Nat.le_trans (Nat.mul_le_mul_right _ h3) ?_
        rw [← h1]; exact hb
      rw [← Nat.pow_add] at hh
      have := (Nat.pow_le_pow_iff_right (by omega)).1 hh
      omega
  -- magnitude statement
  obtain ⟨a, ha⟩ : ∃ a, a = F.val x.mag := ⟨_, rfl⟩
  obtain ⟨b, hb'⟩ : ∃ b, b = F.val (x.mag ||| 1) := ⟨_, rfl⟩
  have key : 2 * ((b : Int) - ((a + 2 ^ (u - 1) : Int) / 2 ^ u) * 2 ^ u) < 2 ^ u ∧
      - 2 ^ u < 2 * ((b : Int) - ((a + 2 ^ (u - 1) : Int) / 2 ^ u) * 2 ^ u) := by
    obtain ⟨s, hs⟩ : ∃ s : Int, s = (a + 2 ^ (u - 1) : Int) / 2 ^ u := ⟨_, rfl⟩
    rw [← hs]
    have hU := ipow_pos u
    have hdm := Int.mul_ediv_add_emod (a + 2 ^ (u - 1) : Int) (2 ^ u)
    have hm0 := Int.emod_nonneg (a + 2 ^ (u - 1) : Int) (ne_of_gt hU)
    have hm1 := Int.emod_lt_of_pos (a + 2 ^ (u - 1) : Int) hU
    rw [← hs] at hdm
    generalize (a + 2 ^ (u - 1) : Int) % 2 ^ u = rr at *
    have hhalf : (2 : Int) ^ u = 2 * 2 ^ (u - 1) := by
      rw [← pow_succ']; congr 1; omega
    have hq : (2 : Int) ^ (u - 1) = 2 ^ (u - 1 - (e + 1)) * (2 * 2 ^ e) := by
      rw [← pow_succ', ← pow_add]; congr 1; omega
    generalize hT : (2 : Int) ^ (u - 1 - (e + 1)) = T at *
    have hE : (0 : Int) < 2 ^ e := ipow_pos e
    have hA : (a : Int) = mant * 2 ^ e := by rw [ha, h1]; push_cast; rfl
    have hB : (b : Int) = (mant + 1 - mant % 2 : Nat) * 2 ^ e := by rw [hb', h5]; push_cast; rfl
    rw [hhalf, hq] at hdm hm1 ⊢
    generalize (2 : Int) ^ e = E at *
    -- everything is a multiple of E
    have hr : rr = (mant + 2 * T - 4 * T * s) * E := by
      rw [hA] at hdm; linarith
    rw [hr] at hm0 hm1
    have q0 : 0 ≤ (mant : Int) + 2 * T - 4 * T * s := by
      by_contra hc
      have : ((mant : Int) + 2 * T - 4 * T * s) * E < 0 := mul_neg_of_neg_of_pos (by omega) hE
      omega
    have q1 : (mant : Int) + 2 * T - 4 * T * s < 4 * T := by
      by_contra hc
      have : (4 * T) * E ≤ ((mant : Int) + 2 * T - 4 * T * s) * E :=
        mul_le_mul_of_nonneg_right (by omega) (le_of_lt hE)
      have e3 : 2 * (T * (2 * E)) = (4 * T) * E := by ring
      omega
    -- parity
    obtain ⟨w, hw⟩ : ∃ w : Int, w = T * s := ⟨_, rfl⟩
    have e4 : 4 * T * s = 4 * w := by rw [hw]; ring
    rw [e4] at q0 q1
    have hB2 : 2 * ((b : Int) - s * (2 * (T * (2 * E)))) = (2 * (((mant + 1 - mant % 2 : Nat) : Int) - 4 * w)) * E := by
      rw [hB, hw]; ring
    have e5 : 2 * (T * (2 * E)) = (4 * T) * E := by ring
    rw [hB2, e5]
    have r1 : 2 * (((mant + 1 - mant % 2 : Nat) : Int) - 4 * w) < 4 * T := by omega
    have r2 : -(4 * T) < 2 * (((mant + 1 - mant % 2 : Nat) : Int) - 4 * w) := by omega
    constructor
    · exact mul_lt_mul_of_pos_right r1 hE
    · have := mul_lt_mul_of_pos_right r2 hE
      linarith
  unfold toInt or1 rha
  dsimp only
  rw [← ha, ← hb']
  cases hx : x.neg
  · simp only [Bool.false_eq_true, if_false]
    rw [if_pos (by omega)]
    exact key
  · simp only [if_true]
    by_cases h0 : a = 0
    · subst h0
      simp only [Nat.cast_zero, neg_zero, le_refl, if_true] at key ⊢
      have hz : (0 + 2 ^ (u - 1) : Int) / 2 ^ u = 0 := by
        apply Int.ediv_eq_zero_of_lt
        · have := ipow_pos (u - 1); omega
        · have : (2 : Int) ^ u = 2 * 2 ^ (u - 1) := by
            rw [← pow_succ']; congr 1; omega
          have := ipow_pos (u - 1); omega
      rw [hz] at key ⊢
      omega
    · rw [if_neg (by omega)]
      simp only [neg_neg]
      have e6 : 2 * (-(b : Int) - -((a + 2 ^ (u - 1) : Int) / 2 ^ u) * 2 ^ u) =
        - (2 * ((b : Int) - ((a + 2 ^ (u - 1) : Int) / 2 ^ u) * 2 ^ u)) := by ring
      rw [e6]; omega


/-! ### rounding half away from zero -/

theorem rha_neg (r : Int) (u : Nat) (hu : 1 ≤ u) : rha (-r) u = - rha r u := by
  unfold rha
  by_cases h0 : r = 0
  · subst h0
    simp only [neg_zero, le_refl, if_true, zero_add]
    have hz : (2 ^ (u - 1) : Int) / 2 ^ u = 0 := by
      have hpos := ipow_pos (u - 1)
      have : (2 : Int) ^ u = 2 * 2 ^ (u - 1) := by
        rw [← pow_succ']; congr 1; omega
      apply Int.ediv_eq_zero_of_lt <;> omega
    rw [hz]; rfl
  · by_cases h : 0 ≤ r
    · rw [if_neg (by omega), if_pos h]; simp
    · rw [if_pos (by omega), if_neg h]; simp

/-- the remainder is at most half a unit -/
theorem rha_rem (r : Int) (u : Nat) (hu : 1 ≤ u) :
    2 * (r - rha r u * 2 ^ u) ≤ 2 ^ u ∧ - 2 ^ u ≤ 2 * (r - rha r u * 2 ^ u) := by
  have hhalf : (2 : Int) ^ u = 2 * 2 ^ (u - 1) := by
    rw [← pow_succ']; congr 1; omega
  have hpos := ipow_pos (u - 1)
  have hU := ipow_pos u
  have key : ∀ a : Int, 2 * (a - (a + 2 ^ (u - 1)) / 2 ^ u * 2 ^ u) ≤ 2 ^ u ∧
      - 2 ^ u ≤ 2 * (a - (a + 2 ^ (u - 1)) / 2 ^ u * 2 ^ u) := by
    intro a
    have h1 := Int.ediv_mul_add_emod (a + 2 ^ (u - 1)) (2 ^ u)
    have h2 := Int.emod_nonneg (a + 2 ^ (u - 1)) (ne_of_gt hU)
    have h3 := Int.emod_lt_of_pos (a + 2 ^ (u - 1)) hU
    omega
  unfold rha
  split
  · exact key r
  · have := key (-r)
    have e : 2 * (r - -((-r + 2 ^ (u - 1)) / 2 ^ u) * 2 ^ u) =
      -(2 * (-r - (-r + 2 ^ (u - 1)) / 2 ^ u * 2 ^ u)) := by ring
    rw [e]; omega

theorem rha_zero {r : Int} {u : Nat} (hu : 1 ≤ u) (h1 : 2 * r < 2 ^ u) (h2 : - 2 ^ u < 2 * r) :
    rha r u = 0 := by
  have hU := ipow_pos u
  have hhalf : (2 : Int) ^ u = 2 * 2 ^ (u - 1) := by
    rw [← pow_succ']; congr 1; omega
  have hpos := ipow_pos (u - 1)
  unfold rha
  split
  · apply Int.ediv_eq_zero_of_lt <;> omega
  · rw [Int.ediv_eq_zero_of_lt] <;> omega

theorem rha_scale (r : Int) (u c : Nat) (hu : 1 ≤ u) : rha (r * 2 ^ c) (u + c) = rha r u := by
  have hC := ipow_pos c
  have e : ∀ a : Int, (a * 2 ^ c + 2 ^ (u + c - 1)) / 2 ^ (u + c) = (a + 2 ^ (u - 1)) / 2 ^ u := by
    intro a
    have e1 : (2 : Int) ^ (u + c - 1) = 2 ^ (u - 1) * 2 ^ c := by
      rw [← pow_add]; congr 1; omega
    rw [e1, ← add_mul, pow_add]
    exact Int.mul_ediv_mul_of_pos_left _ _ hC
  unfold rha
  by_cases h : 0 ≤ r
  · rw [if_pos (mul_nonneg h (le_of_lt hC)), if_pos h, e]
  · rw [if_neg, if_neg h, ← neg_mul, e]
    have := mul_neg_of_neg_of_pos (show r < 0 by omega) hC
    omega

/-- A remainder of at most half a unit of bin `u + W` gives at most `2^(W-1)` units of bin `u`. -/
theorem rha_le {r : Int} {u w : Nat} (hw : 1 ≤ w) (hu : 1 ≤ u) (h : r.natAbs ≤ 2 ^ (u + w - 1)) :
    (rha r u).natAbs ≤ 2 ^ (w - 1) := by
  have hU := ipow_pos u
  have hhalf : (2 : Int) ^ u = 2 * 2 ^ (u - 1) := by
    rw [← pow_succ']; congr 1; omega
  have hpos := ipow_pos (u - 1)
  have key : ∀ a : Int, 0 ≤ a → a ≤ 2 ^ (u + w - 1) →
      0 ≤ (a + 2 ^ (u - 1)) / 2 ^ u ∧ (a + 2 ^ (u - 1)) / 2 ^ u ≤ 2 ^ (w - 1) := by
    intro a h0 h1
    refine ⟨Int.ediv_nonneg (by omega) (le_of_lt hU), ?_⟩
    have : (2 : Int) ^ (u + w - 1) = 2 ^ (w - 1) * 2 ^ u := by
      rw [← pow_add]; congr 1; omega
    apply Int.le_of_lt_add_one
    apply Int.ediv_lt_of_lt_mul hU
    have : ((2 : Int) ^ (w - 1) + 1) * 2 ^ u = 2 ^ (w - 1) * 2 ^ u + 2 ^ u := by ring
    omega
  have hc : ((2 ^ (u + w - 1) : Nat) : Int) = 2 ^ (u + w - 1) := cast_pow _
  have hc2 : ((2 ^ (w - 1) : Nat) : Int) = 2 ^ (w - 1) := cast_pow _
  unfold rha
  split
  · have := key r (by omega) (by omega); omega
  · have := key (-r) (by omega) (by omega); omega

/-- If the slice is not zero the remainder is no larger than the number. -/
theorem rha_shrink {r : Int} {u : Nat} (hu : 1 ≤ u) : (r - rha r u * 2 ^ u).natAbs ≤ r.natAbs := by
  have h := rha_rem r u hu
  by_cases hb : 2 * r < 2 ^ u ∧ - 2 ^ u < 2 * r
  · rw [rha_zero hu hb.1 hb.2]; simp
  · have hU := ipow_pos u
    omega

/-- Half of it subtracted also stays below. -/
theorem rha_shrink_half {r : Int} {u : Nat} (hu : 1 ≤ u) :
    (r - rha r u * 2 ^ (u - 1)).natAbs ≤ r.natAbs := by
  have h := rha_rem r u hu
  have hhalf : (2 : Int) ^ u = 2 * 2 ^ (u - 1) := by
    rw [← pow_succ']; congr 1; omega
  by_cases hb : 2 * r < 2 ^ u ∧ - 2 ^ u < 2 * r
  · rw [rha_zero hu hb.1 hb.2]; simp
  · have hU := ipow_pos u
    have e : rha r u * 2 ^ u = 2 * (rha r u * 2 ^ (u - 1)) := by rw [hhalf]; ring
    rw [e] at h
    omega

/-! ### one slicing step -/

/-- Window of mantissa offsets in which a primary stays strictly inside its binade. -/
def Win (F : Fmt) (b : Int) : Prop := - 2 ^ (F.p - 2) < b ∧ b < 2 ^ (F.p - 2)

theorem win_mant [F.OK] {b : Int} (h : F.Win b) :
    2 ^ (F.p - 1) < (3 * 2 ^ (F.p - 2) + b : Int) ∧ (3 * 2 ^ (F.p - 2) + b : Int) < 2 ^ F.p := by
  have h1 : (2 : Int) ^ F.p = 2 * 2 ^ (F.p - 1) := by exact_mod_cast two_p (F := F)
  have h2 : (2 : Int) ^ (F.p - 1) = 2 * 2 ^ (F.p - 2) := by exact_mod_cast two_p1 (F := F)
  unfold Win at h
  omega

theorem mkPri_eq (F : Fmt) (j : Nat) (b : Int) : F.mkPri j b = F.mkF (F.sexp j) (3 * 2 ^ (F.p - 2) + b) := rfl

/-- exactness of the difference of two primaries of a bin -/
theorem sub_mkF [F.OK] {u : Nat} (hu : u ≤ F.emax - 2) {a b : Int} (ha : F.Win a) (hb : F.Win b) :
    F.Finite (F.sub (F.mkF u (3 * 2 ^ (F.p - 2) + a)) (F.mkF u (3 * 2 ^ (F.p - 2) + b))) ∧
    F.toInt (F.sub (F.mkF u (3 * 2 ^ (F.p - 2) + a)) (F.mkF u (3 * 2 ^ (F.p - 2) + b)))
      = (a - b) * 2 ^ u := by
  have ⟨hp, _, _, _, he, _⟩ := F.facts
  have wa := win_mant ha
  have wb := win_mant hb
  have ta := mkF_toInt (F := F) (u := u) (le_of_lt wa.1) wa.2
  have tb := mkF_toInt (F := F) (u := u) (le_of_lt wb.1) wb.2
  have hd : (3 * 2 ^ (F.p - 2) + a) * 2 ^ u - (3 * 2 ^ (F.p - 2) + b) * 2 ^ u = (a - b) * 2 ^ u := by ring
  have hna : (F.toInt (F.mkF u (3 * 2 ^ (F.p - 2) + a)) - F.toInt (F.mkF u (3 * 2 ^ (F.p - 2) + b))).natAbs
      = (a - b).natAbs * 2 ^ u := by
    rw [ta, tb, hd, Int.natAbs_mul]
    congr 1
  have hm : (a - b).natAbs < 2 ^ F.p := by
    have h1 : (2 : Int) ^ F.p = 2 * 2 ^ (F.p - 1) := by exact_mod_cast two_p (F := F)
    have h2 : (2 : Int) ^ (F.p - 1) = 2 * 2 ^ (F.p - 2) := by exact_mod_cast two_p1 (F := F)
    have h3 := cast_pow F.p
    unfold Win at ha hb
    omega
  have hbd : (a - b).natAbs * 2 ^ u < 2 ^ (F.p + F.emax - 2) := by
    have : (a - b).natAbs * 2 ^ u < 2 ^ F.p * 2 ^ u := Nat.mul_lt_mul_of_pos_right hm (pow_pos' u)
    rw [← Nat.pow_add] at this
    exact Nat.lt_of_lt_of_le this (Nat.pow_le_pow_right (by omega) (by omega))
  have := sub_exact (F := F) (mkF_finite hu wa.2) (mkF_finite hu wb.2) hna hm hbd
  rw [ta, tb, hd] at this
  exact this

theorem pow_dvd_rha_mul {e u : Nat} (h : e ≤ u) (s : Int) : (2 ^ e : Int) ∣ s * 2 ^ u :=
  Dvd.dvd.mul_left (pow_dvd_pow 2 h) s

/-- last place exponent of a number bounded relative to the unit `2^u` -/
theorem lastplace [F.OK] {x : Flt} {u : Nat} (hb : F.val x.mag ≤ 2 ^ (u + F.W - 1)) :
    ∃ mant e, F.val x.mag = mant * 2 ^ e ∧ mant < 2 ^ F.p ∧ e ≤ u - 2 := by
  have ⟨hp, hW, hWp, _⟩ := F.facts
  obtain ⟨mant, e, h1, h2, h3, h4, h5, h6⟩ := val_decomp (F := F) x.mag
  refine ⟨mant, e, h1, h2, ?_⟩
  rcases h3 with h3 | h3
  · omega
  · have hh : 2 ^ (F.p - 1) * 2 ^ e ≤ 2 ^ (u + F.W - 1) := by
      refine Nat.le_trans (Nat.mul_le_mul_right _ h3) ?_
      rw [← h1]; exact hb
    rw [← Nat.pow_add] at hh
    have := (Nat.pow_le_pow_iff_right (by omega)).1 hh
    omega

theorem dvd_toInt {x : Flt} {mant e : Nat} (h : F.val x.mag = mant * 2 ^ e) :
    (2 ^ e : Int) ∣ F.toInt x := by
  unfold toInt
  rw [h]
  split
  · push_cast; exact Int.dvd_neg.2 (Dvd.intro_left _ rfl)
  · push_cast; exact Dvd.intro_left _ rfl

/-- One step of the slicing loop. -/
theorem step_eq [F.OK] {u : Nat} (hu2 : 2 ≤ u) (hue : u ≤ F.emax - 2) {x : Flt} (hx : F.Finite x)
    (hb : (F.toInt x).natAbs ≤ 2 ^ (u + F.W - 1)) {b : Int} (hw : F.Win b)
    (hw' : F.Win (b + rha (F.toInt x) u)) :
    F.add (or1 x) (F.mkF u (3 * 2 ^ (F.p - 2) + b)) = F.mkF u (3 * 2 ^ (F.p - 2) + (b + rha (F.toInt x) u)) ∧
    F.add (F.mkF u (3 * 2 ^ (F.p - 2) + b)) (or1 x) = F.mkF u (3 * 2 ^ (F.p - 2) + (b + rha (F.toInt x) u)) := by
  rw [toInt_natAbs] at hb
  have wm := win_mant hw
  have wm' := win_mant hw'
  have ho := or1_finite hx
  have hn := or1_near (F := F) hu2 hb
  have hadd : F.add (F.mkF u (3 * 2 ^ (F.p - 2) + b)) (or1 x) =
      F.mkF u (3 * 2 ^ (F.p - 2) + (b + rha (F.toInt x) u)) := by
    have := add_mkF (F := F) (u := u) (m := 3 * 2 ^ (F.p - 2) + b) (s := rha (F.toInt x) u) hue ho
      (le_of_lt wm.1) wm.2 (by rw [add_assoc]; exact wm'.1) (by rw [add_assoc]; exact wm'.2) hn.1 hn.2
    rw [this, add_assoc]
  exact ⟨by rw [add_comm' _ _ ho (mkF_finite hue wm.2)]; exact hadd, hadd⟩

/-- The remainder passed on by one step of the slicing loop. -/
theorem step_rem [F.OK] {u : Nat} (hu2 : 2 ≤ u) (hue : u ≤ F.emax - 2) {x : Flt} (hx : F.Finite x)
    (hb : (F.toInt x).natAbs ≤ 2 ^ (u + F.W - 1)) {b : Int} (hw : F.Win b)
    (hw' : F.Win (b + rha (F.toInt x) u)) :
    F.Finite (F.add x (F.sub (F.mkF u (3 * 2 ^ (F.p - 2) + b))
        (F.mkF u (3 * 2 ^ (F.p - 2) + (b + rha (F.toInt x) u))))) ∧
    F.toInt (F.add x (F.sub (F.mkF u (3 * 2 ^ (F.p - 2) + b))
        (F.mkF u (3 * 2 ^ (F.p - 2) + (b + rha (F.toInt x) u))))) =
      F.toInt x - rha (F.toInt x) u * 2 ^ u := by
  have hbv := hb
  rw [toInt_natAbs] at hbv
  obtain ⟨hf, ht⟩ := sub_mkF (F := F) hue hw hw'
  have e1 : (b - (b + rha (F.toInt x) u)) * 2 ^ u = - (rha (F.toInt x) u * 2 ^ u) := by ring
  rw [e1] at ht
  obtain ⟨mant, e, h1, h2, h3⟩ := lastplace (F := F) hbv
  have hs : F.toInt x + F.toInt (F.sub (F.mkF u (3 * 2 ^ (F.p - 2) + b))
        (F.mkF u (3 * 2 ^ (F.p - 2) + (b + rha (F.toInt x) u)))) =
      F.toInt x - rha (F.toInt x) u * 2 ^ u := by rw [ht]; ring
  obtain ⟨m, hm1, hm2, hm3⟩ := repr_of_le (F := F) hx
    (n := F.toInt x - rha (F.toInt x) u * 2 ^ u) h1 h2
    (Int.dvd_sub (dvd_toInt h1) (pow_dvd_rha_mul (by omega) _))
    (by rw [← toInt_natAbs]; exact rha_shrink (by omega))
  have := add_exact (F := F) hx hf (m := m) (e := e) (by rw [hs]; exact hm1) hm2 hm3
  rw [hs] at this
  exact this

end Fmt
end Repro
