import Verif.Round
/-!
# Rounding of integers to `p` significant bits, and exactness of the floating point operations
-/

namespace Repro

/-- `n` rounded to `p` significant bits, nearest, ties to even (no bound on the exponent). -/
def rndZ (p : Nat) (n : Int) : Int :=
  n.sign * ((Fmt.rne n.natAbs (Nat.log2 n.natAbs - (p - 1)) * 2 ^ (Nat.log2 n.natAbs - (p - 1)) : Nat) : Int)

namespace Fmt
variable {F : Fmt}

theorem rndZ_zero (p : Nat) : rndZ p 0 = 0 := by simp [rndZ]

theorem rndZ_neg (p : Nat) (n : Int) : rndZ p (-n) = - rndZ p n := by
  unfold rndZ; rw [Int.natAbs_neg, Int.sign_neg, Int.neg_mul]

theorem rndZ_natAbs (p : Nat) (n : Int) : (rndZ p n).natAbs =
    rne n.natAbs (Nat.log2 n.natAbs - (p - 1)) * 2 ^ (Nat.log2 n.natAbs - (p - 1)) := by
  by_cases h : n = 0
  · subst h; simp [rndZ, rne]
  · unfold rndZ
    rw [Int.natAbs_mul, Int.natAbs_sign_of_ne_zero h, Int.natAbs_natCast, Nat.one_mul]

theorem val_strict [F.OK] {m n : Nat} (h : m < n) : F.val m < F.val n := by
  have hP := pow_pos' (F.p - 1)
  have e : ∀ a : Nat, F.val a = if a / 2 ^ (F.p - 1) = 0 then a % 2 ^ (F.p - 1)
      else (2 ^ (F.p - 1) + a % 2 ^ (F.p - 1)) * 2 ^ (a / 2 ^ (F.p - 1) - 1) := by
    intro a
    unfold val
    by_cases ha : a < 2 ^ (F.p - 1)
    · rw [if_pos ha, if_pos (Nat.div_eq_of_lt ha), Nat.mod_eq_of_lt ha]
    · rw [if_neg ha, if_neg]
      have := Nat.div_pos (Nat.le_of_not_lt ha) hP
      omega
  have hm := Nat.div_add_mod m (2 ^ (F.p - 1))
  have hn := Nat.div_add_mod n (2 ^ (F.p - 1))
  have rm := Nat.mod_lt m hP
  have rn := Nat.mod_lt n hP
  have hq : m / 2 ^ (F.p - 1) ≤ n / 2 ^ (F.p - 1) := Nat.div_le_div_right (Nat.le_of_lt h)
  rw [e m, e n]
  generalize m / 2 ^ (F.p - 1) = qm at *
  generalize n / 2 ^ (F.p - 1) = qn at *
  by_cases heq : qm = qn
  · subst heq
    have : m % 2 ^ (F.p - 1) < n % 2 ^ (F.p - 1) := by omega
    split
    · exact this
    · exact (Nat.mul_lt_mul_right (pow_pos' _)).2 (by omega)
  · have hn0 : qn ≠ 0 := by omega
    rw [if_neg hn0]
    have hbig : 2 ^ (F.p - 1) * 2 ^ (qn - 1) ≤ (2 ^ (F.p - 1) + n % 2 ^ (F.p - 1)) * 2 ^ (qn - 1) := Nat.mul_le_mul_right _ (by omega)
    split
    · have : 2 ^ (F.p - 1) * 1 ≤ 2 ^ (F.p - 1) * 2 ^ (qn - 1) := Nat.mul_le_mul_left _ (pow_pos' _)
      omega
    · have h1 : (2 ^ (F.p - 1) + m % 2 ^ (F.p - 1)) * 2 ^ (qm - 1) < (2 * 2 ^ (F.p - 1)) * 2 ^ (qm - 1) := (Nat.mul_lt_mul_right (pow_pos' _)).2 (by omega)
      have h2 : (2 * 2 ^ (F.p - 1)) * 2 ^ (qm - 1) = 2 ^ (F.p - 1) * 2 ^ qm := by
        have : 2 ^ qm = 2 * 2 ^ (qm - 1) := by rw [← Nat.pow_succ']; congr 1; omega
        rw [this]; ring
      have h3 : 2 ^ (F.p - 1) * 2 ^ qm ≤ 2 ^ (F.p - 1) * 2 ^ (qn - 1) := Nat.mul_le_mul_left _ (Nat.pow_le_pow_right (by omega) (by omega))
      omega

/-- Rounding commutes with multiplication by a power of two. -/
theorem rndZ_scale (p : Nat) (n : Int) (t : Nat) : rndZ p (n * 2 ^ t) = rndZ p n * 2 ^ t := by
  by_cases h : n = 0
  · subst h; simp [rndZ_zero]
  have ha : n.natAbs ≠ 0 := by omega
  have en : (n * 2 ^ t).natAbs = n.natAbs * 2 ^ t := by
    rw [Int.natAbs_mul, Int.natAbs_pow]; rfl
  have es : (n * 2 ^ t).sign = n.sign := by
    rw [Int.sign_mul, Int.sign_eq_one_of_pos (ipow_pos t), mul_one]
  unfold rndZ
  rw [en, es, log2_mul_pow ha, mul_assoc]
  congr 1
  have key : rne (n.natAbs * 2 ^ t) (Nat.log2 n.natAbs + t - (p - 1)) * 2 ^ (Nat.log2 n.natAbs + t - (p - 1)) =
      rne n.natAbs (Nat.log2 n.natAbs - (p - 1)) * 2 ^ (Nat.log2 n.natAbs - (p - 1)) * 2 ^ t := by
    by_cases hp : p - 1 ≤ Nat.log2 n.natAbs
    · have e : Nat.log2 n.natAbs + t - (p - 1) = (Nat.log2 n.natAbs - (p - 1)) + t := by omega
      rw [e, rne_scale, Nat.pow_add]; ring
    · have e0 : Nat.log2 n.natAbs - (p - 1) = 0 := by omega
      rw [e0, rne_zero_shift, Nat.pow_zero, Nat.mul_one]
      have hle : Nat.log2 n.natAbs + t - (p - 1) ≤ t := by omega
      have e1 : n.natAbs * 2 ^ t = (n.natAbs * 2 ^ (t - (Nat.log2 n.natAbs + t - (p - 1)))) * 2 ^ (Nat.log2 n.natAbs + t - (p - 1)) := by
        rw [Nat.mul_assoc, ← Nat.pow_add]; congr 2; omega
      conv_lhs => rw [e1]
      rw [rne_exact, ← e1]
  exact_mod_cast key

/-- Numbers with at most `p` significant bits are not changed. -/
theorem rndZ_exact {p : Nat} (hp : 1 ≤ p) {n : Int} {m e : Nat} (h : n.natAbs = m * 2 ^ e) (hm : m < 2 ^ p) : rndZ p n = n := by
  have hd : ∃ c : Int, n = c * 2 ^ e ∧ c.natAbs = m := by
    by_cases h0 : 0 ≤ n
    · refine ⟨m, ?_, by simp⟩
      have : (n.natAbs : Int) = n := Int.natAbs_of_nonneg h0
      rw [← this, h]; push_cast; ring
    · refine ⟨-m, ?_, by simp⟩
      have : (n.natAbs : Int) = -n := by omega
      have h2 : (n.natAbs : Int) = m * 2 ^ e := by rw [h]; push_cast; ring
      rw [neg_mul, ← h2, this]; ring
  obtain ⟨c, hc, hcm⟩ := hd
  rw [hc, rndZ_scale]
  congr 1
  unfold rndZ
  have hl : Nat.log2 c.natAbs ≤ p - 1 := by
    by_cases h0 : c.natAbs = 0
    · rw [h0]; simp
    · have := (Nat.log2_lt h0 (k := p)).2 (by omega)
      omega
  have e0 : Nat.log2 c.natAbs - (p - 1) = 0 := by omega
  rw [e0, rne_zero_shift, Nat.pow_zero, Nat.mul_one]
  exact Int.sign_mul_natAbs c

theorem rndZ_rk [F.OK] (n : Int) : (rndZ F.p n).natAbs = rne n.natAbs (0 + F.rk n.natAbs 0) * 2 ^ F.rk n.natAbs 0 := by
  rw [rndZ_natAbs]; unfold rk; simp only [Nat.zero_add]

/-- The magnitude bits of a rounded number. -/
theorem roundMag_rndZ [F.OK] {n : Int} (hb : (rndZ F.p n).natAbs < 2 ^ (F.p + F.emax - 2)) :
    F.roundMag n.natAbs 0 < F.infMag ∧ F.val (F.roundMag n.natAbs 0) = (rndZ F.p n).natAbs := by
  have h := round_val (F := F) n.natAbs 0
  rw [← rndZ_rk] at h
  have hlt : F.rk n.natAbs 0 * 2 ^ (F.p - 1) + rne n.natAbs (0 + F.rk n.natAbs 0) < F.infMag := by
    by_contra hc
    have := val_mono (F := F) (m := F.infMag) (n := F.rk n.natAbs 0 * 2 ^ (F.p - 1) + rne n.natAbs (0 + F.rk n.natAbs 0)) (by omega)
    have ⟨hp, _, _, _, he, _⟩ := F.facts
    have hi : F.val F.infMag = 2 ^ (F.p + F.emax - 2) := by
      have e : F.infMag = (F.emax - 1) * 2 ^ (F.p - 1) + 2 ^ (F.p - 1) := by
        rw [infMag_eq, ← Nat.succ_mul]; congr 1; omega
      have hp2 := two_p (F := F)
      have := pow_pos' (F.p - 1)
      rw [e, val_mk (Nat.le_refl _) (by omega), ← Nat.pow_add]
      congr 1; omega
    omega
  rw [roundMag_def, Nat.min_eq_left (Nat.le_of_lt hlt)]
  exact ⟨hlt, h⟩

theorem roundMag_overflow [F.OK] {n : Int} (hb : 2 ^ (F.p + F.emax - 2) ≤ (rndZ F.p n).natAbs) :
    F.roundMag n.natAbs 0 = F.infMag := by
  have h := round_val (F := F) n.natAbs 0
  rw [← rndZ_rk] at h
  rw [roundMag_def]
  apply Nat.min_eq_right
  by_contra hc
  have := val_lt (F := F) (m := F.rk n.natAbs 0 * 2 ^ (F.p - 1) + rne n.natAbs (0 + F.rk n.natAbs 0)) (by omega)
  omega

theorem rndZ_eq_zero [F.OK] {n : Int} : rndZ F.p n = 0 ↔ n = 0 := by
  have ⟨hp, _⟩ := F.facts
  constructor
  · intro h
    by_contra hn
    have h0 : (rndZ F.p n).natAbs = 0 := by rw [h]; rfl
    rw [rndZ_rk] at h0
    have hpos := pow_pos' (F.rk n.natAbs 0)
    rcases Nat.mul_eq_zero.1 h0 with h1 | h1
    · by_cases hk : 0 < F.rk n.natAbs 0
      · have := (rk_rne (F := F) n.natAbs 0).2 hk
        have := pow_pos' (F.p - 1)
        omega
      · have hk0 : F.rk n.natAbs 0 = 0 := by omega
        rw [hk0, rne_zero_shift] at h1; omega
    · omega
  · intro h; rw [h, rndZ_zero]

theorem rndZ_sign [F.OK] (n : Int) : (rndZ F.p n < 0 ↔ n < 0) := by
  have key : ∀ m : Int, 0 < m → 0 < rndZ F.p m := by
    intro m hm
    have h1 : rndZ F.p m ≠ 0 := fun h => by have := rndZ_eq_zero.1 h; omega
    have h2 : 0 ≤ rndZ F.p m := by
      unfold rndZ; rw [Int.sign_eq_one_of_pos hm]; simp only [one_mul]; exact Int.natCast_nonneg _
    omega
  constructor
  · intro h
    by_contra hc
    by_cases h0 : n = 0
    · rw [h0, rndZ_zero] at h; omega
    · have := key n (by omega); omega
  · intro h
    have := key (-n) (by omega)
    rw [rndZ_neg] at this; omega

/-- Rounding stays below representable bounds. -/
theorem rndZ_le [F.OK] {n : Int} {m e : Nat} (hm : m < 2 ^ F.p) (h : n.natAbs ≤ m * 2 ^ e) : (rndZ F.p n).natAbs ≤ m * 2 ^ e := by
  have hp : 1 ≤ F.p := by have ⟨hp, _⟩ := F.facts; omega
  have e1 : rndZ F.p (m * 2 ^ e : Int) = (m * 2 ^ e : Int) := rndZ_exact hp (m := m) (e := e) (by rw [Int.natAbs_mul, Int.natAbs_pow]; rfl) hm
  -- monotonicity, through the unbounded patterns
  have h1 := round_val (F := F) n.natAbs 0
  have h2 := round_val (F := F) (m * 2 ^ e) 0
  rw [← rndZ_rk] at h1
  have h3 : (rndZ F.p (m * 2 ^ e : Int)).natAbs = rne (m * 2 ^ e) (0 + F.rk (m * 2 ^ e) 0) * 2 ^ F.rk (m * 2 ^ e) 0 := by
    rw [rndZ_rk]
    have : ((m : Int) * 2 ^ e).natAbs = m * 2 ^ e := by rw [Int.natAbs_mul, Int.natAbs_pow]; rfl
    rw [this]
  rw [← h3, e1] at h2
  have h4 : ((m : Int) * 2 ^ e).natAbs = m * 2 ^ e := by rw [Int.natAbs_mul, Int.natAbs_pow]; rfl
  rw [h4] at h2
  rw [← h1, ← h2]
  apply val_mono
  have hk := rk_mono (F := F) (s := 0) h
  by_cases he : F.rk n.natAbs 0 = F.rk (m * 2 ^ e) 0
  · rw [he]; have := rne_mono (t := 0 + F.rk (m * 2 ^ e) 0) h; omega
  · have h1 := (rk_rne (F := F) n.natAbs 0).1
    have h2 := (rk_rne (F := F) (m * 2 ^ e) 0).2 (by omega)
    have hp2 := two_p (F := F)
    have h3 : (F.rk n.natAbs 0 + 1) * 2 ^ (F.p - 1) ≤ F.rk (m * 2 ^ e) 0 * 2 ^ (F.p - 1) := Nat.mul_le_mul_right _ (by omega)
    rw [Nat.add_mul, Nat.one_mul] at h3
    omega

/-- The rounding error is at most half a unit in the last place. -/
theorem rndZ_err [F.OK] {n : Int} {e : Nat} (h : n.natAbs ≤ 2 ^ (F.p + e)) : 2 * (rndZ F.p n - n).natAbs ≤ 2 ^ e := by
  have ⟨hp, _⟩ := F.facts
  by_cases hn : n.natAbs = 2 ^ (F.p + e)
  · have : rndZ F.p n = n := rndZ_exact (by omega) (m := 1) (e := F.p + e) (by omega) (Nat.one_lt_two_pow (by omega))
    rw [this]; simp
  have e2 : (rndZ F.p n - n).natAbs = (((rndZ F.p n).natAbs : Int) - n.natAbs).natAbs := by
    have := rndZ_sign (F := F) n
    have := rndZ_eq_zero (F := F) (n := n)
    omega
  rw [e2, rndZ_rk]
  have h1 := rne_err n.natAbs (0 + F.rk n.natAbs 0)
  simp only [Nat.zero_add] at h1 ⊢
  have hk : F.rk n.natAbs 0 ≤ e := by
    unfold rk
    by_cases h0 : n.natAbs = 0
    · rw [h0]; simp
    · have := (Nat.log2_lt h0 (k := F.p + e)).2 (by omega)
      omega
  have := Nat.pow_le_pow_right (n := 2) (by omega) hk
  omega

/-- A finite number known by its exact value; a zero is a positive zero. -/
def Good (F : Fmt) (x : Flt) (a : Int) : Prop := F.Finite x ∧ F.toInt x = a ∧ (a = 0 → x.neg = false)

theorem good_zero [F.OK] : F.Good zero 0 := ⟨zero_finite, by unfold toInt zero; simp [val], fun _ => rfl⟩

/-- Addition is the rounded sum. -/
theorem add_good [F.OK] {x t : Flt} {a : Int} (hx : F.Good x a) (ht : F.Finite t)
    (hb : (rndZ F.p (a + F.toInt t)).natAbs < 2 ^ (F.p + F.emax - 2)) :
    F.Good (F.add x t) (rndZ F.p (a + F.toInt t)) := by
  obtain ⟨h1, h2, h3⟩ := hx
  unfold Good
  rw [add_finite h1 ht, h2]
  by_cases hs : a + F.toInt t = 0
  · rw [if_pos hs, hs, rndZ_zero]
    refine ⟨?_, ?_, ?_⟩
    · exact Nat.lt_of_le_of_lt (Nat.zero_le _) emax_big
    · unfold toInt; dsimp only
      have : F.val 0 = 0 := val_eq_zero.2 rfl
      rw [this]; split <;> simp
    · intro _
      dsimp only
      by_cases ha : a = 0
      · rw [h3 ha]; rfl
      · have hta : F.toInt t = -a := by omega
        cases hxn : x.neg with
        | false => rfl
        | true =>
          cases htn : t.neg with
          | false => rfl
          | true =>
            exfalso
            have e1 : F.toInt x ≤ 0 := by unfold toInt; rw [hxn]; simp
            have e2 : F.toInt t ≤ 0 := by unfold toInt; rw [htn]; simp
            omega
  · rw [if_neg hs]
    have hr := roundMag_rndZ (F := F) hb
    have hsg := rndZ_sign (F := F) (a + F.toInt t)
    refine ⟨hr.1, ?_, ?_⟩
    · show (if decide (a + F.toInt t < 0) = true then -((F.val (F.roundMag (a + F.toInt t).natAbs 0) : Nat) : Int) else ((F.val (F.roundMag (a + F.toInt t).natAbs 0) : Nat) : Int)) = _
      rw [hr.2]
      by_cases hn : a + F.toInt t < 0
      · have := hsg.2 hn
        simp only [hn, decide_true, if_true]; omega
      · have := mt hsg.1 hn
        simp only [hn, decide_false]; simp; omega
    · intro h0
      exact absurd (rndZ_eq_zero.1 h0) hs

/-- If the sum overflows the result is the infinity of its sign. -/
theorem add_overflow [F.OK] {x t : Flt} {a : Int} (hx : F.Good x a) (ht : F.Finite t)
    (hb : 2 ^ (F.p + F.emax - 2) ≤ (rndZ F.p (a + F.toInt t)).natAbs) :
    F.add x t = F.inf (decide (a + F.toInt t < 0)) := by
  obtain ⟨h1, h2, h3⟩ := hx
  have hs : a + F.toInt t ≠ 0 := by
    intro h; rw [h, rndZ_zero] at hb
    have := pow_pos' (F.p + F.emax - 2)
    simp at hb
  rw [add_finite h1 ht, h2, if_neg hs, roundMag_overflow hb]; rfl

/-- Two finite numbers with the same exact value and positive zeros are the same. -/
theorem good_unique [F.OK] {x y : Flt} {a : Int} (hx : F.Good x a) (hy : F.Good y a) : x = y := by
  obtain ⟨x1, x2, x3⟩ := hx
  obtain ⟨y1, y2, y3⟩ := hy
  have inj : ∀ m n : Nat, F.val m = F.val n → m = n := by
    have lt : ∀ m n : Nat, m < n → F.val m < F.val n := fun m n h => val_strict h
    intro m n h
    rcases Nat.lt_trichotomy m n with h1 | h1 | h1
    · have := lt _ _ h1; omega
    · exact h1
    · have := lt _ _ h1; omega
  have hv : F.val x.mag = F.val y.mag := by rw [← toInt_natAbs, ← toInt_natAbs, x2, y2]
  have hm := inj _ _ hv
  have hneg : x.neg = y.neg := by
    by_cases ha : a = 0
    · rw [x3 ha, y3 ha]
    · unfold toInt at x2 y2
      cases hxn : x.neg <;> cases hyn : y.neg <;> rw [hxn] at x2 <;> rw [hyn] at y2 <;> simp at x2 y2 <;> first | rfl | omega
  cases x; cases y; simp_all

/-- The number nearest to `n` units (ties to even; overflow to infinity; zero is positive). -/
def ofUnits (F : Fmt) (n : Int) : Flt := ⟨decide (n < 0), F.roundMag n.natAbs 0⟩

theorem ofUnits_good [F.OK] {n : Int} (hb : (rndZ F.p n).natAbs < 2 ^ (F.p + F.emax - 2)) : F.Good (F.ofUnits n) (rndZ F.p n) := by
  have hr := roundMag_rndZ (F := F) hb
  have hsg := rndZ_sign (F := F) n
  refine ⟨hr.1, ?_, ?_⟩
  · unfold toInt ofUnits; dsimp only
    rw [hr.2]
    by_cases hn : n < 0
    · have := hsg.2 hn
      simp only [hn, decide_true, if_true]; omega
    · have := mt hsg.1 hn
      simp only [hn, decide_false]; simp; omega
  · intro h0
    have := rndZ_eq_zero.1 h0
    unfold ofUnits; subst this; rfl

theorem rndZ_idem [F.OK] (n : Int) : rndZ F.p (rndZ F.p n) = rndZ F.p n := by
  have ⟨hp, _⟩ := F.facts
  have h := rndZ_rk (F := F) n
  have hb := (rk_rne (F := F) n.natAbs 0).1
  by_cases he : rne n.natAbs (0 + F.rk n.natAbs 0) = 2 ^ F.p
  · rw [he, ← Nat.pow_add] at h
    exact rndZ_exact (by omega) (m := 1) (e := F.p + F.rk n.natAbs 0) (by omega) (Nat.one_lt_two_pow (by omega))
  · exact rndZ_exact (by omega) h (by omega)

theorem ofUnits_rndZ [F.OK] (n : Int) : F.ofUnits (rndZ F.p n) = F.ofUnits n := by
  by_cases hb : (rndZ F.p n).natAbs < 2 ^ (F.p + F.emax - 2)
  · have h1 := ofUnits_good (F := F) hb
    have h2 := ofUnits_good (F := F) (n := rndZ F.p n) (by rw [rndZ_idem]; exact hb)
    rw [rndZ_idem] at h2
    exact good_unique h2 h1
  · unfold ofUnits
    rw [roundMag_overflow (by rw [rndZ_idem]; omega), roundMag_overflow (by omega)]
    have := rndZ_sign (F := F) n
    simp only [this]

/-- Addition, overflow included. -/
theorem add_ofUnits [F.OK] {x t : Flt} {a : Int} (hx : F.Good x a) (ht : F.Finite t) :
    F.add x t = F.ofUnits (a + F.toInt t) := by
  by_cases hb : (rndZ F.p (a + F.toInt t)).natAbs < 2 ^ (F.p + F.emax - 2)
  · exact good_unique (add_good hx ht hb) (ofUnits_good hb)
  · rw [add_overflow hx ht (by omega)]
    unfold ofUnits; rw [roundMag_overflow (by omega)]; rfl

theorem roundMag_shift (m s : Nat) : F.roundMag (m * 2 ^ s) s = F.roundMag m 0 := by
  rw [roundMag_def, roundMag_def]
  have hk : F.rk (m * 2 ^ s) s = F.rk m 0 := by
    unfold rk
    by_cases h0 : m = 0
    · subst h0; simp
    · rw [log2_mul_pow h0]; omega
  rw [hk, Nat.zero_add, Nat.add_comm s, rne_scale]

/-- Multiplication when the exact product is representable. -/
theorem mul_exact [F.OK] {x y : Flt} (hx : F.Finite x) (hy : F.Finite y) {r : Int} {m e : Nat}
    (hr : F.toInt x * F.toInt y = r * 2 ^ F.eta) (hme : r.natAbs = m * 2 ^ e) (hm : m < 2 ^ F.p)
    (hb : m * 2 ^ e < 2 ^ (F.p + F.emax - 2)) :
    F.Finite (F.mul x y) ∧ F.toInt (F.mul x y) = r := by
  have ⟨x1, x2⟩ := finite_iff.1 hx
  have ⟨y1, y2⟩ := finite_iff.1 hy
  unfold mul
  rw [x1, x2, y1, y2]
  simp only [Bool.or_self, Bool.false_eq_true, if_false]
  have hv : F.val x.mag * F.val y.mag = r.natAbs * 2 ^ F.eta := by
    rw [← toInt_natAbs, ← toInt_natAbs, ← Int.natAbs_mul, hr, Int.natAbs_mul, Int.natAbs_pow]; rfl
  rw [hv, roundMag_shift, hme]
  have hre := roundMag_exact (F := F) hm hb
  refine ⟨hre.1, ?_⟩
  unfold toInt; dsimp only
  rw [hre.2, ← hme]
  have hE := ipow_pos F.eta
  have hx0 : F.toInt x = if x.neg then -(F.val x.mag : Int) else F.val x.mag := rfl
  have hy0 : F.toInt y = if y.neg then -(F.val y.mag : Int) else F.val y.mag := rfl
  have hp : (0 : Int) ≤ (F.val x.mag : Int) * F.val y.mag := by positivity
  have hsgn : r * 2 ^ F.eta = (if (x.neg != y.neg) = true then -((F.val x.mag : Int) * F.val y.mag) else (F.val x.mag : Int) * F.val y.mag) := by
    rw [← hr, hx0, hy0]; cases x.neg <;> cases y.neg <;> simp
  by_cases hn : (x.neg != y.neg) = true
  · rw [if_pos hn] at hsgn ⊢
    have : r ≤ 0 := by
      by_contra hc
      have := mul_pos (show (0 : Int) < r by omega) hE
      omega
    omega
  · rw [if_neg hn] at hsgn ⊢
    have : 0 ≤ r := by
      by_contra hc
      have := mul_pos (show (0 : Int) < -r by omega) hE
      rw [Int.neg_mul] at this
      omega
    omega

/-- Division of positive numbers when the exact quotient is representable. -/
theorem div_exact [F.OK] {x y : Flt} (hx : F.Finite x) (hy : F.Finite y) (hxn : x.neg = false) (hyn : y.neg = false) {m e : Nat}
    (hy0 : F.val y.mag ≠ 0) (hr : F.val x.mag * 2 ^ F.eta = m * 2 ^ e * F.val y.mag) (hm : m < 2 ^ F.p)
    (hb : m * 2 ^ e < 2 ^ (F.p + F.emax - 2)) :
    F.Finite (F.div x y) ∧ F.toInt (F.div x y) = m * 2 ^ e := by
  have ⟨x1, x2⟩ := finite_iff.1 hx
  have ⟨y1, y2⟩ := finite_iff.1 hy
  unfold div
  rw [x1, x2, y1, y2]
  have hym : y.mag ≠ 0 := fun h => hy0 (val_eq_zero.2 h)
  simp only [Bool.or_self, Bool.false_eq_true, if_false, if_neg hym]
  have e1 : 2 * (F.val x.mag * 2 ^ F.eta) = (2 * (m * 2 ^ e)) * F.val y.mag := by rw [hr]; ring
  rw [e1, Nat.mul_div_cancel _ (by omega), Nat.mul_mod_left]
  simp only [if_true, Nat.add_zero]
  have e2 : 2 * (2 * (m * 2 ^ e)) = (m * 2 ^ e) * 2 ^ 2 := by ring
  rw [e2, roundMag_shift]
  have hre := roundMag_exact (F := F) hm hb
  refine ⟨hre.1, ?_⟩
  unfold toInt; dsimp only
  rw [hre.2, hxn, hyn]; simp

end Fmt
end Repro
