import Verif.Ssq
import Verif.PropsScale
import Verif.PropsVec
import Verif.PropsVecInf
/-!
# Lemmas on scaled squares: the rounded square of `x / scale` at two scales
-/

namespace Repro
namespace Fmt
variable {F : Fmt}

/-- Rounding `n * 2^-s` in the normal range is rounding to `p` bits. -/
theorem round_norm [F.OK] {n s : Nat} (h : 2 ^ (F.p - 1 + s) ≤ n) (hb : n < 2 ^ (F.p + F.emax - 3 + s)) :
    F.roundMag n s < F.infMag ∧ F.val (F.roundMag n s) * 2 ^ s = (rndZ F.p (n : Int)).natAbs := by
  have ⟨hp, hW, hWp, _, he, he1, hbi, het, _⟩ := F.facts
  have hv := round_val (F := F) n s
  have hl : F.p - 1 + s ≤ Nat.log2 n := by
    have hn : n ≠ 0 := by have := pow_pos' (F.p - 1 + s); omega
    rw [Nat.le_log2 hn]; exact h
  have hr : F.rk n s + s = Nat.log2 n - (F.p - 1) := by unfold rk; omega
  have hz := rndZ_natAbs F.p (n : Int)
  rw [Int.natAbs_natCast] at hz
  have e : rne n (s + F.rk n s) * 2 ^ F.rk n s * 2 ^ s = (rndZ F.p (n : Int)).natAbs := by
    rw [hz, ← hr, Nat.pow_add, ← Nat.mul_assoc, Nat.add_comm (F.rk n s) s]
  have hlt : F.rk n s * 2 ^ (F.p - 1) + rne n (s + F.rk n s) < F.infMag := by
    by_contra hc
    have h1 : F.val F.infMag ≤ F.val (F.rk n s * 2 ^ (F.p - 1) + rne n (s + F.rk n s)) := val_mono (by omega)
    have h2 : F.val F.infMag = 2 ^ (F.p + F.emax - 2) := by
      have : F.infMag = (F.emax - 1) * 2 ^ (F.p - 1) + 2 ^ (F.p - 1) := by
        unfold infMag
        obtain ⟨m, hm⟩ : ∃ m, F.emax = m + 1 := ⟨F.emax - 1, by omega⟩
        rw [hm, Nat.add_sub_cancel]; ring
      rw [this, val_mk (Nat.le_refl _) (Nat.pow_lt_pow_right (by omega) (by omega)), ← Nat.pow_add]
      congr 1; omega
    rw [hv, h2] at h1
    have h3 : 2 ^ (F.p + F.emax - 2) * 2 ^ s ≤ (rndZ F.p (n : Int)).natAbs := by
      rw [← e]; exact Nat.mul_le_mul_right _ h1
    have h4 : (rndZ F.p (n : Int)).natAbs ≤ 1 * 2 ^ (F.p + F.emax - 3 + s) :=
      rndZ_le (F := F) (Nat.one_lt_two_pow (by omega)) (by rw [Int.natAbs_natCast, Nat.one_mul]; omega)
    rw [← Nat.pow_add, Nat.one_mul] at *
    have := Nat.pow_lt_pow_right (a := 2) (by omega) (show F.p + F.emax - 3 + s < F.p + F.emax - 2 + s by omega)
    omega
  rw [roundMag_def, Nat.min_eq_left (by omega), hv]
  exact ⟨hlt, e⟩

/-- Rounding below a power of two. -/
theorem round_small [F.OK] {n s q : Nat} (h : n ≤ 2 ^ (q + s)) (hq : q < F.p + F.emax - 2) :
    F.roundMag n s < F.infMag ∧ F.val (F.roundMag n s) ≤ 2 ^ q := by
  have ⟨hp, _⟩ := F.facts
  have h1 := roundMag_mono (F := F) (s := s) h
  rw [Nat.pow_add, roundMag_shift] at h1
  have h2 := roundMag_exact (F := F) (m := 1) (e := q) (Nat.one_lt_two_pow (by omega))
    (by rw [Nat.one_mul]; exact Nat.pow_lt_pow_right (by omega) hq)
  rw [Nat.one_mul] at h2
  have h3 := val_mono (F := F) h1
  exact ⟨by omega, by omega⟩

/-- A scale: a power of two with an exact reciprocal. -/
structure IsScale (F : Fmt) (S : Flt) (n m : Nat) : Prop where
  fin : F.Finite S
  neg : S.neg = false
  val : F.val S.mag = 2 ^ n
  ifin : F.Finite (F.div F.one S)
  ineg : (F.div F.one S).neg = false
  ival : F.val (F.div F.one S).mag = 2 ^ m
  nm : n + m = 2 * F.eta
  pn : F.p ≤ n
  pm : F.p ≤ m

theorem mul_fin {x y : Flt} (hx : F.Finite x) (hy : F.Finite y) :
    F.mul x y = ⟨x.neg != y.neg, F.roundMag (F.val x.mag * F.val y.mag) F.eta⟩ := by
  have ⟨x1, x2⟩ := finite_iff.1 hx
  have ⟨y1, y2⟩ := finite_iff.1 hy
  unfold mul
  simp [x1, x2, y1, y2]

/-- The rounded square of `x / S`, in terms of the exact one `(val x * 2^m)^2 * 2^(-4 eta)`. -/
theorem sq_val [F.OK] {S x : Flt} {n m : Nat} (hS : F.IsScale S n m) (hx : F.Finite x) (hb : F.val x.mag < 2 ^ (F.W + n)) :
    F.Finite (F.sq S x) ∧ (F.sq S x).neg = false ∧
    (2 ^ (F.p + 3 * F.eta) ≤ (F.val x.mag * 2 ^ m) ^ 2 →
      F.val (F.sq S x).mag * 2 ^ (3 * F.eta) = (rndZ F.p ((F.val x.mag * 2 ^ m : Nat) ^ 2 : Int)).natAbs) ∧
    ((F.val x.mag * 2 ^ m) ^ 2 < 2 ^ (F.p + 3 * F.eta) → F.val (F.sq S x).mag ≤ 2 ^ F.p) ∧
    F.val (F.sq S x).mag ≤ 2 ^ (2 * F.W + F.eta) := by
  have ⟨hp, hW, hWp, hpW, he, he1, hbi, het, hb3, hb4⟩ := F.facts
  have ⟨b1, b2, b3, b4, b5, b6, b7, _⟩ := F.bfacts
  have hnm := hS.nm
  have hXm : F.val x.mag * 2 ^ m < 2 ^ (F.W + 2 * F.eta) := by
    have : F.val x.mag * 2 ^ m < 2 ^ (F.W + n) * 2 ^ m := Nat.mul_lt_mul_of_pos_right hb (pow_pos' _)
    rw [← Nat.pow_add] at this
    rw [show F.W + n + m = F.W + 2 * F.eta by omega] at this
    exact this
  have ht := mul_fin (F := F) hx hS.ifin
  rw [hS.ival, hS.ineg] at ht
  have hq : F.roundMag (F.val x.mag * 2 ^ m) F.eta < F.infMag ∧ F.val (F.roundMag (F.val x.mag * 2 ^ m) F.eta) ≤ 2 ^ (F.W + F.eta) :=
    round_small (by rw [show F.W + F.eta + F.eta = F.W + 2 * F.eta by omega]; omega) (by omega)
  have htf : F.Finite (F.mul x (F.div F.one S)) := by rw [ht]; exact hq.1
  have hs : F.sq S x = ⟨false, F.roundMag (F.val (F.roundMag (F.val x.mag * 2 ^ m) F.eta) * F.val (F.roundMag (F.val x.mag * 2 ^ m) F.eta)) F.eta⟩ := by
    unfold sq
    dsimp only
    rw [mul_fin htf htf, ht]
    simp
  obtain ⟨mant, ex, hd, hmant, -⟩ := val_decomp (F := F) x.mag
  generalize hQ : F.val (F.roundMag (F.val x.mag * 2 ^ m) F.eta) = q at hs hq
  have hq2 : q * q ≤ 2 ^ (2 * F.W + F.eta + F.eta) := by
    have := Nat.mul_le_mul hq.2 hq.2
    rw [← Nat.pow_add] at this
    rw [show 2 * F.W + F.eta + F.eta = F.W + F.eta + (F.W + F.eta) by omega]; exact this
  have hsm := round_small (F := F) hq2 (by omega)
  rw [hs]
  refine ⟨hsm.1, rfl, ?_, ?_, hsm.2⟩
  · intro hbig
    have hA : 2 ^ (F.p - 1 + F.eta) ≤ F.val x.mag * 2 ^ m := by
      by_contra hc
      have : (F.val x.mag * 2 ^ m) ^ 2 ≤ (2 ^ (F.p - 1 + F.eta)) ^ 2 := Nat.pow_le_pow_left (by omega) 2
      rw [← Nat.pow_mul] at this
      have h2 := Nat.pow_lt_pow_right (a := 2) (by omega) (show (F.p - 1 + F.eta) * 2 < F.p + 3 * F.eta by omega)
      omega
    have hr := round_norm (F := F) hA (Nat.lt_of_lt_of_le hXm (Nat.pow_le_pow_right (by omega) (by omega)))
    rw [hQ, rndZ_exact (by omega) (m := mant) (e := ex + m) (by rw [Int.natAbs_natCast, hd, Nat.pow_add, Nat.mul_assoc]) hmant,
      Int.natAbs_natCast] at hr
    have e1 : (F.val x.mag * 2 ^ m) ^ 2 = q * q * 2 ^ (2 * F.eta) := by
      rw [← hr.2, Nat.mul_pow, Nat.pow_two, ← Nat.pow_mul, Nat.mul_comm F.eta 2]
    have h3 : 2 ^ (F.p - 1 + F.eta) ≤ q * q := by
      rw [e1, show F.p + 3 * F.eta = (F.p + F.eta) + 2 * F.eta by omega, Nat.pow_add] at hbig
      have := Nat.le_of_mul_le_mul_right hbig (pow_pos' _)
      exact Nat.le_trans (Nat.pow_le_pow_right (by omega) (by omega)) this
    have hr2 := round_norm (F := F) (n := q * q) (s := F.eta) h3
      (Nat.lt_of_le_of_lt hq2 (Nat.pow_lt_pow_right (by omega) (by omega)))
    have e2 : ((F.val x.mag * 2 ^ m : Nat) ^ 2 : Int) = ((q * q : Nat) : Int) * 2 ^ (2 * F.eta) := by
      rw [← Nat.cast_pow, e1]; push_cast; ring
    rw [e2, rndZ_scale, Int.natAbs_mul, ← hr2.2, show 3 * F.eta = F.eta + 2 * F.eta by omega, Nat.pow_add, Nat.mul_assoc, Int.natAbs_pow]
    rfl
  · intro hsmall
    have h3 : q * q ≤ 2 ^ (F.p + F.eta) := by
      by_cases hA : 2 ^ (F.p - 1 + F.eta) ≤ F.val x.mag * 2 ^ m
      · have hr := round_norm (F := F) hA (Nat.lt_of_lt_of_le hXm (Nat.pow_le_pow_right (by omega) (by omega)))
        rw [hQ, rndZ_exact (by omega) (m := mant) (e := ex + m) (by rw [Int.natAbs_natCast, hd, Nat.pow_add, Nat.mul_assoc]) hmant,
          Int.natAbs_natCast] at hr
        have e1 : (F.val x.mag * 2 ^ m) ^ 2 = q * q * 2 ^ (2 * F.eta) := by
          rw [← hr.2, Nat.mul_pow, Nat.pow_two, ← Nat.pow_mul, Nat.mul_comm F.eta 2]
        rw [e1, show F.p + 3 * F.eta = (F.p + F.eta) + 2 * F.eta by omega, Nat.pow_add 2 (F.p + F.eta)] at hsmall
        exact Nat.le_of_lt (Nat.lt_of_mul_lt_mul_right hsmall)
      · have := round_small (F := F) (n := F.val x.mag * 2 ^ m) (s := F.eta) (q := F.p - 1) (by omega) (by omega)
        rw [hQ] at this
        have h4 := Nat.mul_le_mul this.2 this.2
        rw [← Nat.pow_add] at h4
        exact Nat.le_trans h4 (Nat.pow_le_pow_right (by omega) (by omega))
    exact (round_small (F := F) h3 (by omega)).2

/-- Squares at two scales: either exactly proportional or both negligible. -/
theorem sq_compare [F.OK] {S S' x : Flt} {n m n' m' t : Nat} (hS : F.IsScale S n m) (hS' : F.IsScale S' n' m') (ht : m = m' + F.W * t)
    (hx : F.Finite x) (hb : F.val x.mag < 2 ^ (F.W + n)) :
    F.val (F.sq S x).mag = F.val (F.sq S' x).mag * 2 ^ (2 * F.W * t) ∨
    (F.val (F.sq S x).mag ≤ 2 ^ (F.p + 2 * F.W * t) ∧ F.val (F.sq S' x).mag ≤ 2 ^ F.p) := by
  have hn : n ≤ n' := by have := hS.nm; have := hS'.nm; omega
  have hb' : F.val x.mag < 2 ^ (F.W + n') := Nat.lt_of_lt_of_le hb (Nat.pow_le_pow_right (by omega) (by omega))
  obtain ⟨-, -, a1, a2, -⟩ := sq_val hS hx hb
  obtain ⟨-, -, c1, c2, -⟩ := sq_val hS' hx hb'
  have e0 : (F.val x.mag * 2 ^ m) ^ 2 = (F.val x.mag * 2 ^ m') ^ 2 * 2 ^ (2 * F.W * t) := by
    rw [ht, Nat.pow_add, ← Nat.mul_assoc, Nat.mul_pow _ (2 ^ (F.W * t)), ← Nat.pow_mul]
    congr 2; ring
  have e1 : ((F.val x.mag * 2 ^ m : Nat) ^ 2 : Int) = ((F.val x.mag * 2 ^ m' : Nat) ^ 2 : Int) * 2 ^ (2 * F.W * t) := by
    have := congrArg (fun k : Nat => (k : Int)) e0
    simpa using this
  have a3 : (F.val x.mag * 2 ^ m) ^ 2 ≤ 2 ^ (F.p + 3 * F.eta + 2 * F.W * t) →
      (rndZ F.p ((F.val x.mag * 2 ^ m : Nat) ^ 2 : Int)).natAbs ≤ 2 ^ (F.p + 3 * F.eta + 2 * F.W * t) := by
    intro h
    have ⟨hp, _⟩ := F.facts
    have := rndZ_le (F := F) (n := ((F.val x.mag * 2 ^ m : Nat) ^ 2 : Int)) (m := 1) (e := F.p + 3 * F.eta + 2 * F.W * t)
      (Nat.one_lt_two_pow (by omega)) (by rw [Int.natAbs_pow, Int.natAbs_natCast, Nat.one_mul]; exact h)
    rwa [Nat.one_mul] at this
  rw [e1, rndZ_scale, Int.natAbs_mul, Int.natAbs_pow] at a1 a3
  rw [e0] at a1 a2 a3
  generalize (F.val x.mag * 2 ^ m') ^ 2 = Q at *
  have hpos := pow_pos' (2 * F.W * t)
  by_cases hq : 2 ^ (F.p + 3 * F.eta) ≤ Q
  · left
    have h1 := a1 (Nat.le_trans hq (Nat.le_mul_of_pos_right _ hpos))
    rw [← c1 hq] at h1
    refine Nat.eq_of_mul_eq_mul_right (pow_pos' (3 * F.eta)) ?_
    rw [h1]
    show _ * 2 ^ (2 * F.W * t) = _
    ring
  · right
    refine ⟨?_, c2 (by omega)⟩
    by_cases hq2 : 2 ^ (F.p + 3 * F.eta) ≤ Q * 2 ^ (2 * F.W * t)
    · have h1 := a1 hq2
      have h2 := a3 (by
        rw [Nat.pow_add 2 (F.p + 3 * F.eta)]
        exact Nat.mul_le_mul_right _ (by omega))
      rw [← h1, show F.p + 3 * F.eta + 2 * F.W * t = (F.p + 2 * F.W * t) + 3 * F.eta by omega, Nat.pow_add 2 (F.p + 2 * F.W * t)] at h2
      exact Nat.le_of_mul_le_mul_right h2 (pow_pos' _)
    · exact Nat.le_trans (a2 (by omega)) (Nat.pow_le_pow_right (by omega) (by omega))

/-- Smallest index of the square of a number divided by its own scale. -/
def ssqLo (F : Fmt) : Nat := (F.maxExp - 2 * F.W - 1) / F.W

/-- Largest index of the square of a number divided by its own scale (unless that is the least scale). -/
def ssqHi (F : Fmt) : Nat := (F.maxExp + 2 * F.W - 1) / F.W

/-- Bins up to this one are not affected by underflow of the squares or overflow of the rescaling factor: 48 for
double, 16 for float. -/
def ssqJ (F : Fmt) : Nat := F.ssqLo + 2 * ((F.maxExp - 1) / (2 * F.W)) + 1

theorem ssq_facts (F : Fmt) [h : F.OK] : F.ssqJ + 3 ≤ F.maxIndex ∧ F.ssqHi + 6 ≤ F.ssqJ + 1 ∧ 7 ≤ F.ssqLo ∧
    F.p + 2 + (F.W * F.ssqJ) ≤ F.eta + F.maxExp + 1 - F.W ∧ F.maxExp ≤ F.W * (F.ssqHi + 1) - 2 * F.W ∧ 3 * F.W + 2 ≤ F.maxExp ∧
    F.W * F.ssqHi ≤ F.maxExp + 2 * F.W ∧ 2 * F.W + F.W * F.ssqLo < F.maxExp := by
  rcases h.isDoubleOrFloat with rfl | rfl <;> decide

theorem ssqJ_shift [h : F.OK] {k t : Nat} (hk : F.ssqLo ≤ k) (hJ : k + 2 * t ≤ F.ssqJ) : F.W * (2 * t) < F.maxExp := by
  have ⟨hp, hW, hWp, hpW, he, he1, hbi, het, hb3, hb4⟩ := F.facts
  unfold ssqJ at hJ
  have h1 : t ≤ (F.maxExp - 1) / (2 * F.W) := by omega
  have h2 := (Nat.le_div_iff_mul_le (by omega)).1 h1
  have : t * (2 * F.W) = F.W * (2 * t) := by ring
  omega

theorem uexp_lin [F.OK] {j : Nat} (h : j ≤ F.maxIndex) : F.uexp j + F.W * j = F.eta + F.maxExp + 1 - F.W := by
  have ⟨b1, _⟩ := F.bfacts
  unfold uexp
  rw [Nat.min_eq_left h]
  have : F.W * j ≤ F.W * F.maxIndex := Nat.mul_le_mul_left _ h
  omega

theorem rha_shift (r : Int) {u : Nat} (c : Nat) (hu : 1 ≤ u) : rha (r * 2 ^ c) (u + c) = rha r u := by
  have hc := ipow_pos c
  have e1 : (2 : Int) ^ (u + c - 1) = 2 ^ (u - 1) * 2 ^ c := by rw [← pow_add]; congr 1; omega
  have e2 : (2 : Int) ^ (u + c) = 2 ^ u * 2 ^ c := pow_add _ _ _
  unfold rha
  rw [e1, e2]
  by_cases h : 0 ≤ r
  · rw [if_pos h, if_pos (Int.mul_nonneg h (le_of_lt hc)), ← Int.add_mul, Int.mul_ediv_mul_of_pos_left _ _ hc]
  · rw [if_neg h, if_neg (by
      intro hh
      have := Int.nonneg_of_mul_nonneg_left hh hc
      omega), ← Int.neg_mul, ← Int.add_mul, Int.mul_ediv_mul_of_pos_left _ _ hc]

/-- Slicing commutes with scaling by whole bins. -/
theorem resid_shift [F.OK] {r : Int} {t : Nat} (hz : F.resid r t = r) : ∀ i, t + i ≤ F.maxIndex + 1 →
    F.resid (r * 2 ^ (F.W * t)) i = F.resid r (t + i) * 2 ^ (F.W * t) := by
  intro i
  induction i with
  | zero => intro _; rw [Nat.add_zero, hz]; rfl
  | succ i ih =>
    intro h
    have e : F.uexp i = F.uexp (t + i) + F.W * t := by
      have h1 := uexp_lin (F := F) (j := i) (by omega)
      have h2 := uexp_lin (F := F) (j := t + i) (by omega)
      rw [Nat.mul_add] at h2; omega
    have hu := uexp_ge (F := F) (t + i)
    show F.resid _ i - rha (F.resid _ i) (F.uexp i) * 2 ^ F.uexp i = _
    rw [ih (by omega), e, rha_shift _ _ (by omega), pow_add, ← Nat.add_assoc]
    show _ = (F.resid r (t + i) - rha (F.resid r (t + i)) (F.uexp (t + i)) * 2 ^ F.uexp (t + i)) * _
    ring

theorem slice_shift [F.OK] {r : Int} {t : Nat} (hz : F.resid r t = r) {i : Nat} (h : t + i ≤ F.maxIndex) :
    F.slice (r * 2 ^ (F.W * t)) i = F.slice r (t + i) := by
  have e : F.uexp i = F.uexp (t + i) + F.W * t := by
    have h1 := uexp_lin (F := F) (j := i) (by omega)
    have h2 := uexp_lin (F := F) (j := t + i) (by omega)
    rw [Nat.mul_add] at h2; omega
  have hu := uexp_ge (F := F) (t + i)
  unfold slice
  rw [resid_shift hz i (by omega), e, rha_shift _ _ (by omega)]

/-- **Slices of squares at two scales.** -/
theorem sq_slice [F.OK] {S S' x : Flt} {n m n' m' t : Nat} (hS : F.IsScale S n m) (hS' : F.IsScale S' n' m') (ht : m = m' + F.W * t)
    (hx : F.Finite x) (hb : F.val x.mag < 2 ^ (F.W + n)) {j : Nat} (hj : j ≤ F.ssqJ) :
    F.slice (F.toInt (F.sq S' x)) j = if j < 2 * t then 0 else F.slice (F.toInt (F.sq S x)) (j - 2 * t) := by
  have ⟨hp, hW, hWp, hpW, he, he1, hbi, het, hb3, hb4⟩ := F.facts
  have ⟨s1, s2, s3, s4, s5, s6, s7, s8⟩ := F.ssq_facts
  have hn : n ≤ n' := by have := hS.nm; have := hS'.nm; omega
  have hb' : F.val x.mag < 2 ^ (F.W + n') := Nat.lt_of_lt_of_le hb (Nat.pow_le_pow_right (by omega) (by omega))
  obtain ⟨-, a1, -, -, a2⟩ := sq_val hS hx hb
  obtain ⟨-, c1, -, -, c2⟩ := sq_val hS' hx hb'
  have ea : F.toInt (F.sq S x) = F.val (F.sq S x).mag := by unfold toInt; rw [a1]; rfl
  have ec : F.toInt (F.sq S' x) = F.val (F.sq S' x).mag := by unfold toInt; rw [c1]; rfl
  rw [ea, ec]
  -- small numbers have no slices in these bins
  have small : ∀ (v : Nat) (k : Nat), k ≤ F.ssqJ → v ≤ 2 ^ (F.p + F.W * (F.ssqJ - k)) → F.Fits (v : Int) (k + 1) := by
    intro v k hk hv
    unfold Fits
    rw [Int.natAbs_natCast]
    refine Nat.lt_of_le_of_lt hv (Nat.pow_lt_pow_right (by omega) ?_)
    have h1 := uexp_lin (F := F) (j := k + 1) (by omega)
    have h2 : F.W * F.ssqJ = F.W * (F.ssqJ - k) + F.W * k := by rw [← Nat.mul_add]; congr 1; omega
    rw [Nat.mul_add] at h1
    omega
  rcases sq_compare hS hS' ht hx hb with h | ⟨h1, h2⟩
  · have hw2 : 2 * F.W * t = F.W * (2 * t) := by ring
    rw [hw2] at h
    rw [h] at a2 ⊢
    generalize F.val (F.sq S' x).mag = b at *
    by_cases h2 : j < 2 * t
    · rw [if_pos h2]
      refine slice_of_fits (k := j + 1) (by omega) ?_ j (by omega)
      unfold Fits
      rw [Int.natAbs_natCast]
      have hu := uexp_lin (F := F) (j := j + 1) (by omega)
      have h3 : F.W * (j + 1) ≤ F.W * (2 * t) := Nat.mul_le_mul_left _ h2
      have h4 : b * 2 ^ (F.W * (2 * t)) < 2 ^ (F.uexp (j + 1) + F.W - 1) * 2 ^ (F.W * (2 * t)) := by
        rw [← Nat.pow_add]
        exact Nat.lt_of_le_of_lt a2 (Nat.pow_lt_pow_right (by omega) (by omega))
      exact Nat.lt_of_mul_lt_mul_right h4
    · rw [if_neg h2]
      have hf : F.Fits (b : Int) (2 * t) := by
        unfold Fits
        rw [Int.natAbs_natCast]
        have hu := uexp_lin (F := F) (j := 2 * t) (by omega)
        have h4 : b * 2 ^ (F.W * (2 * t)) < 2 ^ (F.uexp (2 * t) + F.W - 1) * 2 ^ (F.W * (2 * t)) := by
          rw [← Nat.pow_add]
          exact Nat.lt_of_le_of_lt a2 (Nat.pow_lt_pow_right (by omega) (by omega))
        exact Nat.lt_of_mul_lt_mul_right h4
      have := slice_shift (F := F) (r := (b : Int)) (t := 2 * t) (resid_of_fits (by omega) hf _ (Nat.le_refl _)) (i := j - 2 * t) (by omega)
      rw [show 2 * t + (j - 2 * t) = j by omega] at this
      rw [← this]
      push_cast
      rfl
  · rw [slice_of_fits (k := j + 1) (by omega) (small _ _ hj (Nat.le_trans h2 (Nat.pow_le_pow_right (by omega) (by omega)))) j (by omega)]
    by_cases h3 : j < 2 * t
    · rw [if_pos h3]
    · rw [if_neg h3]
      symm
      refine slice_of_fits (k := j - 2 * t + 1) (by omega) (small _ _ (by omega) (Nat.le_trans h1 (Nat.pow_le_pow_right (by omega) ?_))) _ (by omega)
      have : 2 * F.W * t = F.W * (2 * t) := by ring
      have h5 : F.W * (2 * t) ≤ F.W * (F.ssqJ - (j - 2 * t)) := Nat.mul_le_mul_left _ (by omega)
      omega

end Fmt
end Repro
