import Verif.Bound
import Verif.ConvErr
import Verif.PropsScale
/-!
# C17: the error bound functions
-/

namespace Repro
open Fmt

namespace Fmt
variable {F : Fmt}

/-- Products of nonnegative numbers, bounded from below and from above by representable numbers. -/
theorem mul_pos_bounds [F.OK] {x y : Flt} (hx : F.Finite x) (hy : F.Finite y) (nx : x.neg = false) (ny : y.neg = false)
    {m e h : Nat} (hm : m < 2 ^ F.p) (hl : m * 2 ^ e * 2 ^ F.eta ≤ F.val x.mag * F.val y.mag)
    (hh : h < F.p + F.emax - 2) (hu : F.val x.mag * F.val y.mag ≤ 2 ^ h * 2 ^ F.eta) :
    F.Finite (F.mul x y) ∧ (F.mul x y).neg = false ∧ m * 2 ^ e ≤ F.val (F.mul x y).mag ∧ F.val (F.mul x y).mag ≤ 2 ^ h := by
  have ⟨hp, _⟩ := F.facts
  have ⟨x1, x2⟩ := finite_iff.1 hx
  have ⟨y1, y2⟩ := finite_iff.1 hy
  have e1 : F.mul x y = ⟨false, F.roundMag (F.val x.mag * F.val y.mag) F.eta⟩ := by
    unfold mul; simp [x1, x2, y1, y2, nx, ny]
  have hle : m * 2 ^ e ≤ 2 ^ h := by
    have := Nat.le_trans hl hu
    exact Nat.le_of_mul_le_mul_right this (pow_pos' _)
  have hlt : 2 ^ h < 2 ^ (F.p + F.emax - 2) := Nat.pow_lt_pow_right (by omega) hh
  have r1 := roundMag_mono (F := F) (s := F.eta) hl
  have r2 := roundMag_mono (F := F) (s := F.eta) hu
  rw [roundMag_shift] at r1 r2
  have x1 := roundMag_exact (F := F) (m := m) (e := e) hm (by omega)
  have x2 := roundMag_exact (F := F) (m := 1) (e := h) (Nat.one_lt_two_pow (by omega)) (by rw [Nat.one_mul]; exact hlt)
  rw [Nat.one_mul] at x2
  rw [e1]
  refine ⟨Nat.lt_of_le_of_lt r2 x2.1, rfl, ?_, ?_⟩
  · rw [← x1.2]; exact val_mono r1
  · rw [← x2.2]; exact val_mono r2

/-- Sums of nonnegative numbers, bounded from below and from above by representable numbers. -/
theorem add_pos_bounds [F.OK] {x y : Flt} (hx : F.Finite x) (hy : F.Finite y) (nx : x.neg = false) (ny : y.neg = false)
    {m e h : Nat} (hm : m < 2 ^ F.p) (hl : m * 2 ^ e ≤ F.val x.mag + F.val y.mag)
    (hh : h < F.p + F.emax - 2) (hu : F.val x.mag + F.val y.mag ≤ 2 ^ h) :
    F.Finite (F.add x y) ∧ (F.add x y).neg = false ∧ m * 2 ^ e ≤ F.val (F.add x y).mag := by
  have ⟨hp, _⟩ := F.facts
  have hlt : 2 ^ h < 2 ^ (F.p + F.emax - 2) := Nat.pow_lt_pow_right (by omega) hh
  have e1 : F.toInt x + F.toInt y = ((F.val x.mag + F.val y.mag : Nat) : Int) := by
    unfold toInt; rw [nx, ny]; simp
  rw [add_finite hx hy, e1]
  have x1 := round_le (F := F) (n := F.val x.mag + F.val y.mag) (m := 1) (e := h) (Nat.one_lt_two_pow (by omega))
    (by rw [Nat.one_mul]; exact hlt) (by rw [Nat.one_mul]; exact hu)
  have x2 := round_ge (F := F) (n := F.val x.mag + F.val y.mag) hm (by omega) hl
  split
  · next h0 =>
    have : F.val x.mag + F.val y.mag = 0 := by exact_mod_cast h0
    refine ⟨zero_finite, by simp [nx], ?_⟩
    rw [this] at hl
    exact Nat.le_trans hl (Nat.zero_le _)
  · next h0 =>
    rw [Int.natAbs_natCast]
    refine ⟨x1.1, ?_, x2⟩
    show decide (((F.val x.mag + F.val y.mag : Nat) : Int) < 0) = false
    exact decide_eq_false (by omega)

end Fmt

theorem boundC_ok64 : f64.Finite (boundC f64) ∧ (boundC f64).neg = false ∧ 7 * 2 ^ (1074 - (f64.p - 1)) ≤ f64.val (boundC f64).mag ∧
    f64.val (boundC f64).mag ≤ 2 ^ (1074 - 20) := by decide +kernel

theorem boundC_ok32 : f64.Finite (boundC f32) ∧ (boundC f32).neg = false ∧ 7 * 2 ^ (1074 - (f32.p - 1)) ≤ f64.val (boundC f32).mag ∧
    f64.val (boundC f32).mag ≤ 2 ^ (1074 - 20) := by decide +kernel

theorem boundC_ok (G : Fmt) [h : G.OK] : f64.Finite (boundC G) ∧ (boundC G).neg = false ∧
    7 * 2 ^ (1074 - (G.p - 1)) ≤ f64.val (boundC G).mag ∧ f64.val (boundC G).mag ≤ 2 ^ (1074 - 20) := by
  rcases h.isDoubleOrFloat with rfl | rfl
  · exact boundC_ok64
  · exact boundC_ok32

theorem cmax_ok {F : Fmt} [F.OK] {a b : Flt} (ha : F.Finite a) (hb : F.Finite b) (na : a.neg = false) (nb : b.neg = false) {h : Nat}
    (h1 : F.val a.mag ≤ h) (h2 : F.val b.mag ≤ h) :
    F.Finite (F.cmax a b) ∧ (F.cmax a b).neg = false ∧ F.val a.mag ≤ F.val (F.cmax a b).mag ∧ F.val (F.cmax a b).mag ≤ h := by
  unfold cmax lt key
  rw [na, nb]
  simp only [Bool.false_eq_true, if_false]
  split
  · exact ⟨ha, na, Nat.le_refl _, h1⟩
  · next hc =>
    refine ⟨hb, nb, val_mono ?_, h2⟩
    have ⟨a1, _⟩ := finite_iff.1 ha
    have ⟨b1, _⟩ := finite_iff.1 hb
    rw [a1, b1] at hc
    simp at hc
    exact hc

theorem ldexp1_ok {F : Fmt} [F.OK] {e : Int} (h : (F.eta : Int) + e < F.p + F.emax - 2) :
    F.Finite (F.ldexp1 e) ∧ (F.ldexp1 e).neg = false ∧ F.val (F.ldexp1 e).mag ≤ 2 ^ ((F.eta : Int) + e).toNat ∧
    (0 ≤ (F.eta : Int) + e → F.val (F.ldexp1 e).mag = 2 ^ ((F.eta : Int) + e).toNat) := by
  unfold ldexp1
  split
  · next h0 =>
    have hn : (F.eta : Int) + e = (((F.eta : Int) + e).toNat : Int) := by omega
    have h1 := pow2_ok (F := F) hn (by omega)
    have h2 := pow2_val' (F := F) hn (by omega)
    exact ⟨h1.1, h1.2.2, by omega, fun _ => h2⟩
  · next h0 =>
    refine ⟨zero_finite, rfl, ?_, fun h => absurd h h0⟩
    show F.val 0 ≤ _
    rw [val_eq_zero.2 rfl]; exact Nat.zero_le _

theorem ofNat_ok {F : Fmt} [F.OK] {N : Nat} (hN : N < 2 ^ F.p) (hb : N * 2 ^ F.eta < 2 ^ (F.p + F.emax - 2)) :
    F.Finite (F.ofInt N) ∧ (F.ofInt N).neg = false ∧ F.val (F.ofInt N).mag = N * 2 ^ F.eta := by
  have h := roundMag_exact (F := F) (m := N) (e := F.eta) hN hb
  unfold ofInt
  rw [Int.natAbs_natCast]
  refine ⟨h.1, ?_, h.2⟩
  show decide ((N : Int) < 0) = false
  exact decide_eq_false (by omega)

/-- Lower bound for the computed bound, through representable numbers. -/
theorem bound64_ge (G : Fmt) [G.OK] {fold N n0 v hx : Nat} {X S : Flt} (hfold : 2 ≤ fold) (hX : f64.Finite X) (hS : f64.Finite S) (hN : N < 2 ^ 31)
    (hxl : f64.val X.mag ≤ 2 ^ hx) (hx1 : hx ≤ 2058 + G.W) (hx2 : 1200 ≤ hx)
    {mx ex : Nat} (hmx : mx < 2 ^ 53) (hn53 : n0 < 2 ^ 53)
    (h0 : n0 = 0 ∨ (G.W * (fold - 1) ≤ 1074 ∧ mx * 2 ^ ex * 2 ^ (G.W * (fold - 1)) ≤ f64.val X.mag ∧ n0 * 2 ^ v ≤ N * (mx * 2 ^ ex)))
    {mb eb m e : Nat} (hmb : mb < 2 ^ 53) (hb : mb * 2 ^ eb * 2 ^ (G.p - 1) ≤ 7 * f64.val S.mag)
    (hm : m < 2 ^ 53) (hr : m * 2 ^ e ≤ n0 * 2 ^ v + mb * 2 ^ eb) :
    f64.Finite (boundIn64 G fold N X S) ∧ (boundIn64 G fold N X S).neg = false ∧ m * 2 ^ e ≤ f64.val (boundIn64 G fold N X S).mag := by
  have hp : f64.p = 53 := rfl
  have het : f64.eta = 1074 := rfl
  have hem : f64.emax = 2047 := rfl
  have ⟨g1, g2, g3, g4, g5⟩ : 13 ≤ G.W ∧ G.W ≤ 40 ∧ 128 ≤ G.maxExp ∧ G.maxExp ≤ 1024 ∧ G.p ≤ 53 := by
    rcases ‹G.OK›.isDoubleOrFloat with h | h <;> rw [h] <;> decide
  have hWf : G.W ≤ G.W * (fold - 1) := Nat.le_mul_of_pos_right _ (by omega)
  have hWi : (1 - (fold : Int)) * G.W = -((G.W * (fold - 1) : Nat) : Int) := by
    push_cast
    rw [Nat.cast_sub (by omega)]
    push_cast; ring
  -- M
  have ht := ldexp1_ok (F := f64) (e := 1 - (G.maxExp : Int)) (by rw [het, hp, hem]; omega)
  have htl : f64.val (f64.ldexp1 (1 - (G.maxExp : Int))).mag ≤ 2 ^ hx :=
    Nat.le_trans ht.2.2.1 (Nat.pow_le_pow_right (by omega) (by rw [het]; omega))
  have hM := cmax_ok (F := f64) (a := fabs X) (b := f64.ldexp1 (1 - (G.maxExp : Int))) hX ht.1 rfl ht.2.1 (h := 2 ^ hx) hxl htl
  -- K
  have hK := ldexp1_ok (F := f64) (e := (1 - (fold : Int)) * G.W) (by rw [het, hp, hem, hWi]; omega)
  have hKl : f64.val (f64.ldexp1 ((1 - (fold : Int)) * G.W)).mag ≤ 2 ^ (1074 - G.W) :=
    Nat.le_trans hK.2.2.1 (Nat.pow_le_pow_right (by omega) (by rw [het, hWi]; omega))
  have hfx : f64.val (fabs X).mag = f64.val X.mag := rfl
  unfold boundIn64
  generalize f64.cmax (fabs X) (f64.ldexp1 (1 - (G.maxExp : Int))) = M at *
  generalize f64.ldexp1 ((1 - (fold : Int)) * G.W) = K at *
  -- M' = M * K
  have hM' := mul_pos_bounds (F := f64) (x := M) (y := K) hM.1 hK.1 hM.2.1 hK.2.1 (m := if n0 = 0 then 0 else mx) (e := ex) (h := hx - G.W)
    (by split; exact pow_pos' _; exact hmx)
    (by
      split
      · simp
      · next hn =>
        obtain ⟨h1, h2, -⟩ := h0.resolve_left hn
        have hk := hK.2.2.2 (by rw [het, hWi]; omega)
        rw [hk, het, hWi]
        have e1 : ((1074 : Nat) : Int) + -((G.W * (fold - 1) : Nat) : Int) = ((1074 - G.W * (fold - 1) : Nat) : Int) := by omega
        rw [e1, Int.toNat_natCast]
        have e2 : mx * 2 ^ ex * 2 ^ 1074 = mx * 2 ^ ex * 2 ^ (G.W * (fold - 1)) * 2 ^ (1074 - G.W * (fold - 1)) := by
          rw [Nat.mul_assoc _ (2 ^ (G.W * (fold - 1))), ← Nat.pow_add (m := G.W * (fold - 1))]
          rw [show G.W * (fold - 1) + (1074 - G.W * (fold - 1)) = 1074 by omega]
        rw [e2]
        exact Nat.mul_le_mul_right _ (Nat.le_trans h2 (by rw [← hfx]; exact hM.2.2.1)))
    (by rw [hp, hem]; omega)
    (by
      have := Nat.mul_le_mul hM.2.2.2 hKl
      refine Nat.le_trans this ?_
      rw [← Nat.pow_add, ← Nat.pow_add, het]
      exact Nat.pow_le_pow_right (by omega) (by omega))
  generalize f64.mul M K = M' at *
  have hNo := ofNat_ok (F := f64) (N := N) (by rw [hp]; omega) (by
    rw [hp, het, hem]
    calc N * 2 ^ 1074 < 2 ^ 31 * 2 ^ 1074 := (Nat.mul_lt_mul_right (pow_pos' _)).2 hN
      _ ≤ 2 ^ (53 + 2047 - 2) := by rw [← Nat.pow_add]; exact Nat.pow_le_pow_right (by omega) (by omega))
  generalize f64.ofInt N = Nf at *
  have ha := mul_pos_bounds (F := f64) (x := M') (y := Nf) hM'.1 hNo.1 hM'.2.1 hNo.2.1 (m := n0) (e := v) (h := hx - G.W + 31)
    (by rw [hp]; exact hn53)
    (by
      rw [hNo.2.2]
      by_cases hn : n0 = 0
      · rw [hn]; simp
      · have h1 := hM'.2.2.1
        rw [if_neg hn] at h1
        have h2 := (h0.resolve_left hn).2.2
        rw [← Nat.mul_assoc, Nat.mul_comm _ N]
        exact Nat.mul_le_mul_right _ (Nat.le_trans h2 (Nat.mul_le_mul_left _ h1)))
    (by rw [hp, hem]; omega)
    (by
      rw [hNo.2.2, ← Nat.mul_assoc, Nat.pow_add]
      exact Nat.mul_le_mul_right _ (Nat.mul_le_mul hM'.2.2.2 (Nat.le_of_lt hN)))
  -- c * |S|
  have hc := boundC_ok G
  have hfs : f64.val (fabs S).mag = f64.val S.mag := rfl
  have hSl := val_lt (F := f64) hS
  rw [hp, hem] at hSl
  have hcs := mul_pos_bounds (F := f64) (x := boundC G) (y := fabs S) hc.1 hS hc.2.1 rfl (m := mb) (e := eb) (h := 2078) hmb
    (by
      rw [hfs, het]
      have e1 : 2 ^ 1074 = 2 ^ (G.p - 1) * 2 ^ (1074 - (G.p - 1)) := by rw [← Nat.pow_add]; congr 1; omega
      rw [e1, ← Nat.mul_assoc]
      calc mb * 2 ^ eb * 2 ^ (G.p - 1) * 2 ^ (1074 - (G.p - 1)) ≤ 7 * f64.val S.mag * 2 ^ (1074 - (G.p - 1)) := Nat.mul_le_mul_right _ hb
        _ = 7 * 2 ^ (1074 - (G.p - 1)) * f64.val S.mag := by ring
        _ ≤ _ := Nat.mul_le_mul_right _ hc.2.2.1)
    (by rw [hp, hem]; omega)
    (by
      rw [hfs, het]
      refine Nat.le_trans (Nat.mul_le_mul hc.2.2.2 (Nat.le_of_lt hSl)) ?_
      rw [← Nat.pow_add, ← Nat.pow_add])
  refine add_pos_bounds (F := f64) ha.1 hcs.1 ha.2.1 hcs.2.1 hm (Nat.le_trans hr (Nat.add_le_add ha.2.2.1 hcs.2.2.1)) (h := 2090) (by rw [hp, hem]; omega) ?_
  refine Nat.le_trans (Nat.add_le_add ha.2.2.2 hcs.2.2.2) ?_
  have h1 : 2 ^ (hx - G.W + 31) ≤ 2 ^ 2089 := Nat.pow_le_pow_right (by omega) (by omega)
  have h2 : 2 ^ 2078 ≤ 2 ^ 2089 := Nat.pow_le_pow_right (by omega) (by omega)
  have h3 : 2 ^ 2090 = 2 ^ 2089 + 2 ^ 2089 := by rw [← Nat.two_mul, ← Nat.pow_succ']
  rw [h3]
  exact Nat.add_le_add h1 h2

/-- Choice of the representable numbers: `s = |S|`, `a0` bounds the error of the sum, `d` the error of the conversion. -/
theorem bound_pick {p u n0 s d m0 j : Nat} (hp : 24 ≤ p) (hu : 11 ≤ u) (hn0 : n0 = m0 * 2 ^ j) (hm0 : m0 < 2 ^ p) (hn : n0 ≤ 2 ^ (p + 1) + 4)
    (hd : d = 0 ∨ (2 ^ (p - 3) * d ≤ s ∧ 2 ^ (p - 1) * 2 ^ u ≤ s)) :
    ∃ mb eb m e : Nat, mb < 2 ^ 53 ∧ mb * 2 ^ eb * 2 ^ (p - 1) ≤ 7 * s ∧ m < 2 ^ p ∧ u - 1 ≤ e ∧
      n0 * 2 ^ (u - 1) + d ≤ m * 2 ^ e ∧ m * 2 ^ e ≤ n0 * 2 ^ (u - 1) + mb * 2 ^ eb := by
  by_cases hd0 : d = 0
  · have e : m0 * 2 ^ (u - 1 + j) = n0 * 2 ^ (u - 1) := by rw [hn0, Nat.pow_add]; ring
    exact ⟨0, 0, m0, u - 1 + j, by decide, by simp, hm0, by omega, by omega, by omega⟩
  obtain ⟨h1, h2⟩ := hd.resolve_left hd0
  have hs0 : s ≠ 0 := by
    have := Nat.mul_pos (pow_pos' (p - 1)) (pow_pos' u)
    omega
  have hl := Nat.log2_self_le hs0
  have hul : s < 2 ^ (Nat.log2 s + 1) := Nat.lt_log2_self
  have hL : p - 1 + u ≤ Nat.log2 s := by rw [Nat.le_log2 hs0, Nat.pow_add]; exact h2
  generalize Nat.log2 s = L at *
  obtain ⟨t, ht⟩ := Nat.exists_eq_add_of_le hL
  -- g = 2^(u + t), L = p - 1 + u + t
  have hg1 : 2 ^ (p - 1) * 2 ^ (u + t) ≤ s := by rw [← Nat.pow_add]; exact Nat.le_trans (Nat.pow_le_pow_right (by omega) (by omega)) hl
  have hg2 : s < 2 * (2 ^ (p - 1) * 2 ^ (u + t)) := by rw [← Nat.pow_add, ← Nat.pow_succ']; exact Nat.lt_of_lt_of_le hul (Nat.pow_le_pow_right (by omega) (by omega))
  -- sixteenth of g
  have hge : 2 ^ (u + t) = 2 ^ 10 * 2 ^ (u + t - 10) := by rw [← Nat.pow_add]; congr 1; omega
  have hge2 : 2 ^ (u + t) = 2 * 2 ^ (u - 1) * 2 ^ t := by rw [← Nat.pow_succ', ← Nat.pow_add]; congr 1; omega
  obtain ⟨P, hP⟩ : ∃ P, 2 ^ (p - 1) = P := ⟨_, rfl⟩
  have hP3 : 2 ^ (p - 1) = 4 * 2 ^ (p - 3) := by
    rw [show (4 : Nat) = 2 ^ 2 from rfl, ← Nat.pow_add]; congr 1; omega
  have hPp : 2 ^ p = 2 * 2 ^ (p - 1) := by rw [← Nat.pow_succ']; congr 1; omega
  have hPpos := pow_pos' (p - 1)
  have hqpos := pow_pos' (u + t - 10)
  -- b
  refine ⟨7 * s / (2 ^ (p - 1) * 2 ^ (u + t - 10)), u + t - 10, (n0 * 2 ^ (u - 1) + d + 2 * 2 ^ (u + t) - 1) / (2 * 2 ^ (u + t)), u + t + 1, ?_, ?_, ?_, by omega, ?_, ?_⟩
  · rw [Nat.div_lt_iff_lt_mul (Nat.mul_pos hPpos hqpos)]
    have : 2 ^ (p - 1) * 2 ^ (u + t) = 2 ^ 10 * (2 ^ (p - 1) * 2 ^ (u + t - 10)) := by rw [hge]; ring
    omega
  · have := Nat.div_mul_le_self (7 * s) (2 ^ (p - 1) * 2 ^ (u + t - 10))
    calc _ = 7 * s / (2 ^ (p - 1) * 2 ^ (u + t - 10)) * (2 ^ (p - 1) * 2 ^ (u + t - 10)) := by ring
      _ ≤ _ := this
  · -- mantissa
    rw [Nat.div_lt_iff_lt_mul (Nat.mul_pos (by omega) (pow_pos' _))]
    have k1 : d < 8 * 2 ^ (u + t) := by
      have : 2 ^ (p - 3) * d < 2 ^ (p - 3) * (8 * 2 ^ (u + t)) := by
        calc 2 ^ (p - 3) * d ≤ s := h1
          _ < 2 * (2 ^ (p - 1) * 2 ^ (u + t)) := hg2
          _ = _ := by rw [hP3]; ring
      exact Nat.lt_of_mul_lt_mul_left this
    have k2 : 2 * (n0 * 2 ^ (u - 1)) ≤ n0 * 2 ^ (u + t) := by
      rw [hge2]
      calc 2 * (n0 * 2 ^ (u - 1)) = n0 * (2 * 2 ^ (u - 1) * 1) := by ring
        _ ≤ _ := Nat.mul_le_mul_left _ (Nat.mul_le_mul_left _ (pow_pos' t))
    have k3 : n0 * 2 ^ (u + t) ≤ (2 * 2 ^ p + 4) * 2 ^ (u + t) := Nat.mul_le_mul_right _ (by rw [← Nat.pow_succ']; exact hn)
    have k4 : 32 * 2 ^ (u + t) ≤ 2 ^ p * 2 ^ (u + t) := Nat.mul_le_mul_right _ (by
      calc 32 = 2 ^ 5 := rfl
        _ ≤ 2 ^ p := Nat.pow_le_pow_right (by omega) (by omega))
    have k5 : (2 * 2 ^ p + 4) * 2 ^ (u + t) = 2 * (2 ^ p * 2 ^ (u + t)) + 4 * 2 ^ (u + t) := by ring
    have k6 : 2 ^ p * (2 * 2 ^ (u + t)) = 2 * (2 ^ p * 2 ^ (u + t)) := by ring
    rw [k6]
    omega
  · have := Nat.div_add_mod (n0 * 2 ^ (u - 1) + d + 2 * 2 ^ (u + t) - 1) (2 * 2 ^ (u + t))
    have hm := Nat.mod_lt (n0 * 2 ^ (u - 1) + d + 2 * 2 ^ (u + t) - 1) (Nat.mul_pos (by omega : 0 < 2) (pow_pos' (u + t)))
    have := pow_pos' (u + t)
    generalize n0 * 2 ^ (u - 1) = Z at *
    rw [Nat.pow_succ', Nat.mul_comm ((Z + d + 2 * 2 ^ (u + t) - 1) / (2 * 2 ^ (u + t)))]
    omega
  · have h3 := Nat.div_mul_le_self (n0 * 2 ^ (u - 1) + d + 2 * 2 ^ (u + t) - 1) (2 * 2 ^ (u + t))
    rw [show 2 ^ (u + t + 1) = 2 * 2 ^ (u + t) from Nat.pow_succ']
    have h4 := Nat.div_add_mod (7 * s) (2 ^ (p - 1) * 2 ^ (u + t - 10))
    have h5 := Nat.mod_lt (7 * s) (Nat.mul_pos hPpos hqpos)
    generalize 7 * s / (2 ^ (p - 1) * 2 ^ (u + t - 10)) = B at *
    -- B 2^(p-1) q > 7 s - 2^(p-1) q
    have key : d + 2 * 2 ^ (u + t) ≤ B * 2 ^ (u + t - 10) := by
      have : 2 ^ (p - 1) * (d + 2 * 2 ^ (u + t)) ≤ 2 ^ (p - 1) * (B * 2 ^ (u + t - 10)) := by
        have c1 : 2 ^ (p - 1) * d ≤ 4 * s := by rw [hP3]; calc 4 * 2 ^ (p - 3) * d = 4 * (2 ^ (p - 3) * d) := by ring
                                                            _ ≤ 4 * s := Nat.mul_le_mul_left _ h1
        have c2 : 2 ^ (p - 1) * 2 ^ (u + t) = 2 ^ 10 * (2 ^ (p - 1) * 2 ^ (u + t - 10)) := by rw [hge]; ring
        have c3 : 2 ^ (p - 1) * (B * 2 ^ (u + t - 10)) = 2 ^ (p - 1) * 2 ^ (u + t - 10) * B := by ring
        have c4 : 2 ^ (p - 1) * (2 * 2 ^ (u + t)) = 2 * (2 ^ (p - 1) * 2 ^ (u + t)) := by ring
        rw [Nat.mul_add, c3, c4]
        omega
      exact Nat.le_of_mul_le_mul_left this hPpos
    omega

/-- The floating point number `y` is an upper bound for `r` (in units of `2^-eta`); an infinite bound is allowed. -/
def AtLeast (F : Fmt) (y : Flt) (r : Int) : Prop := y = F.inf false ∨ (F.Finite y ∧ r ≤ F.toInt y)

theorem exactVal_sumSeq {F : Fmt} [F.OK] {fold : Nat} (hfold : 2 ≤ fold) {xs : List Flt} (hne : xs ≠ [])
    (hx : ∀ x ∈ xs, F.Finite x) (hN : xs.length ≤ F.capacity) :
    F.exactVal fold (F.sumSeq fold xs (dmsetzero fold)) =
      sumTo (fun i => F.total xs (F.minIndex xs + i) * 2 ^ F.uexp (F.minIndex xs + i)) fold :=
  (sumSeq_mid hfold hne hx hN).exactVal (by omega) (Nat.zero_le _) hN

/-- Error of the conversion against the exact value of a normalised accumulator. -/
theorem conv_canon_err {F : Fmt} [F.OK] {fold k : Nat} {A : Nat → Int} (hfold : 2 ≤ fold) (hfold' : fold < 2 ^ 50) (hk : k ≤ F.maxIndex)
    (hcap : ∀ j, (A j).natAbs ≤ F.capacity * 2 ^ (F.W - 1))
    (h0 : ∀ j, F.maxIndex < j → j < k + fold → A j = 0)
    (hS : F.Finite (convert F fold (F.canon fold k A))) :
    let T := sumTo (fun i => A (k + i) * 2 ^ F.uexp (k + i)) fold
    let S := F.toInt (convert F fold (F.canon fold k A))
    S = T ∨ (2 ^ (F.p - 3) * (S - T).natAbs ≤ S.natAbs ∧ 2 ^ (F.p - 1) * 2 ^ F.uexp (k + fold - 1) ≤ S.natAbs) := by
  intro T S
  have hp : f64.p = 53 := rfl
  have hcv : convert F fold (F.canon fold k A) = F.ofUnits (rndZ 53 (convTotal (F.carTerm (fun j => A j / 2 ^ (F.p - 3)))
      (F.priTerm (fun j => A j % 2 ^ (F.p - 3))) k fold)) := convert_canon hfold hfold' hk hcap
  have he := convTotal_err (F := F) (fold := fold) (k := k) (by omega) hcap h0
  dsimp only at he
  have hT : sumTo (fun i => A (k + i) * 2 ^ F.uexp (k + i)) fold = T := rfl
  have hSd : F.toInt (convert F fold (F.canon fold k A)) = S := rfl
  rw [hT] at he
  have hu : (2 ^ F.uexp (k + fold - 1) : Int) ∣ T := by
    rw [← hT]
    have : ∀ n, n ≤ fold → (2 ^ F.uexp (k + fold - 1) : Int) ∣
        sumTo (fun i => A (k + i) * 2 ^ F.uexp (k + i)) n := by
      intro n
      induction n with
      | zero => intro _; exact dvd_zero _
      | succ n ih =>
        intro hn
        unfold sumTo
        exact Int.dvd_add (ih (by omega)) (Dvd.dvd.mul_left (pow_dvd_pow 2 (uexp_anti (by omega))) _)
    exact this fold (Nat.le_refl _)
  have hRep := rep_rnd (convTotal (F.carTerm (fun j => A j / 2 ^ (F.p - 3)))
      (F.priTerm (fun j => A j % 2 ^ (F.p - 3))) k fold)
  generalize rndZ 53 (convTotal (F.carTerm (fun j => A j / 2 ^ (F.p - 3)))
      (F.priTerm (fun j => A j % 2 ^ (F.p - 3))) k fold) = R at *
  have hRS : (rndZ F.p R).natAbs < 2 ^ (F.p + F.emax - 2) := by
    by_contra hc
    rw [hcv] at hS
    unfold ofUnits at hS
    rw [roundMag_overflow (by omega)] at hS
    exact absurd hS (Nat.lt_irrefl _)
  have hSR : S = rndZ F.p R := by rw [← hSd, hcv]; exact (ofUnits_good hRS).2.1
  clear_value T S
  subst hSR
  clear hcv hS hSd hT hRS hcap h0
  generalize F.uexp (k + fold - 1) = u at *
  rcases ‹F.OK›.isDoubleOrFloat with h | h
  · rw [h]
    have e1 : f64.p = 53 := rfl
    rw [e1, show rndZ 53 R = R from hRep]
    exact he
  · rw [h]
    have h1 : 2 ^ 24 * (rndZ 24 R - R).natAbs ≤ (rndZ 24 R).natAbs := rnd_relF (F := f32) R
    have h2 : (2 ^ u : Int) ∣ R → rndZ 24 R ≠ R → 2 ^ 24 * 2 ^ u ≤ (rndZ 24 R).natAbs := fun a b => rnd_bigF (F := f32) (n := R) (q := u) a b
    show rndZ 24 R = T ∨ 2 ^ 21 * (rndZ 24 R - T).natAbs ≤ (rndZ 24 R).natAbs ∧ 2 ^ 23 * 2 ^ u ≤ (rndZ 24 R).natAbs
    generalize rndZ 24 R = S at *
    rcases he with rfl | ⟨h3, h4⟩
    · by_cases hr : S = R
      · left; exact hr
      · right
        have h2' := h2 hu hr
        generalize 2 ^ u = g at *
        constructor <;> omega
    · right
      clear hu h2
      generalize 2 ^ u = g at *
      constructor <;> omega

/-- Error of the converted sum against the value accumulated. -/
theorem conv_sum_err {F : Fmt} [F.OK] {fold : Nat} (hfold : 2 ≤ fold) (hfold' : fold < 2 ^ 50) {xs : List Flt} (hne : xs ≠ [])
    (hx : ∀ x ∈ xs, F.Finite x) (hN : xs.length ≤ F.capacity)
    (h0 : ∀ j, F.maxIndex < j → j < F.minIndex xs + fold → F.total xs j = 0)
    (hS : F.Finite (convert F fold (F.sumSeq fold xs (dmsetzero fold)))) :
    let T := F.exactVal fold (F.sumSeq fold xs (dmsetzero fold))
    let S := F.toInt (convert F fold (F.sumSeq fold xs (dmsetzero fold)))
    S = T ∨ (2 ^ (F.p - 3) * (S - T).natAbs ≤ S.natAbs ∧ 2 ^ (F.p - 1) * 2 ^ F.uexp (F.minIndex xs + fold - 1) ≤ S.natAbs) := by
  have hcap : ∀ j, (F.total xs j).natAbs ≤ F.capacity * 2 ^ (F.W - 1) := fun j =>
    Nat.le_trans (total_bound hx j) (Nat.mul_le_mul_right _ hN)
  have hsp : F.sumSeq fold xs (dmsetzero fold) = F.canon fold (F.minIndex xs) (F.total xs) := by
    rw [C01_sum_is_spec (F := F) hfold hx hN]
    unfold specSum
    rw [if_neg hne]
  have := conv_canon_err hfold hfold' (minIndex_le _) hcap h0 (hsp ▸ hS)
  rw [exactVal_sumSeq hfold hne hx hN, hsp]
  exact this

/-- Narrowing to `float` keeps representable lower bounds. -/
theorem narrow_ge {y : Flt} (hy : f64.Finite y) (ny : y.neg = false) {m e : Nat} (hm : m < 2 ^ 24) (h : m * 2 ^ e * 2 ^ 925 ≤ f64.val y.mag) :
    AtLeast f32 (narrow y) ((m * 2 ^ e : Nat) : Int) := by
  have hp : f32.p = 24 := rfl
  have ⟨y1, y2⟩ := finite_iff.1 hy
  have e1 : narrow y = ⟨false, f32.roundMag (f64.val y.mag) 925⟩ := by
    unfold narrow
    rw [y1, y2, ny]; rfl
  have h1 := roundMag_mono (F := f32) (s := 925) h
  rw [roundMag_shift] at h1
  rw [e1]
  have h2 : f32.roundMag (f64.val y.mag) 925 ≤ f32.infMag := by rw [roundMag_def]; exact Nat.min_le_right _ _
  by_cases hb : m * 2 ^ e < 2 ^ (f32.p + f32.emax - 2)
  · have h3 := roundMag_exact (F := f32) (m := m) (e := e) (by rw [hp]; exact hm) hb
    by_cases hf : f32.roundMag (f64.val y.mag) 925 = f32.infMag
    · left; rw [hf]; rfl
    · right
      refine ⟨Nat.lt_of_le_of_ne h2 hf, ?_⟩
      have h4 := val_mono (F := f32) h1
      rw [h3.2] at h4
      show ((m * 2 ^ e : Nat) : Int) ≤ ((f32.val (f32.roundMag (f64.val y.mag) 925) : Nat) : Int)
      exact_mod_cast h4
  · left
    have h3 := roundMag_overflow (F := f32) (n := ((m * 2 ^ e : Nat) : Int)) (by
      rw [rndZ_exact (p := f32.p) (by rw [hp]; omega) (m := m) (e := e) (by rw [Int.natAbs_natCast]) (by rw [hp]; exact hm), Int.natAbs_natCast]
      omega)
    rw [Int.natAbs_natCast] at h3
    rw [show f32.roundMag (f64.val y.mag) 925 = f32.infMag by omega]
    rfl

/-- A number of magnitude at least `2^b` is `2^b` or larger by one unit in the last place. -/
theorem val_boundary {F : Fmt} [F.OK] (a b : Nat) (h : 2 ^ b ≤ F.val a) :
    F.val a = 2 ^ b ∨ (2 ^ (F.p - 1) + 1) * 2 ^ b ≤ 2 ^ (F.p - 1) * F.val a := by
  have ⟨hp, _⟩ := F.facts
  obtain ⟨m, e, h1, h2, h3, -⟩ := val_decomp (F := F) a
  rw [h1] at h ⊢
  have hPp : 2 ^ F.p = 2 * 2 ^ (F.p - 1) := by rw [← Nat.pow_succ']; congr 1; omega
  by_cases hc : b ≤ F.p - 1 + e ∧ e ≤ b ∨ e = 0
  · -- `2^b` is a multiple of `2^e`
    have hbe : e ≤ b := by omega
    obtain ⟨t, rfl⟩ := Nat.exists_eq_add_of_le hbe
    rw [Nat.pow_add, Nat.mul_comm (2 ^ e)] at h ⊢
    have hm := Nat.le_of_mul_le_mul_right h (pow_pos' e)
    rcases Nat.eq_or_lt_of_le hm with hm | hm
    · left; rw [hm]
    · right
      have ht : 2 ^ t ≤ 2 ^ (F.p - 1) := by
        have : t < F.p := (Nat.pow_lt_pow_iff_right (by omega : 1 < 2)).1 (Nat.lt_trans hm h2)
        exact Nat.pow_le_pow_right (by omega) (by omega)
      calc (2 ^ (F.p - 1) + 1) * (2 ^ t * 2 ^ e) = (2 ^ (F.p - 1) * 2 ^ t + 2 ^ t) * 2 ^ e := by ring
        _ ≤ (2 ^ (F.p - 1) * m) * 2 ^ e := by
            apply Nat.mul_le_mul_right
            calc _ ≤ 2 ^ (F.p - 1) * 2 ^ t + 2 ^ (F.p - 1) := by omega
              _ = 2 ^ (F.p - 1) * (2 ^ t + 1) := by ring
              _ ≤ _ := Nat.mul_le_mul_left _ hm
        _ = _ := by ring
  · -- then `b < e`
    have he0 : e ≠ 0 := by omega
    have hm := h3.resolve_left he0
    have hb : b < F.p + e := by
      have : 2 ^ b < 2 ^ (F.p + e) := Nat.lt_of_le_of_lt h (by rw [Nat.pow_add]; exact (Nat.mul_lt_mul_right (pow_pos' e)).2 h2)
      exact (Nat.pow_lt_pow_iff_right (by omega : 1 < 2)).1 this
    have hbe : b + 1 ≤ e := by omega
    right
    have h4 : 2 ^ b * 2 ≤ 2 ^ e := by rw [← Nat.pow_succ]; exact Nat.pow_le_pow_right (by omega) hbe
    have h5 : 1 ≤ 2 ^ (F.p - 1) := pow_pos' _
    calc (2 ^ (F.p - 1) + 1) * 2 ^ b ≤ (2 ^ (F.p - 1) * 2) * 2 ^ b := Nat.mul_le_mul_right _ (by omega)
      _ = 2 ^ (F.p - 1) * (1 * (2 ^ b * 2)) := by ring
      _ ≤ _ := Nat.mul_le_mul_left _ (Nat.mul_le_mul (by omega) h4)

/-- If one of the numbers is a multiple of the unit of the last bin, it does not contribute to the error. -/
theorem error_but_one {F : Fmt} [F.OK] {fold : Nat} (hfold : 2 ≤ fold) {xs : List Flt} {X : Flt} (hX : X ∈ xs)
    (hx : ∀ x ∈ xs, F.Finite x) (hN : xs.length ≤ F.capacity) (hd : (2 ^ F.uexp (F.minIndex xs + fold - 1) : Int) ∣ F.toInt X) :
    2 * ((F.exactSum xs - F.exactVal fold (F.sumSeq fold xs (dmsetzero fold))).natAbs : Int) ≤
      ((xs.length - 1 : Nat) : Int) * 2 ^ F.uexp (F.minIndex xs + fold - 1) := by
  have hne : xs ≠ [] := by rintro rfl; simp at hX
  rw [exactVal_sumSeq hfold hne hx hN, totals_loss (fun x h => ⟨hx x h, minIndex_le_mem h⟩)]
  have e : F.minIndex xs + fold - 1 + 1 = F.minIndex xs + fold := by omega
  have hz := resid_zero_of_dvd (F := F) hd
  rw [e] at hz
  have hb : ∀ x, 2 * ((F.resid (F.toInt x) (F.minIndex xs + fold)).natAbs : Int) ≤ 2 ^ F.uexp (F.minIndex xs + fold - 1) := by
    intro x
    have := resid_succ_bound (F := F) (F.toInt x) (F.minIndex xs + fold - 1)
    rw [e] at this
    omega
  generalize F.minIndex xs + fold = j at *
  obtain ⟨l1, l2, rfl⟩ := List.append_of_mem hX
  rw [List.map_append, List.map_cons, List.sum_append, List.sum_cons, hz]
  have := sum_natAbs_le (l := (l1 ++ l2).map (fun x => F.resid (F.toInt x) j)) (M := 2 ^ F.uexp (j - 1)) (by
    intro a ha
    obtain ⟨x, _, rfl⟩ := List.mem_map.1 ha
    exact hb x)
  rw [List.length_map, List.map_append, List.sum_append] at this
  simp only [List.length_append, List.length_cons] at this ⊢
  rw [show l1.length + (l2.length + 1) - 1 = l1.length + l2.length by omega, Int.zero_add]
  exact this

/-- **C17.** The value returned by the bound function bounds the distance between the converted binned sum `S` and the
exact sum of the numbers, for fewer than `2^31` (double) / at most `2^25 + 1` (float) numbers, when the accumulators do not reach
below the smallest bin and the factor `2^(W (1-fold))` does not underflow in double (fold at most 27 for double); or when
no bits are dropped at all. `X` is a summand of maximum absolute value.
Missing: sums that drop bits below the smallest bin and double sums with fold above 27, for which the claim is false
(`C17_violated_tiny`, `C17_violated_fold`), and float sums of more than `2^25 + 1` numbers; already for `2^25 + 2` numbers
it is false (`C17_violated_many`). -/
theorem C17_bound_partial {F : Fmt} [F.OK] {fold : Nat} (hfold : 2 ≤ fold) (hfold' : fold < 2 ^ 50) {xs : List Flt} {X S : Flt}
    (hXm : X ∈ xs) (hmax : ∀ x ∈ xs, F.val x.mag ≤ F.val X.mag) (hx : ∀ x ∈ xs, F.Finite x)
    (hN1 : xs.length < 2 ^ 31) (hN2 : xs.length ≤ 2 ^ (F.p + 1) + 1)
    (hS : S = convert F fold (F.sumSeq fold xs (dmsetzero fold))) (hSf : F.Finite S)
    (hcase : (F.minIndex xs + fold - 1 ≤ F.maxIndex ∧ F.W * (fold - 1) ≤ 1074) ∨
      (∀ x ∈ xs, (2 ^ F.uexp (F.minIndex xs + fold - 1) : Int) ∣ F.toInt x)) :
    AtLeast F (bound F fold xs.length X S) ((F.toInt S - F.exactSum xs).natAbs : Int) := by
  have ⟨hp, hW, hWp, _, hem, hem1, hbi, het, hb3, _⟩ := F.facts
  have ⟨b1, b2, b3, b4, b5, b6, b7, _⟩ := F.bfacts
  have hne : xs ≠ [] := by rintro rfl; simp at hXm
  have hcap : xs.length ≤ F.capacity := by
    have : 2 ^ 31 ≤ F.capacity := by rcases ‹F.OK›.isDoubleOrFloat with h | h <;> rw [h] <;> decide
    omega
  have huv : F.uexp (F.minIndex xs + fold - 1) = F.eta + F.maxExp + 1 - F.W - F.W * min (F.minIndex xs + fold - 1) F.maxIndex := rfl
  have hug := uexp_ge (F := F) (F.minIndex xs + fold - 1)
  have hug2 : F = f64 → 19 ≤ F.uexp (F.minIndex xs + fold - 1) := by
    intro h
    subst h
    have e1 : f64.eta = 1074 := rfl
    have e2 : f64.maxExp = 1024 := rfl
    have e3 : f64.W = 40 := rfl
    have e4 : f64.maxIndex = 51 := rfl
    unfold uexp
    rw [e1, e2, e3, e4]
    omega
  -- error of the accumulated value
  obtain ⟨n0, m0, j0, hrep, hm0, hlim2, hn0, hE⟩ : ∃ n0 m0 j0, n0 = m0 * 2 ^ j0 ∧ m0 < 2 ^ F.p ∧ n0 ≤ 2 ^ (F.p + 1) + 4 ∧
      (n0 = 0 ∨ (F.W * (fold - 1) ≤ 1074 ∧ 2 ^ (F.uexp (F.minIndex xs + fold - 1) - 1) * 2 ^ (F.W * (fold - 1)) ≤ F.val X.mag ∧
        (n0 ≤ xs.length ∨ (F = f32 ∧ n0 * 2 ^ 23 ≤ xs.length * (2 ^ 23 + 1) ∧
          (2 ^ 23 + 1) * (2 ^ (F.uexp (F.minIndex xs + fold - 1) - 1) * 2 ^ (F.W * (fold - 1))) ≤ 2 ^ 23 * F.val X.mag)))) ∧
      (F.exactSum xs - F.exactVal fold (F.sumSeq fold xs (dmsetzero fold))).natAbs ≤ n0 * 2 ^ (F.uexp (F.minIndex xs + fold - 1) - 1) := by
    rcases hcase with ⟨hbig, hlim⟩ | hd
    · have hlow : 2 ^ (F.uexp (F.minIndex xs + fold - 1) - 1) * 2 ^ (F.W * (fold - 1)) ≤ F.val X.mag := by
        obtain ⟨z, hz, hzi⟩ := exists_minIndex (F := F) (xs := xs) (by omega)
        have hlow := dindex_lower (F := F) (hx z hz) (by omega)
        rw [hzi] at hlow
        refine Nat.le_trans ?_ (Nat.le_trans hlow (hmax z hz))
        rw [← Nat.pow_add]
        apply Nat.pow_le_pow_right (by omega)
        rw [huv, Nat.min_eq_left hbig]
        have hk : F.W * (F.minIndex xs + fold - 1) ≤ F.W * F.maxIndex := Nat.mul_le_mul_left _ hbig
        have hs : F.W * (F.minIndex xs + fold - 1) = F.W * F.minIndex xs + F.W * (fold - 1) := by
          rw [← Nat.mul_add]; congr 1; omega
        have hs2 : F.W * (F.minIndex xs + 1) = F.W * F.minIndex xs + F.W := by ring
        omega
      have he : (F.exactSum xs - F.exactVal fold (F.sumSeq fold xs (dmsetzero fold))).natAbs ≤
          xs.length * 2 ^ (F.uexp (F.minIndex xs + fold - 1) - 1) := by
        have he := C16_error_unit hfold hne hx hcap
        rw [← huv] at he
        have he' : 2 * (F.exactSum xs - F.exactVal fold (F.sumSeq fold xs (dmsetzero fold))).natAbs ≤
            xs.length * 2 ^ F.uexp (F.minIndex xs + fold - 1) := by exact_mod_cast he
        have e2 : 2 ^ F.uexp (F.minIndex xs + fold - 1) = 2 * 2 ^ (F.uexp (F.minIndex xs + fold - 1) - 1) := by
          rw [← Nat.pow_succ']; congr 1; omega
        have e3 : xs.length * (2 * 2 ^ (F.uexp (F.minIndex xs + fold - 1) - 1)) = 2 * (xs.length * 2 ^ (F.uexp (F.minIndex xs + fold - 1) - 1)) := by ring
        rw [e2, e3] at he'
        omega
      by_cases hsm : xs.length < 2 ^ F.p
      · exact ⟨xs.length, xs.length, 0, by simp, hsm, by rw [Nat.pow_succ]; omega, Or.inr ⟨hlim, hlow, Or.inl (Nat.le_refl _)⟩, he⟩
      · have hF : F = f32 := by
          rcases ‹F.OK›.isDoubleOrFloat with h | h
          · exfalso; rw [h] at hsm; exact hsm (Nat.lt_trans hN1 (by decide))
          · exact h
        have hpv : F.p = 24 := by rw [hF]; rfl
        rw [hpv] at hN2 hsm
        rcases Nat.eq_or_lt_of_le (show xs.length ≤ 2 ^ 25 + 1 from hN2) with hl | hl
        · -- 2^25 + 1 numbers
          rcases val_boundary (F := F) X.mag (F.uexp (F.minIndex xs + fold - 1) - 1 + F.W * (fold - 1)) (by rw [Nat.pow_add]; exact hlow) with hv | hv
          · refine ⟨2 ^ 25, 2 ^ 23, 2, rfl, by rw [hpv]; decide, by rw [hpv]; decide, Or.inr ⟨hlim, hlow, Or.inl (by omega)⟩, ?_⟩
            have he := error_but_one hfold hXm hx hcap (by
              have : F.W ≤ F.W * (fold - 1) := Nat.le_mul_of_pos_right _ (by omega)
              rw [← Int.natAbs_dvd_natAbs, toInt_natAbs, hv, Int.natAbs_pow]
              exact Nat.pow_dvd_pow 2 (by omega))
            rw [hl] at he
            have he' : 2 * (F.exactSum xs - F.exactVal fold (F.sumSeq fold xs (dmsetzero fold))).natAbs ≤
                2 ^ 25 * 2 ^ F.uexp (F.minIndex xs + fold - 1) := by exact_mod_cast he
            have e2 : 2 ^ F.uexp (F.minIndex xs + fold - 1) = 2 * 2 ^ (F.uexp (F.minIndex xs + fold - 1) - 1) := by
              rw [← Nat.pow_succ']; congr 1; omega
            rw [e2] at he'
            omega
          · rw [hpv, Nat.pow_add] at hv
            exact ⟨2 ^ 25 + 4, 2 ^ 23 + 1, 2, rfl, by rw [hpv]; decide, by rw [hpv], Or.inr ⟨hlim, hlow, Or.inr ⟨hF, by rw [hl]; decide, hv⟩⟩,
              Nat.le_trans he (Nat.mul_le_mul_right _ (by omega))⟩
        · by_cases hl2 : xs.length = 2 ^ 25
          · exact ⟨2 ^ 25, 2 ^ 23, 2, rfl, by rw [hpv]; decide, by rw [hpv]; decide, Or.inr ⟨hlim, hlow, Or.inl (by omega)⟩, by rw [← hl2]; exact he⟩
          · by_cases hpar : xs.length % 2 = 0
            · exact ⟨xs.length, xs.length / 2, 1, by omega, by rw [hpv]; omega, by rw [hpv]; omega, Or.inr ⟨hlim, hlow, Or.inl (Nat.le_refl _)⟩, he⟩
            · rcases val_boundary (F := F) X.mag (F.uexp (F.minIndex xs + fold - 1) - 1 + F.W * (fold - 1)) (by rw [Nat.pow_add]; exact hlow) with hv | hv
              · refine ⟨xs.length - 1, xs.length / 2, 1, by omega, by rw [hpv]; omega, by rw [hpv]; omega, Or.inr ⟨hlim, hlow, Or.inl (by omega)⟩, ?_⟩
                have he := error_but_one hfold hXm hx hcap (by
                  have : F.W ≤ F.W * (fold - 1) := Nat.le_mul_of_pos_right _ (by omega)
                  rw [← Int.natAbs_dvd_natAbs, toInt_natAbs, hv, Int.natAbs_pow]
                  exact Nat.pow_dvd_pow 2 (by omega))
                have he' : 2 * (F.exactSum xs - F.exactVal fold (F.sumSeq fold xs (dmsetzero fold))).natAbs ≤
                    (xs.length - 1) * 2 ^ F.uexp (F.minIndex xs + fold - 1) := by exact_mod_cast he
                have e2 : 2 ^ F.uexp (F.minIndex xs + fold - 1) = 2 * 2 ^ (F.uexp (F.minIndex xs + fold - 1) - 1) := by
                  rw [← Nat.pow_succ']; congr 1; omega
                have e3 : (xs.length - 1) * (2 * 2 ^ (F.uexp (F.minIndex xs + fold - 1) - 1)) =
                    2 * ((xs.length - 1) * 2 ^ (F.uexp (F.minIndex xs + fold - 1) - 1)) := by ring
                rw [e2, e3] at he'
                omega
              · rw [hpv, Nat.pow_add] at hv
                by_cases hl3 : xs.length + 1 = 2 ^ 25
                · exact ⟨2 ^ 25, 2 ^ 23, 2, rfl, by rw [hpv]; decide, by rw [hpv]; decide,
                    Or.inr ⟨hlim, hlow, Or.inr ⟨hF, by omega, hv⟩⟩, Nat.le_trans he (Nat.mul_le_mul_right _ (by omega))⟩
                exact ⟨xs.length + 1, (xs.length + 1) / 2, 1, by omega, by rw [hpv]; omega, by rw [hpv]; omega,
                  Or.inr ⟨hlim, hlow, Or.inr ⟨hF, by omega, hv⟩⟩, Nat.le_trans he (Nat.mul_le_mul_right _ (by omega))⟩
    · refine ⟨0, 0, 0, by decide, pow_pos' _, by omega, Or.inl rfl, ?_⟩
      rw [C41_exact hfold hne hx hcap (fun x h => by rw [← huv]; exact hd x h)]
      simp
  -- error of the conversion
  have hz : ∀ j, F.maxIndex < j → j < F.minIndex xs + fold → F.total xs j = 0 := by
    intro j hj hjf
    rcases hcase with ⟨hbig, _⟩ | hd
    · omega
    · have : ∀ x ∈ xs, F.slice (F.toInt x) j = 0 := by
        intro x hxm
        obtain ⟨i, rfl⟩ : ∃ i, j = i + 1 := ⟨j - 1, by omega⟩
        refine slice_resid_zero (resid_zero_of_dvd ?_)
        have hu : F.uexp i = F.uexp (F.minIndex xs + fold - 1) := by
          unfold uexp; rw [Nat.min_eq_right (by omega), Nat.min_eq_right (by omega)]
        rw [hu]; exact hd x hxm
      unfold total
      clear hug2 hd hE hn0 hrep hm0 hlim2 hS hSf hcap hN1 hN2 hmax hXm hne hug huv hx hjf
      induction xs with
      | nil => rfl
      | cons x xs ih =>
        rw [List.map_cons, List.sum_cons, this x List.mem_cons_self]
        rw [ih (fun y hy => this y (List.mem_cons_of_mem _ hy))]
        rfl
  have hconv := conv_sum_err hfold hfold' hne hx hcap hz (by rw [← hS]; exact hSf)
  dsimp only at hconv
  rw [← hS] at hconv
  generalize F.exactVal fold (F.sumSeq fold xs (dmsetzero fold)) = T at *
  generalize F.exactSum xs = Ex at *
  generalize F.uexp (F.minIndex xs + fold - 1) = u at *
  have hXf := hx X hXm
  have hvX := val_lt (F := F) hXf
  generalize xs.length = N at *
  have htri : (F.toInt S - Ex).natAbs ≤ n0 * 2 ^ (u - 1) + (F.toInt S - T).natAbs := by omega
  have hSn := toInt_natAbs (F := F) S
  clear hcase hz hx hmax hS hXm hne hcap huv
  rcases ‹F.OK›.isDoubleOrFloat with h | h
  · subst h
    have hpv : f64.p = 53 := rfl
    have hu := hug2 rfl
    obtain ⟨mb, eb, m, e, p1, p2, p3, p4, p5, p6⟩ := bound_pick (p := f64.p) (u := u) (n0 := n0) (s := f64.val S.mag) (d := (f64.toInt S - T).natAbs)
      hp (by omega) hrep hm0 hlim2 (by
        rcases hconv with h | h
        · left; omega
        · right; rw [← hSn]; exact h)
    have hb := bound64_ge f64 (fold := fold) (N := N) (n0 := n0) (v := u - 1) (hx := 2098) (X := X) (S := S) hfold hXf hSf hN1
      (Nat.le_of_lt hvX) (by decide) (by decide) (mx := 1) (ex := u - 1) (by decide) (by
        rcases hn0 with h | ⟨_, _, h | ⟨h, _⟩⟩
        · rw [h]; exact pow_pos' _
        · exact Nat.lt_of_le_of_lt h (Nat.lt_trans hN1 (by decide))
        · exact absurd h (by decide)) (by
        rcases hn0 with h | ⟨h1, h2, h | ⟨h, _⟩⟩
        · left; exact h
        · right; rw [Nat.one_mul]; exact ⟨h1, h2, Nat.mul_le_mul_right _ h⟩
        · exact absurd h (by decide)) p1 p2 p3 p6
    right
    have e1 : bound f64 fold N X S = boundIn64 f64 fold N X S := by unfold bound dbbound; rw [if_neg (by decide)]
    rw [e1]
    refine ⟨hb.1, ?_⟩
    unfold toInt
    rw [hb.2.1]
    have := hb.2.2
    simp only [Bool.false_eq_true, if_false]
    have h3 := Nat.le_trans htri (Nat.le_trans p5 this)
    unfold toInt at h3
    exact Int.ofNat_le.2 h3
  · subst h
    have hpv : f32.p = 24 := rfl
    have hwX := widen_ok hXf
    have hwS := widen_ok hSf
    have vX : f64.val (widen X).mag = f32.val X.mag * 2 ^ 925 := by
      rw [← toInt_natAbs, hwX.2.1, natAbs_mul_pow, toInt_natAbs]
    have vS : f64.val (widen S).mag = f32.val S.mag * 2 ^ 925 := by
      rw [← toInt_natAbs, hwS.2.1, natAbs_mul_pow, toInt_natAbs]
    obtain ⟨mb, eb, m, e, p1, p2, p3, p4, p5, p6⟩ := bound_pick (p := f32.p) (u := u + 925) (n0 := n0) (s := f64.val (widen S).mag)
      (d := (f32.toInt S - T).natAbs * 2 ^ 925)
      hp (by omega) hrep hm0 hlim2 (by
        rcases hconv with h | ⟨h1, h2⟩
        · left; rw [show (f32.toInt S - T).natAbs = 0 by omega, Nat.zero_mul]
        · right
          rw [vS, ← hSn]
          constructor
          · rw [← Nat.mul_assoc]; exact Nat.mul_le_mul_right _ h1
          · rw [Nat.pow_add, ← Nat.mul_assoc]; exact Nat.mul_le_mul_right _ h2)
    obtain ⟨mx, ex, hmx, hx0⟩ : ∃ mx ex, mx < 2 ^ 53 ∧ (n0 = 0 ∨ (f32.W * (fold - 1) ≤ 1074 ∧
        mx * 2 ^ ex * 2 ^ (f32.W * (fold - 1)) ≤ f64.val (widen X).mag ∧ n0 * 2 ^ (u + 925 - 1) ≤ N * (mx * 2 ^ ex))) := by
      rw [vX]
      rcases hn0 with h | ⟨h1, h2, h | ⟨-, h3, h4⟩⟩
      · exact ⟨0, 0, by decide, Or.inl h⟩
      · refine ⟨1, u + 925 - 1, by decide, Or.inr ⟨h1, ?_, by rw [Nat.one_mul]; exact Nat.mul_le_mul_right _ h⟩⟩
        rw [Nat.one_mul, show u + 925 - 1 = (u - 1) + 925 by omega, Nat.pow_add]
        calc 2 ^ (u - 1) * 2 ^ 925 * 2 ^ (f32.W * (fold - 1)) = 2 ^ (u - 1) * 2 ^ (f32.W * (fold - 1)) * 2 ^ 925 := by ring
          _ ≤ _ := Nat.mul_le_mul_right _ h2
      · have e0 : 2 ^ 925 = 2 ^ 23 * 2 ^ 902 := by rw [← Nat.pow_add]
        refine ⟨2 ^ 23 + 1, u - 1 + 902, by decide, Or.inr ⟨h1, ?_, ?_⟩⟩
        · rw [Nat.pow_add, e0]
          calc (2 ^ 23 + 1) * (2 ^ (u - 1) * 2 ^ 902) * 2 ^ (f32.W * (fold - 1))
              = (2 ^ 23 + 1) * (2 ^ (u - 1) * 2 ^ (f32.W * (fold - 1))) * 2 ^ 902 := by ring
            _ ≤ 2 ^ 23 * f32.val X.mag * 2 ^ 902 := Nat.mul_le_mul_right _ h4
            _ = _ := by ring
        · rw [show u + 925 - 1 = 23 + (u - 1 + 902) by omega, Nat.pow_add, ← Nat.mul_assoc, ← Nat.mul_assoc]
          exact Nat.mul_le_mul_right _ h3
    have hb := bound64_ge f32 (fold := fold) (N := N) (n0 := n0) (v := u + 925 - 1) (hx := 1202) (X := widen X) (S := widen S) hfold hwX.1 hwS.1 hN1
      (by
        have e2 : 2 ^ 1202 = 2 ^ (f32.p + f32.emax - 2) * 2 ^ 925 := by
          rw [← Nat.pow_add, show f32.p + f32.emax - 2 + 925 = 1202 from rfl]
        rw [vX, e2]
        exact Nat.mul_le_mul_right _ (Nat.le_of_lt hvX))
      (by decide) (by decide) hmx (Nat.lt_of_le_of_lt hlim2 (by rw [hpv]; decide)) hx0
      p1 p2 (Nat.lt_of_lt_of_le p3 (Nat.pow_le_pow_right (by omega) (by omega))) p6
    have e1 : bound f32 fold N X S = narrow (boundIn64 f32 fold N (widen X) (widen S)) := by unfold bound sbbound; rw [if_pos rfl]
    rw [e1]
    obtain ⟨e', rfl⟩ : ∃ e', e = e' + 925 := ⟨e - 925, by omega⟩
    have hn := narrow_ge hb.1 hb.2.1 (m := m) (e := e') p3 (by rw [Nat.mul_assoc, ← Nat.pow_add]; exact hb.2.2)
    have h3 : (f32.toInt S - Ex).natAbs ≤ m * 2 ^ e' := by
      refine Nat.le_trans htri (Nat.le_of_mul_le_mul_right (c := 2 ^ 925) ?_ (pow_pos' _))
      rw [Nat.mul_assoc, ← Nat.pow_add, Nat.add_mul, Nat.mul_assoc, ← Nat.pow_add, show u - 1 + 925 = u + 925 - 1 by omega]
      exact p5
    rcases hn with h | ⟨h, h4⟩
    · left; exact h
    · right
      refine ⟨h, le_trans ?_ h4⟩
      exact Int.ofNat_le.2 h3

/-! ### The bound does not hold in general -/

/-- The claim fails for a sum below the smallest bin: one number `2^-1057`, which the binned sum loses. -/
theorem C17_violated_tiny : ∃ X S : Flt, f64.Finite X ∧ S = convert f64 3 (f64.sumSeq 3 [X] (dmsetzero 3)) ∧ f64.Finite S ∧
    ¬ AtLeast f64 (bound f64 3 1 X S) ((f64.toInt S - f64.exactSum [X]).natAbs : Int) := by
  refine ⟨f64.pow2 (-1057), _, by decide +kernel, rfl, by decide +kernel, ?_⟩
  unfold AtLeast
  decide +kernel

/-- `n` times half a unit of the last bin, minus a number slightly below it, and a number that, for `n = 2^25`, cancels what they are
rounded to. -/
def manyList (n : Nat) : List Flt := List.replicate n (f32.pow2 (-15)) ++ [⟨true, (f32.pow2 (-15)).mag - 1⟩, fneg (f32.pow2 11)]

theorem many_total (n j : Nat) : f32.total (manyList n) j = n * f32.slice (f32.toInt (f32.pow2 (-15))) j +
    (f32.slice (f32.toInt ⟨true, (f32.pow2 (-15)).mag - 1⟩) j + f32.slice (f32.toInt (fneg (f32.pow2 11))) j) := by
  have h : ∀ n : Nat, f32.total (List.replicate n (f32.pow2 (-15))) j = n * f32.slice (f32.toInt (f32.pow2 (-15))) j := by
    intro n
    induction n with
    | zero => simp [total_nil]
    | succ n ih => rw [List.replicate_succ, total_cons, ih]; push_cast; ring
  unfold manyList
  rw [total_append, h, total_cons, total_cons, total_nil]
  ring

theorem many_conv (n : Nat) (hn : n = 2 ^ 25) : convert f32 3 (f32.canon 3 8 (f32.total (manyList n))) = zero := by
  rw [show f32.total (manyList n) = _ from funext (many_total n), hn]
  decide +kernel

theorem many_violated (n : Nat) (hn : n = 2 ^ 25) : ∃ (X S : Flt) (xs : List Flt), xs.length = n + 2 ∧ X ∈ xs ∧
    (∀ x ∈ xs, f32.Finite x ∧ f32.val x.mag ≤ f32.val X.mag) ∧ f32.minIndex xs + 3 - 1 ≤ f32.maxIndex ∧
    S = convert f32 3 (f32.sumSeq 3 xs (dmsetzero 3)) ∧ f32.Finite S ∧
    ¬ AtLeast f32 (bound f32 3 xs.length X S) ((f32.toInt S - f32.exactSum xs).natAbs : Int) := by
  have hlen : (manyList n).length = n + 2 := by unfold manyList; rw [List.length_append, List.length_replicate]; rfl
  have hmem' : ∀ x ∈ manyList n, x ∈ [f32.pow2 (-15), ⟨true, (f32.pow2 (-15)).mag - 1⟩, fneg (f32.pow2 11)] := by
    intro x hx
    unfold manyList at hx
    rw [List.mem_append] at hx
    rcases hx with hx | hx
    · rw [(List.mem_replicate.1 hx).2]; exact List.mem_cons_self
    · exact List.mem_cons_of_mem _ hx
  have hall : ∀ x ∈ manyList n, f32.Finite x ∧ f32.val x.mag ≤ f32.val (fneg (f32.pow2 11)).mag := by
    intro x hx
    have := hmem' x hx
    revert x
    have : ∀ x ∈ [f32.pow2 (-15), ⟨true, (f32.pow2 (-15)).mag - 1⟩, fneg (f32.pow2 11)], f32.Finite x ∧ f32.val x.mag ≤ f32.val (fneg (f32.pow2 11)).mag := by
      decide +kernel
    exact fun x _ h => this x h
  have hmem : fneg (f32.pow2 11) ∈ manyList n := by
    unfold manyList
    exact List.mem_append_right _ (List.mem_cons_of_mem _ List.mem_cons_self)
  have hmin : f32.minIndex (manyList n) = 8 := by
    refine Nat.le_antisymm (Nat.le_trans (minIndex_le_mem hmem) (by decide +kernel)) ?_
    obtain ⟨x, hx, he⟩ := exists_minIndex (F := f32) (xs := manyList n)
      (Nat.lt_of_le_of_lt (minIndex_le_mem hmem) (by decide +kernel))
    rw [← he]
    have : ∀ x ∈ [f32.pow2 (-15), ⟨true, (f32.pow2 (-15)).mag - 1⟩, fneg (f32.pow2 11)], 8 ≤ f32.dindex x := by decide +kernel
    exact this x (hmem' x hx)
  have hne : manyList n ≠ [] := List.ne_nil_of_mem hmem
  have hcap : (manyList n).length ≤ f32.capacity := by rw [hlen, hn]; decide +kernel
  have hex : f32.exactSum (manyList n) = n * f32.toInt (f32.pow2 (-15)) + f32.toInt ⟨true, (f32.pow2 (-15)).mag - 1⟩ + f32.toInt (fneg (f32.pow2 11)) := by
    have h : ∀ n : Nat, ((List.replicate n (f32.pow2 (-15))).map f32.toInt).sum = n * f32.toInt (f32.pow2 (-15)) := by
      intro n
      induction n with
      | zero => simp
      | succ n ih => rw [List.replicate_succ, List.map_cons, List.sum_cons, ih]; push_cast; ring
    unfold exactSum manyList
    rw [List.map_append, List.sum_append, h]
    simp only [List.map_cons, List.map_nil, List.sum_cons, List.sum_nil]
    ring
  have hsp : convert f32 3 (f32.sumSeq 3 (manyList n) (dmsetzero 3)) = zero := by
    rw [C01_sum_is_spec (by decide) (fun x h => (hall x h).1) hcap]
    unfold specSum
    rw [if_neg hne, hmin]
    exact many_conv n hn
  refine ⟨fneg (f32.pow2 11), zero, manyList n, hlen, hmem, hall, by rw [hmin]; decide +kernel, hsp.symm, by decide +kernel, ?_⟩
  rw [hlen, hex, hn]
  unfold AtLeast
  decide +kernel

/-- The claim fails in single precision for `2^25 + 2` numbers (default fold 3): the converted sum is 0, the exact sum is
`-(2^25 + 1 - 2^-24) * 2^-15`, and the bound, `(2^25 + 2) * 2^-15` before it is rounded
to a float, is returned as `2^25 * 2^-15`. -/
theorem C17_violated_many : ∃ (X S : Flt) (xs : List Flt), xs.length = 2 ^ 25 + 2 ∧ X ∈ xs ∧
    (∀ x ∈ xs, f32.Finite x ∧ f32.val x.mag ≤ f32.val X.mag) ∧ f32.minIndex xs + 3 - 1 ≤ f32.maxIndex ∧
    S = convert f32 3 (f32.sumSeq 3 xs (dmsetzero 3)) ∧ f32.Finite S ∧
    ¬ AtLeast f32 (bound f32 3 xs.length X S) ((f32.toInt S - f32.exactSum xs).natAbs : Int) :=
  many_violated (2 ^ 25) rfl

/-- The claim fails with fold 28, where `ldexp` underflows: `2^1000 - 2^1000 + 2^-97` converts to 0 and the bound is 0. -/
theorem C17_violated_fold : ∃ (X S : Flt) (xs : List Flt), X ∈ xs ∧ (∀ x ∈ xs, f64.Finite x ∧ f64.val x.mag ≤ f64.val X.mag) ∧
    f64.minIndex xs + 28 - 1 ≤ f64.maxIndex ∧
    S = convert f64 28 (f64.sumSeq 28 xs (dmsetzero 28)) ∧ f64.Finite S ∧
    ¬ AtLeast f64 (bound f64 28 xs.length X S) ((f64.toInt S - f64.exactSum xs).natAbs : Int) := by
  refine ⟨f64.pow2 1000, _, [f64.pow2 1000, fneg (f64.pow2 1000), f64.pow2 (-97)], by decide +kernel, by decide +kernel, by decide +kernel, rfl, by decide +kernel, ?_⟩
  unfold AtLeast
  decide +kernel

/-- The hypotheses of `C17_bound_partial` are met, in double and in float, by a sum that loses bits; the bound is finite. -/
example : (let xs := [f64.pow2 60, f64.pow2 (-30), fneg (f64.pow2 60), f64.pow2 (-100)]
    let S := convert f64 3 (f64.sumSeq 3 xs (dmsetzero 3))
    f64.pow2 60 ∈ xs ∧ (∀ x ∈ xs, f64.val x.mag ≤ f64.val (f64.pow2 60).mag ∧ f64.Finite x) ∧ f64.Finite S ∧
    f64.minIndex xs + 3 - 1 ≤ f64.maxIndex ∧ f64.W * (3 - 1) ≤ 1074 ∧ f64.toInt S ≠ f64.exactSum xs ∧ f64.Finite (bound f64 3 4 (f64.pow2 60) S)) ∧
    (let xs := [f32.pow2 20, f32.pow2 (-30), fneg (f32.pow2 20), f32.pow2 (-60)]
    let S := convert f32 3 (f32.sumSeq 3 xs (dmsetzero 3))
    f32.pow2 20 ∈ xs ∧ (∀ x ∈ xs, f32.val x.mag ≤ f32.val (f32.pow2 20).mag ∧ f32.Finite x) ∧ f32.Finite S ∧
    f32.minIndex xs + 3 - 1 ≤ f32.maxIndex ∧ f32.toInt S ≠ f32.exactSum xs ∧ f32.Finite (bound f32 3 4 (f32.pow2 20) S)) := by
  decide +kernel

end Repro
