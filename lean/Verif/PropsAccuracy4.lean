import Verif.PropsAccuracy3
import Verif.PropsConsist

/-!
# C76: the native complex dot and matrix products against the exact value of the expression
-/

namespace Repro
open Fmt

variable {F : Fmt}

/-- The complex number a pair of finite numbers stands for. -/
def cval (F : Fmt) (z : Flt × Flt) : Rat × Rat := (realVal F z.1, realVal F z.2)

/-- The product of complex numbers. -/
def cmulQ (a b : Rat × Rat) : Rat × Rat := (a.1 * b.1 - a.2 * b.2, a.1 * b.2 + a.2 * b.1)

/-- The conjugate. -/
def conjQ (conj : Bool) (a : Rat × Rat) : Rat × Rat := if conj then (a.1, -a.2) else a

/-- The sum of complex numbers. -/
def csumQ (l : List (Rat × Rat)) : Rat × Rat := ((l.map Prod.fst).sum, (l.map Prod.snd).sum)

/-- The sum of the absolute values of both parts: at most `sqrt 2` times the absolute value. -/
def norm1 (a : Rat × Rat) : Rat := |a.1| + |a.2|

theorem norm1_nonneg (a : Rat × Rat) : 0 ≤ norm1 a := add_nonneg (abs_nonneg _) (abs_nonneg _)

/-- `alpha * sum of p.1 * p.2 + beta * y`, exactly. -/
def exactRowC (F : Fmt) (alpha : Flt × Flt) (l : List ((Flt × Flt) × (Flt × Flt))) (beta y : Flt × Flt) : Rat × Rat :=
  csumQ [cmulQ (cval F alpha) (csumQ (l.map (fun p => cmulQ (cval F p.1) (cval F p.2)))), cmulQ (cval F beta) (cval F y)]

/-- The same with absolute values. -/
def absRowC (F : Fmt) (alpha : Flt × Flt) (l : List ((Flt × Flt) × (Flt × Flt))) (beta y : Flt × Flt) : Rat :=
  norm1 (cval F alpha) * (l.map (fun p => norm1 (cval F p.1) * norm1 (cval F p.2))).sum + norm1 (cval F beta) * norm1 (cval F y)

/-- The rounding errors of the terms, in units of `2^-eta`: relative `6 * 2^-p`, and the errors of subnormal products. -/
def termErrC (F : Fmt) (alpha : Flt × Flt) (l : List ((Flt × Flt) × (Flt × Flt))) (beta y : Flt × Flt) : Rat :=
  6 / 2 ^ F.p * (2 ^ F.eta * absRowC F alpha l beta y) + 9 / 4 * (l.map (fun p => norm1 (cval F p.1))).sum + (l.length + 2)

/-- One sum. -/
theorem add_real [F.OK] {x y : Flt} (h : F.Finite (F.add x y)) :
    |(F.toInt (F.add x y) : Rat) - (F.toInt x + F.toInt y)| ≤ 2 / 2 ^ F.p * |(F.toInt x : Rat) + F.toInt y| := by
  have ⟨hx, hy⟩ := add_finite_args h
  have ⟨e0, e1⟩ := eps_small (F := F)
  have key : F.toInt (F.add x y) = rndZ F.p (F.toInt x + F.toInt y) := by
    rw [add_finite hx hy] at h ⊢
    by_cases hz : F.toInt x + F.toInt y = 0
    · rw [if_pos hz, hz, rndZ_zero]
      unfold toInt
      rw [val_eq_zero.2 rfl]; simp
    · rw [if_neg hz] at h ⊢
      have hb : (rndZ F.p (F.toInt x + F.toInt y)).natAbs < 2 ^ (F.p + F.emax - 2) := by
        by_contra hc
        have h2 := roundMag_overflow (F := F) (n := F.toInt x + F.toInt y) (by omega)
        unfold Fmt.Finite at h
        dsimp only at h
        omega
      exact (ofUnits_good hb).2.1
  rw [key, show (F.toInt x : Rat) + F.toInt y = ((F.toInt x + F.toInt y : Int) : Rat) by push_cast; ring]
  have h2 := rnd_relF (F := F) (F.toInt x + F.toInt y)
  generalize F.toInt x + F.toInt y = n at *
  generalize rndZ F.p n = r at *
  have h3 : ((2 ^ F.p * (r - n).natAbs : Nat) : Rat) ≤ (r.natAbs : Rat) := by exact_mod_cast h2
  push_cast [Nat.cast_natAbs] at h3
  have h4 : |(r : Rat)| ≤ |(r : Rat) - n| + |(n : Rat)| := by
    have := abs_add_le ((r : Rat) - n) n
    rwa [sub_add_cancel] at this
  have hP : (0 : Rat) < 2 ^ F.p := by positivity
  rw [div_mul_eq_mul_div, le_div_iff₀ hP]
  rw [div_le_div_iff₀ hP (by norm_num)] at e1
  have := abs_nonneg ((r : Rat) - n)
  nlinarith

theorem sub_real [F.OK] {x y : Flt} (h : F.Finite (F.sub x y)) :
    |(F.toInt (F.sub x y) : Rat) - (F.toInt x - F.toInt y)| ≤ 2 / 2 ^ F.p * |(F.toInt x : Rat) - F.toInt y| := by
  have := add_real (x := x) (y := fneg y) h
  rw [toInt_fneg] at this
  push_cast at this
  rw [← sub_eq_add_neg] at this
  exact this

/-- The arithmetic of a rounded sum of two rounded products `s` of `a b`, `t` of `c d`. -/
theorem two_products {E e a b s t u : Rat} (hE : 0 < E) (e0 : 0 < e) (e1 : e ≤ 1 / 8)
    (hs : |s - E * a| ≤ e * (E * |a|) + 1 / 2) (ht : |t - E * b| ≤ e * (E * |b|) + 1 / 2) (hu : |u - (s + t)| ≤ 2 * e * |s + t|) :
    |u - E * (a + b)| ≤ 4 * e * (E * (|a| + |b|)) + 2 := by
  have h1 : |s + t| ≤ E * |a| + E * |b| + (e * (E * |a|) + 1 / 2) + (e * (E * |b|) + 1 / 2) := by
    have a1 : |s| ≤ |s - E * a| + E * |a| := by
      have := abs_add_le (s - E * a) (E * a)
      rw [sub_add_cancel, abs_mul E, abs_of_pos hE] at this
      exact this
    have a2 : |t| ≤ |t - E * b| + E * |b| := by
      have := abs_add_le (t - E * b) (E * b)
      rw [sub_add_cancel, abs_mul E, abs_of_pos hE] at this
      exact this
    have := abs_add_le s t
    linarith
  have h2 : |u - E * (a + b)| ≤ |u - (s + t)| + |s - E * a| + |t - E * b| := by
    rw [show u - E * (a + b) = (u - (s + t)) + (s - E * a) + (t - E * b) by ring]
    have b1 := abs_add_le (u - (s + t) + (s - E * a)) (t - E * b)
    have b2 := abs_add_le (u - (s + t)) (s - E * a)
    linarith
  have h3 : 2 * e * |s + t| ≤ 2 * e * (E * |a| + E * |b| + (e * (E * |a|) + 1 / 2) + (e * (E * |b|) + 1 / 2)) := mul_le_mul_of_nonneg_left h1 (by linarith)
  have hS : 0 ≤ E * |a| + E * |b| := add_nonneg (mul_nonneg hE.le (abs_nonneg _)) (mul_nonneg hE.le (abs_nonneg _))
  have h4 : 2 * e * (e * (E * |a| + E * |b|)) ≤ e * (E * |a| + E * |b|) := by
    have : 2 * e ≤ 1 := by linarith
    have := mul_le_mul_of_nonneg_right this (mul_nonneg e0.le hS)
    linarith
  nlinarith

theorem realVal_zero [F.OK] {x : Flt} (h : isZero x = true) : realVal F x = 0 := by
  unfold isZero at h
  have : x.mag = 0 := by simpa using h
  unfold realVal toInt
  rw [this, val_eq_zero.2 rfl]
  simp

theorem realVal_one [F.OK] {x : Flt} (h : F.feq x F.one = true) : realVal F x = 1 := by
  have hm : x = F.one := by
    unfold feq at h
    simp only [Bool.and_eq_true, decide_eq_true_eq] at h
    have h := h.2
    rcases ‹F.OK›.isDoubleOrFloat with hf | hf <;> subst hf <;> obtain ⟨n, m⟩ := x
    · have e : key f64.one = 4607182418800017408 := by decide +kernel
      have e2 : f64.one = ⟨false, 4607182418800017408⟩ := by decide +kernel
      rw [e] at h
      rw [e2]
      unfold key at h
      cases n <;> simp at h <;> simp <;> omega
    · have e : key f32.one = 1065353216 := by decide +kernel
      have e2 : f32.one = ⟨false, 1065353216⟩ := by decide +kernel
      rw [e] at h
      rw [e2]
      unfold key at h
      cases n <;> simp at h <;> simp <;> omega
  subst hm
  rcases ‹F.OK›.isDoubleOrFloat with hf | hf <;> subst hf
  · decide +kernel
  · decide +kernel

theorem abs_part (a b : Rat × Rat) : |a.1 * b.1| + |-(a.2 * b.2)| ≤ norm1 a * norm1 b ∧ |a.1 * b.2| + |a.2 * b.1| ≤ norm1 a * norm1 b := by
  unfold norm1
  simp only [abs_neg, abs_mul]
  have := mul_nonneg (abs_nonneg a.1) (abs_nonneg b.2)
  have := mul_nonneg (abs_nonneg a.2) (abs_nonneg b.1)
  have := mul_nonneg (abs_nonneg a.1) (abs_nonneg b.1)
  have := mul_nonneg (abs_nonneg a.2) (abs_nonneg b.2)
  constructor <;> nlinarith

theorem cmulQ_le (a b : Rat × Rat) : |(cmulQ a b).1| ≤ norm1 a * norm1 b ∧ |(cmulQ a b).2| ≤ norm1 a * norm1 b := by
  have h := abs_part a b
  unfold cmulQ
  constructor
  · have := abs_add_le (a.1 * b.1) (-(a.2 * b.2))
    rw [← sub_eq_add_neg] at this
    exact le_trans this h.1
  · exact le_trans (abs_add_le _ _) h.2

/-- The product with `alpha` (or `beta`). -/
theorem alphaMul_err [F.OK] {alpha x : Flt × Flt} (h1 : F.Finite (alphaMul F alpha x).1) (h2 : F.Finite (alphaMul F alpha x).2) :
    |(F.toInt (alphaMul F alpha x).1 : Rat) - 2 ^ F.eta * (cmulQ (cval F x) (cval F alpha)).1| ≤ 4 / 2 ^ F.p * (2 ^ F.eta * (norm1 (cval F x) * norm1 (cval F alpha))) + 2 ∧
    |(F.toInt (alphaMul F alpha x).2 : Rat) - 2 ^ F.eta * (cmulQ (cval F x) (cval F alpha)).2| ≤ 4 / 2 ^ F.p * (2 ^ F.eta * (norm1 (cval F x) * norm1 (cval F alpha))) + 2 := by
  have ⟨e0, e1⟩ := eps_small (F := F)
  have hE : (0 : Rat) < 2 ^ F.eta := by positivity
  have hn : 0 ≤ norm1 (cval F x) * norm1 (cval F alpha) := mul_nonneg (norm1_nonneg _) (norm1_nonneg _)
  by_cases hu : (F.feq alpha.1 F.one && isZero alpha.2) = true
  · have hv : alphaMul F alpha x = x := by unfold alphaMul; rw [if_pos hu]
    rw [Bool.and_eq_true] at hu
    have a1 := realVal_one hu.1
    have a2 := realVal_zero (F := F) hu.2
    rw [hv, toInt_real, toInt_real]
    unfold cmulQ
    have c1 : (cval F alpha).1 = 1 := a1
    have c2 : (cval F alpha).2 = 0 := a2
    rw [c1, c2]
    have d1 : (cval F x).1 = realVal F x.1 := rfl
    have d2 : (cval F x).2 = realVal F x.2 := rfl
    dsimp only
    rw [d1, d2, mul_one, mul_zero, sub_zero, mul_one, mul_zero, zero_add, sub_self, sub_self, abs_zero]
    have : 0 ≤ 4 / 2 ^ F.p * (2 ^ F.eta * (norm1 (cval F x) * norm1 (cval F alpha))) + 2 := by positivity
    exact ⟨this, this⟩
  · have hv : alphaMul F alpha x = (F.sub (F.mul x.1 alpha.1) (F.mul x.2 alpha.2), F.add (F.mul x.1 alpha.2) (F.mul x.2 alpha.1)) := by
      unfold alphaMul; rw [if_neg hu]
    rw [hv] at h1 h2 ⊢
    dsimp only at h1 h2 ⊢
    have ⟨p1, p2⟩ := sub_finite_args h1
    have ⟨p3, p4⟩ := add_finite_args h2
    have ⟨n1, n2⟩ := abs_part (cval F x) (cval F alpha)
    have q1 := mul_real p1
    have q2 := mul_real p2
    have q3 := mul_real p3
    have q4 := mul_real p4
    have r1 := sub_real h1
    have r2 := add_real h2
    rw [show (2 : Rat) / 2 ^ F.p = 2 * (1 / 2 ^ F.p) by ring] at r1 r2
    rw [show (4 : Rat) / 2 ^ F.p = 4 * (1 / 2 ^ F.p) by ring]
    have s1 := two_products (a := realVal F x.1 * realVal F alpha.1) (b := -(realVal F x.2 * realVal F alpha.2)) (s := F.toInt (F.mul x.1 alpha.1)) (t := -(F.toInt (F.mul x.2 alpha.2) : Rat)) (u := F.toInt (F.sub (F.mul x.1 alpha.1) (F.mul x.2 alpha.2)))
      hE e0 e1 q1 (by rw [abs_neg, ← abs_neg]; rw [show -(-(F.toInt (F.mul x.2 alpha.2) : Rat) - 2 ^ F.eta * -(realVal F x.2 * realVal F alpha.2)) = F.toInt (F.mul x.2 alpha.2) - 2 ^ F.eta * (realVal F x.2 * realVal F alpha.2) by ring]; exact q2)
      (by rw [← sub_eq_add_neg]; exact r1)
    have s2 := two_products (a := realVal F x.1 * realVal F alpha.2) (b := realVal F x.2 * realVal F alpha.1) (s := F.toInt (F.mul x.1 alpha.2)) (t := F.toInt (F.mul x.2 alpha.1)) (u := F.toInt (F.add (F.mul x.1 alpha.2) (F.mul x.2 alpha.1)))
      hE e0 e1 q3 q4 r2
    have hc : 0 ≤ 4 * (1 / (2 : Rat) ^ F.p) := by positivity
    refine ⟨le_trans (le_of_eq ?_) (le_trans s1 ?_), le_trans s2 ?_⟩
    · unfold cmulQ; rw [sub_eq_add_neg (_ * _) (_ * _)]; rfl
    · have := mul_le_mul_of_nonneg_left (mul_le_mul_of_nonneg_left n1 hE.le) hc
      exact add_le_add_left this 2
    · have := mul_le_mul_of_nonneg_left (mul_le_mul_of_nonneg_left n2 hE.le) hc
      exact add_le_add_left this 2

/-- A term of a complex matrix product. -/
theorem cterm_err [F.OK] {a x alpha : Flt × Flt} (h : DotFinite F a (alphaMul F alpha x)) :
    |((F.exactSum (cmulRe F a (alphaMul F alpha x)) : Int) : Rat) - 2 ^ F.eta * (cmulQ (cval F alpha) (cmulQ (cval F a) (cval F x))).1| ≤
      6 / 2 ^ F.p * (2 ^ F.eta * (norm1 (cval F alpha) * (norm1 (cval F a) * norm1 (cval F x)))) + 9 / 4 * norm1 (cval F a) + 1 ∧
    |((F.exactSum (cmulIm F a (alphaMul F alpha x)) : Int) : Rat) - 2 ^ F.eta * (cmulQ (cval F alpha) (cmulQ (cval F a) (cval F x))).2| ≤
      6 / 2 ^ F.p * (2 ^ F.eta * (norm1 (cval F alpha) * (norm1 (cval F a) * norm1 (cval F x)))) + 9 / 4 * norm1 (cval F a) + 1 := by
  obtain ⟨d1, d2, d3, d4⟩ := h
  have ⟨u1, u2⟩ := alphaMul_err (finite_of_mul' d1).2 (finite_of_mul' d2).2
  have ⟨c1, c2⟩ := cmulQ_le (cval F x) (cval F alpha)
  have m1 := mul_near (k := 4) d1 u1 c1 (by norm_num) (by norm_num) (by norm_num)
  have m2 := mul_near (k := 4) d2 u2 c2 (by norm_num) (by norm_num) (by norm_num)
  have m3 := mul_near (k := 4) d3 u1 c1 (by norm_num) (by norm_num) (by norm_num)
  have m4 := mul_near (k := 4) d4 u2 c2 (by norm_num) (by norm_num) (by norm_num)
  have e1 : ((F.exactSum (cmulRe F a (alphaMul F alpha x)) : Int) : Rat) = F.toInt (F.mul a.1 (alphaMul F alpha x).1) - F.toInt (F.mul a.2 (alphaMul F alpha x).2) := by
    simp only [exactSum, cmulRe, List.map_cons, List.map_nil, List.sum_cons, List.sum_nil, toInt_fneg]
    push_cast; ring
  have e2 : ((F.exactSum (cmulIm F a (alphaMul F alpha x)) : Int) : Rat) = F.toInt (F.mul a.1 (alphaMul F alpha x).2) + F.toInt (F.mul a.2 (alphaMul F alpha x).1) := by
    simp only [exactSum, cmulIm, List.map_cons, List.map_nil, List.sum_cons, List.sum_nil]
    push_cast; ring
  rw [e1, e2]
  have f1 : (cmulQ (cval F alpha) (cmulQ (cval F a) (cval F x))).1 = realVal F a.1 * (cmulQ (cval F x) (cval F alpha)).1 - realVal F a.2 * (cmulQ (cval F x) (cval F alpha)).2 := by
    unfold cmulQ cval; ring
  have f2 : (cmulQ (cval F alpha) (cmulQ (cval F a) (cval F x))).2 = realVal F a.1 * (cmulQ (cval F x) (cval F alpha)).2 + realVal F a.2 * (cmulQ (cval F x) (cval F alpha)).1 := by
    unfold cmulQ cval; ring
  rw [f1, f2]
  have g : norm1 (cval F a) = |realVal F a.1| + |realVal F a.2| := rfl
  rw [show ((4 : Rat) + 2) / 2 ^ F.p = 6 / 2 ^ F.p by norm_num] at m1 m2 m3 m4
  rw [g, show norm1 (cval F alpha) * ((|realVal F a.1| + |realVal F a.2|) * norm1 (cval F x)) = (|realVal F a.1| + |realVal F a.2|) * (norm1 (cval F x) * norm1 (cval F alpha)) by ring]
  generalize norm1 (cval F x) * norm1 (cval F alpha) = s at *
  generalize (cmulQ (cval F x) (cval F alpha)).1 = v1 at *
  generalize (cmulQ (cval F x) (cval F alpha)).2 = v2 at *
  generalize (F.toInt (F.mul a.1 (alphaMul F alpha x).1) : Rat) = t1 at *
  generalize (F.toInt (F.mul a.2 (alphaMul F alpha x).2) : Rat) = t2 at *
  generalize (F.toInt (F.mul a.2 (alphaMul F alpha x).1) : Rat) = t3 at *
  generalize (F.toInt (F.mul a.1 (alphaMul F alpha x).2) : Rat) = t4 at *
  generalize (6 : Rat) / 2 ^ F.p = q at *
  generalize (2 : Rat) ^ F.eta = E at *
  generalize realVal F a.1 = a1 at *
  generalize realVal F a.2 = a2 at *
  clear e1 e2 f1 f2 g d1 d2 d3 d4 u1 u2 c1 c2
  constructor
  · rw [show t1 - t2 - E * (a1 * v1 - a2 * v2) = (t1 - E * (a1 * v1)) - (t2 - E * (a2 * v2)) by ring]
    have := abs_sub (t1 - E * (a1 * v1)) (t2 - E * (a2 * v2))
    linarith
  · rw [show t4 + t3 - E * (a1 * v2 + a2 * v1) = (t4 - E * (a1 * v2)) + (t3 - E * (a2 * v1)) by ring]
    have := abs_add_le (t4 - E * (a1 * v2)) (t3 - E * (a2 * v1))
    linarith

theorem exactSum_flatMap {α : Type} (f : α → List Flt) : ∀ l : List α, ((F.exactSum (l.flatMap f) : Int) : Rat) = (l.map (fun a => ((F.exactSum (f a) : Int) : Rat))).sum
  | [] => by simp [exactSum]
  | a :: l => by
    rw [List.flatMap_cons, exactSum_append, List.map_cons, List.sum_cons]
    push_cast
    rw [exactSum_flatMap f l]

theorem cmulQ_sum (a : Rat × Rat) : ∀ l : List (Rat × Rat), cmulQ a (csumQ l) = csumQ (l.map (cmulQ a))
  | [] => by simp [csumQ, cmulQ]
  | b :: l => by
    have h := cmulQ_sum a l
    have h1 := congrArg Prod.fst h
    have h2 := congrArg Prod.snd h
    change a.1 * (l.map Prod.fst).sum - a.2 * (l.map Prod.snd).sum = ((l.map (cmulQ a)).map Prod.fst).sum at h1
    change a.1 * (l.map Prod.snd).sum + a.2 * (l.map Prod.fst).sum = ((l.map (cmulQ a)).map Prod.snd).sum at h2
    refine Prod.ext ?_ ?_
    · change a.1 * ((b :: l).map Prod.fst).sum - a.2 * ((b :: l).map Prod.snd).sum = (((b :: l).map (cmulQ a)).map Prod.fst).sum
      rw [List.map_cons, List.map_cons, List.map_cons, List.map_cons, List.sum_cons, List.sum_cons, List.sum_cons, ← h1]
      unfold cmulQ; ring
    · change a.1 * ((b :: l).map Prod.snd).sum + a.2 * ((b :: l).map Prod.fst).sum = (((b :: l).map (cmulQ a)).map Prod.snd).sum
      rw [List.map_cons, List.map_cons, List.map_cons, List.map_cons, List.sum_cons, List.sum_cons, List.sum_cons, ← h2]
      unfold cmulQ; ring

/-- The terms of a row of a complex product against its exact value. -/
theorem crow_err [F.OK] {alpha beta y : Flt × Flt} {l : List ((Flt × Flt) × (Flt × Flt))} {tR tI : List Flt}
    (hy : BetaFinite F beta y) (hx : zzero alpha = false → ∀ p ∈ l, DotFinite F p.1 (alphaMul F alpha p.2))
    (eR : zzero alpha = false → F.exactSum tR = F.exactSum (l.flatMap (fun p => cmulRe F p.1 (alphaMul F alpha p.2))))
    (eI : zzero alpha = false → F.exactSum tI = F.exactSum (l.flatMap (fun p => cmulIm F p.1 (alphaMul F alpha p.2)))) :
    |((F.exactSum (zbetaTerm F Prod.fst beta y ++ (if zzero alpha then [] else tR)) : Int) : Rat) - 2 ^ F.eta * (exactRowC F alpha l beta y).1| ≤ termErrC F alpha l beta y ∧
    |((F.exactSum (zbetaTerm F Prod.snd beta y ++ (if zzero alpha then [] else tI)) : Int) : Rat) - 2 ^ F.eta * (exactRowC F alpha l beta y).2| ≤ termErrC F alpha l beta y := by
  have hE : (0 : Rat) < 2 ^ F.eta := by positivity
  have ⟨e0, e1⟩ := eps_small (F := F)
  have hz : ∀ x : Flt × Flt, zzero x = true → cval F x = (0, 0) := by
    intro x hx
    unfold zzero at hx
    rw [Bool.and_eq_true] at hx
    unfold cval
    rw [realVal_zero hx.1, realVal_zero hx.2]
  have hw : 0 ≤ (l.map (fun p => norm1 (cval F p.1))).sum := List.sum_nonneg (by
    intro x hx
    obtain ⟨p, _, rfl⟩ := List.mem_map.1 hx
    exact norm1_nonneg _)
  -- the term of beta
  have hb : |((F.exactSum (zbetaTerm F Prod.fst beta y) : Int) : Rat) - 2 ^ F.eta * (cmulQ (cval F beta) (cval F y)).1| ≤
        6 / 2 ^ F.p * (2 ^ F.eta * (norm1 (cval F beta) * norm1 (cval F y))) + 2 ∧
      |((F.exactSum (zbetaTerm F Prod.snd beta y) : Int) : Rat) - 2 ^ F.eta * (cmulQ (cval F beta) (cval F y)).2| ≤
        6 / 2 ^ F.p * (2 ^ F.eta * (norm1 (cval F beta) * norm1 (cval F y))) + 2 := by
    have hn : 0 ≤ 2 ^ F.eta * (norm1 (cval F y) * norm1 (cval F beta)) := mul_nonneg hE.le (mul_nonneg (norm1_nonneg _) (norm1_nonneg _))
    rw [mul_comm (norm1 (cval F beta))]
    by_cases hbz : zzero beta = true
    · have : (isZero beta.1 && isZero beta.2) = true := hbz
      unfold zbetaTerm
      rw [if_pos this, if_pos this, hz beta hbz]
      have n0 : norm1 ((0, 0) : Rat × Rat) = 0 := by simp [norm1]
      rw [n0]
      simp only [cmulQ, exactSum, List.map_nil, List.sum_nil, zero_mul, sub_self, add_zero, mul_zero, Int.cast_zero, abs_zero, zero_add]
      exact ⟨by norm_num, by norm_num⟩
    · have hbz' : (isZero beta.1 && isZero beta.2) = false := by simpa [zzero] using hbz
      have ⟨f1, f2⟩ := hy hbz'
      have ⟨g1, g2⟩ := alphaMul_err f1 f2
      have c1 : cmulQ (cval F beta) (cval F y) = cmulQ (cval F y) (cval F beta) := by unfold cmulQ; refine Prod.ext ?_ ?_ <;> dsimp only <;> ring
      have hle : 4 / 2 ^ F.p * (2 ^ F.eta * (norm1 (cval F y) * norm1 (cval F beta))) ≤ 6 / 2 ^ F.p * (2 ^ F.eta * (norm1 (cval F y) * norm1 (cval F beta))) := by
        refine mul_le_mul_of_nonneg_right ?_ hn
        rw [show (4 : Rat) / 2 ^ F.p = 4 * (1 / 2 ^ F.p) by ring, show (6 : Rat) / 2 ^ F.p = 6 * (1 / 2 ^ F.p) by ring]
        linarith
      unfold zbetaTerm
      rw [if_neg (by rw [hbz']; decide), if_neg (by rw [hbz']; decide), c1]
      simp only [exactSum, List.map_cons, List.map_nil, List.sum_cons, List.sum_nil, add_zero]
      exact ⟨by linarith, by linarith⟩
  -- the other terms
  have ha : |((F.exactSum (if zzero alpha then [] else tR) : Int) : Rat) - 2 ^ F.eta * (cmulQ (cval F alpha) (csumQ (l.map (fun p => cmulQ (cval F p.1) (cval F p.2))))).1| ≤
        6 / 2 ^ F.p * (2 ^ F.eta * (norm1 (cval F alpha) * (l.map (fun p => norm1 (cval F p.1) * norm1 (cval F p.2))).sum)) + 9 / 4 * (l.map (fun p => norm1 (cval F p.1))).sum + l.length * 1 ∧
      |((F.exactSum (if zzero alpha then [] else tI) : Int) : Rat) - 2 ^ F.eta * (cmulQ (cval F alpha) (csumQ (l.map (fun p => cmulQ (cval F p.1) (cval F p.2))))).2| ≤
        6 / 2 ^ F.p * (2 ^ F.eta * (norm1 (cval F alpha) * (l.map (fun p => norm1 (cval F p.1) * norm1 (cval F p.2))).sum)) + 9 / 4 * (l.map (fun p => norm1 (cval F p.1))).sum + l.length * 1 := by
    by_cases haz : zzero alpha = true
    · rw [if_pos haz, if_pos haz, hz alpha haz]
      have n0 : norm1 ((0, 0) : Rat × Rat) = 0 := by simp [norm1]
      rw [n0]
      simp only [cmulQ, exactSum, List.map_nil, List.sum_nil, zero_mul, sub_self, add_zero, mul_zero, Int.cast_zero, abs_zero, zero_add]
      constructor <;> positivity
    · rw [if_neg haz, if_neg haz]
      have haz' : zzero alpha = false := by simpa using haz
      rw [eR haz', eI haz', exactSum_flatMap, exactSum_flatMap, cmulQ_sum]
      have q : (l.map (fun p => 6 / 2 ^ F.p * (2 ^ F.eta * (norm1 (cval F alpha) * (norm1 (cval F p.1) * norm1 (cval F p.2)))) + 9 / 4 * norm1 (cval F p.1) + 1)).sum =
          6 / 2 ^ F.p * (2 ^ F.eta * (norm1 (cval F alpha) * (l.map (fun p => norm1 (cval F p.1) * norm1 (cval F p.2))).sum)) + 9 / 4 * (l.map (fun p => norm1 (cval F p.1))).sum + l.length * 1 := by
        rw [sum_lin (6 / 2 ^ F.p) (2 ^ F.eta) (fun p : (Flt × Flt) × (Flt × Flt) => norm1 (cval F alpha) * (norm1 (cval F p.1) * norm1 (cval F p.2))) (fun p => 9 / 4 * norm1 (cval F p.1)) 1 l,
          sum_mul (norm1 (cval F alpha)) (fun p : (Flt × Flt) × (Flt × Flt) => norm1 (cval F p.1) * norm1 (cval F p.2)) l, sum_mul (9 / 4) (fun p : (Flt × Flt) × (Flt × Flt) => norm1 (cval F p.1)) l]
      rw [← q]
      have hc := fun p hp => cterm_err (hx haz' p hp)
      have k1 := sum_near (l := l) (f := fun p => ((F.exactSum (cmulRe F p.1 (alphaMul F alpha p.2)) : Int) : Rat)) (g := fun p => 2 ^ F.eta * (cmulQ (cval F alpha) (cmulQ (cval F p.1) (cval F p.2))).1)
        (e := fun p => 6 / 2 ^ F.p * (2 ^ F.eta * (norm1 (cval F alpha) * (norm1 (cval F p.1) * norm1 (cval F p.2)))) + 9 / 4 * norm1 (cval F p.1) + 1)
        (by intro p hp; have := (hc p hp).1; exact this)
      have k2 := sum_near (l := l) (f := fun p => ((F.exactSum (cmulIm F p.1 (alphaMul F alpha p.2)) : Int) : Rat)) (g := fun p => 2 ^ F.eta * (cmulQ (cval F alpha) (cmulQ (cval F p.1) (cval F p.2))).2)
        (e := fun p => 6 / 2 ^ F.p * (2 ^ F.eta * (norm1 (cval F alpha) * (norm1 (cval F p.1) * norm1 (cval F p.2)))) + 9 / 4 * norm1 (cval F p.1) + 1)
        (by intro p hp; have := (hc p hp).2; exact this)
      rw [sum_mul (2 ^ F.eta) (fun p : (Flt × Flt) × (Flt × Flt) => (cmulQ (cval F alpha) (cmulQ (cval F p.1) (cval F p.2))).1) l] at k1
      rw [sum_mul (2 ^ F.eta) (fun p : (Flt × Flt) × (Flt × Flt) => (cmulQ (cval F alpha) (cmulQ (cval F p.1) (cval F p.2))).2) l] at k2
      have j1 : (csumQ ((l.map (fun p => cmulQ (cval F p.1) (cval F p.2))).map (cmulQ (cval F alpha)))).1 = (l.map (fun p => (cmulQ (cval F alpha) (cmulQ (cval F p.1) (cval F p.2))).1)).sum := by
        change (((l.map (fun p => cmulQ (cval F p.1) (cval F p.2))).map (cmulQ (cval F alpha))).map Prod.fst).sum = _
        rw [List.map_map, List.map_map]; rfl
      have j2 : (csumQ ((l.map (fun p => cmulQ (cval F p.1) (cval F p.2))).map (cmulQ (cval F alpha)))).2 = (l.map (fun p => (cmulQ (cval F alpha) (cmulQ (cval F p.1) (cval F p.2))).2)).sum := by
        change (((l.map (fun p => cmulQ (cval F p.1) (cval F p.2))).map (cmulQ (cval F alpha))).map Prod.snd).sum = _
        rw [List.map_map, List.map_map]; rfl
      rw [j1, j2]
      exact ⟨k1, k2⟩
  have comb : ∀ {A B a b E q sa sb w n : Rat}, |B - E * b| ≤ q * (E * sb) + 2 → |A - E * a| ≤ q * (E * sa) + w + n * 1 → |B + A - E * (a + b)| ≤ q * (E * (sa + sb)) + w + (n + 2) := by
    intro A B a b E q sa sb w n h1 h2
    rw [show B + A - E * (a + b) = (B - E * b) + (A - E * a) by ring]
    have h4 := abs_add_le (B - E * b) (A - E * a)
    have h5 : q * (E * (sa + sb)) = q * (E * sa) + q * (E * sb) := by ring
    rw [h5]
    linarith
  rw [exactSum_append, exactSum_append]
  push_cast
  have e1' : (exactRowC F alpha l beta y).1 = (cmulQ (cval F alpha) (csumQ (l.map (fun p => cmulQ (cval F p.1) (cval F p.2))))).1 + (cmulQ (cval F beta) (cval F y)).1 := by
    unfold exactRowC
    change ([_, _].map Prod.fst).sum = _
    simp
  have e2' : (exactRowC F alpha l beta y).2 = (cmulQ (cval F alpha) (csumQ (l.map (fun p => cmulQ (cval F p.1) (cval F p.2))))).2 + (cmulQ (cval F beta) (cval F y)).2 := by
    unfold exactRowC
    change ([_, _].map Prod.snd).sum = _
    simp
  rw [e1', e2']
  exact ⟨comb hb.1 ha.1, comb hb.2 ha.2⟩

theorem DotFinite.flip {a b : Flt × Flt} (h : DotFinite F a b) : DotFinite F b a := by
  obtain ⟨h1, h2, h3, h4⟩ := h
  exact ⟨by rwa [mul_comm_all], by rwa [mul_comm_all], by rwa [mul_comm_all], by rwa [mul_comm_all]⟩

theorem exactSum_flip (a b : Flt × Flt) : F.exactSum (cmulRe F a b) = F.exactSum (cmulRe F b a) ∧ F.exactSum (cmulIm F a b) = F.exactSum (cmulIm F b a) := by
  unfold cmulRe cmulIm exactSum
  simp only [List.map_cons, List.map_nil, List.sum_cons, List.sum_nil]
  rw [mul_comm_all a.1 b.1, mul_comm_all a.2 b.2, mul_comm_all a.1 b.2, mul_comm_all a.2 b.1]
  constructor
  · rfl
  · omega

/-- The factors of entry `r` of `op(A) x`. -/
def zgemvPairs (Order TransA : Char) (cols : Nat) (A : Int → Flt × Flt) (lda : Int) (X : Int → Flt × Flt) (incX : Int) (r : Nat) : List ((Flt × Flt) × (Flt × Flt)) :=
  (List.range cols).map (fun c : Nat => (zopEl (isRow Order) (trOf TransA) A lda r c, X (c * incX)))

/-- The factors of entry `(r, c)` of `op(A) op(B)`: the element of `op(B)` and the element of `op(A)`. -/
def zgemmPairs (Order TransA TransB : Char) (K : Nat) (A : Int → Flt × Flt) (lda : Int) (B : Int → Flt × Flt) (ldb : Int) (r c : Nat) : List ((Flt × Flt) × (Flt × Flt)) :=
  (List.range K).map (fun t : Nat => (zopEl (isRow Order) (trOf TransB) B ldb t c, zopEl (isRow Order) (trOf TransA) A lda r t))

/-- The terms of the real part of an entry of a complex matrix-vector product (`Prod.fst`), or of the imaginary part. -/
def zgemvAll (F : Fmt) (im : Bool) (Order TransA : Char) (cols : Nat) (alpha : Flt × Flt) (A : Int → Flt × Flt) (lda : Int) (X : Int → Flt × Flt) (incX : Int) (beta y : Flt × Flt) (r : Nat) : List Flt :=
  zbetaTerm F (if im then Prod.snd else Prod.fst) beta y ++ (if zzero alpha then [] else
    if im then zgemvIm F (isRow Order) (trOf TransA) cols alpha A lda X incX r else zgemvRe F (isRow Order) (trOf TransA) cols alpha A lda X incX r)

/-- The same for a complex matrix-matrix product. -/
def zgemmAll (F : Fmt) (im : Bool) (Order TransA TransB : Char) (K : Nat) (alpha : Flt × Flt) (A : Int → Flt × Flt) (lda : Int) (B : Int → Flt × Flt) (ldb : Int) (beta y : Flt × Flt) (r c : Nat) : List Flt :=
  zbetaTerm F (if im then Prod.snd else Prod.fst) beta y ++ (if zzero alpha then [] else
    if im then zgemmIm F (isRow Order) (trOf TransA) (trOf TransB) K alpha A lda B ldb r c else zgemmRe F (isRow Order) (trOf TransA) (trOf TransB) K alpha A lda B ldb r c)

theorem zterms_ok {alpha beta y : Flt × Flt} (hy : BetaFinite F beta y) {n : Nat} {f g : Nat → Flt × Flt} (h : zzero alpha = false → ∀ t < n, DotFinite F (f t) (g t)) :
    (∀ x ∈ zbetaTerm F Prod.fst beta y ++ (if zzero alpha then [] else (List.range n).flatMap (fun t => cmulRe F (f t) (g t))), F.Finite x) ∧
    (∀ x ∈ zbetaTerm F Prod.snd beta y ++ (if zzero alpha then [] else (List.range n).flatMap (fun t => cmulIm F (f t) (g t))), F.Finite x) ∧
    (zbetaTerm F Prod.fst beta y ++ (if zzero alpha then [] else (List.range n).flatMap (fun t => cmulRe F (f t) (g t)))).length ≤ 2 * n + 1 ∧
    (zbetaTerm F Prod.snd beta y ++ (if zzero alpha then [] else (List.range n).flatMap (fun t => cmulIm F (f t) (g t)))).length ≤ 2 * n + 1 := by
  have hb : ∀ part : Flt × Flt → Flt, (zbetaTerm F part beta y).length ≤ 1 := by
    intro part; unfold zbetaTerm; split <;> simp
  have hbf : (∀ x ∈ zbetaTerm F Prod.fst beta y, F.Finite x) ∧ (∀ x ∈ zbetaTerm F Prod.snd beta y, F.Finite x) := by
    unfold zbetaTerm
    by_cases hz : (isZero beta.1 && isZero beta.2) = true
    · rw [if_pos hz, if_pos hz]; simp
    · rw [if_neg hz, if_neg hz]
      have := hy (by simpa using hz)
      simp only [List.mem_singleton, forall_eq]
      exact this
  have hlen : ∀ k : Nat → List Flt, (∀ t, (k t).length = 2) → ((List.range n).flatMap k).length = 2 * n := by
    intro k hk
    rw [List.length_flatMap]
    simp only [hk]
    simp; omega
  have l1 := hlen (fun t => cmulRe F (f t) (g t)) (fun _ => rfl)
  have l2 := hlen (fun t => cmulIm F (f t) (g t)) (fun _ => rfl)
  have b1 := hb Prod.fst
  have b2 := hb Prod.snd
  refine ⟨?_, ?_, ?_, ?_⟩
  · intro x hx
    rcases List.mem_append.1 hx with hx | hx
    · exact hbf.1 x hx
    · cases haz : zzero alpha
      · rw [haz, if_neg (by decide)] at hx
        obtain ⟨t, ht, hx⟩ := List.mem_flatMap.1 hx
        have := h haz t (List.mem_range.1 ht)
        unfold cmulRe at hx
        rcases List.mem_cons.1 hx with rfl | hx
        · exact this.1
        · rw [List.mem_singleton] at hx; subst hx; exact this.2.1
      · rw [haz, if_pos rfl] at hx; cases hx
  · intro x hx
    rcases List.mem_append.1 hx with hx | hx
    · exact hbf.2 x hx
    · cases haz : zzero alpha
      · rw [haz, if_neg (by decide)] at hx
        obtain ⟨t, ht, hx⟩ := List.mem_flatMap.1 hx
        have := h haz t (List.mem_range.1 ht)
        unfold cmulIm at hx
        rcases List.mem_cons.1 hx with rfl | hx
        · exact this.2.2.2
        · rw [List.mem_singleton] at hx; subst hx; exact this.2.2.1
      · rw [haz, if_pos rfl] at hx; cases hx
  · rw [List.length_append]; split <;> simp only [List.length_nil, l1] <;> omega
  · rw [List.length_append]; split <;> simp only [List.length_nil, l2] <;> omega

/-- **C76** (matrix-vector product, in part). Both parts of every entry of the native complex matrix-vector product are those of the exact value of
`alpha op(A) x + beta y` up to the error of the reproducible summation and the roundings of the terms, provided no term overflows. Missing: the cases in which the
program is wrong (see C42, C45). -/
theorem C76_zgemv_partial [F.OK] {T : Tune} (hT : T.OK F) {fold : Nat} (hfold : 2 ≤ fold) (hfold' : fold < 2 ^ 50) {b : GemvB} (hb : b.OK)
    (gx : Int → Flt × Flt) (g : Nat → Nat → Int → Flt × Flt) (yi : Int → Binned × Binned) (Order TransA : Char) {M N : Nat} (hM : M ≠ 0) (hN : N ≠ 0) (alpha : Flt × Flt)
    (A : Int → Flt × Flt) (lda : Int) (X : Int → Flt × Flt) (incX : Int) (beta : Flt × Flt) (Y : Int → Flt × Flt) {incY : Int} (hY : incY ≠ 0) {rows cols : Nat}
    (hr : rows = if isNo TransA then M else N) (hc : cols = if isNo TransA then N else M) (hnb : 2 * min T.nb (min cols (gemvTile b Order TransA)) ≤ F.endurance) (hok : isRow Order = true ∨ trOf TransA ≠ .cj ∨ M = N)
    (hcap : 2 * cols + 1 ≤ F.capacity) {r : Nat} (hrr : r < rows) (hy : BetaFinite F beta (Y (r * incY)))
    (hx : zzero alpha = false → ∀ c : Nat, c < cols → DotFinite F (zopEl (isRow Order) (trOf TransA) A lda r c) (alphaMul F alpha (X (c * incX))))
    (hrange : ∀ im, InRange F fold (zgemvAll F im Order TransA cols alpha A lda X incX beta (Y (r * incY)) r)) :
    IsSum F (F.rzgemv T fold b gx g yi Order TransA M N alpha A lda X incX beta Y incY (r * incY)).1
      (2 ^ F.eta * (exactRowC F alpha (zgemvPairs Order TransA cols A lda X incX r) beta (Y (r * incY))).1)
      (sumErr F fold (zgemvAll F false Order TransA cols alpha A lda X incX beta (Y (r * incY)) r) +
        termErrC F alpha (zgemvPairs Order TransA cols A lda X incX r) beta (Y (r * incY))) ∧
    IsSum F (F.rzgemv T fold b gx g yi Order TransA M N alpha A lda X incX beta Y incY (r * incY)).2
      (2 ^ F.eta * (exactRowC F alpha (zgemvPairs Order TransA cols A lda X incX r) beta (Y (r * incY))).2)
      (sumErr F fold (zgemvAll F true Order TransA cols alpha A lda X incX beta (Y (r * incY)) r) +
        termErrC F alpha (zgemvPairs Order TransA cols A lda X incX r) beta (Y (r * incY))) := by
  have h := (C45_rzgemv_partial hT hfold hb gx g yi Order TransA hM hN alpha A lda X incX beta Y hY hr hc hnb hok hcap).1 r hrr hy hx
  rw [h]
  have ⟨f1, f2, n1, n2⟩ := zterms_ok (alpha := alpha) (f := fun c : Nat => zopEl (isRow Order) (trOf TransA) A lda r c) (g := fun c : Nat => alphaMul F alpha (X (c * incX))) hy hx
  have ⟨c1, c2⟩ := crow_err (alpha := alpha) (l := zgemvPairs Order TransA cols A lda X incX r) (tR := zgemvRe F (isRow Order) (trOf TransA) cols alpha A lda X incX r)
    (tI := zgemvIm F (isRow Order) (trOf TransA) cols alpha A lda X incX r) hy
    (by
      intro h0 p hp
      obtain ⟨c, hc, rfl⟩ := List.mem_map.1 hp
      exact hx h0 c (List.mem_range.1 hc))
    (fun _ => by unfold zgemvRe zgemvPairs; rw [List.flatMap_map])
    (fun _ => by unfold zgemvIm zgemvPairs; rw [List.flatMap_map])
  exact ⟨(sum_list hfold hfold' f1 (le_trans n1 hcap) (hrange false)).shift c1, (sum_list hfold hfold' f2 (le_trans n2 hcap) (hrange true)).shift c2⟩

/-- **C76** (matrix-matrix product, in part). Both parts of every entry of the native complex matrix-matrix product are those of the exact value of
`alpha op(A) op(B) + beta C`, up to the same errors. Missing: the cases in which the program is wrong (see C42, C47). -/
theorem C76_zgemm_partial [F.OK] {T : Tune} (hT : T.OK F) {fold : Nat} (hfold : 2 ≤ fold) (hfold' : fold < 2 ^ 50) {b : GemmB} (hb : b.OK)
    (g : Int → Flt × Flt) (ga gb : Nat → Nat → Nat → Int → Flt × Flt) (ci : Int → Binned × Binned) (Order TransA TransB : Char) (M N K : Nat) (alpha : Flt × Flt)
    (A : Int → Flt × Flt) (lda : Int) (B : Int → Flt × Flt) (ldb : Int) (beta : Flt × Flt) (C : Int → Flt × Flt) {ldc : Nat}
    (hnb : 2 * min T.nb (min K (gemmTile b Order TransA TransB)) ≤ F.endurance)
    (hC : (if isRow Order then N else M) ≤ ldc) (hok : isRow Order = true ∨ trOf TransA = .no ∨ (F.feq alpha.1 F.one && isZero alpha.2) = true)
    (hcap : 2 * K + 1 ≤ F.capacity) {r c : Nat} (hr : r < M) (hc : c < N) (hy : BetaFinite F beta (C (entryAt (isRow Order) ldc r c)))
    (hx : zzero alpha = false → ∀ t : Nat, t < K → DotFinite F (alphaMul F alpha (zopEl (isRow Order) (trOf TransA) A lda r t)) (zopEl (isRow Order) (trOf TransB) B ldb t c))
    (hrange : ∀ im, InRange F fold (zgemmAll F im Order TransA TransB K alpha A lda B ldb beta (C (entryAt (isRow Order) ldc r c)) r c)) :
    IsSum F (F.rzgemm T fold b g ga gb ci Order TransA TransB M N K alpha A lda B ldb beta C ldc (entryAt (isRow Order) ldc r c)).1
      (2 ^ F.eta * (exactRowC F alpha (zgemmPairs Order TransA TransB K A lda B ldb r c) beta (C (entryAt (isRow Order) ldc r c))).1)
      (sumErr F fold (zgemmAll F false Order TransA TransB K alpha A lda B ldb beta (C (entryAt (isRow Order) ldc r c)) r c) +
        termErrC F alpha (zgemmPairs Order TransA TransB K A lda B ldb r c) beta (C (entryAt (isRow Order) ldc r c))) ∧
    IsSum F (F.rzgemm T fold b g ga gb ci Order TransA TransB M N K alpha A lda B ldb beta C ldc (entryAt (isRow Order) ldc r c)).2
      (2 ^ F.eta * (exactRowC F alpha (zgemmPairs Order TransA TransB K A lda B ldb r c) beta (C (entryAt (isRow Order) ldc r c))).2)
      (sumErr F fold (zgemmAll F true Order TransA TransB K alpha A lda B ldb beta (C (entryAt (isRow Order) ldc r c)) r c) +
        termErrC F alpha (zgemmPairs Order TransA TransB K A lda B ldb r c) beta (C (entryAt (isRow Order) ldc r c))) := by
  have h := (C47_rzgemm_partial hT hfold hb g ga gb ci Order TransA TransB M N K alpha A lda B ldb beta C hnb hC hok hcap).1 r c hr hc hy hx
  rw [h]
  have ⟨f1, f2, n1, n2⟩ := zterms_ok (alpha := alpha) (f := fun t : Nat => alphaMul F alpha (zopEl (isRow Order) (trOf TransA) A lda r t)) (g := fun t : Nat => zopEl (isRow Order) (trOf TransB) B ldb t c) hy hx
  have q : ∀ k k' : Nat → List Flt, (∀ t, F.exactSum (k t) = F.exactSum (k' t)) → F.exactSum ((List.range K).flatMap k) = F.exactSum ((List.range K).flatMap k') := by
    intro k k' hk
    have h1 := exactSum_flatMap (F := F) k (List.range K)
    have h2 := exactSum_flatMap (F := F) k' (List.range K)
    simp only [hk] at h1
    rw [← h2] at h1
    exact_mod_cast h1
  have ⟨c1, c2⟩ := crow_err (alpha := alpha) (l := zgemmPairs Order TransA TransB K A lda B ldb r c) (tR := zgemmRe F (isRow Order) (trOf TransA) (trOf TransB) K alpha A lda B ldb r c)
    (tI := zgemmIm F (isRow Order) (trOf TransA) (trOf TransB) K alpha A lda B ldb r c) hy
    (by
      intro h0 p hp
      obtain ⟨t, ht, rfl⟩ := List.mem_map.1 hp
      exact (hx h0 t (List.mem_range.1 ht)).flip)
    (fun _ => by unfold zgemmRe zgemmPairs; rw [List.flatMap_map]; exact q _ _ (fun t => (exactSum_flip _ _).1))
    (fun _ => by unfold zgemmIm zgemmPairs; rw [List.flatMap_map]; exact q _ _ (fun t => (exactSum_flip _ _).2))
  exact ⟨(sum_list hfold hfold' f1 (le_trans n1 hcap) (hrange false)).shift c1, (sum_list hfold hfold' f2 (le_trans n2 hcap) (hrange true)).shift c2⟩

/-- The terms of the real or the imaginary part of a complex dot product. -/
def zdotAll (F : Fmt) (conj im : Bool) (n : Nat) (X : Int → Flt × Flt) (incX : Int) (Y : Int → Flt × Flt) (incY : Int) : List Flt :=
  if im then (List.range n).flatMap (fun (i : Nat) => [(dotIm F conj (X (i * incX)) (Y (i * incY))).1, (dotIm F conj (X (i * incX)) (Y (i * incY))).2])
  else (List.range n).flatMap (fun (i : Nat) => [(dotRe F conj (X (i * incX)) (Y (i * incY))).1, (dotRe F conj (X (i * incX)) (Y (i * incY))).2])

theorem dot_err [F.OK] {conj : Bool} {x y : Flt × Flt} (h : DotFinite F x y) :
    |((F.exactSum [(dotRe F conj x y).1, (dotRe F conj x y).2] : Int) : Rat) - 2 ^ F.eta * (cmulQ (conjQ conj (cval F x)) (cval F y)).1| ≤
      1 / 2 ^ F.p * (2 ^ F.eta * (norm1 (cval F x) * norm1 (cval F y))) + 0 + 1 ∧
    |((F.exactSum [(dotIm F conj x y).1, (dotIm F conj x y).2] : Int) : Rat) - 2 ^ F.eta * (cmulQ (conjQ conj (cval F x)) (cval F y)).2| ≤
      1 / 2 ^ F.p * (2 ^ F.eta * (norm1 (cval F x) * norm1 (cval F y))) + 0 + 1 := by
  obtain ⟨d1, d2, d3, d4⟩ := h
  have m1 := mul_real d1
  have m2 := mul_real d2
  have m3 := mul_real d3
  have m4 := mul_real d4
  have ⟨n1, n2⟩ := abs_part (cval F x) (cval F y)
  have hE : (0 : Rat) < 2 ^ F.eta := by positivity
  have hc : (0 : Rat) ≤ 1 / 2 ^ F.p := by positivity
  have k1 := mul_le_mul_of_nonneg_left (mul_le_mul_of_nonneg_left n1 hE.le) hc
  have k2 := mul_le_mul_of_nonneg_left (mul_le_mul_of_nonneg_left n2 hE.le) hc
  rw [abs_neg] at k1
  have v1 : (cval F x).1 = realVal F x.1 := rfl
  have v2 : (cval F x).2 = realVal F x.2 := rfl
  have v3 : (cval F y).1 = realVal F y.1 := rfl
  have v4 : (cval F y).2 = realVal F y.2 := rfl
  rw [v1, v2, v3, v4] at k1 k2
  have ng : ∀ a b c : Rat, |a - b| ≤ c → |-a - (-b)| ≤ c := fun a b c h => by rw [← abs_neg]; rwa [show -(-a - -b) = a - b by ring]
  have m2' := ng _ _ _ m2
  have m3' := ng _ _ _ m3
  cases conj
  all_goals
    simp only [dotRe, dotIm, exactSum, List.map_cons, List.map_nil, List.sum_cons, List.sum_nil, conjQ, cmulQ, if_true, Bool.false_eq_true, if_false, toInt_fneg, v1, v2, v3, v4]
    push_cast
    clear v1 v2 v3 v4
    generalize norm1 (cval F x) * norm1 (cval F y) = s at *
    generalize (1 : Rat) / 2 ^ F.p = q at *
    generalize (2 : Rat) ^ F.eta = E at *
    generalize (F.toInt (F.mul x.1 y.1) : Rat) = t1 at *
    generalize (F.toInt (F.mul x.2 y.2) : Rat) = t2 at *
    generalize (F.toInt (F.mul x.2 y.1) : Rat) = t3 at *
    generalize (F.toInt (F.mul x.1 y.2) : Rat) = t4 at *
    generalize realVal F x.1 = a at *
    generalize realVal F x.2 = b at *
    generalize realVal F y.1 = c at *
    generalize realVal F y.2 = d at *
    constructor
  · have := abs_add_le (t1 - E * (a * c)) (-t2 - (-(E * (b * d))))
    rw [show t1 - E * (a * c) + (-t2 - (-(E * (b * d)))) = t1 + (-t2 + 0) - E * (a * c - b * d) by ring] at this
    linarith
  · have := abs_add_le (t4 - E * (a * d)) (t3 - (E * (b * c)))
    rw [show t4 - E * (a * d) + (t3 - (E * (b * c))) = t3 + (t4 + 0) - E * (a * d + b * c) by ring] at this
    linarith
  · have := abs_add_le (t1 - E * (a * c)) (t2 - (E * (b * d)))
    rw [show t1 - E * (a * c) + (t2 - (E * (b * d))) = t1 + (t2 + 0) - E * (a * c - -b * d) by ring] at this
    linarith
  · have := abs_add_le (t4 - E * (a * d)) (-t3 - (-(E * (b * c))))
    rw [show t4 - E * (a * d) + (-t3 - (-(E * (b * c)))) = -t3 + (t4 + 0) - E * (a * d + -b * c) by ring] at this
    linarith

/-- **C76** (dot product, in part). Both parts of the native complex dot products (`rzdotu_sub`, and `rzdotc_sub` with the conjugated first vector) are those of
the exact sum of products, up to the error of the reproducible summation and the roundings of the products, provided no product overflows. Missing: blocks of more
than half the endurance, where the program is wrong (C42). -/
theorem C76_zdot_partial [F.OK] {conj : Bool} {T : Tune} (hT : T.OK F) {n : Nat} (hnb : 2 * min T.nb n ≤ F.endurance) {fold : Nat} (hfold : 2 ≤ fold) (hfold' : fold < 2 ^ 50)
    {X Y : Int → Flt × Flt} {incX incY : Int} (hN : 2 * n ≤ F.capacity) (hx : ∀ i : Nat, i < n → DotFinite F (X (i * incX)) (Y (i * incY)))
    (hrange : ∀ im, InRange F fold (zdotAll F conj im n X incX Y incY)) :
    let S := if conj then F.rzdotc T fold n X incX Y incY else F.rzdotu T fold n X incX Y incY
    let E := csumQ ((List.range n).map (fun i : Nat => cmulQ (conjQ conj (cval F (X (i * incX)))) (cval F (Y (i * incY)))))
    let e : Rat := 1 / 2 ^ F.p * (2 ^ F.eta * ((List.range n).map (fun i : Nat => norm1 (cval F (X (i * incX))) * norm1 (cval F (Y (i * incY))))).sum) + n
    IsSum F S.1 (2 ^ F.eta * E.1) (sumErr F fold (zdotAll F conj false n X incX Y incY) + e) ∧
    IsSum F S.2 (2 ^ F.eta * E.2) (sumErr F fold (zdotAll F conj true n X incX Y incY) + e) := by
  intro S E e
  have hS : S = _ := zdot_native (conj := conj) hT hnb hfold hN hx
  have q : ((List.range n).map (fun i : Nat => 1 / 2 ^ F.p * (2 ^ F.eta * (norm1 (cval F (X (i * incX))) * norm1 (cval F (Y (i * incY))))) + 0 + 1)).sum = e := by
    rw [sum_lin (1 / 2 ^ F.p) (2 ^ F.eta) (fun i : Nat => norm1 (cval F (X (i * incX))) * norm1 (cval F (Y (i * incY)))) (fun _ => 0) 1 (List.range n)]
    have : ((List.range n).map (fun _ : Nat => (0 : Rat))).sum = 0 := by simp
    rw [this, List.length_range, add_zero, mul_one]
  have hc := fun i hi => dot_err (conj := conj) (hx i hi)
  have k1 := sum_near (l := List.range n) (f := fun i : Nat => ((F.exactSum [(dotRe F conj (X (i * incX)) (Y (i * incY))).1, (dotRe F conj (X (i * incX)) (Y (i * incY))).2] : Int) : Rat))
    (g := fun i : Nat => 2 ^ F.eta * (cmulQ (conjQ conj (cval F (X (i * incX)))) (cval F (Y (i * incY)))).1)
    (e := fun i : Nat => 1 / 2 ^ F.p * (2 ^ F.eta * (norm1 (cval F (X (i * incX))) * norm1 (cval F (Y (i * incY))))) + 0 + 1)
    (by intro i hi; have := (hc i (List.mem_range.1 hi)).1; exact this)
  have k2 := sum_near (l := List.range n) (f := fun i : Nat => ((F.exactSum [(dotIm F conj (X (i * incX)) (Y (i * incY))).1, (dotIm F conj (X (i * incX)) (Y (i * incY))).2] : Int) : Rat))
    (g := fun i : Nat => 2 ^ F.eta * (cmulQ (conjQ conj (cval F (X (i * incX)))) (cval F (Y (i * incY)))).2)
    (e := fun i : Nat => 1 / 2 ^ F.p * (2 ^ F.eta * (norm1 (cval F (X (i * incX))) * norm1 (cval F (Y (i * incY))))) + 0 + 1)
    (by intro i hi; have := (hc i (List.mem_range.1 hi)).2; exact this)
  rw [sum_mul (2 ^ F.eta) (fun i : Nat => (cmulQ (conjQ conj (cval F (X (i * incX)))) (cval F (Y (i * incY)))).1) _, ← exactSum_flatMap, q] at k1
  rw [sum_mul (2 ^ F.eta) (fun i : Nat => (cmulQ (conjQ conj (cval F (X (i * incX)))) (cval F (Y (i * incY)))).2) _, ← exactSum_flatMap, q] at k2
  have j1 : E.1 = ((List.range n).map (fun i : Nat => (cmulQ (conjQ conj (cval F (X (i * incX)))) (cval F (Y (i * incY)))).1)).sum := by
    change (((List.range n).map (fun i : Nat => cmulQ (conjQ conj (cval F (X (i * incX)))) (cval F (Y (i * incY))))).map Prod.fst).sum = _
    rw [List.map_map]; rfl
  have j2 : E.2 = ((List.range n).map (fun i : Nat => (cmulQ (conjQ conj (cval F (X (i * incX)))) (cval F (Y (i * incY)))).2)).sum := by
    change (((List.range n).map (fun i : Nat => cmulQ (conjQ conj (cval F (X (i * incX)))) (cval F (Y (i * incY))))).map Prod.snd).sum = _
    rw [List.map_map]; rfl
  rw [hS, j1, j2]
  have fin : ∀ f : Nat → Flt × Flt, (∀ i < n, F.Finite (f i).1 ∧ F.Finite (f i).2) → ∀ x ∈ (List.range n).flatMap (fun i => [(f i).1, (f i).2]), F.Finite x := by
    intro f hf x hx
    obtain ⟨i, hi, hx⟩ := List.mem_flatMap.1 hx
    have := hf i (List.mem_range.1 hi)
    rcases List.mem_cons.1 hx with rfl | hx
    · exact this.1
    · rw [List.mem_singleton] at hx; subst hx; exact this.2
  have len : ∀ f : Nat → Flt × Flt, ((List.range n).flatMap (fun i => [(f i).1, (f i).2])).length ≤ F.capacity := by
    intro f; rw [List.length_flatMap]; simp; omega
  exact ⟨(sum_list hfold hfold' (fin (fun i => dotRe F conj (X (i * incX)) (Y (i * incY))) (fun i hi => (hx i hi).re)) (len _) (hrange false)).shift k1,
    (sum_list hfold hfold' (fin (fun i => dotIm F conj (X (i * incX)) (Y (i * incY))) (fun i hi => (hx i hi).im)) (len _) (hrange true)).shift k2⟩

/-! Concrete cases. -/

/-- The hypotheses on the data are met: a conjugate transposed 2 by 2 matrix, `alpha = 2 + i`, `beta = 3 - i`. -/
example : let A : Int → Flt × Flt := fun i => (f64.ofInt (i + 1), f64.ofInt (2 - i))
    let alpha := (f64.ofInt 2, f64.ofInt 1)
    let beta := (f64.ofInt 3, f64.ofInt (-1))
    zzero alpha = false ∧ BetaFinite f64 beta (A 5) ∧ (∀ c : Nat, c < 2 → DotFinite f64 (zopEl true .cj A 2 1 c) (alphaMul f64 alpha (A (c * 1)))) ∧
    (∀ im, InRange f64 3 (zgemvAll f64 im 'r' 'c' 2 alpha A 2 A 1 beta (A 5) 1)) ∧
    (∀ im, InRange f64 3 (zgemmAll f64 im 'r' 'n' 'c' 2 alpha A 2 A 2 beta (A 5) 1 0)) ∧
    (∀ conj im, InRange f64 3 (zdotAll f64 conj im 4 A 1 A 2)) := by
  refine ⟨by decide +kernel, ?_, ?_, ?_, ?_, ?_⟩
  · intro _; decide +kernel
  · unfold DotFinite; decide +kernel
  · intro im
    refine Or.inl ⟨by decide, ?_⟩
    cases im <;> decide +kernel
  · intro im
    refine Or.inl ⟨by decide, ?_⟩
    cases im <;> decide +kernel
  · intro conj im
    refine Or.inl ⟨by decide, ?_⟩
    cases conj <;> cases im <;> decide +kernel

/-- `(1 + 2i)(3 + 4i) = -5 + 10i`, and with the conjugate of the first factor `11 - 2i`. -/
example : cmulQ (1, 2) (3, 4) = (-5, 10) ∧ cmulQ (conjQ true (1, 2)) (3, 4) = (11, -2) := by decide +kernel

end Repro
