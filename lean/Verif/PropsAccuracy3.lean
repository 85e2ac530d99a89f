import Verif.PropsAccuracy2
import Verif.PropsGemmInf
import Verif.PropsZGemm2
import Verif.FmaLemmas

/-!
# C75, C76: the native dot and matrix products against the exact value of the expression

C58 compares a matrix product with the exact sum of its rounded terms. Here the roundings of the terms themselves, including those of the products with
`alpha` and `beta`, are part of the error, so that the results are compared with the exact value of `alpha op(A) x + beta y` and
`alpha op(A) op(B) + beta C`.
-/

namespace Repro
open Fmt

variable {F : Fmt}

/-- The real number a finite floating point number stands for. -/
def realVal (F : Fmt) (x : Flt) : Rat := F.toInt x / 2 ^ F.eta

/-- `alpha * sum of p.1 * p.2 + beta * y`, exactly. -/
def exactRow (F : Fmt) (alpha : Flt) (l : List (Flt × Flt)) (beta y : Flt) : Rat :=
  realVal F alpha * (l.map (fun p => realVal F p.1 * realVal F p.2)).sum + realVal F beta * realVal F y

/-- The same with absolute values. -/
def absRow (F : Fmt) (alpha : Flt) (l : List (Flt × Flt)) (beta y : Flt) : Rat :=
  |realVal F alpha| * (l.map (fun p => |realVal F p.1 * realVal F p.2|)).sum + |realVal F beta * realVal F y|

/-- The rounding errors of the terms, in units of `2^-eta`: relative `3 * 2^-p` and, for products that are subnormal, half a unit each and
half a unit in the product with `alpha`, which is then multiplied by the other factor (at most `l.map fst`). -/
def termErr (F : Fmt) (alpha : Flt) (l : List (Flt × Flt)) (beta y : Flt) : Rat :=
  3 / 2 ^ F.p * (2 ^ F.eta * absRow F alpha l beta y) + (l.map (fun p => |realVal F p.1|)).sum + (l.length + 1) / 2

theorem exactMul_real (F : Fmt) (x y : Flt) : exactMul F x y = 2 ^ F.eta * (realVal F x * realVal F y) := by
  unfold exactMul realVal
  have : (2 : Rat) ^ F.eta ≠ 0 := by positivity
  field_simp

theorem toInt_real (F : Fmt) (x : Flt) : (F.toInt x : Rat) = 2 ^ F.eta * realVal F x := by
  unfold realVal
  have : (2 : Rat) ^ F.eta ≠ 0 := by positivity
  field_simp

theorem eps_small [F.OK] : (0 : Rat) < 1 / 2 ^ F.p ∧ (1 : Rat) / 2 ^ F.p ≤ 1 / 8 := by
  have ⟨hp, _⟩ := F.facts
  refine ⟨by positivity, ?_⟩
  rw [div_le_div_iff₀ (by positivity) (by norm_num), one_mul, one_mul]
  have : (2 : Rat) ^ 3 ≤ 2 ^ F.p := pow_le_pow_right₀ (by norm_num) (by omega)
  linarith

theorem finite_of_mul' [F.OK] {x y : Flt} (h : F.Finite (F.mul x y)) : F.Finite x ∧ F.Finite y :=
  ⟨finite_of_mul h, finite_of_mul (mul_comm_all x y ▸ h)⟩

/-- One product. -/
theorem mul_real [F.OK] {x y : Flt} (h : F.Finite (F.mul x y)) :
    |(F.toInt (F.mul x y) : Rat) - 2 ^ F.eta * (realVal F x * realVal F y)| ≤ 1 / 2 ^ F.p * (2 ^ F.eta * |realVal F x * realVal F y|) + 1 / 2 := by
  have h1 := mul_err (finite_of_mul' h).1 (finite_of_mul' h).2 h
  rw [exactMul_real, abs_mul, abs_of_pos (show (0 : Rat) < 2 ^ F.eta by positivity)] at h1
  linarith [show 2 ^ F.eta * |realVal F x * realVal F y| / 2 ^ F.p = 1 / 2 ^ F.p * (2 ^ F.eta * |realVal F x * realVal F y|) by ring]

/-- A product `a * u` where `u` approximates `v`. -/
theorem mul_near [F.OK] {a u : Flt} {v s c k : Rat} (h : F.Finite (F.mul a u)) (hu : |(F.toInt u : Rat) - 2 ^ F.eta * v| ≤ k / 2 ^ F.p * (2 ^ F.eta * s) + c)
    (hv : |v| ≤ s) (hc : 0 ≤ c) (hk : 0 ≤ k) (hk8 : k ≤ 8) :
    |(F.toInt (F.mul a u) : Rat) - 2 ^ F.eta * (realVal F a * v)| ≤ (k + 2) / 2 ^ F.p * (2 ^ F.eta * (|realVal F a| * s)) + |realVal F a| * (9 / 8 * c) + 1 / 2 := by
  have h1 := mul_real h
  have ⟨e0, e1⟩ := eps_small (F := F)
  have hE : (0 : Rat) < 2 ^ F.eta := by positivity
  rw [toInt_real F u] at hu
  rw [show k / 2 ^ F.p = k * (1 / 2 ^ F.p) by ring] at hu
  rw [show (k + 2) / 2 ^ F.p = (k + 2) * (1 / 2 ^ F.p) by ring]
  generalize (1 : Rat) / 2 ^ F.p = e at *
  generalize (2 : Rat) ^ F.eta = E at *
  generalize (F.toInt (F.mul a u) : Rat) = t at *
  generalize realVal F a = a at *
  generalize realVal F u = u at *
  have hs : 0 ≤ s := le_trans (abs_nonneg _) hv
  have h2 : |E * (a * u) - E * (a * v)| ≤ |a| * (k * e * (E * s) + c) := by
    rw [show E * (a * u) - E * (a * v) = a * (E * u - E * v) by ring, abs_mul]
    exact mul_le_mul_of_nonneg_left hu (abs_nonneg _)
  have h3 : E * |a * u| ≤ |a| * (E * s) + |a| * (k * e * (E * s) + c) := by
    have : E * |a * u| = |E * (a * u)| := by rw [abs_mul E, abs_of_pos hE]
    rw [this]
    have h4 : |E * (a * u)| ≤ |E * (a * u) - E * (a * v)| + |E * (a * v)| := by
      have := abs_add_le (E * (a * u) - E * (a * v)) (E * (a * v))
      rwa [sub_add_cancel] at this
    have h5 : |E * (a * v)| ≤ |a| * (E * s) := by
      rw [abs_mul, abs_of_pos hE, abs_mul]
      have := mul_le_mul_of_nonneg_left hv (mul_nonneg hE.le (abs_nonneg a))
      linarith
    linarith
  have h6 : |t - E * (a * v)| ≤ |t - E * (a * u)| + |E * (a * u) - E * (a * v)| := abs_sub_le _ _ _
  have h7 : e * (E * |a * u|) ≤ e * (|a| * (E * s) + |a| * (k * e * (E * s) + c)) := mul_le_mul_of_nonneg_left h3 e0.le
  have hP : 0 ≤ |a| * (E * s) := mul_nonneg (abs_nonneg _) (mul_nonneg hE.le hs)
  have hQ : 0 ≤ |a| * c := mul_nonneg (abs_nonneg _) hc
  have h8 : e * (k * e * (|a| * (E * s))) ≤ 1 * e * (|a| * (E * s)) := by
    have : k * e ≤ 1 := by nlinarith
    have := mul_le_mul_of_nonneg_right this (mul_nonneg e0.le hP)
    linarith
  have h9 : e * (|a| * c) ≤ 1 / 8 * (|a| * c) := mul_le_mul_of_nonneg_right e1 hQ
  nlinarith [h1, h2, h6, h7, h8, h9]

/-- A term of a matrix product. -/
theorem term_err [F.OK] {a x alpha : Flt} (h : F.Finite (F.mul a (F.mul x alpha))) :
    |(F.toInt (F.mul a (F.mul x alpha)) : Rat) - 2 ^ F.eta * (realVal F alpha * (realVal F a * realVal F x))| ≤
      3 / 2 ^ F.p * (2 ^ F.eta * (|realVal F alpha| * |realVal F a * realVal F x|)) + |realVal F a| + 1 / 2 := by
  have h1 := mul_real (finite_of_mul' h).2
  have h2 := mul_near (k := 1) h h1 (le_refl _) (by norm_num) (by norm_num) (by norm_num)
  have e1 : realVal F alpha * (realVal F a * realVal F x) = realVal F a * (realVal F x * realVal F alpha) := by ring
  have e2 : |realVal F alpha| * |realVal F a * realVal F x| = |realVal F a| * |realVal F x * realVal F alpha| := by
    rw [abs_mul, abs_mul]; ring
  rw [e1, e2]
  refine le_trans h2 ?_
  have := abs_nonneg (realVal F a)
  norm_num
  linarith

theorem sum_near {α : Type} {f g e : α → Rat} : ∀ {l : List α}, (∀ x ∈ l, |f x - g x| ≤ e x) → |(l.map f).sum - (l.map g).sum| ≤ (l.map e).sum
  | [], _ => by simp
  | x :: l, h => by
    have h1 := h x List.mem_cons_self
    have h2 := sum_near (fun z hz => h z (List.mem_cons_of_mem _ hz))
    simp only [List.map_cons, List.sum_cons]
    rw [show f x + (l.map f).sum - (g x + (l.map g).sum) = (f x - g x) + ((l.map f).sum - (l.map g).sum) by ring]
    have := abs_add_le (f x - g x) ((l.map f).sum - (l.map g).sum)
    linarith

theorem exactSum_map {α : Type} (f : α → Flt) : ∀ l : List α, ((F.exactSum (l.map f) : Int) : Rat) = (l.map (fun a => (F.toInt (f a) : Rat))).sum
  | [] => by simp [exactSum]
  | a :: l => by
    have := exactSum_map f l
    unfold exactSum at this ⊢
    simp only [List.map_cons, List.sum_cons]
    push_cast
    rw [this]

theorem exactSum_append (a b : List Flt) : F.exactSum (a ++ b) = F.exactSum a + F.exactSum b := by
  unfold exactSum; rw [List.map_append, List.sum_append]

theorem sum_lin {α : Type} (c d : Rat) (f g : α → Rat) (k : Rat) : ∀ l : List α,
    (l.map (fun x => c * (d * f x) + g x + k)).sum = c * (d * (l.map f).sum) + (l.map g).sum + l.length * k
  | [] => by simp
  | a :: l => by
    simp only [List.map_cons, List.sum_cons, List.length_cons, sum_lin c d f g k l]
    push_cast; ring

theorem sum_mul {α : Type} (c : Rat) (f : α → Rat) : ∀ l : List α, (l.map (fun x => c * f x)).sum = c * (l.map f).sum
  | [] => by simp
  | a :: l => by simp only [List.map_cons, List.sum_cons, sum_mul c f l]; ring

/-- The terms of a row against its exact value. -/
theorem row_err [F.OK] {alpha beta y : Flt} {l : List (Flt × Flt)}
    (h : ∀ x ∈ betaTerm F beta y ++ (if isZero alpha then [] else l.map (fun p => F.mul p.1 (F.mul p.2 alpha))), F.Finite x) :
    |((F.exactSum (betaTerm F beta y ++ (if isZero alpha then [] else l.map (fun p => F.mul p.1 (F.mul p.2 alpha)))) : Int) : Rat) - 2 ^ F.eta * exactRow F alpha l beta y| ≤
      termErr F alpha l beta y := by
  have hE : (0 : Rat) < 2 ^ F.eta := by positivity
  have ⟨e0, e1⟩ := eps_small (F := F)
  have hz : ∀ x : Flt, isZero x = true → realVal F x = 0 := by
    intro x hx
    unfold isZero at hx
    have : x.mag = 0 := by simpa using hx
    unfold realVal toInt
    rw [this, val_eq_zero.2 rfl]
    simp
  -- the term of beta
  have hb : |((F.exactSum (betaTerm F beta y) : Int) : Rat) - 2 ^ F.eta * (realVal F beta * realVal F y)| ≤ 3 / 2 ^ F.p * (2 ^ F.eta * |realVal F beta * realVal F y|) + 1 / 2 := by
    by_cases hbz : isZero beta = true
    · rw [hz beta hbz]
      unfold betaTerm
      rw [hbz]
      simp [exactSum]
    · rw [Bool.not_eq_true] at hbz
      have hm : F.Finite (F.mul y beta) := h _ (by unfold betaTerm; rw [hbz]; simp)
      have h1 := mul_real hm
      unfold betaTerm
      rw [hbz]
      simp only [Bool.false_eq_true, if_false, exactSum, List.map_cons, List.map_nil, List.sum_cons, List.sum_nil, add_zero]
      rw [mul_comm (realVal F beta)]
      refine le_trans h1 ?_
      have : 0 ≤ 2 ^ F.eta * |realVal F y * realVal F beta| := mul_nonneg hE.le (abs_nonneg _)
      rw [show (3 : Rat) / 2 ^ F.p = 3 * (1 / 2 ^ F.p) by ring]
      nlinarith
  -- the other terms
  have ha : |((F.exactSum (if isZero alpha then [] else l.map (fun p => F.mul p.1 (F.mul p.2 alpha))) : Int) : Rat) -
        2 ^ F.eta * (realVal F alpha * (l.map (fun p => realVal F p.1 * realVal F p.2)).sum)| ≤
      3 / 2 ^ F.p * (2 ^ F.eta * (|realVal F alpha| * (l.map (fun p => |realVal F p.1 * realVal F p.2|)).sum)) + (l.map (fun p => |realVal F p.1|)).sum + l.length / 2 := by
    by_cases haz : isZero alpha = true
    · rw [hz alpha haz, if_pos haz]
      have : 0 ≤ (l.map (fun p => |realVal F p.1|)).sum := List.sum_nonneg (by
        intro x hx
        obtain ⟨p, _, rfl⟩ := List.mem_map.1 hx
        exact abs_nonneg _)
      simp only [exactSum, List.map_nil, List.sum_nil, abs_zero, zero_mul, mul_zero, Int.cast_zero, sub_self, zero_add]
      positivity
    · rw [if_neg haz] at h ⊢
      rw [exactSum_map]
      have hs := sum_near (l := l) (f := fun p => (F.toInt (F.mul p.1 (F.mul p.2 alpha)) : Rat)) (g := fun p => 2 ^ F.eta * (realVal F alpha * (realVal F p.1 * realVal F p.2)))
        (e := fun p => 3 / 2 ^ F.p * (2 ^ F.eta * (|realVal F alpha| * |realVal F p.1 * realVal F p.2|)) + |realVal F p.1| + 1 / 2)
        (fun p hp => by
          have hf : F.Finite (F.mul p.1 (F.mul p.2 alpha)) := h _ (List.mem_append_right _ (List.mem_map_of_mem hp))
          exact term_err hf)
      rw [sum_lin (3 / 2 ^ F.p) (2 ^ F.eta) (fun p : Flt × Flt => |realVal F alpha| * |realVal F p.1 * realVal F p.2|) (fun p => |realVal F p.1|) (1 / 2) l,
        sum_mul (2 ^ F.eta) (fun p : Flt × Flt => realVal F alpha * (realVal F p.1 * realVal F p.2)) l,
        sum_mul (realVal F alpha) (fun p : Flt × Flt => realVal F p.1 * realVal F p.2) l, sum_mul (|realVal F alpha|) (fun p : Flt × Flt => |realVal F p.1 * realVal F p.2|) l,
        show (l.length : Rat) * (1 / 2) = l.length / 2 by ring] at hs
      exact hs
  rw [exactSum_append]
  unfold exactRow termErr absRow
  push_cast
  generalize ((F.exactSum (betaTerm F beta y) : Int) : Rat) = B at *
  generalize ((F.exactSum (if isZero alpha then [] else l.map (fun p => F.mul p.1 (F.mul p.2 alpha))) : Int) : Rat) = A at *
  generalize realVal F beta * realVal F y = b at *
  generalize (l.map (fun p => realVal F p.1 * realVal F p.2)).sum = s at *
  generalize (l.map (fun p => |realVal F p.1 * realVal F p.2|)).sum = s' at *
  generalize (2 : Rat) ^ F.eta = E at *
  generalize (3 : Rat) / 2 ^ F.p = q at *
  generalize realVal F alpha = α at *
  generalize (l.map (fun p => |realVal F p.1|)).sum = w at *
  generalize (l.length : Rat) = n at *
  clear h e0 e1 hE hz
  have h3 : B + A - E * (α * s + b) = (B - E * b) + (A - E * (α * s)) := by ring
  rw [h3]
  have h4 := abs_add_le (B - E * b) (A - E * (α * s))
  have h5 : q * (E * (|α| * s' + |b|)) = q * (E * (|α| * s')) + q * (E * |b|) := by ring
  rw [h5]
  linarith

/-- The factors of entry `r` of `op(A) x`. -/
def gemvPairs (Order TransA : Char) (cols : Nat) (A : Int → Flt) (lda : Int) (X : Int → Flt) (incX : Int) (r : Nat) : List (Flt × Flt) :=
  (List.range cols).map (fun c : Nat => (opEl (isRow Order) (isNo TransA) A lda r c, X (c * incX)))

/-- The factors of entry `(r, c)` of `op(A) op(B)`: the element of `op(B)` and the element of `op(A)`. -/
def gemmPairs (Order TransA TransB : Char) (K : Nat) (A : Int → Flt) (lda : Int) (B : Int → Flt) (ldb : Int) (r c : Nat) : List (Flt × Flt) :=
  (List.range K).map (fun t : Nat => (opEl (isRow Order) (isNo TransB) B ldb t c, opEl (isRow Order) (isNo TransA) A lda r t))

/-- **C75** (matrix-vector product). Every entry of the native matrix-vector product is the exact value of `alpha op(A) x + beta y` up to the error of the
reproducible summation and the roundings of the terms, provided no term overflows; it is infinite only if the exact value reaches the overflow threshold up to
that error, and it is never NaN. -/
theorem C75_gemv [F.OK] {T : Tune} (hT : T.OK F) {fold : Nat} (hfold : 2 ≤ fold) (hfold' : fold < 2 ^ 50) {b : GemvB} (hb : b.OK) (gx : Int → Flt) (g : Nat → Nat → Int → Flt)
    (yi : Int → Binned) (Order TransA : Char) {M N : Nat} (hM : M ≠ 0) (hN : N ≠ 0) (alpha : Flt) (A : Int → Flt) (lda : Int)
    (X : Int → Flt) (incX : Int) (beta : Flt) (Y : Int → Flt) {incY : Int} (hY : incY ≠ 0) {rows cols : Nat}
    (hr : rows = if isNo TransA then M else N) (hc : cols = if isNo TransA then N else M) (hcap : cols + 1 ≤ F.capacity)
    {r : Nat} (hrr : r < rows)
    (hx : ∀ x ∈ gemvAll F Order TransA cols alpha A lda X incX beta (Y (r * incY)) r, F.Finite x)
    (hrange : InRange F fold (gemvAll F Order TransA cols alpha A lda X incX beta (Y (r * incY)) r)) :
    IsSum F (F.rdgemv T fold b gx g yi Order TransA M N alpha A lda X incX beta Y incY (r * incY))
      (2 ^ F.eta * exactRow F alpha (gemvPairs Order TransA cols A lda X incX r) beta (Y (r * incY)))
      (sumErr F fold (gemvAll F Order TransA cols alpha A lda X incX beta (Y (r * incY)) r) +
        termErr F alpha (gemvPairs Order TransA cols A lda X incX r) beta (Y (r * incY))) := by
  have e : gemvAll F Order TransA cols alpha A lda X incX beta (Y (r * incY)) r = betaTerm F beta (Y (r * incY)) ++
      (if isZero alpha then [] else (gemvPairs Order TransA cols A lda X incX r).map (fun p => F.mul p.1 (F.mul p.2 alpha))) := by
    unfold gemvAll gemvTerms gemvPairs
    rw [List.map_map]; rfl
  refine (C58_gemv hT hfold hfold' hb gx g yi Order TransA hM hN alpha A lda X incX beta Y hY hr hc ?_ hcap hrr ?_ hx hrange).shift ?_
  · intro h0 c hcc
    have : F.Finite (F.mul (opEl (isRow Order) (isNo TransA) A lda r c) (F.mul (X (c * incX)) alpha)) := hx _ (by
      unfold gemvAll gemvTerms
      rw [h0]
      simp only [Bool.false_eq_true, if_false]
      exact List.mem_append_right _ (List.mem_map.2 ⟨c, List.mem_range.2 hcc, rfl⟩))
    exact (finite_of_mul' (finite_of_mul' this).2).1
  · intro h0
    have : F.Finite (F.mul (Y (r * incY)) beta) := hx _ (by unfold gemvAll betaTerm; rw [h0]; simp)
    exact (finite_of_mul' this).1
  · rw [e] at hx ⊢
    exact row_err hx

/-- **C75** (matrix-matrix product). Every entry of the native matrix-matrix product is the exact value of `alpha op(A) op(B) + beta C`, up to the same errors. -/
theorem C75_gemm [F.OK] {T : Tune} (hT : T.OK F) {fold : Nat} (hfold : 2 ≤ fold) (hfold' : fold < 2 ^ 50) {b : GemmB} (hb : b.OK) (g : Int → Flt) (ga gb : Nat → Nat → Nat → Int → Flt)
    (ci : Int → Binned) (Order TransA TransB : Char) (M N K : Nat) (alpha : Flt) (A : Int → Flt) (lda : Int)
    (B : Int → Flt) (ldb : Int) (beta : Flt) (C : Int → Flt) {ldc : Nat} (hC : (if isRow Order then N else M) ≤ ldc) (hcap : K + 1 ≤ F.capacity)
    {r c : Nat} (hr : r < M) (hc : c < N)
    (hx : ∀ x ∈ gemmAll F Order TransA TransB K alpha A lda B ldb beta (C (entryAt (isRow Order) ldc r c)) r c, F.Finite x)
    (hrange : InRange F fold (gemmAll F Order TransA TransB K alpha A lda B ldb beta (C (entryAt (isRow Order) ldc r c)) r c)) :
    IsSum F (F.rdgemm T fold b g ga gb ci Order TransA TransB M N K alpha A lda B ldb beta C ldc (entryAt (isRow Order) ldc r c))
      (2 ^ F.eta * exactRow F alpha (gemmPairs Order TransA TransB K A lda B ldb r c) beta (C (entryAt (isRow Order) ldc r c)))
      (sumErr F fold (gemmAll F Order TransA TransB K alpha A lda B ldb beta (C (entryAt (isRow Order) ldc r c)) r c) +
        termErr F alpha (gemmPairs Order TransA TransB K A lda B ldb r c) beta (C (entryAt (isRow Order) ldc r c))) := by
  have e : gemmAll F Order TransA TransB K alpha A lda B ldb beta (C (entryAt (isRow Order) ldc r c)) r c = betaTerm F beta (C (entryAt (isRow Order) ldc r c)) ++
      (if isZero alpha then [] else (gemmPairs Order TransA TransB K A lda B ldb r c).map (fun p => F.mul p.1 (F.mul p.2 alpha))) := by
    unfold gemmAll gemmTerms gemmPairs
    rw [List.map_map]
    congr 2
    exact List.map_congr_left (fun t _ => mul_comm_all _ _)
  refine (C58_gemm hT hfold hfold' hb g ga gb ci Order TransA TransB M N K alpha A lda B ldb beta C hC hcap hr hc ?_ ?_ hx hrange).shift ?_
  · intro h0
    have : F.Finite (F.mul (C (entryAt (isRow Order) ldc r c)) beta) := hx _ (by unfold gemmAll betaTerm; rw [h0]; simp)
    exact (finite_of_mul' this).1
  · intro h0 t ht
    have : F.Finite (F.mul (F.mul (opEl (isRow Order) (isNo TransA) A lda r t) alpha) (opEl (isRow Order) (isNo TransB) B ldb t c)) := hx _ (by
      unfold gemmAll gemmTerms
      rw [h0]
      simp only [Bool.false_eq_true, if_false]
      exact List.mem_append_right _ (List.mem_map.2 ⟨t, List.mem_range.2 ht, rfl⟩))
    exact (finite_of_mul' (finite_of_mul' this).1).1
  · rw [e] at hx ⊢
    exact row_err hx

/-- The hypotheses are met by the 2 x 2 example at the end of `PropsAccuracy2` (`alpha = 2`, `beta = 3`); the exact value of the row is `2 (3 * 1 + 4 * 2) + 3 * 5`. -/
example : let A : Int → Flt := fun i => f64.ofInt (i + 1)
    (∀ x ∈ gemvAll f64 'r' 'n' 2 (f64.ofInt 2) A 2 A 1 (f64.ofInt 3) (f64.ofInt 5) 1, f64.Finite x) ∧
    exactRow f64 (f64.ofInt 2) (gemvPairs 'r' 'n' 2 A 2 A 1 1) (f64.ofInt 3) (f64.ofInt 5) = 2 * (3 * 1 + 4 * 2) + 3 * 5 := by
  decide +kernel

end Repro
