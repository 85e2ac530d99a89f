import Verif.BlasLetters
import Verif.PropsGemm3
import Verif.PropsZGemm2

/-!
# C79: the matrix products as operations on matrices

A specification of the matrix products in the terms of the BLAS standard: mathematical matrices, the two storage orders, and the letters for storage order and
transposition, with nothing taken from the model of the code.
-/

namespace Repro
open Fmt

variable {F : Fmt}

/-- The products of row `i` of op(a) with the vector `x` scaled by `alpha`. -/
def rowProducts (F : Fmt) (op : BlasOp) (n : Nat) (alpha : Flt) (a : Nat → Nat → Flt) (x : Nat → Flt) (i : Nat) : List Flt :=
  (List.range n).map (fun j => F.mul (op.mat a i j) (F.mul (x j) alpha))

/-- The products of row `i` of op(a), scaled by `alpha`, with column `j` of op(b). -/
def innerProducts (F : Fmt) (opA opB : BlasOp) (k : Nat) (alpha : Flt) (a b : Nat → Nat → Flt) (i j : Nat) : List Flt :=
  (List.range k).map (fun t => F.mul (F.mul (opA.mat a i t) alpha) (opB.mat b t j))

/-- **C79** (`rdgemv`, `rsgemv`). For the letters of the standard: if `A` holds the matrix `a` in the storage order the letter names, `X` the vector `x`, `Y` the vector `y`, then
the result holds in place of `y i` the conversion of the reproducible sum of `y i * beta` and of the products of row `i` of op(a) with `x * alpha`; the rest of `Y` is unchanged. -/
theorem C79_rdgemv [F.OK] {T : Tune} (hT : T.OK F) {fold : Nat} (hfold : 2 ≤ fold) {b : GemvB} (hb : b.OK) (gx : Int → Flt) (g : Nat → Nat → Int → Flt)
    (yi : Int → Binned) {Order TransA : Char} {L : StoreOrder} {op : BlasOp} (ho : OrderLetter Order L) (ht : OpLetter TransA op) {m n : Nat} (hm : m ≠ 0) (hn : n ≠ 0) (alpha : Flt)
    {A : Int → Flt} {lda : Int} {X : Int → Flt} {incX : Int} (beta : Flt) {Y : Int → Flt} {incY : Int} (hY : incY ≠ 0) {a : Nat → Nat → Flt} {x y : Nat → Flt}
    (hA : L.Stores A lda (op.rows m n) (op.cols m n) a) (hx : ∀ j : Nat, j < n → X (j * incX) = x j) (hy : ∀ i : Nat, i < m → Y (i * incY) = y i)
    (hX : isZero alpha = false → ∀ j : Nat, j < n → F.Finite (x j)) (hcap : n + 1 ≤ F.capacity) :
    (∀ i : Nat, i < m → (isZero beta = false → F.Finite (y i) ∧ F.Finite (F.mul (y i) beta)) → (isZero alpha = false → ∀ v ∈ rowProducts F op n alpha a x i, F.Finite v) →
      F.rdgemv T fold b gx g yi Order TransA (op.rows m n) (op.cols m n) alpha A lda X incX beta Y incY (i * incY) =
        convert F fold (F.specSum fold ((if isZero beta then [] else [F.mul (y i) beta]) ++ (if isZero alpha then [] else rowProducts F op n alpha a x i)))) ∧
    (∀ l : Int, (∀ i : Nat, i < m → (i : Int) * incY ≠ l) → F.rdgemv T fold b gx g yi Order TransA (op.rows m n) (op.cols m n) alpha A lda X incX beta Y incY l = Y l) := by
  have h0 : op.rows m n ≠ 0 ∧ op.cols m n ≠ 0 := by cases op <;> exact ⟨by assumption, by assumption⟩
  have hr : m = if isNo TransA then op.rows m n else op.cols m n := by rw [isNo_letter ht]; cases op <;> rfl
  have hc : n = if isNo TransA then op.cols m n else op.rows m n := by rw [isNo_letter ht]; cases op <;> rfl
  have H := C26_gemv hT hfold hb gx g yi Order TransA h0.1 h0.2 alpha A lda X incX beta Y hY hr hc (fun ha j hj => by rw [hx j hj]; exact hX ha j hj) hcap
  refine ⟨?_, H.2⟩
  intro i hi h1 h2
  have e : gemvTerms F (isRow Order) (isNo TransA) n alpha A lda X incX i = rowProducts F op n alpha a x i := by
    refine List.map_congr_left fun j hj => ?_
    have hj := List.mem_range.1 hj
    rw [opEl_letter ho ht hA hi hj, hx j hj]
  have H1 := H.1 i hi (by rw [hy i hi]; exact h1) (by rw [e]; exact h2)
  rw [H1, e, hy i hi]
  rfl

/-- **C79** (`rdgemm`, `rsgemm`). For the letters of the standard: if `A`, `B`, `C` hold the matrices `a`, `b`, `c` in the storage order the letter names, then the result holds in place of `c i j`
the conversion of the reproducible sum of `c i j * beta` and of the products of row `i` of alpha * op(a) with column `j` of op(b); the rest of `C` is unchanged. -/
theorem C79_rdgemm [F.OK] {T : Tune} (hT : T.OK F) {fold : Nat} (hfold : 2 ≤ fold) {bl : GemmB} (hb : bl.OK) (g : Int → Flt) (ga gb : Nat → Nat → Nat → Int → Flt)
    (ci : Int → Binned) {Order TransA TransB : Char} {L : StoreOrder} {opA opB : BlasOp} (ho : OrderLetter Order L) (hta : OpLetter TransA opA) (htb : OpLetter TransB opB) (m n k : Nat) (alpha : Flt)
    {A : Int → Flt} {lda : Int} {B : Int → Flt} {ldb : Int} (beta : Flt) {C : Int → Flt} {ldc : Nat} (hC : (match L with | .rowMajor => n | .colMajor => m) ≤ ldc)
    {a b c : Nat → Nat → Flt} (hA : L.Stores A lda (opA.rows m k) (opA.cols m k) a) (hB : L.Stores B ldb (opB.rows k n) (opB.cols k n) b) (hCC : L.Stores C ldc m n c) (hcap : k + 1 ≤ F.capacity) :
    (∀ i j : Nat, i < m → j < n → (isZero beta = false → F.Finite (c i j) ∧ F.Finite (F.mul (c i j) beta)) →
      (isZero alpha = false → (∀ t : Nat, t < k → F.Finite (opA.mat a i t)) ∧ ∀ v ∈ innerProducts F opA opB k alpha a b i j, F.Finite v) →
      F.rdgemm T fold bl g ga gb ci Order TransA TransB m n k alpha A lda B ldb beta C ldc (L.pos ldc i j) =
        convert F fold (F.specSum fold ((if isZero beta then [] else [F.mul (c i j) beta]) ++ (if isZero alpha then [] else innerProducts F opA opB k alpha a b i j)))) ∧
    (∀ l : Int, (∀ i j : Nat, i < m → j < n → L.pos ldc i j ≠ l) → F.rdgemm T fold bl g ga gb ci Order TransA TransB m n k alpha A lda B ldb beta C ldc l = C l) := by
  have hC' : (if isRow Order then n else m) ≤ ldc := by rw [isRow_letter ho]; cases L <;> exact hC
  have H := C26_gemm hT hfold hb g ga gb ci Order TransA TransB m n k alpha A lda B ldb beta C hC' hcap
  simp only [pos_letter ho] at H
  refine ⟨?_, H.2⟩
  intro i j hi hj h1 h2
  have e : gemmTerms F (isRow Order) (isNo TransA) (isNo TransB) k alpha A lda B ldb i j = innerProducts F opA opB k alpha a b i j := by
    refine List.map_congr_left fun t ht => ?_
    have ht := List.mem_range.1 ht
    rw [opEl_letter ho hta hA hi ht, opEl_letter ho htb hB ht hj]
  have H1 := H.1 i j hi hj (by rw [hCC i j hi hj]; exact h1) (by
    rw [e]
    exact fun ha => ⟨fun t ht => by rw [opEl_letter ho hta hA hi ht]; exact (h2 ha).1 t ht, (h2 ha).2⟩)
  rw [H1, e, hCC i j hi hj]
  rfl

/-- The two numbers that a complex product contributes to the real part, and to the imaginary part. -/
def reProducts (F : Fmt) (n : Nat) (u v : Nat → Flt × Flt) : List Flt := (List.range n).flatMap (fun j => [F.mul (u j).1 (v j).1, fneg (F.mul (u j).2 (v j).2)])
/-- The same for the imaginary part. -/
def imProducts (F : Fmt) (n : Nat) (u v : Nat → Flt × Flt) : List Flt := (List.range n).flatMap (fun j => [F.mul (u j).1 (v j).2, F.mul (u j).2 (v j).1])

/-- The rounded complex product with a scalar; a scalar one changes nothing. -/
def scaled (F : Fmt) (s x : Flt × Flt) : Flt × Flt :=
  if F.feq s.1 F.one && isZero s.2 then x else (F.sub (F.mul x.1 s.1) (F.mul x.2 s.2), F.add (F.mul x.1 s.2) (F.mul x.2 s.1))

/-- **C45** (partial, on matrices, `rzgemv`, `rcgemv`). The same for complex matrices. Missing: as for C45. -/
theorem C45_matrices_partial [F.OK] {T : Tune} (hT : T.OK F) {fold : Nat} (hfold : 2 ≤ fold) {b : GemvB} (hb : b.OK) (gx : Int → Flt × Flt) (g : Nat → Nat → Int → Flt × Flt)
    (yi : Int → Binned × Binned) {Order TransA : Char} {L : StoreOrder} {op : BlasOp} (ho : OrderLetter Order L) (ht : OpLetter TransA op) {m n : Nat} (hm : m ≠ 0) (hn : n ≠ 0)
    (hok : L = .rowMajor ∨ op ≠ .conjTrans ∨ m = n) (hnb : 2 * min T.nb (min n (gemvTile b Order TransA)) ≤ F.endurance) (alpha : Flt × Flt)
    {A : Int → Flt × Flt} {lda : Int} {X : Int → Flt × Flt} {incX : Int} (beta : Flt × Flt) {Y : Int → Flt × Flt} {incY : Int} (hY : incY ≠ 0) {a : Nat → Nat → Flt × Flt} {x y : Nat → Flt × Flt}
    (hA : L.Stores A lda (op.rows m n) (op.cols m n) a) (hx : ∀ j : Nat, j < n → X (j * incX) = x j) (hy : ∀ i : Nat, i < m → Y (i * incY) = y i) (hcap : 2 * n + 1 ≤ F.capacity) :
    (∀ i : Nat, i < m → BetaFinite F beta (y i) → (zzero alpha = false → ∀ j : Nat, j < n → DotFinite F (op.zmat a i j) (scaled F alpha (x j))) →
      F.rzgemv T fold b gx g yi Order TransA (op.rows m n) (op.cols m n) alpha A lda X incX beta Y incY (i * incY) =
        (convert F fold (F.specSum fold ((if isZero beta.1 && isZero beta.2 then [] else [(scaled F beta (y i)).1]) ++
          (if zzero alpha then [] else reProducts F n (fun j => op.zmat a i j) (fun j => scaled F alpha (x j))))),
         convert F fold (F.specSum fold ((if isZero beta.1 && isZero beta.2 then [] else [(scaled F beta (y i)).2]) ++
          (if zzero alpha then [] else imProducts F n (fun j => op.zmat a i j) (fun j => scaled F alpha (x j))))))) ∧
    (∀ l : Int, (∀ i : Nat, i < m → (i : Int) * incY ≠ l) → F.rzgemv T fold b gx g yi Order TransA (op.rows m n) (op.cols m n) alpha A lda X incX beta Y incY l = Y l) := by
  have h0 : op.rows m n ≠ 0 ∧ op.cols m n ≠ 0 := by cases op <;> exact ⟨by assumption, by assumption⟩
  have hr : m = if isNo TransA then op.rows m n else op.cols m n := by rw [isNo_letter ht]; cases op <;> rfl
  have hc : n = if isNo TransA then op.cols m n else op.rows m n := by rw [isNo_letter ht]; cases op <;> rfl
  have hok' : isRow Order = true ∨ trOf TransA ≠ .cj ∨ op.rows m n = op.cols m n := by
    rcases hok with h | h | h
    · left; rw [isRow_letter ho, h]; rfl
    · right; left; rw [trOf_letter ht]; cases op
      · decide
      · decide
      · exact absurd rfl h
    · right; right; subst h; cases op <;> rfl
  have H := C45_rzgemv_partial hT hfold hb gx g yi Order TransA h0.1 h0.2 alpha A lda X incX beta Y hY hr hc hnb hok' hcap
  refine ⟨?_, H.2⟩
  intro i hi h1 h2
  have eR : zgemvRe F (isRow Order) (trOf TransA) n alpha A lda X incX i = reProducts F n (fun j => op.zmat a i j) (fun j => scaled F alpha (x j)) := by
    refine List.flatMap_congr fun j hj => ?_
    have hj := List.mem_range.1 hj
    rw [zopEl_letter ho ht hA hi hj, hx j hj]
    rfl
  have eI : zgemvIm F (isRow Order) (trOf TransA) n alpha A lda X incX i = imProducts F n (fun j => op.zmat a i j) (fun j => scaled F alpha (x j)) := by
    refine List.flatMap_congr fun j hj => ?_
    have hj := List.mem_range.1 hj
    rw [zopEl_letter ho ht hA hi hj, hx j hj]
    rfl
  have H1 := H.1 i hi (by rw [hy i hi]; exact h1) (by
    intro ha j hj
    rw [zopEl_letter ho ht hA hi hj, hx j hj]
    exact h2 ha j hj)
  rw [H1, eR, eI, hy i hi]
  rfl

/-- **C47** (partial, on matrices, `rzgemm`, `rcgemm`). The same for complex matrices. Missing: as for C47. -/
theorem C47_matrices_partial [F.OK] {T : Tune} (hT : T.OK F) {fold : Nat} (hfold : 2 ≤ fold) {bl : GemmB} (hb : bl.OK) (g : Int → Flt × Flt) (ga gb : Nat → Nat → Nat → Int → Flt × Flt)
    (ci : Int → Binned × Binned) {Order TransA TransB : Char} {L : StoreOrder} {opA opB : BlasOp} (ho : OrderLetter Order L) (hta : OpLetter TransA opA) (htb : OpLetter TransB opB) (m n k : Nat)
    (alpha : Flt × Flt) (hok : L = .rowMajor ∨ opA = .noTrans ∨ (F.feq alpha.1 F.one && isZero alpha.2) = true) (hnb : 2 * min T.nb (min k (gemmTile bl Order TransA TransB)) ≤ F.endurance)
    {A : Int → Flt × Flt} {lda : Int} {B : Int → Flt × Flt} {ldb : Int} (beta : Flt × Flt) {C : Int → Flt × Flt} {ldc : Nat} (hC : (match L with | .rowMajor => n | .colMajor => m) ≤ ldc)
    {a b c : Nat → Nat → Flt × Flt} (hA : L.Stores A lda (opA.rows m k) (opA.cols m k) a) (hB : L.Stores B ldb (opB.rows k n) (opB.cols k n) b) (hCC : L.Stores C ldc m n c)
    (hcap : 2 * k + 1 ≤ F.capacity) :
    (∀ i j : Nat, i < m → j < n → BetaFinite F beta (c i j) →
      (zzero alpha = false → ∀ t : Nat, t < k → DotFinite F (scaled F alpha (opA.zmat a i t)) (opB.zmat b t j)) →
      F.rzgemm T fold bl g ga gb ci Order TransA TransB m n k alpha A lda B ldb beta C ldc (L.pos ldc i j) =
        (convert F fold (F.specSum fold ((if isZero beta.1 && isZero beta.2 then [] else [(scaled F beta (c i j)).1]) ++
          (if zzero alpha then [] else reProducts F k (fun t => scaled F alpha (opA.zmat a i t)) (fun t => opB.zmat b t j)))),
         convert F fold (F.specSum fold ((if isZero beta.1 && isZero beta.2 then [] else [(scaled F beta (c i j)).2]) ++
          (if zzero alpha then [] else imProducts F k (fun t => scaled F alpha (opA.zmat a i t)) (fun t => opB.zmat b t j)))))) ∧
    (∀ l : Int, (∀ i j : Nat, i < m → j < n → L.pos ldc i j ≠ l) → F.rzgemm T fold bl g ga gb ci Order TransA TransB m n k alpha A lda B ldb beta C ldc l = C l) := by
  have hC' : (if isRow Order then n else m) ≤ ldc := by rw [isRow_letter ho]; cases L <;> exact hC
  have hok' : isRow Order = true ∨ trOf TransA = .no ∨ (F.feq alpha.1 F.one && isZero alpha.2) = true := by
    rcases hok with h | h | h
    · left; rw [isRow_letter ho, h]; rfl
    · right; left; rw [trOf_letter hta, h]; rfl
    · right; right; exact h
  have H := C47_rzgemm_partial hT hfold hb g ga gb ci Order TransA TransB m n k alpha A lda B ldb beta C hnb hC' hok' hcap
  simp only [pos_letter ho] at H
  refine ⟨?_, H.2⟩
  intro i j hi hj h1 h2
  have eR : zgemmRe F (isRow Order) (trOf TransA) (trOf TransB) k alpha A lda B ldb i j = reProducts F k (fun t => scaled F alpha (opA.zmat a i t)) (fun t => opB.zmat b t j) := by
    refine List.flatMap_congr fun t ht => ?_
    have ht := List.mem_range.1 ht
    rw [zopEl_letter ho hta hA hi ht, zopEl_letter ho htb hB ht hj]
    rfl
  have eI : zgemmIm F (isRow Order) (trOf TransA) (trOf TransB) k alpha A lda B ldb i j = imProducts F k (fun t => scaled F alpha (opA.zmat a i t)) (fun t => opB.zmat b t j) := by
    refine List.flatMap_congr fun t ht => ?_
    have ht := List.mem_range.1 ht
    rw [zopEl_letter ho hta hA hi ht, zopEl_letter ho htb hB ht hj]
    rfl
  have H1 := H.1 i j hi hj (by rw [hCC i j hi hj]; exact h1) (by
    intro ha t ht
    rw [zopEl_letter ho hta hA hi ht, zopEl_letter ho htb hB ht hj]
    exact h2 ha t ht)
  rw [H1, eR, eI, hCC i j hi hj]
  rfl

/-! ### A concrete case -/

/-- A 2 by 3 matrix. -/
def exMat : Nat → Nat → Flt := fun i j => f64.ofInt (10 * i + j + 1)
/-- It is stored column-major with leading dimension 4 and NaN in the padding, -/
def exMatC : Int → Flt := fun l => if l % 4 < 2 then exMat (l % 4).toNat (l / 4).toNat else f64.nan
/-- and row-major with leading dimension 3. -/
def exMatR : Int → Flt := fun l => exMat (l / 3).toNat (l % 3).toNat

example : StoreOrder.colMajor.Stores exMatC 4 2 3 exMat ∧ StoreOrder.rowMajor.Stores exMatR 3 2 3 exMat := by
  have h1 : ∀ i, i < 2 → ∀ j, j < 3 → exMatC (StoreOrder.colMajor.pos 4 i j) = exMat i j := by decide +kernel
  have h2 : ∀ i, i < 2 → ∀ j, j < 3 → exMatR (StoreOrder.rowMajor.pos 3 i j) = exMat i j := by decide +kernel
  exact ⟨fun i j hi hj => h1 i hi j hj, fun i j hi hj => h2 i hi j hj⟩

/-- The hypotheses of `C79_rdgemv` are met: 2 * a * (1, 2, 3) + (5, 7) in both storage orders, and the transposed product of the transposed matrix. -/
example :
    let y : Int → Flt := fun l => if l = 0 then f64.ofInt 5 else f64.ofInt 7
    let x : Int → Flt := fun l => f64.ofInt (l + 1)
    let P := fun (o t : Char) (m n : Nat) (A : Int → Flt) (lda : Int) (i : Int) =>
      f64.rdgemv ⟨1, 1, 1, 1, 1, false⟩ 3 ⟨1, 2, 2, 4, 1⟩ (fun _ => f64.nan) (fun _ _ _ => f64.nan) (fun _ => dmsetzero 3) o t m n (f64.ofInt 2) A lda x 1 f64.one y 1 i
    (P 'C' 'N' 2 3 exMatC 4 0, P 'C' 'N' 2 3 exMatC 4 1) = (f64.ofInt 33, f64.ofInt 155) ∧ (P 'r' 'n' 2 3 exMatR 3 0, P 'r' 'n' 2 3 exMatR 3 1) = (f64.ofInt 33, f64.ofInt 155) ∧
    (P 'R' 't' 3 2 exMatC 4 0, P 'R' 'c' 3 2 exMatC 4 1) = (f64.ofInt 33, f64.ofInt 155) := by
  decide +kernel

end Repro
