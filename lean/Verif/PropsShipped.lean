import Verif.PropsZGemm2
import Verif.PropsZVecInf
/-!
# C42, C45, C47, C55 for the block sizes that the library ships with

The complex dot products are built with blocks of `endurance` elements. That is twice as much as their renormalisation test assumes (`C42_violated`),
but vectors of at most half the endurance, and the matrix products whose tiles are no longer than that, are right for every
tuning the generator accepts, the shipped one included.
-/

namespace Repro
open Fmt
variable {F : Fmt}

/-- `zbzgemv.ccog:23-27` -/
def zbzgemvB : GemvB := ⟨4, 16384, 64, 8192, 4⟩
/-- `cbcgemv.ccog:23-27` -/
def cbcgemvB : GemvB := ⟨2, 16384, 64, 16384, 8⟩
/-- `zbzgemm.ccog:22-25` -/
def zbzgemmB : GemmB := ⟨32, 16384, 32, 16384⟩
/-- `cbcgemm.ccog:22-25` -/
def cbcgemmB : GemmB := ⟨64, 32768, 32, 32768⟩

theorem zbzgemvB_ok : zbzgemvB.OK := ⟨⟨2, rfl⟩, ⟨14, rfl⟩, ⟨6, rfl⟩, ⟨13, rfl⟩, ⟨2, rfl⟩, by decide, by decide⟩
theorem cbcgemvB_ok : cbcgemvB.OK := ⟨⟨1, rfl⟩, ⟨14, rfl⟩, ⟨6, rfl⟩, ⟨14, rfl⟩, ⟨3, rfl⟩, by decide, by decide⟩
theorem zbzgemmB_ok : zbzgemmB.OK := by constructor <;> decide
theorem cbcgemmB_ok : cbcgemmB.OK := by constructor <;> decide

/-- **C42** (partial, short vectors, every tuning). For at most 1024 elements in double precision and at most 256 in single precision the dot product is right
for every tuning, the shipped block size included. Missing: longer vectors, see `C42_violated`. -/
theorem C42_shipped_partial [F.OK] {conj : Bool} {T : Tune} (hT : T.OK F) {n : Nat} (hn : n ≤ F.endurance / 2) {fold : Nat} (hfold : 2 ≤ fold)
    {h g : Hist} (hl : h.Legal F) (gl : g.Legal F) {X Y : Int → Flt × Flt} {incX incY : Int} (hs : n = 0 → h.Settled ∧ g.Settled)
    (hx : ∀ i : Nat, i < n → DotFinite F (X (i * incX)) (Y (i * incY)))
    (hN : 2 * n + h.nums.length ≤ F.capacity) (gN : 2 * n + g.nums.length ≤ F.capacity) :
    zdot F conj T fold n X incX Y incY (h.eval F fold, g.eval F fold) =
      (List.range n).foldl (fun z (i : Nat) => dotStep F conj fold (X (i * incX)) (Y (i * incY)) z) (h.eval F fold, g.eval F fold) :=
  C42_dot_partial hT (by omega) hfold hl gl hs hx hN gN

example : f64.endurance / 2 = 1024 ∧ f32.endurance / 2 = 256 := by decide

/-- The shipped tiles of the double precision matrix-matrix product, and of the transposed matrix-vector products, are short enough for every tuning. -/
theorem shipped_tiles {T : Tune} :
    (∀ (Order TransA TransB : Char) (K : Nat), 2 * min T.nb (min K (gemmTile zbzgemmB Order TransA TransB)) ≤ f64.endurance) ∧
    (∀ (Order TransA : Char) (cols : Nat), isRow Order ≠ isNo TransA ∨ cols ≤ 1024 → 2 * min T.nb (min cols (gemvTile zbzgemvB Order TransA)) ≤ f64.endurance) ∧
    (∀ (Order TransA : Char) (cols : Nat), isRow Order ≠ isNo TransA ∨ cols ≤ 256 → 2 * min T.nb (min cols (gemvTile cbcgemvB Order TransA)) ≤ f32.endurance) := by
  have e1 : zbzgemmB.x = 512 := rfl
  have e2 : zbzgemmB.xt = 512 := rfl
  have e3 : zbzgemvB.xt = 128 := rfl
  have e4 : cbcgemvB.xt = 256 := rfl
  have d : f64.endurance = 2048 := by decide
  have s : f32.endurance = 512 := by decide
  refine ⟨fun Order TransA TransB K => ?_, fun Order TransA cols hc => ?_, fun Order TransA cols hc => ?_⟩
  · unfold gemmTile
    rw [e1, e2, d, ite_self]; omega
  · unfold gemvTile
    rw [e3, d]
    rcases hc with hc | hc
    · rw [if_neg (by simpa using hc)]; omega
    · omega
  · unfold gemvTile
    rw [e4, s]
    rcases hc with hc | hc
    · rw [if_neg (by simpa using hc)]; omega
    · omega

/-- **C47** (partial, the shipped double precision library). For every tuning of the dot products, the shipped one included, every entry of
`reproBLAS_rzgemm` is the conversion of the reproducible sum of its products, whatever the sizes. Missing: column-major matrices with a transposed A
and `alpha` not one (`C47_violated`), and single precision, whose tiles of 512 and 1024 elements are too long for its dot products. -/
theorem C47_shipped_partial {T : Tune} (hT : T.OK f64) {fold : Nat} (hfold : 2 ≤ fold)
    (g : Int → Flt × Flt) (ga gb : Nat → Nat → Nat → Int → Flt × Flt) (ci : Int → Binned × Binned) (Order TransA TransB : Char) (M N K : Nat) (alpha : Flt × Flt)
    (A : Int → Flt × Flt) (lda : Int) (B : Int → Flt × Flt) (ldb : Int) (beta : Flt × Flt) (C : Int → Flt × Flt) {ldc : Nat}
    (hC : (if isRow Order then N else M) ≤ ldc) (hok : isRow Order = true ∨ trOf TransA = .no ∨ (f64.feq alpha.1 f64.one && isZero alpha.2) = true)
    (hcap : 2 * K + 1 ≤ f64.capacity) {r c : Nat} (hr : r < M) (hc : c < N) (hb : BetaFinite f64 beta (C (entryAt (isRow Order) ldc r c)))
    (hx : zzero alpha = false → ∀ t : Nat, t < K →
      DotFinite f64 (alphaMul f64 alpha (zopEl (isRow Order) (trOf TransA) A lda r t)) (zopEl (isRow Order) (trOf TransB) B ldb t c)) :
    f64.rzgemm T fold zbzgemmB g ga gb ci Order TransA TransB M N K alpha A lda B ldb beta C ldc (entryAt (isRow Order) ldc r c) =
      (convert f64 fold (f64.specSum fold (zbetaTerm f64 Prod.fst beta (C (entryAt (isRow Order) ldc r c)) ++
        (if zzero alpha then [] else zgemmRe f64 (isRow Order) (trOf TransA) (trOf TransB) K alpha A lda B ldb r c))),
       convert f64 fold (f64.specSum fold (zbetaTerm f64 Prod.snd beta (C (entryAt (isRow Order) ldc r c)) ++
        (if zzero alpha then [] else zgemmIm f64 (isRow Order) (trOf TransA) (trOf TransB) K alpha A lda B ldb r c)))) :=
  (C47_rzgemm_partial hT hfold zbzgemmB_ok g ga gb ci Order TransA TransB M N K alpha A lda B ldb beta C (shipped_tiles.1 Order TransA TransB K) hC hok hcap).1 r c hr hc hb hx

/-- **C45** (partial, the shipped library). For every tuning of the dot products, the shipped one included: the matrix-vector products whose rows of op(A) are not
contiguous (row-major transposed, column-major not transposed) with any number of columns, and the others with up to 1024 columns in double and 256 in single precision. -/
theorem C45_shipped_partial (double : Bool) {T : Tune} (hT : T.OK (if double then f64 else f32)) {fold : Nat} (hfold : 2 ≤ fold)
    (gx : Int → Flt × Flt) (g : Nat → Nat → Int → Flt × Flt) (yi : Int → Binned × Binned) (Order TransA : Char) {M N : Nat} (hM : M ≠ 0) (hN : N ≠ 0) (alpha : Flt × Flt)
    (A : Int → Flt × Flt) (lda : Int) (X : Int → Flt × Flt) (incX : Int) (beta : Flt × Flt) (Y : Int → Flt × Flt) {incY : Int} (hY : incY ≠ 0) {rows cols : Nat}
    (hr : rows = if isNo TransA then M else N) (hc : cols = if isNo TransA then N else M)
    (hshort : isRow Order ≠ isNo TransA ∨ cols ≤ if double then 1024 else 256) (hok : isRow Order = true ∨ trOf TransA ≠ .cj ∨ M = N)
    (hcap : 2 * cols + 1 ≤ (if double then f64 else f32).capacity) {r : Nat} (hrr : r < rows) (hy : BetaFinite (if double then f64 else f32) beta (Y (r * incY)))
    (hx : zzero alpha = false → ∀ c : Nat, c < cols →
      DotFinite (if double then f64 else f32) (zopEl (isRow Order) (trOf TransA) A lda r c) (alphaMul (if double then f64 else f32) alpha (X (c * incX)))) :
    (if double then f64 else f32).rzgemv T fold (if double then zbzgemvB else cbcgemvB) gx g yi Order TransA M N alpha A lda X incX beta Y incY (r * incY) =
      (convert (if double then f64 else f32) fold ((if double then f64 else f32).specSum fold (zbetaTerm (if double then f64 else f32) Prod.fst beta (Y (r * incY)) ++
        (if zzero alpha then [] else zgemvRe (if double then f64 else f32) (isRow Order) (trOf TransA) cols alpha A lda X incX r))),
       convert (if double then f64 else f32) fold ((if double then f64 else f32).specSum fold (zbetaTerm (if double then f64 else f32) Prod.snd beta (Y (r * incY)) ++
        (if zzero alpha then [] else zgemvIm (if double then f64 else f32) (isRow Order) (trOf TransA) cols alpha A lda X incX r)))) := by
  cases double with
  | true =>
    simp only [if_true] at *
    exact (C45_rzgemv_partial hT hfold zbzgemvB_ok gx g yi Order TransA hM hN alpha A lda X incX beta Y hY hr hc (shipped_tiles.2.1 Order TransA cols hshort) hok hcap).1 r hrr hy hx
  | false =>
    simp only [Bool.false_eq_true, if_false] at *
    exact (C45_rzgemv_partial hT hfold cbcgemvB_ok gx g yi Order TransA hM hN alpha A lda X incX beta Y hY hr hc (shipped_tiles.2.2 Order TransA cols hshort) hok hcap).1 r hrr hy hx

/-- A tuning of `zmzdotu` for AVX with the shipped block size (`src/binnedBLAS/zmzdotu.ccog:36`): blocks of 2048 elements, two complex numbers to a register. -/
def tuneZ : Tune := ⟨2048, 2, 4, 2, 4, true⟩

theorem tuneZ_ok : tuneZ.OK f64 := ⟨by decide, by decide, ⟨1, rfl⟩, ⟨2, rfl⟩, by decide, by decide, by decide, by decide, fun h => by cases h⟩

/-- A concrete case: the shipped block size, which `C42_dot_partial` with `2 * T.nb` would not cover. -/
example : ¬ 2 * tuneZ.nb ≤ f64.endurance ∧ 5 ≤ f64.endurance / 2 ∧
    zdot f64 true tuneZ 3 5 exZ 2 exZ 3 (dmsetzero 3, dmsetzero 3) =
      (List.range 5).foldl (fun z (i : Nat) => dotStep f64 true 3 (exZ (i * 2)) (exZ (i * 3)) z) (dmsetzero 3, dmsetzero 3) := by
  decide +kernel

end Repro
