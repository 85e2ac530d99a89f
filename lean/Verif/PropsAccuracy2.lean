import Verif.PropsAccuracy
import Verif.PropsGemm2
import Verif.PropsZ

/-!
# C58 for the complex sums and the matrix products
-/

namespace Repro
open Fmt

variable {F : Fmt}

/-- **C58** (complex sums). Both parts of `reproBLAS_rzsum` are sums of the parts of the elements. -/
theorem C58_zsum [F.OK] {T : Tune} (hT : T.OK F) {fold : Nat} (hfold : 2 ≤ fold) (hfold' : fold < 2 ^ 50)
    {n : Nat} {X : Int → Flt × Flt} {incX : Int} (hN : n ≤ F.capacity)
    (hx : ∀ i : Nat, i < n → F.Finite (X (i * incX)).1 ∧ F.Finite (X (i * incX)).2)
    (hr : InRange F fold ((gatherZ X incX n).map Prod.fst)) (hi : InRange F fold ((gatherZ X incX n).map Prod.snd)) :
    IsSum F (F.rzsum T fold n X incX).1 (F.exactSum ((gatherZ X incX n).map Prod.fst)) (sumErr F fold ((gatherZ X incX n).map Prod.fst)) ∧
    IsSum F (F.rzsum T fold n X incX).2 (F.exactSum ((gatherZ X incX n).map Prod.snd)) (sumErr F fold ((gatherZ X incX n).map Prod.snd)) := by
  have key : ∀ f : Flt × Flt → Flt, (∀ i : Nat, i < n → F.Finite (f (X (i * incX)))) → InRange F fold ((gatherZ X incX n).map f) →
      IsSum F (convert F fold ((List.range n).foldl (fun y (i : Nat) => F.dmdadd fold (f (X (i * incX))) y) (dmsetzero fold)))
        (F.exactSum ((gatherZ X incX n).map f)) (sumErr F fold ((gatherZ X incX n).map f)) := by
    intro f hf hr
    have hfin : ∀ x ∈ (gatherZ X incX n).map f, F.Finite x := by
      intro x hm
      obtain ⟨a, ha, rfl⟩ := List.mem_map.1 hm
      obtain ⟨i, hi, rfl⟩ := List.mem_map.1 ha
      exact hf i (List.mem_range.1 hi)
    have hlen : ((gatherZ X incX n).map f).length ≤ F.capacity := by rw [List.length_map, gatherZ_length]; exact hN
    have e : (List.range n).foldl (fun y (i : Nat) => F.dmdadd fold (f (X (i * incX))) y) (dmsetzero fold) = F.specSum fold ((gatherZ X incX n).map f) := by
      rw [← C01_sum_is_spec hfold hfin hlen]
      unfold sumSeq gatherZ
      rw [List.foldl_map, List.foldl_map]
    rw [e]
    exact sum_list hfold hfold' hfin hlen hr
  unfold rzsum
  dsimp only
  have e1 := C48_sum_re (h := .zero) hT hfold trivial (n := n) (X := X) (incX := incX) (fun _ => trivial) (fun i hi => (hx i hi).1) (by simpa [Hist.nums] using hN) (dmsetzero fold)
  have e2 := C48_sum_im (h := .zero) hT hfold trivial (n := n) (X := X) (incX := incX) (fun _ => trivial) (fun i hi => (hx i hi).2) (by simpa [Hist.nums] using hN) (dmsetzero fold)
  have e0 : Hist.zero.eval F fold = dmsetzero fold := rfl
  rw [e0] at e1 e2
  rw [e1, e2]
  exact ⟨key Prod.fst (fun i h => (hx i h).1) hr, key Prod.snd (fun i h => (hx i h).2) hi⟩

/-- **C58** (absolute sums of complex vectors). -/
theorem C58_zasum [F.OK] {T : Tune} (hT : T.OK F) {fold : Nat} (hfold : 2 ≤ fold) (hfold' : fold < 2 ^ 50)
    {n : Nat} {X : Int → Flt × Flt} {incX : Int} (hN : 2 * n ≤ F.capacity)
    (hx : ∀ i : Nat, i < n → F.Finite (X (i * incX)).1 ∧ F.Finite (X (i * incX)).2)
    (hr : InRange F fold ((gatherZ X incX n).flatMap (fun a => [fabs a.1, fabs a.2]))) :
    IsSum F (F.rdzasum T fold n X incX) (F.exactSum ((gatherZ X incX n).flatMap (fun a => [fabs a.1, fabs a.2])))
      (sumErr F fold ((gatherZ X incX n).flatMap (fun a => [fabs a.1, fabs a.2]))) := by
  have hfin : ∀ x ∈ (gatherZ X incX n).flatMap (fun a => [fabs a.1, fabs a.2]), F.Finite x := by
    intro x hxm
    obtain ⟨a, ha, hxa⟩ := List.mem_flatMap.1 hxm
    obtain ⟨i, hi, rfl⟩ := List.mem_map.1 ha
    have := hx i (List.mem_range.1 hi)
    rcases List.mem_cons.1 hxa with rfl | hxa
    · exact this.1
    · rw [List.mem_singleton] at hxa; subst hxa; exact this.2
  have hpp := perm_parts (fun a : Flt × Flt => fabs a.1) (fun a => fabs a.2) (gatherZ X incX n)
  have hlen : ((gatherZ X incX n).flatMap (fun a => [fabs a.1, fabs a.2])).length ≤ F.capacity := by
    rw [hpp.length_eq, List.length_append, List.length_map, List.length_map, gatherZ_length]; omega
  have e := C48_asum (h := .zero) hT hfold trivial hx (by simpa [Hist.nums] using hN)
  have e0 : Hist.zero.eval F fold = dmsetzero fold := rfl
  rw [e0] at e
  unfold rdzasum
  rw [e]
  have e2 : (List.range n).foldl (fun y (i : Nat) => F.dmdadd fold (fabs (X (i * incX)).2) (F.dmdadd fold (fabs (X (i * incX)).1) y)) (dmsetzero fold)
        = F.sumSeq fold ((gatherZ X incX n).flatMap (fun a => [fabs a.1, fabs a.2])) (dmsetzero fold) := by
    unfold sumSeq
    rw [List.foldl_flatMap]; unfold gatherZ; rw [List.foldl_map]; rfl
  rw [e2, C01_sum_is_spec hfold hfin hlen]
  exact sum_list hfold hfold' hfin hlen hr

/-- The terms of an entry of a matrix-vector product. -/
def gemvAll (F : Fmt) (Order TransA : Char) (cols : Nat) (alpha : Flt) (A : Int → Flt) (lda : Int) (X : Int → Flt) (incX : Int) (beta : Flt) (y : Flt) (r : Nat) : List Flt :=
  betaTerm F beta y ++ (if isZero alpha then [] else gemvTerms F (isRow Order) (isNo TransA) cols alpha A lda X incX r)

/-- **C58** (matrix-vector product). Every entry of the native matrix-vector product is the sum of its rounded terms: `y * beta` and
`op(A)(r, c) * (x_c * alpha)`. -/
theorem C58_gemv [F.OK] {T : Tune} (hT : T.OK F) {fold : Nat} (hfold : 2 ≤ fold) (hfold' : fold < 2 ^ 50) {b : GemvB} (hb : b.OK) (gx : Int → Flt) (g : Nat → Nat → Int → Flt)
    (yi : Int → Binned) (Order TransA : Char) {M N : Nat} (hM : M ≠ 0) (hN : N ≠ 0) (alpha : Flt) (A : Int → Flt) (lda : Int)
    (X : Int → Flt) (incX : Int) (beta : Flt) (Y : Int → Flt) {incY : Int} (hY : incY ≠ 0) {rows cols : Nat}
    (hr : rows = if isNo TransA then M else N) (hc : cols = if isNo TransA then N else M)
    (hX : isZero alpha = false → ∀ c : Nat, c < cols → F.Finite (X (c * incX))) (hcap : cols + 1 ≤ F.capacity)
    {r : Nat} (hrr : r < rows) (hy : isZero beta = false → F.Finite (Y (r * incY)))
    (hx : ∀ x ∈ gemvAll F Order TransA cols alpha A lda X incX beta (Y (r * incY)) r, F.Finite x)
    (hrange : InRange F fold (gemvAll F Order TransA cols alpha A lda X incX beta (Y (r * incY)) r)) :
    IsSum F (F.rdgemv T fold b gx g yi Order TransA M N alpha A lda X incX beta Y incY (r * incY))
      (F.exactSum (gemvAll F Order TransA cols alpha A lda X incX beta (Y (r * incY)) r))
      (sumErr F fold (gemvAll F Order TransA cols alpha A lda X incX beta (Y (r * incY)) r)) := by
  rw [(C26_gemv hT hfold hb gx g yi Order TransA hM hN alpha A lda X incX beta Y hY hr hc hX hcap).1 r hrr
    (fun h => ⟨hy h, hx _ (by unfold gemvAll betaTerm; rw [h]; simp)⟩)
    (fun h x hm => hx x (by unfold gemvAll; rw [h]; simp [hm]))]
  refine sum_list hfold hfold' hx ?_ hrange
  unfold betaTerm gemvTerms
  rw [List.length_append]
  split <;> split <;> simp <;> omega

/-- The terms of an entry of a matrix-matrix product. -/
def gemmAll (F : Fmt) (Order TransA TransB : Char) (K : Nat) (alpha : Flt) (A : Int → Flt) (lda : Int) (B : Int → Flt) (ldb : Int) (beta : Flt) (y : Flt) (r c : Nat) : List Flt :=
  betaTerm F beta y ++ (if isZero alpha then [] else gemmTerms F (isRow Order) (isNo TransA) (isNo TransB) K alpha A lda B ldb r c)

/-- **C58** (matrix-matrix product). Every entry of the native matrix-matrix product is the sum of its rounded terms: `c * beta` and
`(op(A)(r, t) * alpha) * op(B)(t, c)`. -/
theorem C58_gemm [F.OK] {T : Tune} (hT : T.OK F) {fold : Nat} (hfold : 2 ≤ fold) (hfold' : fold < 2 ^ 50) {b : GemmB} (hb : b.OK) (g : Int → Flt) (ga gb : Nat → Nat → Nat → Int → Flt)
    (ci : Int → Binned) (Order TransA TransB : Char) (M N K : Nat) (alpha : Flt) (A : Int → Flt) (lda : Int)
    (B : Int → Flt) (ldb : Int) (beta : Flt) (C : Int → Flt) {ldc : Nat} (hC : (if isRow Order then N else M) ≤ ldc) (hcap : K + 1 ≤ F.capacity)
    {r c : Nat} (hr : r < M) (hc : c < N) (hy : isZero beta = false → F.Finite (C (entryAt (isRow Order) ldc r c)))
    (hA : isZero alpha = false → ∀ t : Nat, t < K → F.Finite (opEl (isRow Order) (isNo TransA) A lda r t))
    (hx : ∀ x ∈ gemmAll F Order TransA TransB K alpha A lda B ldb beta (C (entryAt (isRow Order) ldc r c)) r c, F.Finite x)
    (hrange : InRange F fold (gemmAll F Order TransA TransB K alpha A lda B ldb beta (C (entryAt (isRow Order) ldc r c)) r c)) :
    IsSum F (F.rdgemm T fold b g ga gb ci Order TransA TransB M N K alpha A lda B ldb beta C ldc (entryAt (isRow Order) ldc r c))
      (F.exactSum (gemmAll F Order TransA TransB K alpha A lda B ldb beta (C (entryAt (isRow Order) ldc r c)) r c))
      (sumErr F fold (gemmAll F Order TransA TransB K alpha A lda B ldb beta (C (entryAt (isRow Order) ldc r c)) r c)) := by
  rw [(C26_gemm hT hfold hb g ga gb ci Order TransA TransB M N K alpha A lda B ldb beta C hC hcap).1 r c hr hc
    (fun h => ⟨hy h, hx _ (by unfold gemmAll betaTerm; rw [h]; simp)⟩)
    (fun h => ⟨hA h, fun x hm => hx x (by unfold gemmAll; rw [h]; simp [hm])⟩)]
  refine sum_list hfold hfold' hx ?_ hrange
  unfold betaTerm gemmTerms
  rw [List.length_append]
  split <;> split <;> simp <;> omega

/-- The hypotheses on the data are met by a 2 x 2 example with `alpha = 2`, `beta = 3`. -/
example : let A : Int → Flt := fun i => f64.ofInt (i + 1)
    (∀ x ∈ gemvAll f64 'r' 'n' 2 (f64.ofInt 2) A 2 A 1 (f64.ofInt 3) (f64.ofInt 5) 1, f64.Finite x) ∧
    (InRange f64 3 (gemvAll f64 'r' 'n' 2 (f64.ofInt 2) A 2 A 1 (f64.ofInt 3) (f64.ofInt 5) 1)) ∧
    f64.exactSum (gemvAll f64 'r' 'n' 2 (f64.ofInt 2) A 2 A 1 (f64.ofInt 3) (f64.ofInt 5) 1) = (15 + 6 + 16) * 2 ^ 1074 ∧
    (InRange f64 3 (gemmAll f64 'r' 'n' 'n' 2 (f64.ofInt 2) A 2 A 2 (f64.ofInt 3) (f64.ofInt 5) 1 0)) ∧
    f64.exactSum (gemmAll f64 'r' 'n' 'n' 2 (f64.ofInt 2) A 2 A 2 (f64.ofInt 3) (f64.ofInt 5) 1 0) = (15 + 6 + 24) * 2 ^ 1074 :=
  ⟨by decide +kernel, Or.inl ⟨by decide, f64.ofInt 15, by decide +kernel, by decide +kernel⟩, by decide +kernel,
    Or.inl ⟨by decide, f64.ofInt 15, by decide +kernel, by decide +kernel⟩, by decide +kernel⟩

end Repro
