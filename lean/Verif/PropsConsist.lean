import Verif.PropsGemm2
import Verif.PropsGemm3
import Verif.PropsZDot
import Verif.PropsAccuracy2
/-!
# C60: the routines agree with one another, C61: a larger fold only adds bins

Each theorem compares the results of two public routines; no specification is involved.
-/

namespace Repro
open Fmt
variable {F : Fmt}

/-- `x * 1 = x`, so the sum is the dot product with a vector of ones. -/
theorem C60_sum_is_dot_with_ones [F.OK] {T T' : Tune} (hT : T.OK F) (hT' : T'.OK F) {fold : Nat} (hfold : 2 ≤ fold)
    {n : Nat} {X : Int → Flt} {incX incY : Int} {Y : Int → Flt} (hY : ∀ i : Nat, i < n → Y (i * incY) = F.pow2 0)
    (hx : ∀ i : Nat, i < n → F.Finite (X (i * incX))) (hN : n ≤ F.capacity) :
    F.rdsum T fold n X incX = F.rddot T' fold n X incX Y incY := by
  have e : products F n X incX Y incY = gather X incX n := by
    unfold products gather
    refine List.map_congr_left (fun i hi => ?_)
    have hi := List.mem_range.1 hi
    rw [hY i hi, mul_one' (hx i hi)]
  rw [((C36_wrappers (Y := Y) (incY := incY) hT hfold hN).1 hx).1, (C36_wrappers hT' hfold hN).2 (fun i hi => by
    rw [hY i hi, mul_one' (hx i hi)]; exact hx i hi), e]

/-- The absolute sum is the sum of the absolute values. -/
theorem C60_asum_is_sum_of_abs [F.OK] {T T' : Tune} (hT : T.OK F) (hT' : T'.OK F) {fold : Nat} (hfold : 2 ≤ fold)
    {n : Nat} {X X' : Int → Flt} {incX incX' : Int} (hX : ∀ i : Nat, i < n → X' (i * incX') = fabs (X (i * incX)))
    (hx : ∀ i : Nat, i < n → F.Finite (X (i * incX))) (hN : n ≤ F.capacity) :
    F.rdasum T fold n X incX = F.rdsum T' fold n X' incX' := by
  have e : gather X' incX' n = (gather X incX n).map fabs := by
    unfold gather
    rw [List.map_map]
    exact List.map_congr_left (fun i hi => hX i (List.mem_range.1 hi))
  rw [((C36_wrappers (Y := X) (incY := incX) hT hfold hN).1 hx).2,
    ((C36_wrappers (Y := X) (incY := incX) hT' hfold hN).1 (fun i hi => by rw [hX i hi]; exact hx i hi)).1, e]

/-- An entry of `op(A) * x` (`alpha = 1`, `beta = 0`) is the dot product of the row with `x`. -/
theorem C60_gemv_is_dot [F.OK] {T T' : Tune} (hT : T.OK F) (hT' : T'.OK F) {fold : Nat} (hfold : 2 ≤ fold) {b : GemvB} (hb : b.OK)
    (gx : Int → Flt) (g : Nat → Nat → Int → Flt) (yi : Int → Binned) (Order TransA : Char) {M N : Nat} (hM : M ≠ 0) (hN : N ≠ 0)
    (A : Int → Flt) (lda : Int) (X : Int → Flt) (incX : Int) (Y : Int → Flt) {incY : Int} (hY : incY ≠ 0) {rows cols : Nat}
    (hr : rows = if isNo TransA then M else N) (hc : cols = if isNo TransA then N else M)
    (hX : ∀ c : Nat, c < cols → F.Finite (X (c * incX))) (hcap : cols + 1 ≤ F.capacity) {r : Nat} (hrr : r < rows)
    (row : Int → Flt) (incRow : Int) (hrow : ∀ c : Nat, c < cols → row (c * incRow) = opEl (isRow Order) (isNo TransA) A lda r c)
    (hp : ∀ c : Nat, c < cols → F.Finite (F.mul (row (c * incRow)) (X (c * incX)))) :
    F.rdgemv T fold b gx g yi Order TransA M N (F.pow2 0) A lda X incX zero Y incY (r * incY) =
      F.rddot T' fold cols row incRow X incX := by
  have h1 : isZero (F.pow2 0) = false := by
    rcases ‹F.OK› with h | h <;> subst h <;> decide +kernel
  have e : gemvTerms F (isRow Order) (isNo TransA) cols (F.pow2 0) A lda X incX r = products F cols row incRow X incX := by
    unfold gemvTerms products
    refine List.map_congr_left (fun c hc => ?_)
    have hc := List.mem_range.1 hc
    rw [mul_one' (hX c hc), hrow c hc]
  have hz : isZero (zero) = true := rfl
  have hh := (C26_gemv hT hfold hb gx g yi Order TransA hM hN (F.pow2 0) A lda X incX zero Y hY hr hc (fun _ => hX) hcap).1 r hrr
    (fun h => by rw [hz] at h; cases h)
    (fun _ x hx => by
      rw [e] at hx
      obtain ⟨c, hc, rfl⟩ := List.mem_map.1 hx
      exact hp c (List.mem_range.1 hc))
  rw [hh, (C36_wrappers (X := row) (incX := incRow) hT' hfold (by omega)).2 hp, e]
  unfold betaTerm
  rw [if_pos hz, h1]
  rfl

/-- A column of `op(A) * op(B) + beta * C` is the product of `op(A)` with the column of `op(B)`: same bits from the matrix-matrix and the
matrix-vector routine, for every `beta`, every layout and blocking of the two calls. -/
theorem C60_gemm_is_gemv [F.OK] {T T' : Tune} (hT : T.OK F) (hT' : T'.OK F) {fold : Nat} (hfold : 2 ≤ fold) {b : GemmB} (hb : b.OK) {b' : GemvB} (hb' : b'.OK)
    (g : Int → Flt) (ga gb : Nat → Nat → Nat → Int → Flt) (ci : Int → Binned) (gx : Int → Flt) (g' : Nat → Nat → Int → Flt) (yi : Int → Binned)
    (Order TransA TransB Order' TransA' : Char) {M N K M' N' : Nat} (hK : K ≠ 0)
    (hM' : M = if isNo TransA' then M' else N') (hK' : K = if isNo TransA' then N' else M')
    (A : Int → Flt) (lda : Int) (B : Int → Flt) (ldb : Int) (beta : Flt) (C : Int → Flt) {ldc : Nat} (hC : (if isRow Order then N else M) ≤ ldc)
    (A' : Int → Flt) (lda' : Int) (X : Int → Flt) (incX : Int) (Y : Int → Flt) {incY : Int} (hY : incY ≠ 0) (hcap : K + 1 ≤ F.capacity)
    {r c : Nat} (hr : r < M) (hc : c < N)
    (hA : ∀ t : Nat, t < K → opEl (isRow Order') (isNo TransA') A' lda' r t = opEl (isRow Order) (isNo TransA) A lda r t ∧ F.Finite (opEl (isRow Order) (isNo TransA) A lda r t))
    (hB : ∀ t : Nat, t < K → X (t * incX) = opEl (isRow Order) (isNo TransB) B ldb t c) (hBf : ∀ t : Nat, t < K → F.Finite (X (t * incX)))
    (hAB : ∀ t : Nat, t < K → F.Finite (F.mul (opEl (isRow Order) (isNo TransA) A lda r t) (opEl (isRow Order) (isNo TransB) B ldb t c)))
    (hYC : Y (r * incY) = C (entryAt (isRow Order) ldc r c))
    (hbeta : isZero beta = false → F.Finite (Y (r * incY)) ∧ F.Finite (F.mul (Y (r * incY)) beta)) :
    F.rdgemm T fold b g ga gb ci Order TransA TransB M N K (F.pow2 0) A lda B ldb beta C ldc (entryAt (isRow Order) ldc r c) =
      F.rdgemv T' fold b' gx g' yi Order' TransA' M' N' (F.pow2 0) A' lda' X incX beta Y incY (r * incY) := by
  have e : gemmTerms F (isRow Order) (isNo TransA) (isNo TransB) K (F.pow2 0) A lda B ldb r c =
      gemvTerms F (isRow Order') (isNo TransA') K (F.pow2 0) A' lda' X incX r := by
    unfold gemmTerms gemvTerms
    refine List.map_congr_left (fun t ht => ?_)
    have ht := List.mem_range.1 ht
    rw [mul_one' (hA t ht).2, mul_one' (hBf t ht), (hA t ht).1, hB t ht]
  have hf : ∀ x ∈ gemmTerms F (isRow Order) (isNo TransA) (isNo TransB) K (F.pow2 0) A lda B ldb r c, F.Finite x := by
    intro x hx
    obtain ⟨t, ht, rfl⟩ := List.mem_map.1 hx
    have ht := List.mem_range.1 ht
    rw [mul_one' (hA t ht).2]
    exact hAB t ht
  have hM0 : M' ≠ 0 ∧ N' ≠ 0 := by
    split at hM' <;> rename_i hs <;> simp only [hs, if_true, if_false, Bool.false_eq_true] at hK' <;> omega
  rw [(C26_gemm hT hfold hb g ga gb ci Order TransA TransB M N K (F.pow2 0) A lda B ldb beta C hC hcap).1 r c hr hc
      (by rw [← hYC]; exact hbeta) (fun _ => ⟨fun t ht => (hA t ht).2, hf⟩),
    (C26_gemv hT' hfold hb' gx g' yi Order' TransA' hM0.1 hM0.2 (F.pow2 0) A' lda' X incX beta Y hY hM' hK' (fun _ => hBf) hcap).1 r hr hbeta
      (fun _ => by rw [← e]; exact hf), e, hYC]

/-- `(A B)^T = B^T A^T`, bit for bit: entry `(c, r)` of the product of the transposed factors in exchanged order is entry `(r, c)` of the product. -/
theorem C60_transpose [F.OK] {T T' : Tune} (hT : T.OK F) (hT' : T'.OK F) {fold : Nat} (hfold : 2 ≤ fold) {b b' : GemmB} (hb : b.OK) (hb' : b'.OK)
    (g g' : Int → Flt) (ga gb ga' gb' : Nat → Nat → Nat → Int → Flt) (ci ci' : Int → Binned)
    (Order TransA TransB Order' TransA' TransB' : Char) {M N K : Nat}
    (A : Int → Flt) (lda : Int) (B : Int → Flt) (ldb : Int) (A' : Int → Flt) (lda' : Int) (B' : Int → Flt) (ldb' : Int) (beta : Flt)
    (C C' : Int → Flt) {ldc ldc' : Nat} (hC : (if isRow Order then N else M) ≤ ldc) (hC' : (if isRow Order' then M else N) ≤ ldc') (hcap : K + 1 ≤ F.capacity)
    {r c : Nat} (hr : r < M) (hc : c < N)
    (hA : ∀ t : Nat, t < K → opEl (isRow Order') (isNo TransB') B' ldb' t r = opEl (isRow Order) (isNo TransA) A lda r t ∧ F.Finite (opEl (isRow Order) (isNo TransA) A lda r t))
    (hB : ∀ t : Nat, t < K → opEl (isRow Order') (isNo TransA') A' lda' c t = opEl (isRow Order) (isNo TransB) B ldb t c ∧ F.Finite (opEl (isRow Order) (isNo TransB) B ldb t c))
    (hAB : ∀ t : Nat, t < K → F.Finite (F.mul (opEl (isRow Order) (isNo TransA) A lda r t) (opEl (isRow Order) (isNo TransB) B ldb t c)))
    (hCC : C' (entryAt (isRow Order') ldc' c r) = C (entryAt (isRow Order) ldc r c))
    (hbeta : isZero beta = false → F.Finite (C (entryAt (isRow Order) ldc r c)) ∧ F.Finite (F.mul (C (entryAt (isRow Order) ldc r c)) beta)) :
    F.rdgemm T fold b g ga gb ci Order TransA TransB M N K (F.pow2 0) A lda B ldb beta C ldc (entryAt (isRow Order) ldc r c) =
      F.rdgemm T' fold b' g' ga' gb' ci' Order' TransA' TransB' N M K (F.pow2 0) A' lda' B' ldb' beta C' ldc' (entryAt (isRow Order') ldc' c r) := by
  have e : gemmTerms F (isRow Order) (isNo TransA) (isNo TransB) K (F.pow2 0) A lda B ldb r c =
      gemmTerms F (isRow Order') (isNo TransA') (isNo TransB') K (F.pow2 0) A' lda' B' ldb' c r := by
    unfold gemmTerms
    refine List.map_congr_left (fun t ht => ?_)
    have ht := List.mem_range.1 ht
    rw [(hA t ht).1, (hB t ht).1, mul_one' (hA t ht).2, mul_one' (hB t ht).2, mul_comm_all]
  have hf : ∀ x ∈ gemmTerms F (isRow Order) (isNo TransA) (isNo TransB) K (F.pow2 0) A lda B ldb r c, F.Finite x := by
    intro x hx
    obtain ⟨t, ht, rfl⟩ := List.mem_map.1 hx
    have ht := List.mem_range.1 ht
    rw [mul_one' (hA t ht).2]
    exact hAB t ht
  rw [(C26_gemm hT hfold hb g ga gb ci Order TransA TransB M N K (F.pow2 0) A lda B ldb beta C hC hcap).1 r c hr hc
      hbeta (fun _ => ⟨fun t ht => (hA t ht).2, hf⟩),
    (C26_gemm hT' hfold hb' g' ga' gb' ci' Order' TransA' TransB' N M K (F.pow2 0) A' lda' B' ldb' beta C' hC' hcap).1 c r hc hr
      (by rw [hCC]; exact hbeta) (fun _ => ⟨fun t ht => by rw [(hB t ht).1]; exact (hB t ht).2, by rw [← e]; exact hf⟩), e, hCC]

/-! ### Complex vectors against their real words -/

/-- The complex vector with its parts interleaved, as it lies in memory (stride 1). -/
def Words (V : Int → Flt) (X : Int → Flt × Flt) (incX : Int) (n : Nat) : Prop :=
  ∀ i : Nat, i < n → V (2 * i) = (X (i * incX)).1 ∧ V (2 * i + 1) = (X (i * incX)).2

/-- Every second word. -/
theorem range_two (n : Nat) (f : Nat → Flt) : (List.range (2 * n)).map f = (List.range n).flatMap (fun i => [f (2 * i), f (2 * i + 1)]) := by
  induction n with
  | zero => rfl
  | succ n ih =>
    rw [show 2 * (n + 1) = 2 * n + 1 + 1 from by omega, List.range_succ, List.range_succ, List.range_succ, List.map_append, List.map_append, ih, List.flatMap_append]
    simp

/-- The sum of a complex vector is the pair of the sums of its parts. -/
theorem C60_zsum_is_sums [F.OK] {T T₁ T₂ : Tune} (hT : T.OK F) (hT₁ : T₁.OK F) (hT₂ : T₂.OK F) {fold : Nat} (hfold : 2 ≤ fold)
    {n : Nat} {X : Int → Flt × Flt} {incX : Int} (hN : n ≤ F.capacity)
    (hx : ∀ i : Nat, i < n → F.Finite (X (i * incX)).1 ∧ F.Finite (X (i * incX)).2) :
    F.rzsum T fold n X incX = (F.rdsum T₁ fold n (fun l => (X l).1) incX, F.rdsum T₂ fold n (fun l => (X l).2) incX) := by
  have e1 := C48_sum_re (h := .zero) hT hfold trivial (n := n) (X := X) (incX := incX) (fun _ => trivial) (fun i hi => (hx i hi).1) (by simpa [Hist.nums] using hN) (dmsetzero fold)
  have e2 := C48_sum_im (h := .zero) hT hfold trivial (n := n) (X := X) (incX := incX) (fun _ => trivial) (fun i hi => (hx i hi).2) (by simpa [Hist.nums] using hN) (dmsetzero fold)
  have f1 := C04_sum_is_sequential (h := .zero) hT₁ hfold trivial (n := n) (X := fun l => (X l).1) (incX := incX) (fun _ => trivial) (fun i hi => (hx i hi).1) (by simpa [Hist.nums] using hN)
  have f2 := C04_sum_is_sequential (h := .zero) hT₂ hfold trivial (n := n) (X := fun l => (X l).2) (incX := incX) (fun _ => trivial) (fun i hi => (hx i hi).2) (by simpa [Hist.nums] using hN)
  have e0 : Hist.zero.eval F fold = dmsetzero fold := rfl
  rw [e0] at e1 e2 f1 f2
  unfold rzsum rdsum
  dsimp only
  rw [e1, e2, f1, f2]

/-- The absolute sum of a complex vector is the absolute sum of its words. -/
theorem C60_zasum_is_asum [F.OK] {T T' : Tune} (hT : T.OK F) (hT' : T'.OK F) {fold : Nat} (hfold : 2 ≤ fold)
    {n : Nat} {X : Int → Flt × Flt} {incX : Int} {V : Int → Flt} (hV : Words V X incX n) (hN : 2 * n ≤ F.capacity)
    (hx : ∀ i : Nat, i < n → F.Finite (X (i * incX)).1 ∧ F.Finite (X (i * incX)).2) :
    F.rdzasum T fold n X incX = F.rdasum T' fold (2 * n) V 1 := by
  have hv : ∀ i : Nat, i < 2 * n → F.Finite (V (i * 1)) := by
    intro i hi
    have h := hV (i / 2) (by omega)
    have h' := hx (i / 2) (by omega)
    rcases Nat.mod_two_eq_zero_or_one i with h2 | h2
    · rw [show ((i : Int) * 1) = 2 * ((i / 2 : Nat) : Int) from by omega, h.1]; exact h'.1
    · rw [show ((i : Int) * 1) = 2 * ((i / 2 : Nat) : Int) + 1 from by omega, h.2]; exact h'.2
  have e := C48_asum (h := .zero) hT hfold trivial hx (by simpa [Hist.nums] using hN)
  have f := C20_asum_is_sequential (h := .zero) hT' hfold trivial (n := 2 * n) (X := V) (incX := 1) (fun _ => trivial) hv (by simpa [Hist.nums] using hN)
  have e0 : Hist.zero.eval F fold = dmsetzero fold := rfl
  rw [e0] at e f
  unfold rdzasum rdasum
  rw [e, f]
  congr 1
  have h := range_two n (fun i => fabs (V ((i : Int) * 1)))
  have h2 : (List.range (2 * n)).foldl (fun y (i : Nat) => F.dmdadd fold (fabs (V ((i : Int) * 1))) y) (dmsetzero fold) =
      ((List.range (2 * n)).map (fun i : Nat => fabs (V ((i : Int) * 1)))).foldl (fun y x => F.dmdadd fold x y) (dmsetzero fold) := by
    rw [List.foldl_map]
  rw [h2, h, List.foldl_flatMap]
  refine List.foldl_ext _ _ _ (fun y i hi => ?_)
  have hi := hV i (List.mem_range.1 hi)
  simp only [List.foldl_cons, List.foldl_nil]
  rw [← hi.1, ← hi.2]
  have a1 : (((2 * i : Nat) : Int) * 1) = 2 * (i : Int) := by omega
  have a2 : (((2 * i + 1 : Nat) : Int) * 1) = 2 * (i : Int) + 1 := by omega
  rw [a1, a2]

/-- The native complex dot products as conversions of sums. -/
theorem zdot_native [F.OK] {conj : Bool} {T : Tune} (hT : T.OK F) {n : Nat} (hnb : 2 * min T.nb n ≤ F.endurance) {fold : Nat} (hfold : 2 ≤ fold)
    {X Y : Int → Flt × Flt} {incX incY : Int} (hN : 2 * n ≤ F.capacity) (hx : ∀ i : Nat, i < n → DotFinite F (X (i * incX)) (Y (i * incY))) :
    (if conj then F.rzdotc T fold n X incX Y incY else F.rzdotu T fold n X incX Y incY) =
      (convert F fold (F.specSum fold ((List.range n).flatMap (fun (i : Nat) => [(dotRe F conj (X (i * incX)) (Y (i * incY))).1, (dotRe F conj (X (i * incX)) (Y (i * incY))).2]))),
       convert F fold (F.specSum fold ((List.range n).flatMap (fun (i : Nat) => [(dotIm F conj (X (i * incX)) (Y (i * incY))).1, (dotIm F conj (X (i * incX)) (Y (i * incY))).2])))) := by
  have e0 : Hist.zero.eval F fold = dmsetzero fold := rfl
  have e1 := zdot_re (conj := conj) (h := .zero) hT hnb hfold trivial (fun _ => trivial) (fun i hi => (hx i hi).re) (by simpa [Hist.nums] using hN) (dmsetzero fold)
  have e2 := zdot_im (conj := conj) (h := .zero) hT hnb hfold trivial (fun _ => trivial) (fun i hi => (hx i hi).im) (by simpa [Hist.nums] using hN) (dmsetzero fold)
  rw [e0] at e1 e2
  have two : ∀ f : Nat → Flt × Flt, (∀ i < n, F.Finite (f i).1 ∧ F.Finite (f i).2) →
      F.sumSeq fold ((List.range n).flatMap (fun i => [(f i).1, (f i).2])) (dmsetzero fold) = F.specSum fold ((List.range n).flatMap (fun i => [(f i).1, (f i).2])) := by
    intro f hf
    refine C01_sum_is_spec hfold (fun x hxm => ?_) ?_
    · obtain ⟨i, hi, hxi⟩ := List.mem_flatMap.1 hxm
      have := hf i (List.mem_range.1 hi)
      rcases List.mem_cons.1 hxi with rfl | hxi
      · exact this.1
      · rw [List.mem_singleton] at hxi; subst hxi; exact this.2
    · rw [List.length_flatMap]; simp; omega
  rw [two (fun i => dotRe F conj (X (i * incX)) (Y (i * incY))) (fun i hi => (hx i hi).re)] at e1
  rw [two (fun i => dotIm F conj (X (i * incX)) (Y (i * incY))) (fun i hi => (hx i hi).im)] at e2
  rw [← e1, ← e2]
  unfold rzdotc rzdotu zdot
  cases conj <;> rfl

/-- The unconjugated dot product is symmetric (blocks of at most half the endurance, see C42). -/
theorem C60_zdotu_comm [F.OK] {T T' : Tune} (hT : T.OK F) (hT' : T'.OK F) {n : Nat} (hnb : 2 * min T.nb n ≤ F.endurance) (hnb' : 2 * min T'.nb n ≤ F.endurance)
    {fold : Nat} (hfold : 2 ≤ fold) {X Y : Int → Flt × Flt} {incX incY : Int} (hN : 2 * n ≤ F.capacity)
    (hx : ∀ i : Nat, i < n → DotFinite F (X (i * incX)) (Y (i * incY))) :
    F.rzdotu T fold n X incX Y incY = F.rzdotu T' fold n Y incY X incX := by
  have hx' : ∀ i : Nat, i < n → DotFinite F (Y (i * incY)) (X (i * incX)) := by
    intro i hi
    obtain ⟨a, b, c, d⟩ := hx i hi
    unfold DotFinite
    rw [mul_comm_all (Y (i * incY)).1, mul_comm_all (Y (i * incY)).2, mul_comm_all (Y (i * incY)).2, mul_comm_all (Y (i * incY)).1]
    exact ⟨a, b, d, c⟩
  have h1 := zdot_native (conj := false) hT hnb hfold hN hx
  have h2 := zdot_native (conj := false) hT' hnb' hfold hN hx'
  simp only [Bool.false_eq_true, if_false] at h1 h2
  rw [h1, h2]
  congr 1
  · congr 2
    refine List.flatMap_congr (fun i _ => ?_)
    simp only [dotRe, Bool.false_eq_true, if_false]
    rw [mul_comm_all (Y (i * incY)).1, mul_comm_all (Y (i * incY)).2]
  · congr 1
    refine specSum_perm ?_
    have : ∀ l : List Nat, (l.flatMap fun i : Nat => [(dotIm F false (X (i * incX)) (Y (i * incY))).1, (dotIm F false (X (i * incX)) (Y (i * incY))).2]).Perm
        (l.flatMap fun i : Nat => [(dotIm F false (Y (i * incY)) (X (i * incX))).1, (dotIm F false (Y (i * incY)) (X (i * incX))).2]) := by
      intro l
      induction l with
      | nil => exact List.Perm.refl _
      | cons i l ih =>
        rw [List.flatMap_cons, List.flatMap_cons]
        refine List.Perm.append ?_ ih
        simp only [dotIm, Bool.false_eq_true, if_false]
        rw [mul_comm_all (Y (i * incY)).2, mul_comm_all (Y (i * incY)).1]
        exact List.Perm.swap _ _ _
    exact this _

/-- The real part of the conjugated dot product is the real dot product of the words. -/
theorem C60_zdotc_is_dot [F.OK] {T T' : Tune} (hT : T.OK F) (hT' : T'.OK F) {n : Nat} (hnb : 2 * min T.nb n ≤ F.endurance)
    {fold : Nat} (hfold : 2 ≤ fold) {X Y : Int → Flt × Flt} {incX incY : Int} (hN : 2 * n ≤ F.capacity)
    (hx : ∀ i : Nat, i < n → DotFinite F (X (i * incX)) (Y (i * incY))) {V W : Int → Flt} (hV : Words V X incX n) (hW : Words W Y incY n) :
    (F.rzdotc T fold n X incX Y incY).1 = F.rddot T' fold (2 * n) V 1 W 1 := by
  have h1 := zdot_native (conj := true) hT hnb hfold hN hx
  simp only [if_true] at h1
  have a1 : ∀ i : Nat, (((2 * i : Nat) : Int) * 1) = 2 * (i : Int) := fun i => by omega
  have a2 : ∀ i : Nat, (((2 * i + 1 : Nat) : Int) * 1) = 2 * (i : Int) + 1 := fun i => by omega
  have e : products F (2 * n) V 1 W 1 = (List.range n).flatMap (fun (i : Nat) => [(dotRe F true (X (i * incX)) (Y (i * incY))).1, (dotRe F true (X (i * incX)) (Y (i * incY))).2]) := by
    unfold products
    rw [range_two n (fun i => F.mul (V ((i : Int) * 1)) (W ((i : Int) * 1)))]
    refine List.flatMap_congr (fun i hi => ?_)
    have hi := List.mem_range.1 hi
    rw [a1, a2, (hV i hi).1, (hV i hi).2, (hW i hi).1, (hW i hi).2]
    rfl
  rw [h1, (C36_wrappers (X := V) (Y := W) (incX := 1) (incY := 1) hT' hfold hN).2, e]
  intro i hi
  have h := hx (i / 2) (by omega)
  have hv := hV (i / 2) (by omega)
  have hw := hW (i / 2) (by omega)
  rcases Nat.mod_two_eq_zero_or_one i with h2 | h2
  · rw [show ((i : Int) * 1) = 2 * ((i / 2 : Nat) : Int) from by omega, hv.1, hw.1]; exact h.1
  · rw [show ((i : Int) * 1) = 2 * ((i / 2 : Nat) : Int) + 1 from by omega, hv.2, hw.2]; exact h.2.1

/-! ### C61 -/

/-- The value that the first `n` bins of a value form. -/
def firstBins (n : Nat) (y : Binned) : Binned := ⟨y.pri.take n, y.car.take n⟩

theorem firstBins_spec {n k : Nat} (hnk : n ≤ k) (h : Hist) : firstBins n (h.spec F k) = h.spec F n := by
  unfold Hist.spec firstBins
  by_cases e : h.seen = []
  · rw [if_pos e, if_pos e]
    unfold dmsetzero
    simp [List.take_replicate, Nat.min_eq_left hnk]
  · rw [if_neg e, if_neg e]
    unfold canon mid
    simp only [← List.map_take]
    have : ∀ a, (List.range' a k).take n = List.range' a n := by
      intro a
      obtain ⟨d, rfl⟩ := Nat.exists_eq_add_of_le hnk
      rw [← List.range'_append_1, List.take_append_of_le_length (by simp), List.take_of_length_le (by simp)]
    rw [this]

/-- **C61.** The value that a program computes with fold `n` is the first `n` bins of the value it computes with a larger fold: more bins add
accuracy and change nothing else. -/
theorem C61_prefix [F.OK] {n k : Nat} (hn : 2 ≤ n) (hnk : n ≤ k) {h : Hist} (hl : h.Legal F) (hN : h.nums.length ≤ F.capacity) (hs : h.Settled) :
    firstBins n (h.eval F k) = h.eval F n := by
  rw [hist_spec (by omega) hl hN hs, hist_spec hn hl hN hs, firstBins_spec hnk]

/-- **C61** for the vector routines, with any two tunings (the generated kernels differ between folds). -/
theorem C61_routines [F.OK] {T T' : Tune} (hT : T.OK F) (hT' : T'.OK F) {n k : Nat} (hn : 2 ≤ n) (hnk : n ≤ k) {h : Hist} (hl : h.Legal F) (hs : h.Settled)
    {N : Nat} {X Y : Int → Flt} {incX incY : Int} (hN : N + h.nums.length ≤ F.capacity) :
    ((∀ i : Nat, i < N → F.Finite (X (i * incX))) →
      firstBins n (F.dmdsum T k N X incX (h.eval F k)) = F.dmdsum T' n N X incX (h.eval F n) ∧
      firstBins n (F.dmdasum T k N X incX (h.eval F k)) = F.dmdasum T' n N X incX (h.eval F n)) ∧
    ((∀ i : Nat, i < N → F.Finite (F.mul (X (i * incX)) (Y (i * incY)))) →
      firstBins n (F.dmddot T k N X incX Y incY (h.eval F k)) = F.dmddot T' n N X incX Y incY (h.eval F n)) := by
  have key : ∀ xs : List Flt, xs.length = N → (∀ x ∈ xs, F.Finite x) → firstBins n (F.vecSum T k xs (h.eval F k)) = F.vecSum T' n xs (h.eval F n) := by
    intro xs hlen hx
    rw [vecSum_eq hT (by omega) hl (fun _ => hs) hx (by rw [hlen]; exact hN), vecSum_eq hT' hn hl (fun _ => hs) hx (by rw [hlen]; exact hN),
      ofList_spec (by omega) hx hl (by rw [hlen]; exact hN) (fun _ => hs), ofList_spec hn hx hl (by rw [hlen]; exact hN) (fun _ => hs), firstBins_spec hnk]
  refine ⟨fun hx => ⟨?_, ?_⟩, fun hx => ?_⟩
  · refine key _ (gather_length X incX N) (fun x hxm => ?_)
    obtain ⟨i, hi, rfl⟩ := mem_gather hxm
    exact hx i hi
  · refine key _ (by rw [List.length_map, gather_length]) (fun x hxm => ?_)
    obtain ⟨a, ha, rfl⟩ := List.mem_map.1 hxm
    obtain ⟨i, hi, rfl⟩ := mem_gather ha
    exact hx i hi
  · refine key _ (by rw [zip_gather]; simp) (fun x hxm => ?_)
    rw [zip_gather] at hxm
    obtain ⟨i, hi, rfl⟩ := List.mem_map.1 hxm
    exact hx i (List.mem_range.1 hi)

/-! ### Concrete cases -/

/-- Sum and dot product with ones, on seven numbers of both signs. -/
example : (∀ i : Nat, i < 7 → f64.Finite (exMem (i * 2))) ∧
    f64.rdsum ⟨2, 1, 2, 1, 1, false⟩ 3 7 exMem 2 = f64.rddot ⟨2, 1, 2, 1, 1, false⟩ 3 7 exMem 2 (fun _ => f64.pow2 0) 0 := by decide +kernel

/-- The hypotheses on the matrices of `C60_gemv_is_dot`, `C60_gemm_is_gemv` and `C60_transpose`: row-major `A` (3 by 2), `B = A^T`;
transposed product column-major. -/
example : (∀ t : Nat, t < 2 → opEl true true exA 4 2 t = exA (8 + t * 1) ∧ f64.Finite (opEl true true exA 4 2 t) ∧
      opEl true false exA 4 t 1 = exA (4 + t * 1) ∧ f64.Finite (opEl true false exA 4 t 1) ∧
      f64.Finite (f64.mul (opEl true true exA 4 2 t) (opEl true false exA 4 t 1))) ∧
    (∀ t : Nat, t < 2 → opEl false true exA 4 t 2 = opEl true true exA 4 2 t ∧ opEl false false exA 4 1 t = opEl true false exA 4 t 1) := by decide +kernel

/-- The three routines on it. -/
example :
    f64.rdgemm ⟨2, 1, 2, 1, 1, false⟩ 3 ⟨2, 4, 2, 6⟩ (fun _ => f64.nan) (fun _ _ _ _ => f64.inf false) (fun _ _ _ _ => f64.inf false) (fun _ => dmsetzero 3)
      'R' 'N' 'T' 3 3 2 (f64.pow2 0) exA 4 exA 4 zero (fun _ => f64.nan) 5 (entryAt true 5 2 1) =
    f64.rddot ⟨2, 1, 2, 1, 1, false⟩ 3 2 (fun i => exA (8 + i)) 1 (fun i => exA (4 + i)) 1 ∧
    f64.rdgemv ⟨2, 1, 2, 1, 1, false⟩ 3 ⟨1, 2, 2, 4, 1⟩ (fun _ => f64.nan) (fun _ _ _ => f64.inf true) (fun _ => dmsetzero 3) 'r' 'n' 3 2 (f64.pow2 0) exA 4
      (fun i => exA (4 + i)) 1 zero (fun _ => f64.nan) 1 2 =
    f64.rddot ⟨2, 1, 2, 1, 1, false⟩ 3 2 (fun i => exA (8 + i)) 1 (fun i => exA (4 + i)) 1 := by decide +kernel

/-- A complex vector and its words. -/
example : Words exMem (fun i => (exMem (2 * i), exMem (2 * i + 1))) 1 5 := by
  intro i hi
  constructor <;> simp

example : ∀ i : Nat, i < 5 → DotFinite f64 ((fun i => (exMem (2 * i), exMem (2 * i + 1))) (i * 1)) ((fun i => (exMem (i + 7), exMem i)) (i * 1)) := by
  unfold DotFinite; decide +kernel

/-- Folds 3 and 5 differ (here in the conversion), and the first three bins agree. -/
example : f64.rdsum ⟨2, 1, 2, 1, 1, false⟩ 2 3 (fun i => nth [f64.pow2 0, f64.pow2 (-90), fneg (f64.pow2 0)] i.toNat) 1 ≠
      f64.rdsum ⟨2, 1, 2, 1, 1, false⟩ 5 3 (fun i => nth [f64.pow2 0, f64.pow2 (-90), fneg (f64.pow2 0)] i.toNat) 1 ∧
    firstBins 2 (f64.dmdsum ⟨2, 1, 2, 1, 1, false⟩ 5 3 (fun i => nth [f64.pow2 0, f64.pow2 (-90), fneg (f64.pow2 0)] i.toNat) 1 (dmsetzero 5)) =
      f64.dmdsum ⟨2, 1, 2, 1, 1, false⟩ 2 3 (fun i => nth [f64.pow2 0, f64.pow2 (-90), fneg (f64.pow2 0)] i.toNat) 1 (dmsetzero 2) := by decide +kernel

end Repro
