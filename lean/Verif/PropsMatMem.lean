import Verif.MatMemProd
import Verif.PropsShipped
/-!
# C66: statements

`dgemvM`, `dgemmM`, `rdgemvM`, `rdgemmM` and the complex versions (`Verif/MatMem.lean`) execute the matrix products in one flat memory: operands, results,
`malloc`ed buffers and arrays of binned values are addresses. The theorems describe the memory afterwards. What may be written is spelled out by `GemvWork`, `GemmWork`, the
required absence of overlap by `GemvSep`, `GemmSep` (`Verif/MatMemGemv.lean`, `Verif/MatMemGemm.lean`).
-/

namespace Repro
open Fmt
variable {F : Fmt}

theorem one_mul' (a b : Int) : a + ((1 : Nat) : Int) * b = a + b := by rw [Int.natCast_one, Int.one_mul]

theorem span_one {a x : Int} : Span a 1 x ↔ x = a := by unfold Span; omega

theorem opEl_id {α : Type} (row no : Bool) (A : Int → α) (lda : Int) (r c : Nat) : opEl row no A lda r c = A (opEl row no id lda r c) := by
  unfold opEl; split <;> rfl

theorem idxA_eq (row no : Bool) (lda : Int) (r t : Nat) : (if (row != no) = true then (t : Int) * lda + r else r * lda + t) = opEl row no id lda r t := by
  cases row <;> cases no <;> rfl

theorem idxB_eq (row no : Bool) (ldb : Int) (t c : Nat) : (if (row == no) = true then (t : Int) * ldb + c else c * ldb + t) = opEl row no id ldb t c := by
  cases row <;> cases no <;> rfl

theorem realInit (F : Fmt) (T : Tune) (fold : Nat) (beta y : Flt) :
    (realAbs F T fold).init (isZero beta) (F.feq beta (F.pow2 0)) (fun y => F.mul y beta) y = F.beta0 fold beta y := rfl

/-- An entry of the product depends on the matrices and its own previous contents only. -/
theorem dgemm_dep (T : Tune) (fold : Nat) {b : GemmB} (hb : b.OK) (g : Int → Flt) (ga gb : Nat → Nat → Nat → Int → Flt) (Order TransA TransB : Char) {M N K : Nat} (alpha : Flt)
    {A A' : Int → Flt} {lda : Int} {B B' : Int → Flt} {ldb : Int} {f f' : Int → Binned} (ld : Int) {l : Int}
    (hA : ∀ r t : Nat, r < M → t < K → A (opEl (isRow Order) (isNo TransA) id lda r t) = A' (opEl (isRow Order) (isNo TransA) id lda r t))
    (hB : ∀ t c : Nat, t < K → c < N → B (opEl (isRow Order) (isNo TransB) id ldb t c) = B' (opEl (isRow Order) (isNo TransB) id ldb t c)) (hl : f l = f' l) :
    F.dgemm T fold b g ga gb Order TransA TransB M N K alpha A lda B ldb f ld l = F.dgemm T fold b g ga gb Order TransA TransB M N K alpha A' lda B' ldb f' ld l := by
  unfold dgemm
  rw [gemm_U, gemm_U]
  by_cases h0 : M = 0 ∨ N = 0 ∨ K = 0 ∨ isZero alpha = true
  · rw [if_pos h0, if_pos h0]; exact hl
  rw [if_neg h0, if_neg h0]
  refine gemmU_dep _ hb _ _ _ _ _ _ _ _ _ _ ld (fun r t hr ht => ?_) (fun t c ht hc => ?_) hl
  · rw [idxA_eq]; exact hA r t hr ht
  · rw [idxB_eq]; exact hB t c ht hc

section
variable [F.OK] {T : Tune} (hT : T.OK F) (expand : Bool) {fold : Nat} (hf : 2 ≤ fold) (jA jD : Junk)
include hT hf

/-- **C66.** `binnedBLAS_dbdgemv` in memory: every entry of the result becomes what the model of C24 computes from the arrays found in memory at the start (the contents `gx`, `g`
of buffers before they are filled do not matter), and no word outside of the result and the two buffers is written. -/
theorem C66_gemv {b : GemvB} (hb : b.OK) (gx : Int → Flt) (g : Nat → Nat → Int → Flt) (Order TransA : Char) {M N : Nat} (alpha : Flt)
    {A lda X incX Y incY bufX bufA : Int} (m : Mem) {rows cols : Nat} (hr : rows = if isNo TransA then M else N) (hc : cols = if isNo TransA then N else M)
    (hs : GemvSep 1 (2 * fold) rows cols (b.xt * b.yt) (opEl (isRow Order) (isNo TransA) id lda) A X incX Y incY bufX bufA) :
    let m' := F.dgemvM T expand fold jA jD b Order TransA M N alpha A lda X incX Y incY bufX bufA m
    (∀ r : Nat, r < rows → view fold (packed fold (Y + (2 * fold : Nat) * (r * incY))) m'
      = F.dgemv T fold b gx g Order TransA M N alpha (fun a => m (A + a)) lda (fun a => m (X + a)) incX
        (fun l => view fold (packed fold (Y + (2 * fold : Nat) * l)) m) incY (r * incY)) ∧
    (∀ x, ¬ GemvWork 1 (2 * fold) rows cols (b.xt * b.yt) Y incY bufX bufA x → m' x = m x) := by
  subst hr hc
  have h := gemvM_spec (realLaw hT expand hf jA jD) (isZero alpha) (F.feq alpha (F.pow2 0)) (fun x => F.mul x alpha) hb gx g Order TransA m hs
  simp only [realOps, one_mul'] at h
  exact h

/-- **C66.** `binnedBLAS_dbdgemm` in memory. -/
theorem C66_gemm {b : GemmB} (hb : b.OK) (g : Int → Flt) (ga gb : Nat → Nat → Nat → Int → Flt) (Order TransA TransB : Char) {M N K : Nat} (alpha : Flt)
    {A lda B ldb C ldc bufS bufA bufB : Int} (m : Mem)
    (hs : GemmSep 1 (2 * fold) (isRow Order) M N K (b.xt * b.yt) (opEl (isRow Order) (isNo TransA) id lda) (opEl (isRow Order) (isNo TransB) id ldb) A B C ldc bufS bufA bufB) :
    let m' := F.dgemmM T expand fold jA jD b Order TransA TransB M N K alpha A lda B ldb C ldc bufS bufA bufB m
    (∀ r c : Nat, r < M → c < N → view fold (packed fold (C + (2 * fold : Nat) * entryAt (isRow Order) ldc r c)) m'
      = F.dgemm T fold b g ga gb Order TransA TransB M N K alpha (fun a => m (A + a)) lda (fun a => m (B + a)) ldb
        (fun l => view fold (packed fold (C + (2 * fold : Nat) * l)) m) ldc (entryAt (isRow Order) ldc r c)) ∧
    (∀ x, ¬ GemmWork 1 (2 * fold) (isRow Order) M N K (b.xt * b.yt) C ldc bufS bufA bufB x → m' x = m x) := by
  intro m'
  unfold dgemm
  rw [gemm_U]
  by_cases h0 : M = 0 ∨ N = 0 ∨ K = 0 ∨ isZero alpha = true
  · have e : m' = m := by show dgemmM _ _ _ _ _ _ _ _ _ _ _ _ _ _ _ _ _ _ _ _ _ _ _ _ = m; unfold dgemmM; rw [if_pos h0]
    rw [if_pos h0, e]
    exact ⟨fun _ _ _ _ => rfl, fun _ _ => rfl⟩
  rw [if_neg h0]
  have e : m' = gemmM (realOps F T expand fold jA jD) b (isRow Order) (isRow Order != isNo TransA) (isRow Order == isNo TransB) false (F.feq alpha (F.pow2 0))
      (if F.feq alpha (F.pow2 0) then id else fun x => F.mul x alpha) id M N K A lda B ldb C ldc bufS bufA bufB m := by
    show dgemmM _ _ _ _ _ _ _ _ _ _ _ _ _ _ _ _ _ _ _ _ _ _ _ _ = _
    unfold dgemmM
    rw [if_neg h0]
  have h := gemmM_spec (realLaw hT expand hf jA jD) hb (isRow Order) (isRow Order != isNo TransA) (isRow Order == isNo TransB) false (F.feq alpha (F.pow2 0))
    (if F.feq alpha (F.pow2 0) then id else fun x => F.mul x alpha) id g ga gb (M := M) (N := N) (K := K) (A := A) (lda := lda) (B := B) (ldb := ldb) (C := C) (ldc := ldc)
    (bufS := bufS) (bufA := bufA) (bufB := bufB) m ?_
  · rw [e]
    simp only [entryAt_eq] at h
    simp only [realOps, one_mul'] at h
    exact h
  · have e1 := funext fun r => funext fun t => idxA_eq (isRow Order) (isNo TransA) lda r t
    have e2 := funext fun t => funext fun c => idxB_eq (isRow Order) (isNo TransB) ldb t c
    rw [e1, e2]
    exact hs

/-- `reproBLAS_rdgemv` in memory computes what the model computes. -/
theorem rdgemvM_refines {b : GemvB} (hb : b.OK) (gx : Int → Flt) (g : Nat → Nat → Int → Flt) (yi : Int → Binned) (Order TransA : Char) {M N : Nat} (alpha : Flt)
    {A lda X incX : Int} (beta : Flt) {Y incY YI bufX bufA : Int} (m : Mem) {rows cols : Nat} (hr : rows = if isNo TransA then M else N) (hc : cols = if isNo TransA then N else M)
    (hs : GemvSep 1 (2 * fold) rows cols (b.xt * b.yt) (opEl (isRow Order) (isNo TransA) id lda) A X incX YI 1 bufX bufA)
    (hY : ∀ r : Nat, r < rows → ¬ GemvWork 1 (2 * fold) rows cols (b.xt * b.yt) YI 1 bufX bufA (Y + r * incY)) :
    let m' := F.rdgemvM T expand fold jA jD b Order TransA M N alpha A lda X incX beta Y incY YI bufX bufA m
    (∀ l, ¬ GemvWork 1 (2 * fold) rows cols (b.xt * b.yt) YI 1 bufX bufA (Y + l) →
      m' (Y + l) = F.rdgemv T fold b gx g yi Order TransA M N alpha (fun a => m (A + a)) lda (fun a => m (X + a)) incX beta (fun a => m (Y + a)) incY l) ∧
    (∀ x, ¬ GemvWork 1 (2 * fold) rows cols (b.xt * b.yt) YI 1 bufX bufA x → (∀ r : Nat, r < rows → x ≠ Y + r * incY) → m' x = m x) := by
  have h := rgemvM_spec (realLaw hT expand hf jA jD) (isZero beta) (F.feq beta (F.pow2 0)) (fun y => F.mul y beta)
    (fun YI => F.dgemvM T expand fold jA jD b Order TransA M N alpha A lda X incX YI 1 bufX bufA) (isNo TransA) (M := M) (N := N) Y incY YI m
    (W := GemvWork 1 (2 * fold) rows cols (b.xt * b.yt) YI 1 bufX bufA)
    (P := fun f => F.dgemv T fold b gx g Order TransA M N alpha (fun a => m (A + a)) lda (fun a => m (X + a)) incX f 1)
    (fun r hr' x hx => Or.inl ⟨r, hr ▸ hr', by rw [Int.mul_one]; exact hx⟩)
    (fun r hr' x hx => by
      have := span_one.1 hx
      rw [this]
      simp only [realOps, one_mul']
      exact hY r (hr ▸ hr'))
    (fun m1 hm1 => by
      have hg := C66_gemv hT expand hf jA jD hb gx g Order TransA alpha (lda := lda) m1 hr hc hs
      refine ⟨fun r hr' => ?_, hg.2⟩
      have h1 := hg.1 r (hr ▸ hr')
      rw [Int.mul_one] at h1
      refine h1.trans ?_
      subst hr hc
      refine gemv_dep _ _ _ _ hb gx g Order TransA 1 (fun r c hr hc => ?_) (fun c hc => ?_) rfl
      · have := hs.mat r c hr hc
        simp only [one_mul', span_one] at this
        rw [opEl_id _ _ _ lda r c, opEl_id _ _ (fun a => m (A + a)) lda r c]
        exact hm1 _ (this _ rfl)
      · have := hs.vec c hc
        simp only [one_mul', span_one] at this
        exact hm1 _ (this _ rfl))
    (fun f f' l hl => gemv_dep _ _ _ _ hb gx g Order TransA 1 (fun _ _ _ _ => rfl) (fun _ _ => rfl) hl) yi
  simp only [realOps, one_mul', span_one, ← hr] at h
  refine ⟨fun l hl => ?_, h.2⟩
  refine (h.1 l (fun x hx => hx ▸ hl)).trans ?_
  unfold rdgemv
  by_cases h0 : N = 0 ∨ M = 0
  · simp only [if_pos h0]
  simp only [if_neg h0, realInit, ← hr]
  rfl

/-- `reproBLAS_rdgemm` in memory computes what the model computes. -/
theorem rdgemmM_refines {b : GemmB} (hb : b.OK) (g : Int → Flt) (ga gb : Nat → Nat → Nat → Int → Flt) (ci : Int → Binned) (Order TransA TransB : Char) {M N K : Nat} (alpha : Flt)
    {A lda B ldb : Int} (beta : Flt) {C ldc CI bufS bufA bufB : Int} (m : Mem)
    (hs : GemmSep 1 (2 * fold) (isRow Order) M N K (b.xt * b.yt) (opEl (isRow Order) (isNo TransA) id lda) (opEl (isRow Order) (isNo TransB) id ldb) A B CI (if isRow Order then N else M) bufS bufA bufB)
    (hY : ∀ r c : Nat, r < M → c < N → ¬ GemmWork 1 (2 * fold) (isRow Order) M N K (b.xt * b.yt) CI (if isRow Order then N else M) bufS bufA bufB (C + entryAt (isRow Order) ldc r c)) :
    let m' := F.rdgemmM T expand fold jA jD b Order TransA TransB M N K alpha A lda B ldb beta C ldc CI bufS bufA bufB m
    (∀ l, ¬ GemmWork 1 (2 * fold) (isRow Order) M N K (b.xt * b.yt) CI (if isRow Order then N else M) bufS bufA bufB (C + l) →
      m' (C + l) = F.rdgemm T fold b g ga gb ci Order TransA TransB M N K alpha (fun a => m (A + a)) lda (fun a => m (B + a)) ldb beta (fun a => m (C + a)) ldc l) ∧
    (∀ x, ¬ GemmWork 1 (2 * fold) (isRow Order) M N K (b.xt * b.yt) CI (if isRow Order then N else M) bufS bufA bufB x →
      (∀ r c : Nat, r < M → c < N → x ≠ C + entryAt (isRow Order) ldc r c) → m' x = m x) := by
  have h := rgemmM_spec (realLaw hT expand hf jA jD) (isZero beta) (F.feq beta (F.pow2 0)) (fun y => F.mul y beta)
    (fun CI ld => F.dgemmM T expand fold jA jD b Order TransA TransB M N K alpha A lda B ldb CI ld bufS bufA bufB) (isRow Order) (M := M) (N := N) C ldc CI m
    (W := GemmWork 1 (2 * fold) (isRow Order) M N K (b.xt * b.yt) CI (if isRow Order then N else M) bufS bufA bufB)
    (P := fun f => F.dgemm T fold b g ga gb Order TransA TransB M N K alpha (fun a => m (A + a)) lda (fun a => m (B + a)) ldb f (if isRow Order then N else M))
    (fun r c hr hc x hx => Or.inl ⟨r, c, hr, hc, hx⟩)
    (fun r c hr hc x hx => by
      have := span_one.1 hx
      rw [this]
      simp only [realOps, one_mul', entryAt_eq]
      exact hY r c hr hc)
    (fun m1 hm1 => by
      have hg := C66_gemm hT expand hf jA jD hb g ga gb Order TransA TransB alpha (lda := lda) (ldb := ldb) m1 hs
      refine ⟨fun r c hr hc => ?_, hg.2⟩
      have h1 := hg.1 r c hr hc
      rw [← entryAt_eq] at h1
      refine h1.trans ?_
      refine dgemm_dep T fold hb g ga gb Order TransA TransB alpha _ (fun r t hr ht => ?_) (fun t c ht hc => ?_) rfl
      · have := hs.matA r t hr ht
        simp only [one_mul', span_one] at this
        exact hm1 _ (this _ rfl)
      · have := hs.matB t c ht hc
        simp only [one_mul', span_one] at this
        exact hm1 _ (this _ rfl))
    (fun f f' l hl => dgemm_dep T fold hb g ga gb Order TransA TransB alpha _ (fun _ _ _ _ => rfl) (fun _ _ _ _ => rfl) hl) ci
  simp only [realOps, one_mul', span_one, entryAt_eq] at h
  refine ⟨fun l hl => ?_, h.2⟩
  refine (h.1 l (fun x hx => hx ▸ hl)).trans ?_
  unfold rdgemm
  by_cases h0 : M = 0 ∨ N = 0
  · simp only [if_pos h0]
  simp only [if_neg h0, realInit]
  cases isRow Order
  · simp only [Bool.false_eq_true, if_false]; rfl
  · simp only [if_true]; rfl

/-- **C66.** `reproBLAS_rdgemv` in memory, end to end: with non-empty dimensions, the word of entry `r` becomes the conversion of the reproducible sum of `y_r * beta` and of the
products; no other word is written except for the array of binned values and the buffers. `A` and `X` may overlap `Y`. -/
theorem C66_rdgemv {b : GemvB} (hb : b.OK) (Order TransA : Char) {M N : Nat} (hM : M ≠ 0) (hN : N ≠ 0) (alpha : Flt)
    {A lda X incX : Int} (beta : Flt) {Y incY YI bufX bufA : Int} (hinc : incY ≠ 0) (m : Mem) {rows cols : Nat} (hr : rows = if isNo TransA then M else N) (hc : cols = if isNo TransA then N else M)
    (hs : GemvSep 1 (2 * fold) rows cols (b.xt * b.yt) (opEl (isRow Order) (isNo TransA) id lda) A X incX YI 1 bufX bufA)
    (hY : ∀ r : Nat, r < rows → ¬ GemvWork 1 (2 * fold) rows cols (b.xt * b.yt) YI 1 bufX bufA (Y + r * incY))
    (hX : isZero alpha = false → ∀ c : Nat, c < cols → F.Finite (m (X + c * incX))) (hcap : cols + 1 ≤ F.capacity) :
    let m' := F.rdgemvM T expand fold jA jD b Order TransA M N alpha A lda X incX beta Y incY YI bufX bufA m
    let terms := gemvTerms F (isRow Order) (isNo TransA) cols alpha (fun a => m (A + a)) lda (fun a => m (X + a)) incX
    (∀ r : Nat, r < rows → (isZero beta = false → F.Finite (m (Y + r * incY)) ∧ F.Finite (F.mul (m (Y + r * incY)) beta)) →
      (isZero alpha = false → ∀ x ∈ terms r, F.Finite x) →
      m' (Y + r * incY) = convert F fold (F.specSum fold (betaTerm F beta (m (Y + r * incY)) ++ (if isZero alpha then [] else terms r)))) ∧
    (∀ x, ¬ GemvWork 1 (2 * fold) rows cols (b.xt * b.yt) YI 1 bufX bufA x → (∀ r : Nat, r < rows → x ≠ Y + r * incY) → m' x = m x) := by
  intro m' terms
  have h := rdgemvM_refines hT expand hf jA jD hb (fun _ => zero) (fun _ _ _ => zero) (fun _ => dmsetzero fold) Order TransA alpha (lda := lda) beta (incY := incY) m hr hc hs hY
  refine ⟨fun r hrr hy hx => ?_, h.2⟩
  exact (h.1 _ (hY r hrr)).trans ((C26_gemv hT hf hb _ _ _ Order TransA hM hN alpha (fun a => m (A + a)) lda (fun a => m (X + a)) incX beta (fun a => m (Y + a)) hinc hr hc hX hcap).1 r hrr hy hx)

/-- **C66.** `reproBLAS_rdgemm` in memory, end to end. `A` and `B` may overlap `C`. -/
theorem C66_rdgemm {b : GemmB} (hb : b.OK) (Order TransA TransB : Char) {M N K : Nat} (alpha : Flt)
    {A lda B ldb : Int} (beta : Flt) {C : Int} {ldc : Nat} {CI bufS bufA bufB : Int} (m : Mem)
    (hs : GemmSep 1 (2 * fold) (isRow Order) M N K (b.xt * b.yt) (opEl (isRow Order) (isNo TransA) id lda) (opEl (isRow Order) (isNo TransB) id ldb) A B CI (if isRow Order then N else M) bufS bufA bufB)
    (hY : ∀ r c : Nat, r < M → c < N → ¬ GemmWork 1 (2 * fold) (isRow Order) M N K (b.xt * b.yt) CI (if isRow Order then N else M) bufS bufA bufB (C + entryAt (isRow Order) ldc r c))
    (hC : (if isRow Order then N else M) ≤ ldc) (hcap : K + 1 ≤ F.capacity) :
    let m' := F.rdgemmM T expand fold jA jD b Order TransA TransB M N K alpha A lda B ldb beta C ldc CI bufS bufA bufB m
    let terms := gemmTerms F (isRow Order) (isNo TransA) (isNo TransB) K alpha (fun a => m (A + a)) lda (fun a => m (B + a)) ldb
    let at' := fun r c => C + entryAt (isRow Order) ldc r c
    (∀ r c : Nat, r < M → c < N → (isZero beta = false → F.Finite (m (at' r c)) ∧ F.Finite (F.mul (m (at' r c)) beta)) →
      (isZero alpha = false → (∀ t : Nat, t < K → F.Finite (opEl (isRow Order) (isNo TransA) (fun a => m (A + a)) lda r t)) ∧ ∀ x ∈ terms r c, F.Finite x) →
      m' (at' r c) = convert F fold (F.specSum fold (betaTerm F beta (m (at' r c)) ++ (if isZero alpha then [] else terms r c)))) ∧
    (∀ x, ¬ GemmWork 1 (2 * fold) (isRow Order) M N K (b.xt * b.yt) CI (if isRow Order then N else M) bufS bufA bufB x → (∀ r c : Nat, r < M → c < N → x ≠ at' r c) → m' x = m x) := by
  intro m' terms at'
  have h := rdgemmM_refines hT expand hf jA jD hb (fun _ => zero) (fun _ _ _ _ => zero) (fun _ _ _ _ => zero) (fun _ => dmsetzero fold) Order TransA TransB alpha (lda := lda) (ldb := ldb) beta (ldc := ldc) m hs hY
  refine ⟨fun r c hrr hcc hy hx => ?_, h.2⟩
  exact (h.1 _ (hY r c hrr hcc)).trans ((C26_gemm hT hf hb _ _ _ _ Order TransA TransB M N K alpha (fun a => m (A + a)) lda (fun a => m (B + a)) ldb beta (fun a => m (C + a)) hC hcap).1 r c hrr hcc hy hx)

end

/-- **C66**, reproducibility at the level of the machine. Two machines with different vector units, tunings, block sizes, register contents and memory layouts multiply the same
matrices - stored in different orders, transposed or not, at different places: the results are the same, bit for bit. -/
theorem C66_reproducible [F.OK] {T T' : Tune} (hT : T.OK F) (hT' : T'.OK F) (expand expand' : Bool) {fold : Nat} (hf : 2 ≤ fold) (jA jD jA' jD' : Junk)
    {b b' : GemmB} (hb : b.OK) (hb' : b'.OK) (Order TransA TransB Order' TransA' TransB' : Char) {M N K : Nat} (alpha beta : Flt)
    {A lda B ldb C A' lda' B' ldb' C' : Int} {ldc ldc' : Nat} {CI bufS bufA bufB CI' bufS' bufA' bufB' : Int} (m m₂ : Mem)
    (hs : GemmSep 1 (2 * fold) (isRow Order) M N K (b.xt * b.yt) (opEl (isRow Order) (isNo TransA) id lda) (opEl (isRow Order) (isNo TransB) id ldb) A B CI (if isRow Order then N else M) bufS bufA bufB)
    (hs' : GemmSep 1 (2 * fold) (isRow Order') M N K (b'.xt * b'.yt) (opEl (isRow Order') (isNo TransA') id lda') (opEl (isRow Order') (isNo TransB') id ldb') A' B' CI' (if isRow Order' then N else M) bufS' bufA' bufB')
    (hY : ∀ r c : Nat, r < M → c < N → ¬ GemmWork 1 (2 * fold) (isRow Order) M N K (b.xt * b.yt) CI (if isRow Order then N else M) bufS bufA bufB (C + entryAt (isRow Order) ldc r c))
    (hY' : ∀ r c : Nat, r < M → c < N → ¬ GemmWork 1 (2 * fold) (isRow Order') M N K (b'.xt * b'.yt) CI' (if isRow Order' then N else M) bufS' bufA' bufB' (C' + entryAt (isRow Order') ldc' r c))
    (hC : (if isRow Order then N else M) ≤ ldc) (hC' : (if isRow Order' then N else M) ≤ ldc') (hcap : K + 1 ≤ F.capacity)
    (eA : ∀ r t : Nat, r < M → t < K → m (A + opEl (isRow Order) (isNo TransA) id lda r t) = m₂ (A' + opEl (isRow Order') (isNo TransA') id lda' r t))
    (eB : ∀ t c : Nat, t < K → c < N → m (B + opEl (isRow Order) (isNo TransB) id ldb t c) = m₂ (B' + opEl (isRow Order') (isNo TransB') id ldb' t c))
    (eC : ∀ r c : Nat, r < M → c < N → m (C + entryAt (isRow Order) ldc r c) = m₂ (C' + entryAt (isRow Order') ldc' r c))
    {r c : Nat} (hr : r < M) (hc : c < N)
    (hy : isZero beta = false → F.Finite (m (C + entryAt (isRow Order) ldc r c)) ∧ F.Finite (F.mul (m (C + entryAt (isRow Order) ldc r c)) beta))
    (hx : isZero alpha = false → (∀ t : Nat, t < K → F.Finite (m (A + opEl (isRow Order) (isNo TransA) id lda r t))) ∧
      ∀ t : Nat, t < K → F.Finite (F.mul (F.mul (m (A + opEl (isRow Order) (isNo TransA) id lda r t)) alpha) (m (B + opEl (isRow Order) (isNo TransB) id ldb t c)))) :
    F.rdgemmM T expand fold jA jD b Order TransA TransB M N K alpha A lda B ldb beta C ldc CI bufS bufA bufB m (C + entryAt (isRow Order) ldc r c) =
      F.rdgemmM T' expand' fold jA' jD' b' Order' TransA' TransB' M N K alpha A' lda' B' ldb' beta C' ldc' CI' bufS' bufA' bufB' m₂ (C' + entryAt (isRow Order') ldc' r c) := by
  have et : gemmTerms F (isRow Order) (isNo TransA) (isNo TransB) K alpha (fun a => m (A + a)) lda (fun a => m (B + a)) ldb r c =
      (List.range K).map (fun t : Nat => F.mul (F.mul (m (A + opEl (isRow Order) (isNo TransA) id lda r t)) alpha) (m (B + opEl (isRow Order) (isNo TransB) id ldb t c))) := by
    unfold gemmTerms
    refine List.map_congr_left fun t _ => ?_
    rw [opEl_id _ _ (fun a => m (A + a)), opEl_id _ _ (fun a => m (B + a))]
  have et' : gemmTerms F (isRow Order') (isNo TransA') (isNo TransB') K alpha (fun a => m₂ (A' + a)) lda' (fun a => m₂ (B' + a)) ldb' r c =
      (List.range K).map (fun t : Nat => F.mul (F.mul (m (A + opEl (isRow Order) (isNo TransA) id lda r t)) alpha) (m (B + opEl (isRow Order) (isNo TransB) id ldb t c))) := by
    unfold gemmTerms
    refine List.map_congr_left fun t ht => ?_
    have ht := List.mem_range.1 ht
    rw [opEl_id _ _ (fun a => m₂ (A' + a)), opEl_id _ _ (fun a => m₂ (B' + a)), eA r t hr ht, eB t c ht hc]
  have hfin : isZero alpha = false → ∀ x ∈ (List.range K).map (fun t : Nat => F.mul (F.mul (m (A + opEl (isRow Order) (isNo TransA) id lda r t)) alpha) (m (B + opEl (isRow Order) (isNo TransB) id ldb t c))), F.Finite x := by
    intro ha x hx'
    obtain ⟨t, ht, rfl⟩ := List.mem_map.1 hx'
    exact (hx ha).2 t (List.mem_range.1 ht)
  have h1 := (C66_rdgemm hT expand hf jA jD hb Order TransA TransB alpha beta m hs hY hC hcap).1 r c hr hc hy
    (fun ha => ⟨fun t ht => by rw [opEl_id]; exact (hx ha).1 t ht, by rw [et]; exact hfin ha⟩)
  have h2 := (C66_rdgemm hT' expand' hf jA' jD' hb' Order' TransA' TransB' alpha beta m₂ hs' hY' hC' hcap).1 r c hr hc (by rw [← eC r c hr hc]; exact hy)
    (fun ha => ⟨fun t ht => by rw [opEl_id, ← eA r t hr ht]; exact (hx ha).1 t ht, by rw [et']; exact hfin ha⟩)
  rw [et] at h1
  rw [et', ← eC r c hr hc] at h2
  exact h1.trans h2.symm

/-! Concrete cases. -/

/-- Two 2 by 2 matrices, row-major, A transposed: A at 0, B at 10, the binned values at 100, buffers at 200, 300, 400. -/
example : GemmSep 1 (2 * 2) (isRow 'r') 2 2 2 6 (opEl (isRow 'r') (isNo 't') id 2) (opEl (isRow 'r') (isNo 'n') id 2) 0 10 100 2 200 300 400 := by
  have hw : ∀ x, (GemmWork 1 (2 * 2) (isRow 'r') 2 2 2 6 100 2 200 300 400 x) → 100 ≤ x := by
    rintro x (⟨r, c, hr, hc, h⟩ | h | h | h) <;> simp only [Span, opEl, isRow, id, Bool.or_self, Bool.or_true, Bool.true_or, beq_self_eq_true, if_true, Char.reduceBEq] at h <;> omega
  constructor
  · decide
  · intro r t hr ht x hx h
    have := hw x h
    simp only [Span, opEl, isRow, isNo, id, Bool.or_true, Bool.true_or, Bool.or_self, Bool.or_false, beq_self_eq_true, Bool.true_beq, Char.reduceBEq, Bool.false_eq_true, if_false] at hx; omega
  · intro t c ht hc x hx h
    have := hw x h
    simp only [Span, opEl, isRow, isNo, id, Bool.or_true, Bool.true_or, Bool.or_self, Bool.or_false, beq_self_eq_true, Bool.true_beq, Char.reduceBEq, if_true] at hx; omega
  · intro r c hr hc x hx
    simp only [Span, opEl, isRow, id, Bool.or_self, Bool.or_true, Bool.true_or, beq_self_eq_true, if_true, Char.reduceBEq] at hx ⊢; omega
  · intro x; simp only [Span]; omega
  · intro x; simp only [Span]; omega
  · intro x; simp only [Span]; omega

/-- The transposed product of `[[0, 1], [2, 3]]` with `[[10, 11], [12, 13]]`, plus `[[20, 21], [22, 23]]`, is `[[44, 47], [68, 73]]`. -/
example : (List.range 4).map (fun k : Nat => f32.rdgemmM gT true 2 (fun _ _ _ _ _ => gσ) (fun _ _ _ _ _ => gσ) ⟨2, 4, 2, 6⟩ 'r' 't' 'n' 2 2 2 f32.one 0 2 10 2 f32.one 20 2 100 200 300 400
      (fun a => f32.ofInt a) (20 + k)) = [f32.ofInt 44, f32.ofInt 47, f32.ofInt 68, f32.ofInt 73] := by decide +kernel

/-- The product of the matrix with the column `(10, 11)`; `alpha = 2`, `beta = 0`. -/
example : (List.range 2).map (fun k : Nat => f32.rdgemvM gT true 2 (fun _ _ _ _ _ => gσ) (fun _ _ _ _ _ => gσ) ⟨1, 2, 2, 4, 1⟩ 'r' 'n' 2 2 (f32.ofInt 2) 0 2 10 1 zero 20 1 100 200 300
      (fun a => f32.ofInt a) (20 + k)) = [f32.ofInt 22, f32.ofInt 106] := by decide +kernel

end Repro
