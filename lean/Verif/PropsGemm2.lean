import Verif.PropsGemm
import Verif.PropsScale
/-!
# C24, C25, C26: matrix products, for real data
-/

namespace Repro
namespace Fmt
variable {F : Fmt}

theorem mul_one' [F.OK] {x : Flt} (hx : F.Finite x) : F.mul x (F.pow2 0) = x := by
  have ho := one_ok (F := F)
  unfold one at ho
  have ⟨x1, x2⟩ := finite_iff.1 hx
  have ⟨y1, y2⟩ := finite_iff.1 ho.1
  obtain ⟨m, e, h1, h2, -⟩ := F.val_decomp x.mag
  have hr := roundMag_exact (F := F) h2 (h1 ▸ val_lt hx)
  apply eq_of_val (F := F)
  · unfold mul; rw [x1, x2, y1, y2]; simp [ho.2.2]
  · unfold mul; rw [x1, x2, y1, y2]
    simp only [Bool.or_self, Bool.false_eq_true, if_false]
    rw [ho.2.1, ← Nat.zero_add F.eta, roundMag_shift, h1, hr.2]

/-- Consecutive dot product calls on blocks of the pairs give the sequential sum of all the products. -/
theorem blocks_real [F.OK] {T : Tune} (hT : T.OK F) {fold : Nat} (hfold : 2 ≤ fold) : ∀ (bs : List (List (Flt × Flt))) {h : Hist},
    h.Legal F → h.Settled → (∀ p ∈ bs.flatten, F.Finite (F.mul p.1 p.2)) → bs.flatten.length + h.nums.length ≤ F.capacity →
    bs.foldl (fun z b => F.dotR T fold b z) (h.eval F fold) = F.sumSeq fold (bs.flatten.map (fun p => F.mul p.1 p.2)) (h.eval F fold)
  | [], _, _, _, _, _ => rfl
  | b :: bs, h, hl, hs, hx, hN => by
    rw [List.flatten_cons] at hx hN ⊢
    rw [List.length_append] at hN
    have hxb : ∀ x ∈ b.map (fun p => F.mul p.1 p.2), F.Finite x := by
      intro x h'
      obtain ⟨p, hp, rfl⟩ := List.mem_map.1 h'
      exact hx p (List.mem_append_left _ hp)
    rw [List.foldl_cons, List.map_append]
    have e1 : F.dotR T fold b (h.eval F fold) = (Hist.ofList (b.map (fun p => F.mul p.1 p.2)) h).eval F fold := by
      unfold dotR
      rw [vecSum_eq hT hfold hl (fun _ => hs) hxb (by rw [List.length_map]; omega), ofList_eval]
    rw [e1, blocks_real hT hfold bs (ofList_legal hxb hl) (ofList_settled _ (fun _ => hs))
      (fun p hp => hx p (List.mem_append_right _ hp)) (by rw [ofList_nums, List.length_append, List.length_reverse, List.length_map]; omega), ofList_eval]
    unfold sumSeq
    rw [List.foldl_append]

theorem eq_one_of_feq [F.OK] {x : Flt} (h : F.feq x (F.pow2 0) = true) : x = F.pow2 0 := by
  have ho := one_ok (F := F)
  unfold one at ho
  have h0 : (F.pow2 0).mag ≠ 0 := by
    intro h'
    have := val_eq_zero (F := F) (m := (F.pow2 0).mag).2 h'
    have := Nat.two_pow_pos F.eta
    omega
  unfold feq key at h
  simp only [Bool.and_eq_true, decide_eq_true_eq, ho.2.2, Bool.false_eq_true, if_false] at h
  have h2 := h.2
  rcases x with ⟨_ | _, m⟩ <;> rcases hy : F.pow2 0 with ⟨s, m'⟩ <;> rw [hy] at h2 ho h0 <;> simp at h2 ho h0 ⊢
  · exact ⟨ho.2.2, h2⟩
  · omega

/-- Multiplication by `alpha` with the shortcut for `alpha == 1` is multiplication by `alpha`. -/
theorem scl_eq [F.OK] {alpha x : Flt} (hx : F.Finite x) :
    (if F.feq alpha (F.pow2 0) then id else fun x => F.mul x alpha) x = F.mul x alpha := by
  split
  · next h => rw [eq_one_of_feq h, mul_one' hx]; rfl
  · rfl

/-- Where entry `(r, c)` of a result matrix with leading dimension `ld` is stored. -/
def entryAt (row : Bool) (ld : Int) (r c : Nat) : Int := if row then r * ld + c else c * ld + r

theorem entryAt_eq (row : Bool) (ld : Int) (r c : Nat) : opEl row true id ld r c = entryAt row ld r c := by
  cases row <;> rfl

/-- The products summed into entry `r` of a matrix-vector product with `cols` columns. -/
def gemvTerms (F : Fmt) (row no : Bool) (cols : Nat) (alpha : Flt) (A : Int → Flt) (lda : Int) (X : Int → Flt) (incX : Int) (r : Nat) : List Flt :=
  (List.range cols).map (fun c : Nat => F.mul (opEl row no A lda r c) (F.mul (X (c * incX)) alpha))

/-- The products summed into entry `(r, c)` of a matrix-matrix product with inner dimension `K`. -/
def gemmTerms (F : Fmt) (row noA noB : Bool) (K : Nat) (alpha : Flt) (A : Int → Flt) (lda : Int) (B : Int → Flt) (ldb : Int) (r c : Nat) : List Flt :=
  (List.range K).map (fun t : Nat => F.mul (F.mul (opEl row noA A lda r t) alpha) (opEl row noB B ldb t c))

/-! ### C24 -/

/-- **C24.** Entry `r` of the binned matrix-vector product is, bit for bit, the sequential reproducible sum of the
previous entry and the products `op(A)(r, c) * (x_c * alpha)`, whatever the layout, the transposition, the block sizes, the tuning of the
dot product and the contents of the work buffers. Nothing else is written. -/
theorem C24_gemv [F.OK] {T : Tune} (hT : T.OK F) {fold : Nat} (hfold : 2 ≤ fold) {b : GemvB} (hb : b.OK) (gx : Int → Flt) (g : Nat → Nat → Int → Flt)
    (Order TransA : Char) {M N : Nat} (hM : M ≠ 0) (hN : N ≠ 0) {alpha : Flt} (ha : isZero alpha = false) (A : Int → Flt) (lda : Int)
    (X : Int → Flt) (incX : Int) (Y : Int → Binned) {incY : Int} (hY : incY ≠ 0) {rows cols : Nat}
    (hr : rows = if isNo TransA then M else N) (hc : cols = if isNo TransA then N else M)
    (hX : ∀ c : Nat, c < cols → F.Finite (X (c * incX))) :
    (∀ (r : Nat) (h : Hist), r < rows → Y (r * incY) = h.eval F fold → h.Legal F → h.Settled →
      (∀ x ∈ gemvTerms F (isRow Order) (isNo TransA) cols alpha A lda X incX r, F.Finite x) → cols + h.nums.length ≤ F.capacity →
      F.dgemv T fold b gx g Order TransA M N alpha A lda X incX Y incY (r * incY) =
        F.sumSeq fold (gemvTerms F (isRow Order) (isNo TransA) cols alpha A lda X incX r) (Y (r * incY))) ∧
    (∀ l : Int, (∀ r : Nat, r < rows → (r : Int) * incY ≠ l) →
      F.dgemv T fold b gx g Order TransA M N alpha A lda X incX Y incY l = Y l) := by
  subst hr hc
  have h := gemv_eq (F.dotR T fold) (F.feq alpha (F.pow2 0)) (fun x => F.mul x alpha) hb gx g Order TransA hM hN A lda X incX Y hY
  unfold dgemv
  rw [ha]
  refine ⟨?_, h.2⟩
  intro r hh hr hYr hl hs hx hcap
  obtain ⟨bs, h1, h2⟩ := h.1 r hr
  rw [h2, hYr]
  have e : bs.flatten.map (fun p => F.mul p.1 p.2) = gemvTerms F (isRow Order) (isNo TransA) (if isNo TransA then N else M) alpha A lda X incX r := by
    rw [h1, List.map_map]
    refine List.map_congr_left fun c hc => ?_
    simp only [Function.comp]
    rw [scl_eq (hX c (List.mem_range.1 hc))]
  rw [← e]
  refine blocks_real hT hfold bs hl hs (fun p hp => hx _ ?_) ?_
  · rw [← e]; exact List.mem_map_of_mem hp
  · rw [h1, List.length_map, List.length_range]; exact hcap

/-- **C24** (the layout does not matter). Two calls whose arguments describe the same matrix op(A) and the same vector give the same
entries, for different storage orders, transposition flags, block sizes, tunings, strides and buffer contents. -/
theorem C24_layout [F.OK] {T T' : Tune} (hT : T.OK F) (hT' : T'.OK F) {fold : Nat} (hfold : 2 ≤ fold) {b b' : GemvB} (hb : b.OK) (hb' : b'.OK)
    (gx gx' : Int → Flt) (g g' : Nat → Nat → Int → Flt) (Order TransA Order' TransA' : Char) {M N M' N' : Nat} (hM : M ≠ 0) (hN : N ≠ 0)
    {alpha : Flt} (ha : isZero alpha = false) (A A' : Int → Flt) (lda lda' : Int) (X X' : Int → Flt) (incX incX' : Int)
    (Y Y' : Int → Binned) {incY incY' : Int} (hY : incY ≠ 0) (hY' : incY' ≠ 0) {rows cols : Nat}
    (hr : rows = if isNo TransA then M else N) (hc : cols = if isNo TransA then N else M)
    (hr' : rows = if isNo TransA' then M' else N') (hc' : cols = if isNo TransA' then N' else M')
    (hA : ∀ r c : Nat, r < rows → c < cols → opEl (isRow Order) (isNo TransA) A lda r c = opEl (isRow Order') (isNo TransA') A' lda' r c)
    (hXX : ∀ c : Nat, c < cols → X (c * incX) = X' (c * incX')) (hX : ∀ c : Nat, c < cols → F.Finite (X (c * incX)))
    {r : Nat} {h : Hist} (hrr : r < rows) (hYr : Y (r * incY) = h.eval F fold) (hYr' : Y' (r * incY') = h.eval F fold)
    (hl : h.Legal F) (hs : h.Settled) (hx : ∀ x ∈ gemvTerms F (isRow Order) (isNo TransA) cols alpha A lda X incX r, F.Finite x)
    (hcap : cols + h.nums.length ≤ F.capacity) :
    F.dgemv T fold b gx g Order TransA M N alpha A lda X incX Y incY (r * incY) =
      F.dgemv T' fold b' gx' g' Order' TransA' M' N' alpha A' lda' X' incX' Y' incY' (r * incY') := by
  have h0 : rows ≠ 0 ∧ cols ≠ 0 := by
    rw [hr, hc]; split
    · exact ⟨hM, hN⟩
    · exact ⟨hN, hM⟩
  have hMN : M' ≠ 0 ∧ N' ≠ 0 := by
    rw [hr', hc'] at h0
    by_cases ht : isNo TransA' = true
    · simpa [ht] using h0
    · simp only [ht] at h0; exact ⟨h0.2, h0.1⟩
  have e : gemvTerms F (isRow Order) (isNo TransA) cols alpha A lda X incX r = gemvTerms F (isRow Order') (isNo TransA') cols alpha A' lda' X' incX' r := by
    refine List.map_congr_left fun c hc => ?_
    have := List.mem_range.1 hc
    rw [hA r c hrr this, hXX c this]
  rw [(C24_gemv hT hfold hb gx g Order TransA hM hN ha A lda X incX Y hY hr hc hX).1 r h hrr hYr hl hs hx hcap,
    (C24_gemv hT' hfold hb' gx' g' Order' TransA' hMN.1 hMN.2 ha A' lda' X' incX' Y' hY' hr' hc'
      (fun c hc => hXX c hc ▸ hX c hc)).1 r h hrr hYr' hl hs (e ▸ hx) hcap, e, hYr, hYr']

/-- **C24** (nothing to do). With an empty dimension or `alpha = 0`, nothing is written, whatever the other arguments are. -/
theorem C24_nothing (T : Tune) (fold : Nat) (b : GemvB) (gx : Int → Flt) (g : Nat → Nat → Int → Flt) (Order TransA : Char) (M N : Nat)
    (alpha : Flt) (A : Int → Flt) (lda : Int) (X : Int → Flt) (incX : Int) (Y : Int → Binned) (incY : Int)
    (h : M = 0 ∨ N = 0 ∨ isZero alpha = true) : F.dgemv T fold b gx g Order TransA M N alpha A lda X incX Y incY = Y := by
  unfold dgemv gemv
  rw [if_pos h]

/-! ### C25 -/

/-- **C25.** Entry `(r, c)` of the binned matrix-matrix product is, bit for bit, the sequential reproducible sum of the previous entry and
the products `(op(A)(r, t) * alpha) * op(B)(t, c)`, whatever the layout, the transpositions, the block sizes, the tuning of the dot product and
the contents of the work buffers. Nothing else is written. -/
theorem C25_gemm [F.OK] {T : Tune} (hT : T.OK F) {fold : Nat} (hfold : 2 ≤ fold) {b : GemmB} (hb : b.OK) (g : Int → Flt) (ga gb : Nat → Nat → Nat → Int → Flt)
    (Order TransA TransB : Char) {M N K : Nat} (hK : K ≠ 0) {alpha : Flt} (ha : isZero alpha = false) (A : Int → Flt) (lda : Int)
    (B : Int → Flt) (ldb : Int) (C : Int → Binned) {ldc : Nat} (hC : (if isRow Order then N else M) ≤ ldc) :
    (∀ (r c : Nat) (h : Hist), r < M → c < N → C (entryAt (isRow Order) ldc r c) = h.eval F fold → h.Legal F → h.Settled →
      (∀ t : Nat, t < K → F.Finite (opEl (isRow Order) (isNo TransA) A lda r t)) →
      (∀ x ∈ gemmTerms F (isRow Order) (isNo TransA) (isNo TransB) K alpha A lda B ldb r c, F.Finite x) → K + h.nums.length ≤ F.capacity →
      F.dgemm T fold b g ga gb Order TransA TransB M N K alpha A lda B ldb C ldc (entryAt (isRow Order) ldc r c) =
        F.sumSeq fold (gemmTerms F (isRow Order) (isNo TransA) (isNo TransB) K alpha A lda B ldb r c) (C (entryAt (isRow Order) ldc r c))) ∧
    (∀ l : Int, (∀ r c : Nat, r < M → c < N → entryAt (isRow Order) ldc r c ≠ l) →
      F.dgemm T fold b g ga gb Order TransA TransB M N K alpha A lda B ldb C ldc l = C l) := by
  have h := gemm_eq (F.dotR T fold) (F.feq alpha (F.pow2 0)) (fun x => F.mul x alpha) hb g ga gb Order TransA TransB (M := M) (N := N) hK A lda B ldb C hC
  simp only [entryAt_eq] at h
  unfold dgemm
  rw [ha]
  refine ⟨?_, h.2⟩
  intro r c hh hr hc hCr hl hs hA hx hcap
  obtain ⟨bs, h1, h2⟩ := h.1 r c hr hc
  rw [h2, hCr]
  have e : bs.flatten.map (fun p => F.mul p.1 p.2) = gemmTerms F (isRow Order) (isNo TransA) (isNo TransB) K alpha A lda B ldb r c := by
    rw [h1, List.map_map]
    refine List.map_congr_left fun t ht => ?_
    simp only [Function.comp]
    rw [scl_eq (hA t (List.mem_range.1 ht))]
  rw [← e]
  refine blocks_real hT hfold bs hl hs (fun p hp => hx _ ?_) ?_
  · rw [← e]; exact List.mem_map_of_mem hp
  · rw [h1, List.length_map, List.length_range]; exact hcap

/-- **C25** (the layout does not matter). Two calls whose arguments describe the same matrices op(A), op(B) give the same entries. -/
theorem C25_layout [F.OK] {T T' : Tune} (hT : T.OK F) (hT' : T'.OK F) {fold : Nat} (hfold : 2 ≤ fold) {b b' : GemmB} (hb : b.OK) (hb' : b'.OK)
    (g g' : Int → Flt) (ga gb ga' gb' : Nat → Nat → Nat → Int → Flt) (Order TransA TransB Order' TransA' TransB' : Char) {M N K : Nat} (hK : K ≠ 0)
    {alpha : Flt} (ha : isZero alpha = false) (A A' : Int → Flt) (lda lda' : Int) (B B' : Int → Flt) (ldb ldb' : Int) (C C' : Int → Binned)
    {ldc ldc' : Nat} (hC : (if isRow Order then N else M) ≤ ldc) (hC' : (if isRow Order' then N else M) ≤ ldc')
    (hA : ∀ r t : Nat, r < M → t < K → opEl (isRow Order) (isNo TransA) A lda r t = opEl (isRow Order') (isNo TransA') A' lda' r t)
    (hB : ∀ t c : Nat, t < K → c < N → opEl (isRow Order) (isNo TransB) B ldb t c = opEl (isRow Order') (isNo TransB') B' ldb' t c)
    {r c : Nat} {h : Hist} (hr : r < M) (hc : c < N) (hCr : C (entryAt (isRow Order) ldc r c) = h.eval F fold)
    (hCr' : C' (entryAt (isRow Order') ldc' r c) = h.eval F fold) (hl : h.Legal F) (hs : h.Settled)
    (hAf : ∀ t : Nat, t < K → F.Finite (opEl (isRow Order) (isNo TransA) A lda r t))
    (hx : ∀ x ∈ gemmTerms F (isRow Order) (isNo TransA) (isNo TransB) K alpha A lda B ldb r c, F.Finite x) (hcap : K + h.nums.length ≤ F.capacity) :
    F.dgemm T fold b g ga gb Order TransA TransB M N K alpha A lda B ldb C ldc (entryAt (isRow Order) ldc r c) =
      F.dgemm T' fold b' g' ga' gb' Order' TransA' TransB' M N K alpha A' lda' B' ldb' C' ldc' (entryAt (isRow Order') ldc' r c) := by
  have e : gemmTerms F (isRow Order) (isNo TransA) (isNo TransB) K alpha A lda B ldb r c =
      gemmTerms F (isRow Order') (isNo TransA') (isNo TransB') K alpha A' lda' B' ldb' r c := by
    refine List.map_congr_left fun t ht => ?_
    have := List.mem_range.1 ht
    rw [hA r t hr this, hB t c this hc]
  rw [(C25_gemm hT hfold hb g ga gb Order TransA TransB hK ha A lda B ldb C hC).1 r c h hr hc hCr hl hs hAf hx hcap,
    (C25_gemm hT' hfold hb' g' ga' gb' Order' TransA' TransB' hK ha A' lda' B' ldb' C' hC').1 r c h hr hc hCr' hl hs
      (fun t ht => hA r t hr ht ▸ hAf t ht) (e ▸ hx) hcap, e, hCr, hCr']

/-- **C25** (nothing to do). With an empty dimension or `alpha = 0`, nothing is written. -/
theorem C25_nothing (T : Tune) (fold : Nat) (b : GemmB) (g : Int → Flt) (ga gb : Nat → Nat → Nat → Int → Flt) (Order TransA TransB : Char) (M N K : Nat)
    (alpha : Flt) (A : Int → Flt) (lda : Int) (B : Int → Flt) (ldb : Int) (C : Int → Binned) (ldc : Int)
    (h : M = 0 ∨ N = 0 ∨ K = 0 ∨ isZero alpha = true) : F.dgemm T fold b g ga gb Order TransA TransB M N K alpha A lda B ldb C ldc = C := by
  unfold dgemm gemm
  rw [if_pos h]

/-! ### C26 -/

/-- What the previous contents `y` contribute: nothing if `beta` is zero, otherwise `y * beta`. -/
def betaTerm (F : Fmt) (beta y : Flt) : List Flt := if isZero beta then [] else [F.mul y beta]

/-- The history of the initial binned value of an entry. -/
theorem beta0_hist [F.OK] {fold : Nat} {beta y : Flt} (hy : isZero beta = false → F.Finite y ∧ F.Finite (F.mul y beta)) :
    ∃ h : Hist, F.beta0 fold beta y = h.eval F fold ∧ h.Legal F ∧ h.Settled ∧ h.nums.length ≤ 1 ∧
      h.eval F fold = F.sumSeq fold (betaTerm F beta y) (dmsetzero fold) := by
  unfold beta0 betaTerm
  cases hb : isZero beta
  · have hy := hy hb
    refine ⟨.add (F.mul y beta) .zero, ?_, ⟨hy.2, trivial⟩, trivial, Nat.le_refl _, rfl⟩
    simp only [Bool.false_eq_true, if_false]
    split
    · next h1 => rw [eq_one_of_feq h1, mul_one' hy.1]; rfl
    · rfl
  · exact ⟨.zero, rfl, trivial, trivial, Nat.zero_le _, rfl⟩

theorem betaTerm_finite {beta y : Flt} (hy : isZero beta = false → F.Finite y ∧ F.Finite (F.mul y beta)) :
    (∀ x ∈ betaTerm F beta y, F.Finite x) ∧ (betaTerm F beta y).length ≤ 1 := by
  unfold betaTerm
  cases hb : isZero beta
  · simp only [Bool.false_eq_true, if_false, List.mem_singleton, forall_eq, List.length_singleton]
    exact ⟨(hy hb).2, Nat.le_refl _⟩
  · simp

theorem setRange {β : Type} (n : Nat) (inc : Int) (hinc : inc ≠ 0) (v : Nat → β) (Y : Int → β) :
    (∀ r : Nat, r < n → forS 0 n 1 (fun i Y => store Y (i * inc) (v i)) Y (r * inc) = v r) ∧
    (∀ l : Int, (∀ r : Nat, r < n → (r : Int) * inc ≠ l) → forS 0 n 1 (fun i Y => store Y (i * inc) (v i)) Y l = Y l) := by
  unfold forS
  constructor
  · intro r hr
    refine setAll (fun i : Nat => (i : Int) * inc) v _ _ ?_ (Or.inr ⟨r, mem_steps1.2 ⟨by omega, hr⟩, rfl⟩)
    intro k _ hk
    have := Int.eq_of_mul_eq_mul_right hinc hk
    rw [show k = r by omega]
  · intro l hl
    exact setAll_ne (fun i : Nat => (i : Int) * inc) v _ _ (fun k hk => hl k (mem_steps1.1 hk).2)

theorem setMat {β : Type} (R C : Nat) (ld : Int) (hld : (C : Int) ≤ ld) (v : Nat → Nat → β) (Y : Int → β) :
    (∀ r c : Nat, r < R → c < C → forS 0 R 1 (fun i => forS 0 C 1 (fun j Y => store Y (i * ld + j) (v i j))) Y (r * ld + c) = v r c) ∧
    (∀ l : Int, (∀ r c : Nat, r < R → c < C → (r : Int) * ld + c ≠ l) →
      forS 0 R 1 (fun i => forS 0 C 1 (fun j Y => store Y (i * ld + j) (v i j))) Y l = Y l) := by
  rw [forS_flat2 (fun i j Y => store Y (i * ld + j) (v i j))]
  constructor
  · intro r c hr hc
    refine setAll (fun p : Nat × Nat => (p.1 : Int) * ld + p.2) (fun p : Nat × Nat => v p.1 p.2) _ _ ?_ (Or.inr ⟨(r, c), ?_, rfl⟩)
    · rintro ⟨a, b⟩ hab hl
      simp only [List.mem_flatMap, List.mem_map, Prod.mk.injEq] at hab
      obtain ⟨i, hi, j, hj, rfl, rfl⟩ := hab
      rw [mem_steps1] at hi hj
      obtain ⟨w, hw⟩ := Int.eq_ofNat_of_zero_le (show 0 ≤ ld by omega)
      rw [hw] at hl
      have := idx_inj (w := w) (u := i) (v := j) (u' := r) (v' := c) (by omega) (by omega) hl
      rw [this.1, this.2]
    · simp only [List.mem_flatMap, List.mem_map, Prod.mk.injEq]
      exact ⟨r, mem_steps1.2 ⟨by omega, hr⟩, c, mem_steps1.2 ⟨by omega, hc⟩, rfl, rfl⟩
  · intro l hl
    refine setAll_ne (fun p : Nat × Nat => (p.1 : Int) * ld + p.2) (fun p : Nat × Nat => v p.1 p.2) _ _ ?_
    rintro ⟨a, b⟩ hab
    simp only [List.mem_flatMap, List.mem_map, Prod.mk.injEq] at hab
    obtain ⟨i, hi, j, hj, rfl, rfl⟩ := hab
    rw [mem_steps1] at hi hj
    exact hl i j hi.2 hj.2

/-- **C26** (matrix-vector product). With non-empty dimensions, entry `r` of the result is the conversion of the
reproducible sum of `y_r * beta` (left out if `beta` is zero, so that `y_r` may be anything) and of the products (left out if
`alpha` is zero, so that `A` and `X` may be anything); everything else is unchanged. -/
theorem C26_gemv [F.OK] {T : Tune} (hT : T.OK F) {fold : Nat} (hfold : 2 ≤ fold) {b : GemvB} (hb : b.OK) (gx : Int → Flt) (g : Nat → Nat → Int → Flt)
    (yi : Int → Binned) (Order TransA : Char) {M N : Nat} (hM : M ≠ 0) (hN : N ≠ 0) (alpha : Flt) (A : Int → Flt) (lda : Int)
    (X : Int → Flt) (incX : Int) (beta : Flt) (Y : Int → Flt) {incY : Int} (hY : incY ≠ 0) {rows cols : Nat}
    (hr : rows = if isNo TransA then M else N) (hc : cols = if isNo TransA then N else M)
    (hX : isZero alpha = false → ∀ c : Nat, c < cols → F.Finite (X (c * incX))) (hcap : cols + 1 ≤ F.capacity) :
    (∀ r : Nat, r < rows → (isZero beta = false → F.Finite (Y (r * incY)) ∧ F.Finite (F.mul (Y (r * incY)) beta)) →
      (isZero alpha = false → ∀ x ∈ gemvTerms F (isRow Order) (isNo TransA) cols alpha A lda X incX r, F.Finite x) →
      F.rdgemv T fold b gx g yi Order TransA M N alpha A lda X incX beta Y incY (r * incY) =
        convert F fold (F.specSum fold (betaTerm F beta (Y (r * incY)) ++
          (if isZero alpha then [] else gemvTerms F (isRow Order) (isNo TransA) cols alpha A lda X incX r)))) ∧
    (∀ l : Int, (∀ r : Nat, r < rows → (r : Int) * incY ≠ l) →
      F.rdgemv T fold b gx g yi Order TransA M N alpha A lda X incX beta Y incY l = Y l) := by
  unfold rdgemv
  rw [if_neg (show ¬ (N = 0 ∨ M = 0) by simp [hM, hN])]
  simp only [← hr]
  refine ⟨?_, fun l hl => (setRange rows incY hY _ Y).2 l hl⟩
  intro r hrr hy hx
  rw [(setRange rows incY hY _ Y).1 r hrr]
  congr 1
  obtain ⟨h, h1, h2, h3, h4, h5⟩ := beta0_hist (fold := fold) hy
  have hYI := (setRange rows 1 (by decide) (fun i : Nat => F.beta0 fold beta (Y (i * incY))) yi).1 r hrr
  simp only [Int.mul_one] at hYI
  have hbf := betaTerm_finite hy
  cases ha : isZero alpha
  · have hg := (C24_gemv hT hfold hb gx g Order TransA hM hN ha A lda X incX
      (forS 0 rows 1 (fun i YI => store YI i (F.beta0 fold beta (Y (i * incY)))) yi) (incY := 1) (by decide) hr hc (hX ha)).1 r h hrr
      (by rw [Int.mul_one, hYI, h1]) h2 h3 (hx ha) (by omega)
    rw [Int.mul_one] at hg
    rw [hg, hYI, h1, h5]
    simp only [Bool.false_eq_true, if_false]
    rw [← C01_sum_is_spec hfold]
    · unfold sumSeq; rw [List.foldl_append]
    · intro x hx'
      rcases List.mem_append.1 hx' with h' | h'
      · exact hbf.1 x h'
      · exact hx ha x h'
    · rw [List.length_append]; unfold gemvTerms; rw [List.length_map, List.length_range]; omega
  · rw [C24_nothing _ _ _ _ _ _ _ _ _ _ _ _ _ _ _ _ (Or.inr (Or.inr ha)), hYI, h1, h5, if_pos rfl, List.append_nil]
    exact C01_sum_is_spec hfold hbf.1 (by omega)

/-- **C26** (matrix-vector product, empty dimension). Nothing is written, whatever `beta` is. -/
theorem C26_gemv_empty (T : Tune) (fold : Nat) (b : GemvB) (gx : Int → Flt) (g : Nat → Nat → Int → Flt) (yi : Int → Binned) (Order TransA : Char) (M N : Nat)
    (alpha : Flt) (A : Int → Flt) (lda : Int) (X : Int → Flt) (incX : Int) (beta : Flt) (Y : Int → Flt) (incY : Int)
    (h : M = 0 ∨ N = 0) : F.rdgemv T fold b gx g yi Order TransA M N alpha A lda X incX beta Y incY = Y := by
  unfold rdgemv
  rw [if_pos h.symm]

/-- **C26** (matrix-matrix product). Entry `(r, c)` of the result is the conversion of the reproducible sum of `c_rc * beta` (left
out if `beta` is zero) and of the products (left out if `alpha` is zero; none if the inner dimension is empty); everything else is unchanged. -/
theorem C26_gemm [F.OK] {T : Tune} (hT : T.OK F) {fold : Nat} (hfold : 2 ≤ fold) {b : GemmB} (hb : b.OK) (g : Int → Flt) (ga gb : Nat → Nat → Nat → Int → Flt)
    (ci : Int → Binned) (Order TransA TransB : Char) (M N K : Nat) (alpha : Flt) (A : Int → Flt) (lda : Int)
    (B : Int → Flt) (ldb : Int) (beta : Flt) (C : Int → Flt) {ldc : Nat} (hC : (if isRow Order then N else M) ≤ ldc) (hcap : K + 1 ≤ F.capacity) :
    (∀ r c : Nat, r < M → c < N →
      (isZero beta = false → F.Finite (C (entryAt (isRow Order) ldc r c)) ∧ F.Finite (F.mul (C (entryAt (isRow Order) ldc r c)) beta)) →
      (isZero alpha = false → (∀ t : Nat, t < K → F.Finite (opEl (isRow Order) (isNo TransA) A lda r t)) ∧
        ∀ x ∈ gemmTerms F (isRow Order) (isNo TransA) (isNo TransB) K alpha A lda B ldb r c, F.Finite x) →
      F.rdgemm T fold b g ga gb ci Order TransA TransB M N K alpha A lda B ldb beta C ldc (entryAt (isRow Order) ldc r c) =
        convert F fold (F.specSum fold (betaTerm F beta (C (entryAt (isRow Order) ldc r c)) ++
          (if isZero alpha then [] else gemmTerms F (isRow Order) (isNo TransA) (isNo TransB) K alpha A lda B ldb r c)))) ∧
    (∀ l : Int, (∀ r c : Nat, r < M → c < N → entryAt (isRow Order) ldc r c ≠ l) →
      F.rdgemm T fold b g ga gb ci Order TransA TransB M N K alpha A lda B ldb beta C ldc l = C l) := by
  unfold rdgemm
  by_cases hMN : M = 0 ∨ N = 0
  · rw [if_pos hMN]
    exact ⟨fun r c hr hc => by omega, fun _ _ => rfl⟩
  rw [if_neg hMN]
  -- the middle of the computation
  have mid : ∀ (CI : Int → Binned) (ldi : Nat) (r c : Nat), (if isRow Order then N else M) ≤ ldi → r < M → c < N →
      CI (entryAt (isRow Order) ldi r c) = F.beta0 fold beta (C (entryAt (isRow Order) ldc r c)) →
      (isZero beta = false → F.Finite (C (entryAt (isRow Order) ldc r c)) ∧ F.Finite (F.mul (C (entryAt (isRow Order) ldc r c)) beta)) →
      (isZero alpha = false → (∀ t : Nat, t < K → F.Finite (opEl (isRow Order) (isNo TransA) A lda r t)) ∧
        ∀ x ∈ gemmTerms F (isRow Order) (isNo TransA) (isNo TransB) K alpha A lda B ldb r c, F.Finite x) →
      F.dgemm T fold b g ga gb Order TransA TransB M N K alpha A lda B ldb CI ldi (entryAt (isRow Order) ldi r c) =
        F.specSum fold (betaTerm F beta (C (entryAt (isRow Order) ldc r c)) ++
          (if isZero alpha then [] else gemmTerms F (isRow Order) (isNo TransA) (isNo TransB) K alpha A lda B ldb r c)) := by
    intro CI ldi r c hld hr hc hCI hy hx
    obtain ⟨h, h1, h2, h3, h4, h5⟩ := beta0_hist (fold := fold) hy
    have hbf := betaTerm_finite hy
    by_cases hn : K = 0 ∨ isZero alpha = true
    · rw [C25_nothing _ _ _ _ _ _ _ _ _ _ _ _ _ _ _ _ _ _ _ (Or.inr (Or.inr hn)), hCI, h1, h5]
      have : (if isZero alpha then [] else gemmTerms F (isRow Order) (isNo TransA) (isNo TransB) K alpha A lda B ldb r c) = [] := by
        rcases hn with rfl | hn
        · unfold gemmTerms; simp
        · rw [hn]; rfl
      rw [this, List.append_nil]
      exact C01_sum_is_spec hfold hbf.1 (by omega)
    · have ha : isZero alpha = false := by
        cases h : isZero alpha
        · rfl
        · exact absurd (Or.inr h) hn
      rw [(C25_gemm hT hfold hb g ga gb Order TransA TransB (M := M) (N := N) (fun h => hn (Or.inl h)) ha A lda B ldb CI hld).1 r c h hr hc
        (hCI.trans h1) h2 h3 (hx ha).1 (hx ha).2 (by omega), hCI, h1, h5, ha]
      simp only [Bool.false_eq_true, if_false]
      rw [← C01_sum_is_spec hfold]
      · unfold sumSeq; rw [List.foldl_append]
      · intro x hx'
        rcases List.mem_append.1 hx' with h' | h'
        · exact hbf.1 x h'
        · exact (hx ha).2 x h'
      · rw [List.length_append]; unfold gemmTerms; rw [List.length_map, List.length_range]; omega
  cases hO : isRow Order
  · simp only [hO, Bool.false_eq_true, if_false] at mid hC ⊢
    refine ⟨?_, fun l hl => (setMat N M ldc (by omega) _ C).2 l (fun c r hc hr => hl r c hr hc)⟩
    intro r c hr hc hy hx
    have e1 : ∀ ld : Int, entryAt false ld r c = (c : Int) * ld + r := fun _ => rfl
    rw [e1, (setMat N M ldc (by omega) _ C).1 c r hc hr]
    congr 1
    exact mid _ M r c (Nat.le_refl _) hr hc ((setMat N M M (Int.le_refl _) (fun j i : Nat => F.beta0 fold beta (C (j * (ldc : Int) + i))) ci).1 c r hc hr) hy hx
  · simp only [hO, if_true] at mid hC ⊢
    refine ⟨?_, fun l hl => (setMat M N ldc (by omega) _ C).2 l (fun r c hr hc => hl r c hr hc)⟩
    intro r c hr hc hy hx
    have e1 : ∀ ld : Int, entryAt true ld r c = (r : Int) * ld + c := fun _ => rfl
    rw [e1, (setMat M N ldc (by omega) _ C).1 r c hr hc]
    congr 1
    exact mid _ N r c (Nat.le_refl _) hr hc ((setMat M N N (Int.le_refl _) (fun i j : Nat => F.beta0 fold beta (C (i * (ldc : Int) + j))) ci).1 r c hr hc) hy hx

end Fmt
end Repro
