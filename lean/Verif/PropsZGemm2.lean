import Verif.PropsZGemm
/-!
# C45, C47: layouts, wrappers, violations
-/

namespace Repro
open Fmt
variable {F : Fmt}

/-- **C45** (partial, the layout does not matter). Two calls whose arguments describe the same matrix op(A) and the same vector give the same entries. -/
theorem C45_layout_partial [F.OK] {T T' : Tune} (hT : T.OK F) (hT' : T'.OK F) {fold : Nat} (hfold : 2 ≤ fold)
    {b b' : GemvB} (hb : b.OK) (hb' : b'.OK) (gx gx' : Int → Flt × Flt) (g g' : Nat → Nat → Int → Flt × Flt) (Order TransA Order' TransA' : Char) {M N M' N' : Nat}
    (hM : M ≠ 0) (hN : N ≠ 0) (hM' : M' ≠ 0) (hN' : N' ≠ 0) {alpha : Flt × Flt} (ha : zzero alpha = false) (A A' : Int → Flt × Flt) (lda lda' : Int)
    (X X' : Int → Flt × Flt) (incX incX' : Int) (Y Y' : Int → Binned × Binned) {incY incY' : Int} (hY : incY ≠ 0) (hY' : incY' ≠ 0) {rows cols : Nat}
    (hr : rows = if isNo TransA then M else N) (hc : cols = if isNo TransA then N else M)
    (hnb : 2 * min T.nb (min cols (gemvTile b Order TransA)) ≤ F.endurance) (hnb' : 2 * min T'.nb (min cols (gemvTile b' Order' TransA')) ≤ F.endurance)
    (hr' : rows = if isNo TransA' then M' else N') (hc' : cols = if isNo TransA' then N' else M')
    (hok : isRow Order = true ∨ trOf TransA ≠ .cj ∨ M = N) (hok' : isRow Order' = true ∨ trOf TransA' ≠ .cj ∨ M' = N')
    (hA : ∀ r c : Nat, r < rows → c < cols → zopEl (isRow Order) (trOf TransA) A lda r c = zopEl (isRow Order') (trOf TransA') A' lda' r c)
    (hX : ∀ c : Nat, c < cols → X (c * incX) = X' (c * incX'))
    {r : Nat} {h h' : Hist} (hrr : r < rows) (hYr : Y (r * incY) = (h.eval F fold, h'.eval F fold)) (hYr' : Y' (r * incY') = (h.eval F fold, h'.eval F fold))
    (hl : h.Legal F) (hl' : h'.Legal F) (hs : h.Settled) (hs' : h'.Settled)
    (hx : ∀ c : Nat, c < cols → DotFinite F (zopEl (isRow Order) (trOf TransA) A lda r c) (alphaMul F alpha (X (c * incX))))
    (hcap : 2 * cols + h.nums.length ≤ F.capacity) (hcap' : 2 * cols + h'.nums.length ≤ F.capacity) :
    F.zgemv T fold b gx g Order TransA M N alpha A lda X incX Y incY (r * incY) =
      F.zgemv T' fold b' gx' g' Order' TransA' M' N' alpha A' lda' X' incX' Y' incY' (r * incY') := by
  have eR : zgemvRe F (isRow Order) (trOf TransA) cols alpha A lda X incX r = zgemvRe F (isRow Order') (trOf TransA') cols alpha A' lda' X' incX' r := by
    apply List.flatMap_congr
    intro c hc
    have := List.mem_range.1 hc
    rw [hA r c hrr this, hX c this]
  have eI : zgemvIm F (isRow Order) (trOf TransA) cols alpha A lda X incX r = zgemvIm F (isRow Order') (trOf TransA') cols alpha A' lda' X' incX' r := by
    apply List.flatMap_congr
    intro c hc
    have := List.mem_range.1 hc
    rw [hA r c hrr this, hX c this]
  rw [(C45_gemv_partial hT hfold hb gx g Order TransA hM hN ha A lda X incX Y hY hr hc hnb hok).1 r h h' hrr hYr hl hl' hs hs' hx hcap hcap',
    (C45_gemv_partial hT' hfold hb' gx' g' Order' TransA' hM' hN' ha A' lda' X' incX' Y' hY' hr' hc' hnb' hok').1 r h h' hrr hYr' hl hl' hs hs'
      (fun c hc => by rw [← hA r c hrr hc, ← hX c hc]; exact hx c hc) hcap hcap', eR, eI, hYr, hYr']

/-- **C47** (partial, the layout does not matter). Two calls whose arguments describe the same matrices op(A), op(B) give the same entries. -/
theorem C47_layout_partial [F.OK] {T T' : Tune} (hT : T.OK F) (hT' : T'.OK F) {fold : Nat} (hfold : 2 ≤ fold)
    {b b' : GemmB} (hb : b.OK) (hb' : b'.OK) (g g' : Int → Flt × Flt) (ga gb ga' gb' : Nat → Nat → Nat → Int → Flt × Flt)
    (Order TransA TransB Order' TransA' TransB' : Char) {M N K : Nat} (hK : K ≠ 0) {alpha : Flt × Flt} (ha : zzero alpha = false)
    (A A' : Int → Flt × Flt) (lda lda' : Int) (B B' : Int → Flt × Flt) (ldb ldb' : Int) (C C' : Int → Binned × Binned) {ldc ldc' : Nat}
    (hnb : 2 * min T.nb (min K (gemmTile b Order TransA TransB)) ≤ F.endurance) (hnb' : 2 * min T'.nb (min K (gemmTile b' Order' TransA' TransB')) ≤ F.endurance)
    (hC : (if isRow Order then N else M) ≤ ldc) (hC' : (if isRow Order' then N else M) ≤ ldc')
    (hok : isRow Order = true ∨ trOf TransA = .no ∨ (F.feq alpha.1 F.one && isZero alpha.2) = true)
    (hok' : isRow Order' = true ∨ trOf TransA' = .no ∨ (F.feq alpha.1 F.one && isZero alpha.2) = true)
    (hA : ∀ r t : Nat, r < M → t < K → zopEl (isRow Order) (trOf TransA) A lda r t = zopEl (isRow Order') (trOf TransA') A' lda' r t)
    (hB : ∀ t c : Nat, t < K → c < N → zopEl (isRow Order) (trOf TransB) B ldb t c = zopEl (isRow Order') (trOf TransB') B' ldb' t c)
    {r c : Nat} {h h' : Hist} (hr : r < M) (hc : c < N) (hCr : C (entryAt (isRow Order) ldc r c) = (h.eval F fold, h'.eval F fold))
    (hCr' : C' (entryAt (isRow Order') ldc' r c) = (h.eval F fold, h'.eval F fold)) (hl : h.Legal F) (hl' : h'.Legal F) (hs : h.Settled) (hs' : h'.Settled)
    (hx : ∀ t : Nat, t < K → DotFinite F (alphaMul F alpha (zopEl (isRow Order) (trOf TransA) A lda r t)) (zopEl (isRow Order) (trOf TransB) B ldb t c))
    (hcap : 2 * K + h.nums.length ≤ F.capacity) (hcap' : 2 * K + h'.nums.length ≤ F.capacity) :
    F.zgemm T fold b g ga gb Order TransA TransB M N K alpha A lda B ldb C ldc (entryAt (isRow Order) ldc r c) =
      F.zgemm T' fold b' g' ga' gb' Order' TransA' TransB' M N K alpha A' lda' B' ldb' C' ldc' (entryAt (isRow Order') ldc' r c) := by
  have eR : zgemmRe F (isRow Order) (trOf TransA) (trOf TransB) K alpha A lda B ldb r c = zgemmRe F (isRow Order') (trOf TransA') (trOf TransB') K alpha A' lda' B' ldb' r c := by
    apply List.flatMap_congr
    intro t ht
    have := List.mem_range.1 ht
    rw [hA r t hr this, hB t c this hc]
  have eI : zgemmIm F (isRow Order) (trOf TransA) (trOf TransB) K alpha A lda B ldb r c = zgemmIm F (isRow Order') (trOf TransA') (trOf TransB') K alpha A' lda' B' ldb' r c := by
    apply List.flatMap_congr
    intro t ht
    have := List.mem_range.1 ht
    rw [hA r t hr this, hB t c this hc]
  rw [(C47_gemm_partial hT hfold hb g ga gb Order TransA TransB hK ha A lda B ldb C hnb hC hok).1 r c h h' hr hc hCr hl hl' hs hs' hx hcap hcap',
    (C47_gemm_partial hT' hfold hb' g' ga' gb' Order' TransA' TransB' hK ha A' lda' B' ldb' C' hnb' hC' hok').1 r c h h' hr hc hCr' hl hl' hs hs'
      (fun t ht => by rw [← hA r t hr ht, ← hB t c ht hc]; exact hx t ht) hcap hcap', eR, eI, hCr, hCr']

/-! ### The wrappers -/

/-- What the previous contents contribute to a part: nothing if `beta` is zero, otherwise the part of `beta * y`. -/
def zbetaTerm (F : Fmt) (part : Flt × Flt → Flt) (beta y : Flt × Flt) : List Flt :=
  if isZero beta.1 && isZero beta.2 then [] else [part (alphaMul F beta y)]

/-- The previous contents can be used: `beta` is zero or the parts of `beta * y` are finite. -/
def BetaFinite (F : Fmt) (beta y : Flt × Flt) : Prop :=
  (isZero beta.1 && isZero beta.2) = false → F.Finite (alphaMul F beta y).1 ∧ F.Finite (alphaMul F beta y).2

theorem zbeta0_hist [F.OK] {fold : Nat} {beta y : Flt × Flt} (hy : BetaFinite F beta y) :
    ∃ h h' : Hist, F.zbeta0 fold beta y = (h.eval F fold, h'.eval F fold) ∧ h.Legal F ∧ h'.Legal F ∧ h.Settled ∧ h'.Settled ∧ h.nums.length ≤ 1 ∧ h'.nums.length ≤ 1 ∧
      h.eval F fold = F.sumSeq fold (zbetaTerm F Prod.fst beta y) (dmsetzero fold) ∧ h'.eval F fold = F.sumSeq fold (zbetaTerm F Prod.snd beta y) (dmsetzero fold) := by
  unfold zbeta0 zbetaTerm zzero
  cases hb : isZero beta.1 && isZero beta.2
  · have hy := hy hb
    refine ⟨.add (alphaMul F beta y).1 .zero, .add (alphaMul F beta y).2 .zero, ?_, ⟨hy.1, trivial⟩, ⟨hy.2, trivial⟩, trivial, trivial, Nat.le_refl _, Nat.le_refl _, rfl, rfl⟩
    rw [alphaMul_eq]
    simp only [Bool.false_eq_true, if_false]
    split <;> rfl
  · exact ⟨.zero, .zero, rfl, trivial, trivial, trivial, trivial, Nat.zero_le _, Nat.zero_le _, rfl, rfl⟩

theorem zbetaTerm_finite {beta y : Flt × Flt} (hy : BetaFinite F beta y) :
    (∀ x ∈ zbetaTerm F Prod.fst beta y, F.Finite x) ∧ (∀ x ∈ zbetaTerm F Prod.snd beta y, F.Finite x) ∧
    (zbetaTerm F Prod.fst beta y).length ≤ 1 ∧ (zbetaTerm F Prod.snd beta y).length ≤ 1 := by
  unfold zbetaTerm
  cases hb : isZero beta.1 && isZero beta.2
  · have := hy hb
    simp only [Bool.false_eq_true, if_false, List.mem_singleton, forall_eq, List.length_singleton]
    exact ⟨this.1, this.2, Nat.le_refl _, Nat.le_refl _⟩
  · simp

theorem cmul_finite {n : Nat} {p q : Nat → Flt × Flt} (hx : ∀ c : Nat, c < n → DotFinite F (p c) (q c)) :
    (∀ x ∈ (List.range n).flatMap (fun c => cmulRe F (p c) (q c)), F.Finite x) ∧ (∀ x ∈ (List.range n).flatMap (fun c => cmulIm F (p c) (q c)), F.Finite x) := by
  constructor
  · intro x hxm
    obtain ⟨c, hc, hxc⟩ := List.mem_flatMap.1 hxm
    have := hx c (List.mem_range.1 hc)
    rcases List.mem_cons.1 hxc with rfl | hxi
    · exact this.1
    · rw [List.mem_singleton] at hxi; subst hxi; exact this.2.1
  · intro x hxm
    obtain ⟨c, hc, hxc⟩ := List.mem_flatMap.1 hxm
    have := hx c (List.mem_range.1 hc)
    rcases List.mem_cons.1 hxc with rfl | hxi
    · exact this.2.2.2
    · rw [List.mem_singleton] at hxi; subst hxi; exact this.2.2.1

/-- Sum of the previous contents and of products. -/
theorem spec_append [F.OK] {fold : Nat} (hfold : 2 ≤ fold) {us vs : List Flt} (hu : ∀ x ∈ us, F.Finite x) (hv : ∀ x ∈ vs, F.Finite x) (hN : us.length + vs.length ≤ F.capacity) :
    F.sumSeq fold vs (F.sumSeq fold us (dmsetzero fold)) = F.specSum fold (us ++ vs) := by
  rw [← C01_sum_is_spec hfold]
  · unfold sumSeq; rw [List.foldl_append]
  · intro x hx'
    rcases List.mem_append.1 hx' with h' | h'
    · exact hu x h'
    · exact hv x h'
  · rw [List.length_append]; exact hN

/-- **C45** (partial, native result). With non-empty dimensions, each part of entry `r` of the result is the conversion of the reproducible sum of the part of `beta * y_r` (left
out if `beta` is zero, so that `y_r` may be anything) and of the products (left out if `alpha` is zero); everything else is unchanged. Missing: as for `C45_gemv_partial`. -/
theorem C45_rzgemv_partial [F.OK] {T : Tune} (hT : T.OK F) {fold : Nat} (hfold : 2 ≤ fold) {b : GemvB} (hb : b.OK)
    (gx : Int → Flt × Flt) (g : Nat → Nat → Int → Flt × Flt) (yi : Int → Binned × Binned) (Order TransA : Char) {M N : Nat} (hM : M ≠ 0) (hN : N ≠ 0) (alpha : Flt × Flt)
    (A : Int → Flt × Flt) (lda : Int) (X : Int → Flt × Flt) (incX : Int) (beta : Flt × Flt) (Y : Int → Flt × Flt) {incY : Int} (hY : incY ≠ 0) {rows cols : Nat}
    (hr : rows = if isNo TransA then M else N) (hc : cols = if isNo TransA then N else M) (hnb : 2 * min T.nb (min cols (gemvTile b Order TransA)) ≤ F.endurance) (hok : isRow Order = true ∨ trOf TransA ≠ .cj ∨ M = N)
    (hcap : 2 * cols + 1 ≤ F.capacity) :
    (∀ r : Nat, r < rows → BetaFinite F beta (Y (r * incY)) →
      (zzero alpha = false → ∀ c : Nat, c < cols → DotFinite F (zopEl (isRow Order) (trOf TransA) A lda r c) (alphaMul F alpha (X (c * incX)))) →
      F.rzgemv T fold b gx g yi Order TransA M N alpha A lda X incX beta Y incY (r * incY) =
        (convert F fold (F.specSum fold (zbetaTerm F Prod.fst beta (Y (r * incY)) ++
          (if zzero alpha then [] else zgemvRe F (isRow Order) (trOf TransA) cols alpha A lda X incX r))),
         convert F fold (F.specSum fold (zbetaTerm F Prod.snd beta (Y (r * incY)) ++
          (if zzero alpha then [] else zgemvIm F (isRow Order) (trOf TransA) cols alpha A lda X incX r))))) ∧
    (∀ l : Int, (∀ r : Nat, r < rows → (r : Int) * incY ≠ l) →
      F.rzgemv T fold b gx g yi Order TransA M N alpha A lda X incX beta Y incY l = Y l) := by
  unfold rzgemv
  rw [if_neg (show ¬ (N = 0 ∨ M = 0) by simp [hM, hN])]
  simp only [← hr]
  refine ⟨?_, fun l hl => (setRange rows incY hY _ Y).2 l hl⟩
  intro r hrr hy hx
  rw [(setRange rows incY hY _ Y).1 r hrr]
  obtain ⟨h, h', h1, h2, h2', h3, h3', h4, h4', h5, h5'⟩ := zbeta0_hist (fold := fold) hy
  have hYI := (setRange rows 1 (by decide) (fun i : Nat => F.zbeta0 fold beta (Y (i * incY))) yi).1 r hrr
  simp only [Int.mul_one] at hYI
  obtain ⟨b1, b2, b3, b4⟩ := zbetaTerm_finite hy
  unfold zconvert
  cases ha : zzero alpha
  · have hg := (C45_gemv_partial hT hfold hb gx g Order TransA hM hN ha A lda X incX
      (forS 0 rows 1 (fun i YI => store YI i (F.zbeta0 fold beta (Y (i * incY)))) yi) (incY := 1) (by decide) hr hc hnb hok).1 r h h' hrr
      (by rw [Int.mul_one, hYI, h1]) h2 h2' h3 h3' (hx ha) (by omega) (by omega)
    rw [Int.mul_one] at hg
    obtain ⟨f1, f2⟩ := cmul_finite (hx ha)
    have l1 := length_cmulRe (F := F) (fun c => zopEl (isRow Order) (trOf TransA) A lda r c) (fun c => alphaMul F alpha (X (c * incX))) (List.range cols)
    have l2 := length_cmulIm (F := F) (fun c => zopEl (isRow Order) (trOf TransA) A lda r c) (fun c => alphaMul F alpha (X (c * incX))) (List.range cols)
    rw [List.length_range] at l1 l2
    rw [hg, hYI, h1, h5, h5']
    simp only [Bool.false_eq_true, if_false]
    unfold zgemvRe zgemvIm
    rw [spec_append hfold b1 f1 (by omega), spec_append hfold b2 f2 (by omega)]
  · rw [C45_nothing _ _ _ _ _ _ _ _ _ _ _ _ _ _ _ _ (Or.inr (Or.inr ha)), hYI, h1, h5, h5']
    simp only [if_true, List.append_nil]
    rw [C01_sum_is_spec hfold b1 (by omega), C01_sum_is_spec hfold b2 (by omega)]

/-- **C47** (partial, native result). Missing: as for `C47_gemm_partial`. -/
theorem C47_rzgemm_partial [F.OK] {T : Tune} (hT : T.OK F) {fold : Nat} (hfold : 2 ≤ fold) {b : GemmB} (hb : b.OK)
    (g : Int → Flt × Flt) (ga gb : Nat → Nat → Nat → Int → Flt × Flt) (ci : Int → Binned × Binned) (Order TransA TransB : Char) (M N K : Nat) (alpha : Flt × Flt)
    (A : Int → Flt × Flt) (lda : Int) (B : Int → Flt × Flt) (ldb : Int) (beta : Flt × Flt) (C : Int → Flt × Flt) {ldc : Nat}
    (hnb : 2 * min T.nb (min K (gemmTile b Order TransA TransB)) ≤ F.endurance)
    (hC : (if isRow Order then N else M) ≤ ldc) (hok : isRow Order = true ∨ trOf TransA = .no ∨ (F.feq alpha.1 F.one && isZero alpha.2) = true)
    (hcap : 2 * K + 1 ≤ F.capacity) :
    (∀ r c : Nat, r < M → c < N → BetaFinite F beta (C (entryAt (isRow Order) ldc r c)) →
      (zzero alpha = false → ∀ t : Nat, t < K → DotFinite F (alphaMul F alpha (zopEl (isRow Order) (trOf TransA) A lda r t)) (zopEl (isRow Order) (trOf TransB) B ldb t c)) →
      F.rzgemm T fold b g ga gb ci Order TransA TransB M N K alpha A lda B ldb beta C ldc (entryAt (isRow Order) ldc r c) =
        (convert F fold (F.specSum fold (zbetaTerm F Prod.fst beta (C (entryAt (isRow Order) ldc r c)) ++
          (if zzero alpha then [] else zgemmRe F (isRow Order) (trOf TransA) (trOf TransB) K alpha A lda B ldb r c))),
         convert F fold (F.specSum fold (zbetaTerm F Prod.snd beta (C (entryAt (isRow Order) ldc r c)) ++
          (if zzero alpha then [] else zgemmIm F (isRow Order) (trOf TransA) (trOf TransB) K alpha A lda B ldb r c))))) ∧
    (∀ l : Int, (∀ r c : Nat, r < M → c < N → entryAt (isRow Order) ldc r c ≠ l) →
      F.rzgemm T fold b g ga gb ci Order TransA TransB M N K alpha A lda B ldb beta C ldc l = C l) := by
  unfold rzgemm
  by_cases hMN : M = 0 ∨ N = 0
  · rw [if_pos hMN]
    exact ⟨fun r c hr hc => by omega, fun _ _ => rfl⟩
  rw [if_neg hMN]
  have mid : ∀ (CI : Int → Binned × Binned) (ldi : Nat) (r c : Nat), (if isRow Order then N else M) ≤ ldi → r < M → c < N →
      CI (entryAt (isRow Order) ldi r c) = F.zbeta0 fold beta (C (entryAt (isRow Order) ldc r c)) → BetaFinite F beta (C (entryAt (isRow Order) ldc r c)) →
      (zzero alpha = false → ∀ t : Nat, t < K → DotFinite F (alphaMul F alpha (zopEl (isRow Order) (trOf TransA) A lda r t)) (zopEl (isRow Order) (trOf TransB) B ldb t c)) →
      F.zgemm T fold b g ga gb Order TransA TransB M N K alpha A lda B ldb CI ldi (entryAt (isRow Order) ldi r c) =
        (F.specSum fold (zbetaTerm F Prod.fst beta (C (entryAt (isRow Order) ldc r c)) ++
          (if zzero alpha then [] else zgemmRe F (isRow Order) (trOf TransA) (trOf TransB) K alpha A lda B ldb r c)),
         F.specSum fold (zbetaTerm F Prod.snd beta (C (entryAt (isRow Order) ldc r c)) ++
          (if zzero alpha then [] else zgemmIm F (isRow Order) (trOf TransA) (trOf TransB) K alpha A lda B ldb r c))) := by
    intro CI ldi r c hld hr hc hCI hy hx
    obtain ⟨h, h', h1, h2, h2', h3, h3', h4, h4', h5, h5'⟩ := zbeta0_hist (fold := fold) hy
    obtain ⟨b1, b2, b3, b4⟩ := zbetaTerm_finite hy
    by_cases hn : K = 0 ∨ zzero alpha = true
    · rw [C47_nothing _ _ _ _ _ _ _ _ _ _ _ _ _ _ _ _ _ _ _ (Or.inr (Or.inr hn)), hCI, h1, h5, h5']
      have e1 : (if zzero alpha then [] else zgemmRe F (isRow Order) (trOf TransA) (trOf TransB) K alpha A lda B ldb r c) = [] := by
        rcases hn with rfl | hn
        · unfold zgemmRe; simp
        · rw [hn]; rfl
      have e2 : (if zzero alpha then [] else zgemmIm F (isRow Order) (trOf TransA) (trOf TransB) K alpha A lda B ldb r c) = [] := by
        rcases hn with rfl | hn
        · unfold zgemmIm; simp
        · rw [hn]; rfl
      rw [e1, e2, List.append_nil, List.append_nil, C01_sum_is_spec hfold b1 (by omega), C01_sum_is_spec hfold b2 (by omega)]
    · have ha : zzero alpha = false := by
        cases h : zzero alpha
        · rfl
        · exact absurd (Or.inr h) hn
      obtain ⟨f1, f2⟩ := cmul_finite (hx ha)
      have l1 := length_cmulRe (F := F) (fun t => alphaMul F alpha (zopEl (isRow Order) (trOf TransA) A lda r t)) (fun t => zopEl (isRow Order) (trOf TransB) B ldb t c) (List.range K)
      have l2 := length_cmulIm (F := F) (fun t => alphaMul F alpha (zopEl (isRow Order) (trOf TransA) A lda r t)) (fun t => zopEl (isRow Order) (trOf TransB) B ldb t c) (List.range K)
      rw [List.length_range] at l1 l2
      rw [(C47_gemm_partial hT hfold hb g ga gb Order TransA TransB (M := M) (N := N) (fun h => hn (Or.inl h)) ha A lda B ldb CI hnb hld hok).1 r c h h' hr hc
        (hCI.trans h1) h2 h2' h3 h3' (hx ha) (by omega) (by omega), hCI, h1, h5, h5', ha]
      simp only [Bool.false_eq_true, if_false]
      unfold zgemmRe zgemmIm
      rw [spec_append hfold b1 f1 (by omega), spec_append hfold b2 f2 (by omega)]
  cases hO : isRow Order
  · simp only [hO, Bool.false_eq_true, if_false] at mid hC ⊢
    refine ⟨?_, fun l hl => (setMat N M ldc (by omega) _ C).2 l (fun c r hc hr => hl r c hr hc)⟩
    intro r c hr hc hy hx
    have e1 : ∀ ld : Int, entryAt false ld r c = (c : Int) * ld + r := fun _ => rfl
    have hm := mid _ M r c (Nat.le_refl _) hr hc ((setMat N M M (Int.le_refl _) (fun j i : Nat => F.zbeta0 fold beta (C (j * (ldc : Int) + i))) ci).1 c r hc hr) hy hx
    rw [e1, (setMat N M ldc (by omega) _ C).1 c r hc hr]
    rw [e1] at hm
    unfold zconvert
    rw [hm]; rfl
  · simp only [hO, if_true] at mid hC ⊢
    refine ⟨?_, fun l hl => (setMat M N ldc (by omega) _ C).2 l (fun r c hr hc => hl r c hr hc)⟩
    intro r c hr hc hy hx
    have e1 : ∀ ld : Int, entryAt true ld r c = (r : Int) * ld + c := fun _ => rfl
    have hm := mid _ N r c (Nat.le_refl _) hr hc ((setMat M N N (Int.le_refl _) (fun i j : Nat => F.zbeta0 fold beta (C (i * (ldc : Int) + j))) ci).1 r c hr hc) hy hx
    rw [e1, (setMat M N ldc (by omega) _ C).1 r c hr hc]
    rw [e1] at hm
    unfold zconvert
    rw [hm]; rfl

/-! ### Violations -/

/-- One, as a complex number. -/
def oneZ (F : Fmt) : Flt × Flt := (F.one, zero)

/-- **C45 is violated by the code.** For a column-major conjugate transposed matrix the length of the dot products is computed from `N` instead of `M`.
With more rows than columns (2 by 1, all ones) the rest of the column is ignored: the product is 1 instead of 2, while the transposed product (the same for real data) is 2.
With more columns than rows (1 by 2) elements behind the vector are read: two vectors that agree on their only element give different results. -/
theorem C45_violated :
    f64.rzgemv exTZ 3 ⟨1, 2, 2, 4, 1⟩ (fun _ => oneZ f64) (fun _ _ _ => oneZ f64) (fun _ => (dmsetzero 3, dmsetzero 3)) 'c' 'c' 2 1 (oneZ f64) (fun _ => oneZ f64) 2 (fun _ => oneZ f64) 1
      (zero, zero) (fun _ => oneZ f64) 1 0 = (f64.ofInt 1, zero) ∧
    f64.rzgemv exTZ 3 ⟨1, 2, 2, 4, 1⟩ (fun _ => oneZ f64) (fun _ _ _ => oneZ f64) (fun _ => (dmsetzero 3, dmsetzero 3)) 'c' 't' 2 1 (oneZ f64) (fun _ => oneZ f64) 2 (fun _ => oneZ f64) 1
      (zero, zero) (fun _ => oneZ f64) 1 0 = (f64.ofInt 2, zero) ∧
    zgemvRe f64 false .cj 2 (oneZ f64) (fun _ => oneZ f64) 2 (fun _ => oneZ f64) 1 0 = [f64.one, zero, f64.one, zero] ∧
    ∃ X X' : Int → Flt × Flt, (∀ c : Nat, c < 1 → X c = X' c) ∧
      f64.rzgemv exTZ 3 ⟨1, 2, 2, 4, 1⟩ (fun _ => oneZ f64) (fun _ _ _ => oneZ f64) (fun _ => (dmsetzero 3, dmsetzero 3)) 'c' 'c' 1 2 (oneZ f64) (fun _ => oneZ f64) 1 X 1
        (zero, zero) (fun _ => oneZ f64) 1 0 ≠
      f64.rzgemv exTZ 3 ⟨1, 2, 2, 4, 1⟩ (fun _ => oneZ f64) (fun _ _ _ => oneZ f64) (fun _ => (dmsetzero 3, dmsetzero 3)) 'c' 'c' 1 2 (oneZ f64) (fun _ => oneZ f64) 1 X' 1
        (zero, zero) (fun _ => oneZ f64) 1 0 := by
  refine ⟨by decide +kernel, by decide +kernel, by decide +kernel, fun _ => oneZ f64, fun l => if l = 0 then oneZ f64 else (f64.ofInt 5, zero), ?_, by decide +kernel⟩
  intro c hc
  rw [show c = 0 by omega]; rfl

/-- **C47 is violated by the code.** For column-major matrices with a transposed A the scaled copy of A takes the imaginary part of `alpha` where the real part belongs. With `alpha = 2`, the 1 by 1 product
of `i` and `1` is returned as `0` instead of `2i`; with a conjugate transposed A as `0` instead of `-2i`. The row-major products are right. -/
theorem C47_violated :
    let P := fun (o t : Char) => f64.rzgemm exTZ 3 ⟨2, 4, 2, 6⟩ (fun _ => oneZ f64) (fun _ _ _ _ => oneZ f64) (fun _ _ _ _ => oneZ f64) (fun _ => (dmsetzero 3, dmsetzero 3)) o t 'n' 1 1 1
      (f64.ofInt 2, zero) (fun _ => (zero, f64.one)) 1 (fun _ => oneZ f64) 1 (zero, zero) (fun _ => oneZ f64) 1 0
    P 'c' 't' = (zero, zero) ∧ P 'r' 't' = (zero, f64.ofInt 2) ∧ P 'c' 'c' = (zero, zero) ∧ P 'r' 'c' = (zero, f64.ofInt (-2)) := by
  decide +kernel

/-! ### Concrete cases -/

def exZA : Int → Flt × Flt := fun l => if l % 4 < 2 then exZ (l % 11) else (f64.nan, f64.inf false)

/-- The hypotheses of `C45_gemv_partial` are met: a 2 by 3 column-major matrix with leading dimension 4 and NaN in the padding, `alpha` not one. -/
example : 2 * exTZ.nb ≤ f64.endurance ∧ zzero (f64.ofInt 3, f64.ofInt 5) = false ∧ (isRow 'c' = true ∨ trOf 'n' ≠ .cj ∨ 2 = 3) ∧
    (∀ r : Nat, r < 2 → ∀ c : Nat, c < 3 → DotFinite f64 (zopEl false (trOf 'n') exZA 4 r c) (alphaMul f64 (f64.ofInt 3, f64.ofInt 5) (exZ (c * 2)))) := by
  unfold DotFinite; decide +kernel

/-- and the conclusion can be checked, for a conjugate transposed row-major product too. -/
example : (∀ r : Nat, r < 2 →
    f64.zgemv exTZ 3 ⟨1, 2, 2, 4, 1⟩ (fun _ => oneZ f64) (fun _ _ _ => (f64.nan, f64.nan)) 'c' 'n' 2 3 (f64.ofInt 3, f64.ofInt 5) exZA 4 exZ 2 (fun _ => (dmsetzero 3, dmsetzero 3)) 2 (r * 2) =
      (f64.specSum 3 (zgemvRe f64 false .no 3 (f64.ofInt 3, f64.ofInt 5) exZA 4 exZ 2 r), f64.specSum 3 (zgemvIm f64 false .no 3 (f64.ofInt 3, f64.ofInt 5) exZA 4 exZ 2 r))) ∧
    (∀ r : Nat, r < 2 →
    f64.zgemv exTZ 3 ⟨1, 2, 2, 4, 1⟩ (fun _ => oneZ f64) (fun _ _ _ => (f64.nan, f64.nan)) 'r' 'c' 3 2 (f64.ofInt 3, f64.ofInt 5) exZA 4 exZ 2 (fun _ => (dmsetzero 3, dmsetzero 3)) 2 (r * 2) =
      (f64.specSum 3 (zgemvRe f64 true .cj 3 (f64.ofInt 3, f64.ofInt 5) exZA 4 exZ 2 r), f64.specSum 3 (zgemvIm f64 true .cj 3 (f64.ofInt 3, f64.ofInt 5) exZA 4 exZ 2 r))) := by
  decide +kernel

/-- A conjugate transposed matrix times a conjugate transposed matrix, row-major with `alpha = 3 + 5i`, column-major with `alpha = 1`. -/
example : (∀ r : Nat, r < 2 → ∀ c : Nat, c < 2 → ∀ t : Nat, t < 2 →
      DotFinite f64 (alphaMul f64 (f64.ofInt 3, f64.ofInt 5) (zopEl true (trOf 'c') exZA 4 r t)) (zopEl true (trOf 'c') exZA 4 t c)) ∧
    (∀ r : Nat, r < 2 → ∀ c : Nat, c < 2 →
      f64.zgemm exTZ 3 ⟨2, 4, 2, 6⟩ (fun _ => oneZ f64) (fun _ _ _ _ => oneZ f64) (fun _ _ _ _ => oneZ f64) 'r' 'c' 'c' 2 2 2 (f64.ofInt 3, f64.ofInt 5) exZA 4 exZA 4
        (fun _ => (dmsetzero 3, dmsetzero 3)) 3 (entryAt true 3 r c) =
      (f64.specSum 3 (zgemmRe f64 true .cj .cj 2 (f64.ofInt 3, f64.ofInt 5) exZA 4 exZA 4 r c), f64.specSum 3 (zgemmIm f64 true .cj .cj 2 (f64.ofInt 3, f64.ofInt 5) exZA 4 exZA 4 r c))) ∧
    (∀ r : Nat, r < 2 → ∀ c : Nat, c < 2 →
      f64.zgemm exTZ 3 ⟨2, 4, 2, 6⟩ (fun _ => oneZ f64) (fun _ _ _ _ => oneZ f64) (fun _ _ _ _ => oneZ f64) 'c' 'c' 'c' 2 2 2 (oneZ f64) exZA 4 exZA 4
        (fun _ => (dmsetzero 3, dmsetzero 3)) 3 (entryAt false 3 r c) =
      (f64.specSum 3 (zgemmRe f64 false .cj .cj 2 (oneZ f64) exZA 4 exZA 4 r c), f64.specSum 3 (zgemmIm f64 false .cj .cj 2 (oneZ f64) exZA 4 exZA 4 r c))) := by
  unfold DotFinite; decide +kernel

end Repro
