import Verif.ZGemmLemmas
/-!
# C45, C47: complex matrix products
-/

namespace Repro
open Fmt
variable {F : Fmt}

/-! ### The terms of the branches -/

/-- What is needed of a pair of operands: they add the two products of the complex product of `p` and `q` to each part. -/
def SameTerms (F : Fmt) (conj : Bool) (x : (Flt × Flt) × (Flt × Flt)) (p q : Flt × Flt) : Prop :=
  [(dotRe F conj x.1 x.2).1, (dotRe F conj x.1 x.2).2].Perm (cmulRe F p q) ∧
  [(dotIm F conj x.1 x.2).1, (dotIm F conj x.1 x.2).2].Perm (cmulIm F p q) ∧ DotFinite F x.1 x.2

theorem same_u {p q : Flt × Flt} (h : DotFinite F p q) : SameTerms F false (p, q) p q :=
  ⟨List.Perm.refl _, List.Perm.swap _ _ _, h⟩

theorem same_c {a q : Flt × Flt} (h : DotFinite F (zconj a) q) : SameTerms F true (a, q) (zconj a) q := by
  obtain ⟨h1, h2, h3, h4⟩ := h
  have m1 : F.mul (fneg a.2) q.2 = fneg (F.mul a.2 q.2) := by
    have := mul_fneg_left (F := F) (x := fneg a.2) (y := q.2) (finite_not_nan h2)
    rw [fneg_fneg] at this
    rw [this, fneg_fneg]
  have m2 : F.mul (fneg a.2) q.1 = fneg (F.mul a.2 q.1) := by
    have := mul_fneg_left (F := F) (x := fneg a.2) (y := q.1) (finite_not_nan h3)
    rw [fneg_fneg] at this
    rw [this, fneg_fneg]
  have h2' : F.Finite (F.mul (fneg a.2) q.2) := h2
  have h3' : F.Finite (F.mul (fneg a.2) q.1) := h3
  rw [m1] at h2'
  rw [m2] at h3'
  refine ⟨?_, ?_, h1, h2', h3', h4⟩
  · show [F.mul a.1 q.1, F.mul a.2 q.2].Perm [F.mul a.1 q.1, fneg (F.mul (fneg a.2) q.2)]
    rw [m1, fneg_fneg]
  · show [fneg (F.mul a.2 q.1), F.mul a.1 q.2].Perm [F.mul a.1 q.2, F.mul (fneg a.2) q.1]
    rw [m2]
    exact List.Perm.swap _ _ _

theorem same_swap {p b : Flt × Flt} (h : DotFinite F p (zconj b)) : SameTerms F true (b, p) p (zconj b) := by
  obtain ⟨h1, h2, h3, h4⟩ := h
  have h' : DotFinite F (zconj b) p := by
    refine ⟨?_, ?_, ?_, ?_⟩
    · rw [mul_comm_all]; exact h1
    · rw [mul_comm_all]; exact h2
    · rw [mul_comm_all]; exact h4
    · rw [mul_comm_all]; exact h3
  obtain ⟨s1, s2, s3⟩ := same_c h'
  have eR : cmulRe F (zconj b) p = cmulRe F p (zconj b) := by
    unfold cmulRe; rw [mul_comm_all (zconj b).1, mul_comm_all (zconj b).2]
  have eI : (cmulIm F (zconj b) p).Perm (cmulIm F p (zconj b)) := by
    unfold cmulIm; rw [mul_comm_all (zconj b).1, mul_comm_all (zconj b).2]; exact List.Perm.swap _ _ _
  exact ⟨eR ▸ s1, s2.trans eI, s3⟩

theorem cjIf_cj (x : Flt × Flt) : cjIf .cj x = zconj x := rfl

seal SameTerms DotFinite Fmt.zscl Fmt.zconj Fmt.zsclColT Fmt.zsclColC in
theorem zbranch_terms {row : Bool} {ta tb : Tr} {alpha a b : Flt × Flt} (hok : row = true ∨ ta = .no ∨ F.zunit alpha = true)
    {br : ZBranch} (hbr : F.zbranch row ta tb alpha = br) (hfin : DotFinite F (alphaMul F alpha (cjIf ta a)) (cjIf tb b)) :
    SameTerms F br.conj (if br.swap then (br.fB b, br.fA a) else (br.fA a, br.fB b)) (alphaMul F alpha (cjIf ta a)) (cjIf tb b) := by
  have c0 : ∀ x : Flt × Flt, cjIf .no x = x := fun x => rfl
  have c1 : ∀ x : Flt × Flt, cjIf .tr x = x := fun x => rfl
  subst hbr
  rw [alphaMul_eq] at hfin ⊢
  unfold zbranch
  cases hu : F.zunit alpha <;> rw [hu] at hfin hok <;> cases row <;> cases ta <;> cases tb <;>
    simp only [Bool.false_eq_true, if_false, if_true, c0, c1, cjIf_cj, id, or_self, or_false, reduceCtorEq, zsclC_eq] at hok hfin ⊢ <;>
    first
    | exact same_u hfin
    | exact same_c hfin
    | exact same_swap hfin

theorem zbranch_id {row : Bool} {ta tb : Tr} {alpha : Flt × Flt} (h : row = (ta == .no)) (hu : F.zunit alpha = true) :
    (F.zbranch row ta tb alpha).fA = id := by
  unfold zbranch
  rw [hu]
  cases row <;> cases ta <;> cases tb <;> first | rfl | exact absurd h (by decide)

theorem zbranch_idB {row : Bool} {ta tb : Tr} {alpha : Flt × Flt} (h : (row == (tb == .no)) = false) :
    (F.zbranch row ta tb alpha).fB = id := by
  unfold zbranch
  cases F.zunit alpha <;> cases row <;> cases ta <;> cases tb <;> first | rfl | exact absurd h (by decide)

/-! ### C45 -/

/-- The products summed into the real part of entry `r` of a complex matrix-vector product. -/
def zgemvRe (F : Fmt) (row : Bool) (t : Tr) (cols : Nat) (alpha : Flt × Flt) (A : Int → Flt × Flt) (lda : Int) (X : Int → Flt × Flt) (incX : Int) (r : Nat) : List Flt :=
  (List.range cols).flatMap (fun c : Nat => cmulRe F (zopEl row t A lda r c) (alphaMul F alpha (X (c * incX))))
/-- And into the imaginary part. -/
def zgemvIm (F : Fmt) (row : Bool) (t : Tr) (cols : Nat) (alpha : Flt × Flt) (A : Int → Flt × Flt) (lda : Int) (X : Int → Flt × Flt) (incX : Int) (r : Nat) : List Flt :=
  (List.range cols).flatMap (fun c : Nat => cmulIm F (zopEl row t A lda r c) (alphaMul F alpha (X (c * incX))))

theorem flatMap_perm {γ δ : Type} {f g : γ → List δ} : ∀ {l : List γ}, (∀ a ∈ l, (f a).Perm (g a)) → (l.flatMap f).Perm (l.flatMap g)
  | [], _ => List.Perm.refl _
  | a :: l, h => by
    rw [List.flatMap_cons, List.flatMap_cons]
    exact (h a List.mem_cons_self).append (flatMap_perm (fun b hb => h b (List.mem_cons_of_mem _ hb)))

theorem length_cmulRe (f g : Nat → Flt × Flt) (l : List Nat) : (l.flatMap (fun c => cmulRe F (f c) (g c))).length = 2 * l.length :=
  length_flatMap2 (fun c => F.mul (f c).1 (g c).1) (fun c => fneg (F.mul (f c).2 (g c).2)) l
theorem length_cmulIm (f g : Nat → Flt × Flt) (l : List Nat) : (l.flatMap (fun c => cmulIm F (f c) (g c))).length = 2 * l.length :=
  length_flatMap2 (fun c => F.mul (f c).1 (g c).2) (fun c => F.mul (f c).2 (g c).1) l

/-- From the calls to the sums. -/
theorem entry_sum [F.OK] {conj : Bool} {T : Tune} (hT : T.OK F) {m : Nat} (hnb : 2 * min T.nb m ≤ F.endurance) {fold : Nat} (hfold : 2 ≤ fold) {h g : Hist}
    (hl : h.Legal F) (gl : g.Legal F) (hs : h.Settled) (gs : g.Settled) {n : Nat} {x : Nat → (Flt × Flt) × (Flt × Flt)} {p q : Nat → Flt × Flt}
    (hst : ∀ c, c < n → SameTerms F conj (x c) (p c) (q c)) (hN : 2 * n + h.nums.length ≤ F.capacity) (gN : 2 * n + g.nums.length ≤ F.capacity)
    {bs : List (List ((Flt × Flt) × (Flt × Flt)))} (hbs : bs.flatten = (List.range n).map x) (hm : ∀ b ∈ bs, b.length ≤ m) :
    bs.foldl (fun z b => F.dotZ T fold conj b z) (h.eval F fold, g.eval F fold) =
      (F.sumSeq fold ((List.range n).flatMap (fun c => cmulRe F (p c) (q c))) (h.eval F fold),
       F.sumSeq fold ((List.range n).flatMap (fun c => cmulIm F (p c) (q c))) (g.eval F fold)) := by
  have hf : ∀ y ∈ bs.flatten, DotFinite F y.1 y.2 := by
    rw [hbs]
    intro y hy
    obtain ⟨c, hc, rfl⟩ := List.mem_map.1 hy
    exact (hst c (List.mem_range.1 hc)).2.2
  have hlen : bs.flatten.length = n := by rw [hbs, List.length_map, List.length_range]
  rw [blocks_cplx hT hfold bs (fun b hb => by have := hm b hb; omega) hl gl hs gs hf (by omega) (by omega)]
  have lR : (prsRe F conj bs.flatten).length = 2 * bs.flatten.length := length_flatMap2 _ _ _
  have lI : (prsIm F conj bs.flatten).length = 2 * bs.flatten.length := length_flatMap2 _ _ _
  refine Prod.ext ?_ ?_
  · refine sumSeq_perm hfold ?_ hl hs (prsRe_finite hf) (by omega)
    unfold prsRe
    rw [hbs, List.flatMap_map]
    exact flatMap_perm (fun c hc => (hst c (List.mem_range.1 hc)).1)
  · refine sumSeq_perm hfold ?_ gl gs (prsIm_finite hf) (by omega)
    unfold prsIm
    rw [hbs, List.flatMap_map]
    exact flatMap_perm (fun c hc => (hst c (List.mem_range.1 hc)).2.1)

/-- **C45** (partial). The complex matrix-vector product adds to each part of entry `r` the reproducible sum of the products of row `r` of
op(A) with `alpha * x`, for every storage order, flag, stride, block size and buffer contents, and changes nothing else.
Missing: the dot product calls, whose length is bounded by the tiles, must hold at most half as many elements as the endurance (see C42) -
of the shipped block sizes this leaves out the non-transposed products with more than 1024 (256) columns -, and for column-major
conjugate transposed matrices the claim is only proved for square ones; it is false otherwise, see `C45_violated`. -/
theorem C45_gemv_partial [F.OK] {T : Tune} (hT : T.OK F) {fold : Nat} (hfold : 2 ≤ fold) {b : GemvB} (hb : b.OK)
    (gx : Int → Flt × Flt) (g : Nat → Nat → Int → Flt × Flt) (Order TransA : Char) {M N : Nat} (hM : M ≠ 0) (hN : N ≠ 0) {alpha : Flt × Flt}
    (ha : zzero alpha = false) (A : Int → Flt × Flt) (lda : Int) (X : Int → Flt × Flt) (incX : Int) (Y : Int → Binned × Binned) {incY : Int}
    (hY : incY ≠ 0) {rows cols : Nat} (hr : rows = if isNo TransA then M else N) (hc : cols = if isNo TransA then N else M)
    (hnb : 2 * min T.nb (min cols (gemvTile b Order TransA)) ≤ F.endurance)
    (hok : isRow Order = true ∨ trOf TransA ≠ .cj ∨ M = N) :
    (∀ (r : Nat) (h h' : Hist), r < rows → Y (r * incY) = (h.eval F fold, h'.eval F fold) → h.Legal F → h'.Legal F → h.Settled → h'.Settled →
      (∀ c : Nat, c < cols → DotFinite F (zopEl (isRow Order) (trOf TransA) A lda r c) (alphaMul F alpha (X (c * incX)))) →
      2 * cols + h.nums.length ≤ F.capacity → 2 * cols + h'.nums.length ≤ F.capacity →
      F.zgemv T fold b gx g Order TransA M N alpha A lda X incX Y incY (r * incY) =
        (F.sumSeq fold (zgemvRe F (isRow Order) (trOf TransA) cols alpha A lda X incX r) (Y (r * incY)).1,
         F.sumSeq fold (zgemvIm F (isRow Order) (trOf TransA) cols alpha A lda X incX r) (Y (r * incY)).2)) ∧
    (∀ l : Int, (∀ r : Nat, r < rows → (r : Int) * incY ≠ l) →
      F.zgemv T fold b gx g Order TransA M N alpha A lda X incX Y incY l = Y l) := by
  subst hr hc
  have H := zgemv_eq (F := F) (T := T) (fold := fold) hb gx g Order TransA hM hN ha A lda X incX Y hY hok
  refine ⟨?_, H.2⟩
  intro r h h' hr hYr hl hl' hs hs' hx hcap hcap'
  obtain ⟨bs, h1, h3, h2⟩ := H.1 r hr
  rw [h2, hYr]
  refine entry_sum hT hnb hfold hl hl' hs hs' (fun c hc => ?_) hcap hcap' h1 h3
  have hx := hx c hc
  unfold zopEl cjIf at hx ⊢
  rw [trOf_no] at hx ⊢
  by_cases ht : trOf TransA = .cj
  · rw [if_pos ht] at hx ⊢
    rw [decide_eq_true ht]
    exact same_c hx
  · rw [if_neg ht] at hx ⊢
    rw [decide_eq_false ht]
    exact same_u hx

/-- **C45** (nothing to do). -/
theorem C45_nothing (T : Tune) (fold : Nat) (b : GemvB) (gx : Int → Flt × Flt) (g : Nat → Nat → Int → Flt × Flt) (Order TransA : Char) (M N : Nat) (alpha : Flt × Flt)
    (A : Int → Flt × Flt) (lda : Int) (X : Int → Flt × Flt) (incX : Int) (Y : Int → Binned × Binned) (incY : Int) (h : M = 0 ∨ N = 0 ∨ zzero alpha = true) :
    F.zgemv T fold b gx g Order TransA M N alpha A lda X incX Y incY = Y := by
  unfold zgemv
  dsimp only
  rw [if_pos h]

/-! ### C47 -/

/-- The products summed into the real part of entry `(r, c)` of a complex matrix-matrix product. -/
def zgemmRe (F : Fmt) (row : Bool) (ta tb : Tr) (K : Nat) (alpha : Flt × Flt) (A : Int → Flt × Flt) (lda : Int) (B : Int → Flt × Flt) (ldb : Int) (r c : Nat) : List Flt :=
  (List.range K).flatMap (fun t : Nat => cmulRe F (alphaMul F alpha (zopEl row ta A lda r t)) (zopEl row tb B ldb t c))
/-- And into the imaginary part. -/
def zgemmIm (F : Fmt) (row : Bool) (ta tb : Tr) (K : Nat) (alpha : Flt × Flt) (A : Int → Flt × Flt) (lda : Int) (B : Int → Flt × Flt) (ldb : Int) (r c : Nat) : List Flt :=
  (List.range K).flatMap (fun t : Nat => cmulIm F (alphaMul F alpha (zopEl row ta A lda r t)) (zopEl row tb B ldb t c))

/-- **C47** (partial). The complex matrix-matrix product adds to each part of entry `(r, c)` the reproducible sum of the products of row `r` of
`alpha * op(A)` with column `c` of op(B), for every storage order, flags, block size and buffer contents, and changes nothing else.
Missing: the dot product calls, whose length is bounded by the tiles, must hold at most half as many elements as the endurance (see C42;
the shipped tiles of `zbzgemm` satisfy this, see `C47_shipped_partial`, those of `cbcgemm` do not), and for column-major
matrices with transposed or conjugate transposed A the claim is proved for `alpha = 1` only; it is false otherwise, see `C47_violated`. -/
theorem C47_gemm_partial [F.OK] {T : Tune} (hT : T.OK F) {fold : Nat} (hfold : 2 ≤ fold) {b : GemmB} (hb : b.OK)
    (g : Int → Flt × Flt) (ga gb : Nat → Nat → Nat → Int → Flt × Flt) (Order TransA TransB : Char) {M N K : Nat} (hK : K ≠ 0) {alpha : Flt × Flt}
    (ha : zzero alpha = false) (A : Int → Flt × Flt) (lda : Int) (B : Int → Flt × Flt) (ldb : Int) (C : Int → Binned × Binned) {ldc : Nat}
    (hnb : 2 * min T.nb (min K (gemmTile b Order TransA TransB)) ≤ F.endurance) (hC : (if isRow Order then N else M) ≤ ldc) (hok : isRow Order = true ∨ trOf TransA = .no ∨ (F.feq alpha.1 F.one && isZero alpha.2) = true) :
    (∀ (r c : Nat) (h h' : Hist), r < M → c < N → C (entryAt (isRow Order) ldc r c) = (h.eval F fold, h'.eval F fold) → h.Legal F → h'.Legal F → h.Settled → h'.Settled →
      (∀ t : Nat, t < K → DotFinite F (alphaMul F alpha (zopEl (isRow Order) (trOf TransA) A lda r t)) (zopEl (isRow Order) (trOf TransB) B ldb t c)) →
      2 * K + h.nums.length ≤ F.capacity → 2 * K + h'.nums.length ≤ F.capacity →
      F.zgemm T fold b g ga gb Order TransA TransB M N K alpha A lda B ldb C ldc (entryAt (isRow Order) ldc r c) =
        (F.sumSeq fold (zgemmRe F (isRow Order) (trOf TransA) (trOf TransB) K alpha A lda B ldb r c) (C (entryAt (isRow Order) ldc r c)).1,
         F.sumSeq fold (zgemmIm F (isRow Order) (trOf TransA) (trOf TransB) K alpha A lda B ldb r c) (C (entryAt (isRow Order) ldc r c)).2)) ∧
    (∀ l : Int, (∀ r c : Nat, r < M → c < N → entryAt (isRow Order) ldc r c ≠ l) →
      F.zgemm T fold b g ga gb Order TransA TransB M N K alpha A lda B ldb C ldc l = C l) := by
  have H := zgemm_eq (F := F) (T := T) (fold := fold) hb g ga gb Order TransA TransB (M := M) (N := N) hK ha A lda B ldb C hC rfl
    (fun h1 h2 => zbranch_id (by rw [trOf_no]; exact h1) h2) (fun h1 => zbranch_idB (by rw [trOf_no]; exact h1))
  refine ⟨?_, H.2⟩
  intro r c h h' hr hc hCr hl hl' hs hs' hx hcap hcap'
  obtain ⟨bs, h1, h3, h2⟩ := H.1 r c hr hc
  rw [h2, hCr]
  refine entry_sum hT hnb hfold hl hl' hs hs' (fun t ht => ?_) hcap hcap' h1 h3
  have hx := hx t ht
  unfold zopEl at hx ⊢
  rw [trOf_no, trOf_no] at hx ⊢
  exact zbranch_terms hok rfl hx

/-- **C47** (nothing to do). -/
theorem C47_nothing (T : Tune) (fold : Nat) (b : GemmB) (g : Int → Flt × Flt) (ga gb : Nat → Nat → Nat → Int → Flt × Flt) (Order TransA TransB : Char) (M N K : Nat)
    (alpha : Flt × Flt) (A : Int → Flt × Flt) (lda : Int) (B : Int → Flt × Flt) (ldb : Int) (C : Int → Binned × Binned) (ldc : Int)
    (h : M = 0 ∨ N = 0 ∨ K = 0 ∨ zzero alpha = true) : F.zgemm T fold b g ga gb Order TransA TransB M N K alpha A lda B ldb C ldc = C := by
  unfold zgemm
  dsimp only
  rw [if_pos h]

end Repro
