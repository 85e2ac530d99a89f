import Verif.ZGemm
import Verif.PropsZDot
import Verif.PropsGemm3
/-!
# Lemmas on the complex matrix products
-/

namespace Repro
open Fmt
variable {F : Fmt}

/-! ### Signs of products -/

theorem mul_fneg_right {x y : Flt} (h : F.isNaN (F.mul x y) = false) : F.mul x (fneg y) = fneg (F.mul x y) := by
  have e1 : F.isNaN (fneg y) = F.isNaN y := rfl
  have e2 : F.isInf (fneg y) = F.isInf y := rfl
  have e3 : (fneg y).mag = y.mag := rfl
  have e4 : (fneg y).neg = !y.neg := rfl
  have hnan : F.isNaN F.nan = true := by unfold isNaN nan; simp
  unfold mul at h ⊢
  rw [e1, e2, e3, e4]
  cases hn : F.isNaN x || F.isNaN y
  · rw [hn] at h
    simp only [Bool.false_eq_true, if_false] at h ⊢
    cases hi : F.isInf x || F.isInf y
    · simp only [Bool.false_eq_true, if_false]
      unfold fneg
      dsimp only
      cases x.neg <;> cases y.neg <;> rfl
    · rw [hi] at h
      simp only [if_true] at h ⊢
      split
      · next h0 => rw [if_pos h0, hnan] at h; cases h
      · unfold fneg
        dsimp only
        cases x.neg <;> cases y.neg <;> rfl
  · rw [hn] at h
    simp only [if_true] at h
    rw [hnan] at h; cases h

theorem mul_fneg_left {x y : Flt} (h : F.isNaN (F.mul x y) = false) : F.mul (fneg x) y = fneg (F.mul x y) := by
  rw [mul_comm_all, mul_fneg_right (by rw [mul_comm_all]; exact h), mul_comm_all]

theorem fneg_fneg (x : Flt) : fneg (fneg x) = x := by
  unfold fneg; cases x; simp

theorem nan_mul_fneg {x y : Flt} (h : F.isNaN (F.mul x y) = true) : F.isNaN (F.mul (fneg x) y) = true := by
  cases h' : F.isNaN (F.mul (fneg x) y)
  · have := mul_fneg_left h'
    rw [fneg_fneg] at this
    rw [this] at h
    rw [← h']; exact h.symm ▸ rfl
  · rfl

theorem add_nan_rightZ {x y : Flt} (h : F.isNaN y = true) : F.add x y = F.nan := by
  unfold add; rw [h, Bool.or_true]; rfl

/-- Scaling the conjugate. -/
theorem zsclC_eq (alpha x : Flt × Flt) : F.zsclC alpha x = F.zscl alpha (zconj x) := by
  unfold zsclC zscl zconj
  dsimp only
  refine Prod.ext ?_ ?_
  · dsimp only
    unfold sub
    cases h : F.isNaN (F.mul x.2 alpha.2)
    · rw [mul_fneg_left h, fneg_fneg]
    · rw [add_nan_rightZ h, add_nan_rightZ (y := fneg _) (nan_mul_fneg h)]
  · dsimp only
    unfold sub
    cases h : F.isNaN (F.mul x.2 alpha.1)
    · rw [mul_fneg_left h]
    · rw [add_nan_rightZ (nan_mul_fneg h), add_nan_rightZ (y := fneg _) h]

/-! ### What the property is about -/

/-- The two products that the complex product of `a` and `b` contributes to the real part. -/
def cmulRe (F : Fmt) (a b : Flt × Flt) : List Flt := [F.mul a.1 b.1, fneg (F.mul a.2 b.2)]
/-- And to the imaginary part. -/
def cmulIm (F : Fmt) (a b : Flt × Flt) : List Flt := [F.mul a.1 b.2, F.mul a.2 b.1]

/-- The element, or its conjugate for the conjugate transposed. -/
def cjIf (t : Tr) (x : Flt × Flt) : Flt × Flt := if t = .cj then (x.1, fneg x.2) else x

/-- Element `(r, c)` of op(A): A, its transpose, or its conjugate transpose. -/
def zopEl (row : Bool) (t : Tr) (A : Int → Flt × Flt) (lda : Int) (r c : Nat) : Flt × Flt :=
  cjIf t (opEl row (t == .no) A lda r c)

/-- `alpha * x`, `x` itself if `alpha` is one. -/
def alphaMul (F : Fmt) (alpha x : Flt × Flt) : Flt × Flt :=
  if F.feq alpha.1 F.one && isZero alpha.2 then x
  else (F.sub (F.mul x.1 alpha.1) (F.mul x.2 alpha.2), F.add (F.mul x.1 alpha.2) (F.mul x.2 alpha.1))

theorem alphaMul_eq (alpha : Flt × Flt) : alphaMul F alpha = if F.zunit alpha then id else F.zscl alpha := by
  funext x
  unfold alphaMul zunit one zscl
  split <;> rfl

theorem trOf_no (c : Char) : (trOf c == .no) = isNo c := by
  unfold trOf
  cases isNo c
  · simp only [Bool.false_eq_true, if_false]; split <;> rfl
  · rfl

/-! ### The dot product calls -/

/-- The numbers a dot product call adds to the real part. -/
def prsRe (F : Fmt) (conj : Bool) (prs : List ((Flt × Flt) × (Flt × Flt))) : List Flt :=
  prs.flatMap (fun p => [(dotRe F conj p.1 p.2).1, (dotRe F conj p.1 p.2).2])
/-- And to the imaginary part. -/
def prsIm (F : Fmt) (conj : Bool) (prs : List ((Flt × Flt) × (Flt × Flt))) : List Flt :=
  prs.flatMap (fun p => [(dotIm F conj p.1 p.2).1, (dotIm F conj p.1 p.2).2])

theorem length_flatMap2 {γ : Type} (f g : γ → Flt) : ∀ l : List γ, (l.flatMap (fun a => [f a, g a])).length = 2 * l.length
  | [] => rfl
  | a :: l => by rw [List.flatMap_cons, List.length_append, length_flatMap2 f g l]; show 2 + 2 * l.length = 2 * (l.length + 1); omega

theorem prsRe_finite {conj : Bool} {prs : List ((Flt × Flt) × (Flt × Flt))} (h : ∀ p ∈ prs, DotFinite F p.1 p.2) : ∀ x ∈ prsRe F conj prs, F.Finite x := by
  intro x hx
  obtain ⟨p, hp, hxp⟩ := List.mem_flatMap.1 hx
  have := (h p hp).re (conj := conj)
  rcases List.mem_cons.1 hxp with rfl | hxi
  · exact this.1
  · rw [List.mem_singleton] at hxi; subst hxi; exact this.2

theorem prsIm_finite {conj : Bool} {prs : List ((Flt × Flt) × (Flt × Flt))} (h : ∀ p ∈ prs, DotFinite F p.1 p.2) : ∀ x ∈ prsIm F conj prs, F.Finite x := by
  intro x hx
  obtain ⟨p, hp, hxp⟩ := List.mem_flatMap.1 hx
  have := (h p hp).im (conj := conj)
  rcases List.mem_cons.1 hxp with rfl | hxi
  · exact this.1
  · rw [List.mem_singleton] at hxi; subst hxi; exact this.2

theorem dotZ_eq [F.OK] {conj : Bool} {T : Tune} (hT : T.OK F) {prs : List ((Flt × Flt) × (Flt × Flt))} (hnb : 2 * min T.nb prs.length ≤ F.endurance) {fold : Nat}
    (hfold : 2 ≤ fold) {h g : Hist} (hl : h.Legal F) (gl : g.Legal F) (hs : h.Settled) (gs : g.Settled) (hx : ∀ p ∈ prs, DotFinite F p.1 p.2)
    (hN : 2 * prs.length + h.nums.length ≤ F.capacity) (gN : 2 * prs.length + g.nums.length ≤ F.capacity) :
    F.dotZ T fold conj prs (h.eval F fold, g.eval F fold) =
      (F.sumSeq fold (prsRe F conj prs) (h.eval F fold), F.sumSeq fold (prsIm F conj prs) (g.eval F fold)) := by
  have gen : ∀ (O : ZOp ((Flt × Flt) × (Flt × Flt))), O.OK → O.e = 2 →
      (∀ p ∈ prs, O.fR p 0 = (dotRe F conj p.1 p.2).1 ∧ O.fR p 1 = (dotRe F conj p.1 p.2).2 ∧
        O.fI p 0 = (dotIm F conj p.1 p.2).1 ∧ O.fI p 1 = (dotIm F conj p.1 p.2).2) →
      F.zvecSum T fold O prs (h.eval F fold, g.eval F fold) =
        (F.sumSeq fold (prsRe F conj prs) (h.eval F fold), F.sumSeq fold (prsIm F conj prs) (g.eval F fold)) := by
    intro O hO he hf
    have eR : partNums O.e O.fR prs = prsRe F conj prs := by
      rw [he, partNums_two]
      apply List.flatMap_congr
      intro p hp
      rw [(hf p hp).1, (hf p hp).2.1]
    have eI : partNums O.e O.fI prs = prsIm F conj prs := by
      rw [he, partNums_two]
      apply List.flatMap_congr
      intro p hp
      rw [(hf p hp).2.2.1, (hf p hp).2.2.2]
    refine Prod.ext ?_ ?_
    · have := zvecSum_re hT hO (by rw [he]; exact hnb) hfold hl (es := prs) (fun _ => hs) (by rw [eR]; exact prsRe_finite hx)
        (by rw [partNums_length, he]; exact hN) (g.eval F fold)
      rw [this, eR]
    · have := zvecSum_im hT hO (by rw [he]; exact hnb) hfold gl (es := prs) (fun _ => gs) (by rw [eI]; exact prsIm_finite hx)
        (by rw [partNums_length, he]; exact gN) (h.eval F fold)
      rw [this, eI]
  unfold dotZ
  cases conj with
  | true =>
    rw [if_pos rfl]
    refine gen (F.dotcOp T) (dotcOp_ok T) rfl (fun p hp => ⟨rfl, rfl, ?_, rfl⟩)
    exact flip_eq (hx p hp).2.2.1
  | false =>
    rw [if_neg (by decide)]
    refine gen (F.dotuOp T) (dotuOp_ok T) rfl (fun p hp => ⟨rfl, ?_, rfl, rfl⟩)
    exact flip_eq (hx p hp).2.1

/-- Consecutive calls on blocks. -/
theorem blocks_cplx [F.OK] {conj : Bool} {T : Tune} (hT : T.OK F) {fold : Nat} (hfold : 2 ≤ fold) :
    ∀ (bs : List (List ((Flt × Flt) × (Flt × Flt)))) {h g : Hist}, (∀ b ∈ bs, 2 * min T.nb b.length ≤ F.endurance) → h.Legal F → g.Legal F → h.Settled → g.Settled →
    (∀ p ∈ bs.flatten, DotFinite F p.1 p.2) → 2 * bs.flatten.length + h.nums.length ≤ F.capacity → 2 * bs.flatten.length + g.nums.length ≤ F.capacity →
    bs.foldl (fun z b => F.dotZ T fold conj b z) (h.eval F fold, g.eval F fold) =
      (F.sumSeq fold (prsRe F conj bs.flatten) (h.eval F fold), F.sumSeq fold (prsIm F conj bs.flatten) (g.eval F fold))
  | [], _, _, _, _, _, _, _, _, _, _ => rfl
  | b :: bs, h, g, hnb, hl, gl, hs, gs, hx, hN, gN => by
    rw [List.flatten_cons] at hx hN gN ⊢
    rw [List.length_append] at hN gN
    have hxb : ∀ p ∈ b, DotFinite F p.1 p.2 := fun p hp => hx p (List.mem_append_left _ hp)
    have lR : (prsRe F conj b).length = 2 * b.length := length_flatMap2 _ _ b
    have lI : (prsIm F conj b).length = 2 * b.length := length_flatMap2 _ _ b
    rw [List.foldl_cons, dotZ_eq hT (hnb b List.mem_cons_self) hfold hl gl hs gs hxb (by omega) (by omega), ← ofList_eval, ← ofList_eval,
      blocks_cplx hT hfold bs (fun b' hb' => hnb b' (List.mem_cons_of_mem _ hb')) (ofList_legal (prsRe_finite hxb) hl) (ofList_legal (prsIm_finite hxb) gl) (ofList_settled _ (fun _ => hs)) (ofList_settled _ (fun _ => gs))
        (fun p hp => hx p (List.mem_append_right _ hp)) (by rw [ofList_nums, List.length_append, List.length_reverse, lR]; omega)
        (by rw [ofList_nums, List.length_append, List.length_reverse, lI]; omega), ofList_eval, ofList_eval]
    unfold prsRe prsIm sumSeq
    rw [List.flatMap_append, List.flatMap_append, List.foldl_append, List.foldl_append]

/-- Sums started from a settled history do not depend on the order. -/
theorem sumSeq_perm [F.OK] {fold : Nat} (hfold : 2 ≤ fold) {xs ys : List Flt} (hp : xs.Perm ys) {h : Hist} (hl : h.Legal F) (hs : h.Settled)
    (hx : ∀ x ∈ xs, F.Finite x) (hN : xs.length + h.nums.length ≤ F.capacity) : F.sumSeq fold xs (h.eval F fold) = F.sumSeq fold ys (h.eval F fold) := by
  rw [ofList_spec hfold hx hl hN (fun _ => hs), ofList_spec hfold (fun x hx' => hx x (hp.mem_iff.2 hx')) hl (by rw [← hp.length_eq]; exact hN) (fun _ => hs)]
  refine hist_spec_congr ?_ ?_
  · rw [ofList_nums, ofList_nums]
    exact ((List.reverse_perm xs).trans (hp.trans (List.reverse_perm ys).symm)).append_right _
  · rw [ofList_seen, ofList_seen]
    exact ((List.reverse_perm xs).trans (hp.trans (List.reverse_perm ys).symm)).append_right _

/-! ### The loops of the matrix-vector product -/

section
variable {α β : Type}

theorem gemvN_eq (dot : List (α × α) → β → β) (unit : Bool) (scl : α → α) {b : GemvB} (hb : b.OK) (gx : Int → α)
    (M N : Nat) (A : Int → α) (lda : Int) (X : Int → α) (incX : Int) (Y : Int → β) {incY : Int} (hY : incY ≠ 0) :
    (∀ r : Nat, r < M → ∃ bs : List (List (α × α)),
      bs.flatten = (List.range N).map (fun c : Nat => (A (r * lda + c), (if unit then id else scl) (X (c * incX)))) ∧
      (∀ s ∈ bs, s.length ≤ min N b.x) ∧
      gemvN dot b M N A lda (scaleX unit scl N X incX gx).1 (scaleX unit scl N X incX gx).2 incY Y (r * incY)
        = bs.foldl (fun z b => dot b z) (Y (r * incY))) ∧
      ∀ l : Int, (∀ r : Nat, r < M → (r : Int) * incY ≠ l) →
        gemvN dot b M N A lda (scaleX unit scl N X incX gx).1 (scaleX unit scl N X incX gx).2 incY Y l = Y l := by
  have hloc : ∀ r c r' c' : Nat, r < M → c < 1 → r' < M → c' < 1 → (r : Int) * incY = r' * incY → r = r' ∧ c = c' := by
    intro r c r' c' _ hc _ hc' h
    have := Int.eq_of_mul_eq_mul_right hY h
    omega
  rw [gemvN_tiles]
  refine ⟨fun r hr => ?_, fun l hl => tiles_frame _ _ _ (fun r _ hr _ => hl r hr)⟩
  refine tiles_blocks dot (pos_of_pow hb.y) (Nat.le_refl 1) (pos_of_pow hb.x) hloc _ Y hr (Nat.zero_lt_one) ?_
  intro i j k _ _ _ _ hk
  apply pairs_block
  intro t ht
  unfold ptr
  congr 1
  · congr 1; push_cast; ring
  · rw [← scaleX_spec unit scl N X incX gx (show k + t < N by omega)]
    exact congrArg _ (by push_cast; ring)

theorem gemvT_eq (dot : List (α × α) → β → β) (unit : Bool) (scl : α → α) {b : GemvB} (hb : b.OK) (gx : Int → α) (g : Nat → Nat → Int → α)
    (M N : Nat) (A : Int → α) (lda : Int) (X : Int → α) (incX : Int) (Y : Int → β) {incY : Int} (hY : incY ≠ 0) :
    (∀ r : Nat, r < N → ∃ bs : List (List (α × α)),
      bs.flatten = (List.range M).map (fun c : Nat => (A (c * lda + r), (if unit then id else scl) (X (c * incX)))) ∧
      (∀ s ∈ bs, s.length ≤ min M b.xt) ∧
      gemvT dot b M N A lda (scaleX unit scl M X incX gx).1 (scaleX unit scl M X incX gx).2 incY g Y (r * incY)
        = bs.foldl (fun z b => dot b z) (Y (r * incY))) ∧
      ∀ l : Int, (∀ r : Nat, r < N → (r : Int) * incY ≠ l) →
        gemvT dot b M N A lda (scaleX unit scl M X incX gx).1 (scaleX unit scl M X incX gx).2 incY g Y l = Y l := by
  have hloc : ∀ r c r' c' : Nat, r < N → c < 1 → r' < N → c' < 1 → (r : Int) * incY = r' * incY → r = r' ∧ c = c' := by
    intro r c r' c' _ hc _ hc' h
    have := Int.eq_of_mul_eq_mul_right hY h
    omega
  rw [gemvT_tiles]
  refine ⟨fun r hr => ?_, fun l hl => tiles_frame _ _ _ (fun r _ hr _ => hl r hr)⟩
  refine tiles_blocks dot (pos_of_pow hb.yt) (Nat.le_refl 1) (pos_of_pow hb.xt) hloc _ Y hr (Nat.zero_lt_one) ?_
  intro i j k hi1 hi2 _ _ hk
  apply pairs_block
  intro t ht
  unfold ptr
  congr 1
  · have := packT_spec hb (M := M) (N := N) (i := i) (j := k) A lda (g i k) (u := r - i) (v := t) (by omega) (by omega) (by omega) (by omega)
    rw [Int.mul_one, this, show i + (r - i) = r by omega]
  · rw [← scaleX_spec unit scl M X incX gx (show k + t < M by omega)]
    exact congrArg _ (by push_cast; ring)

end

/-- The longest dot product call of a matrix-vector product: `X_BLOCK` if the rows of op(A) are contiguous, `XT_BLOCK` if they are copied. -/
def gemvTile (b : GemvB) (Order TransA : Char) : Nat := if isRow Order == isNo TransA then b.x else b.xt

/-- The longest dot product call of a matrix-matrix product: `X_BLOCK` if neither operand is copied, `XT_BLOCK` otherwise. -/
def gemmTile (b : GemmB) (Order TransA TransB : Char) : Nat := if (isRow Order != isNo TransA) || (isRow Order == isNo TransB) then b.xt else b.x

theorem zgemv_eq {T : Tune} {fold : Nat} {b : GemvB} (hb : b.OK) (gx : Int → Flt × Flt) (g : Nat → Nat → Int → Flt × Flt) (Order TransA : Char) {M N : Nat}
    (hM : M ≠ 0) (hN : N ≠ 0) {alpha : Flt × Flt} (ha : zzero alpha = false) (A : Int → Flt × Flt) (lda : Int) (X : Int → Flt × Flt) (incX : Int)
    (Y : Int → Binned × Binned) {incY : Int} (hY : incY ≠ 0) (hok : isRow Order = true ∨ trOf TransA ≠ .cj ∨ M = N) :
    (∀ r : Nat, r < (if isNo TransA then M else N) → ∃ bs : List (List ((Flt × Flt) × (Flt × Flt))),
      bs.flatten = (List.range (if isNo TransA then N else M)).map (fun c : Nat =>
        (opEl (isRow Order) (isNo TransA) A lda r c, alphaMul F alpha (X (c * incX)))) ∧
      (∀ s ∈ bs, s.length ≤ min (if isNo TransA then N else M) (gemvTile b Order TransA)) ∧
      F.zgemv T fold b gx g Order TransA M N alpha A lda X incX Y incY (r * incY) =
        bs.foldl (fun z b => F.dotZ T fold (decide (trOf TransA = .cj)) b z) (Y (r * incY))) ∧
    (∀ l : Int, (∀ r : Nat, r < (if isNo TransA then M else N) → (r : Int) * incY ≠ l) →
      F.zgemv T fold b gx g Order TransA M N alpha A lda X incX Y incY l = Y l) := by
  have ht := trOf_no TransA
  unfold zgemv gemvTile
  dsimp only
  rw [ha]
  simp only [Bool.false_eq_true, or_false]
  rw [if_neg (show ¬ (M = 0 ∨ N = 0) by simp [hM, hN])]
  rw [alphaMul_eq]
  have hn1 : (Tr.no == Tr.no) = true := rfl
  have hn2 : (Tr.tr == Tr.no) = false := rfl
  have hn3 : (Tr.cj == Tr.no) = false := rfl
  cases hO : isRow Order <;> cases hT : trOf TransA <;> rw [hT] at ht hok <;> simp only [hn1, hn2, hn3] at ht <;> rw [← ht] <;>
    simp only [↓reduceIte, Bool.false_eq_true, hM, hN, or_self, reduceCtorEq, decide_false, decide_true]
  · exact gemvT_eq _ _ _ hb gx g N M A lda X incX Y hY
  · exact gemvN_eq _ _ _ hb gx N M A lda X incX Y hY
  · have hMN : M = N := by
      rcases hok with h | h | h
      · rw [hO] at h; cases h
      · exact absurd rfl h
      · exact h
    subst hMN
    exact gemvN_eq _ _ _ hb gx M M A lda X incX Y hY
  · exact gemvN_eq _ _ _ hb gx M N A lda X incX Y hY
  · exact gemvT_eq _ _ _ hb gx g M N A lda X incX Y hY
  · exact gemvT_eq _ _ _ hb gx g M N A lda X incX Y hY

/-! ### The loops of the matrix-matrix product -/

theorem zgemm_eq {T : Tune} {fold : Nat} {b : GemmB} (hb : b.OK) (g : Int → Flt × Flt) (ga gb : Nat → Nat → Nat → Int → Flt × Flt)
    (Order TransA TransB : Char) {M N K : Nat} (hK : K ≠ 0) {alpha : Flt × Flt} (ha : zzero alpha = false) (A : Int → Flt × Flt) (lda : Int)
    (B : Int → Flt × Flt) (ldb : Int) (C : Int → Binned × Binned) {ldc : Nat} (hC : (if isRow Order then N else M) ≤ ldc)
    {br : ZBranch} (hbr : F.zbranch (isRow Order) (trOf TransA) (trOf TransB) alpha = br) (hu : isRow Order = isNo TransA → F.zunit alpha = true → br.fA = id)
    (hfB : (isRow Order == isNo TransB) = false → br.fB = id) :
    (∀ r c : Nat, r < M → c < N → ∃ bs : List (List ((Flt × Flt) × (Flt × Flt))),
      bs.flatten = (List.range K).map (fun t : Nat =>
        let a := br.fA (opEl (isRow Order) (isNo TransA) A lda r t)
        let bb := br.fB (opEl (isRow Order) (isNo TransB) B ldb t c)
        if br.swap then (bb, a) else (a, bb)) ∧
      (∀ s ∈ bs, s.length ≤ min K (gemmTile b Order TransA TransB)) ∧
      F.zgemm T fold b g ga gb Order TransA TransB M N K alpha A lda B ldb C ldc (entryAt (isRow Order) ldc r c)
        = bs.foldl (fun z b => F.dotZ T fold br.conj b z) (C (entryAt (isRow Order) ldc r c))) ∧
    (∀ l : Int, (∀ r c : Nat, r < M → c < N → entryAt (isRow Order) ldc r c ≠ l) →
      F.zgemm T fold b g ga gb Order TransA TransB M N K alpha A lda B ldb C ldc l = C l) := by
  have h1 := hb.y
  have h2 := hb.x
  have h3 := hb.yt
  have h4 := hb.xt
  by_cases hMN : M = 0 ∨ N = 0
  · refine ⟨fun r c hr hc => by omega, fun l _ => ?_⟩
    unfold zgemm
    dsimp only
    rw [if_pos (show M = 0 ∨ N = 0 ∨ K = 0 ∨ zzero alpha = true by rcases hMN with h | h <;> simp [h])]
  have eloc : ∀ r c : Nat, entryAt (isRow Order) ldc r c = if isRow Order then (r : Int) * (ldc : Int) + c else (c : Int) * (ldc : Int) + r := by
    intro r c
    cases isRow Order <;> rfl
  have hloc : ∀ r c r' c' : Nat, r < M → c < N → r' < M → c' < N → (if isRow Order then (r : Int) * (ldc : Int) + c else (c : Int) * (ldc : Int) + r)
      = (if isRow Order then (r' : Int) * (ldc : Int) + c' else (c' : Int) * (ldc : Int) + r') → r = r' ∧ c = c' := by
    intro r c r' c' hr hc hr' hc' h
    cases hO : isRow Order
    · rw [hO] at h hC
      simp only [Bool.false_eq_true, if_false] at h hC
      have := idx_inj (w := ldc) (u := c) (v := r) (u' := c') (v' := r') (by omega) (by omega) h
      exact ⟨this.2, this.1⟩
    · rw [hO] at h hC
      simp only [if_true] at h hC
      exact idx_inj (by omega) (by omega) h
  unfold zgemm gemmTile
  dsimp only
  rw [hbr, if_neg (show ¬ (M = 0 ∨ N = 0 ∨ K = 0 ∨ zzero alpha = true) by rw [ha]; simp [hK]; omega)]
  refine ⟨fun r c hr hc => ?_, fun l hl => tiles_frame _ _ _ (fun r c hr hc => by rw [← eloc]; exact hl r c hr hc)⟩
  rw [eloc]
  refine tiles_blocks (F.dotZ T fold br.conj) ?_ ?_ ?_ hloc _ C hr hc ?_
  · split <;> assumption
  · split <;> assumption
  · split <;> assumption
  intro i j k hi1 hi2 hj1 hj2 hk
  -- the operands
  have hopA : ∀ t : Nat, t < min (if (isRow Order != isNo TransA) || (isRow Order == isNo TransB) then b.xt else b.x) (K - k) →
      (if (isRow Order != isNo TransA) = true then ptr (pack b.xt b.yt br.fA K M k i A lda (ga i j k)) ((r - i : Nat) * (b.xt : Int))
        else ptr (scaleA (F.zunit alpha) br.fA M K A lda g).1 (r * (scaleA (F.zunit alpha) br.fA M K A lda g).2 + k)) ((t : Int) * 1)
      = br.fA (opEl (isRow Order) (isNo TransA) A lda r (k + t)) := by
    intro t ht
    cases hp : isRow Order != isNo TransA
    · have he : isRow Order = isNo TransA := by simpa using hp
      rw [if_neg (by decide)]
      have e1 : ptr (scaleA (F.zunit alpha) br.fA M K A lda g).1 (r * (scaleA (F.zunit alpha) br.fA M K A lda g).2 + k) ((t : Int) * 1)
          = (scaleA (F.zunit alpha) br.fA M K A lda g).1 (r * (scaleA (F.zunit alpha) br.fA M K A lda g).2 + (k + t : Nat)) := by
        unfold ptr; exact congrArg _ (by push_cast; ring)
      rw [e1, scaleA_spec _ _ _ _ _ _ _ hr (show k + t < K by omega)]
      have e2 : (if F.zunit alpha then id else br.fA) = br.fA := by
        cases h : F.zunit alpha
        · rfl
        · exact (hu he h).symm
      rw [e2, he]
      unfold opEl
      rw [if_pos (by simp)]
    · rw [if_pos rfl]
      have e1 := pack_spec (xt := b.xt) (yt := b.yt) br.fA (K := K) (M := M) (k := k) (i := i) A lda (ga i j k) (u := r - i) (v := t)
        (by rw [hp] at hi2; simp only [if_true] at hi2; omega) (by omega) (by rw [hp] at ht; simp only [Bool.true_or, if_true] at ht; omega) (by omega)
      unfold ptr
      rw [Int.mul_one, e1, show i + (r - i) = r by omega]
      unfold opEl
      rw [if_neg (by simp only [bne_iff_ne, ne_eq] at hp; simpa using hp)]
  have hopB : ∀ t : Nat, t < min (if (isRow Order != isNo TransA) || (isRow Order == isNo TransB) then b.xt else b.x) (K - k) →
      (if (isRow Order == isNo TransB) = true then ptr (pack b.xt b.yt br.fB K N k j B ldb (gb i j k)) ((c - j : Nat) * (b.xt : Int))
        else ptr B (c * ldb + k)) ((t : Int) * 1)
      = br.fB (opEl (isRow Order) (isNo TransB) B ldb (k + t) c) := by
    intro t ht
    cases hp : isRow Order == isNo TransB
    · rw [if_neg (by decide), hfB hp]
      unfold ptr opEl
      rw [hp]
      simp only [Bool.false_eq_true, if_false, id]
      exact congrArg B (by push_cast; ring)
    · rw [if_pos rfl]
      have e1 := pack_spec (xt := b.xt) (yt := b.yt) br.fB (K := K) (M := N) (k := k) (i := j) B ldb (gb i j k) (u := c - j) (v := t)
        (by rw [hp] at hj2; simp only [if_true] at hj2; omega) (by omega) (by rw [hp] at ht; simp only [Bool.or_true, if_true] at ht; omega) (by omega)
      unfold ptr
      rw [Int.mul_one, e1, show j + (c - j) = c by omega]
      unfold opEl
      rw [hp, if_pos rfl]
  cases hsw : br.swap
  · simp only [Bool.false_eq_true, if_false]
    apply pairs_block
    intro t ht
    rw [hopA t ht, hopB t ht]
  · simp only [if_true]
    apply pairs_block
    intro t ht
    rw [hopA t ht, hopB t ht]

end Repro
