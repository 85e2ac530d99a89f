import Verif.GemmLemmas
import Verif.PropsVec
/-!
# C24, C25, C26: matrix products
-/

namespace Repro
open Fmt
variable {α β : Type}

/-- Element `(r, c)` of op(A), for a matrix stored with leading dimension `lda` (`row`: row-major, `no`: not transposed). -/
def opEl (row no : Bool) (A : Int → α) (lda : Int) (r c : Nat) : α :=
  if row == no then A (r * lda + c) else A (c * lda + r)

theorem steps01 : steps 0 1 1 = [0] := rfl

theorem gemvN_tiles (dot : List (α × α) → β → β) (b : GemvB) (M N : Nat) (A : Int → α) (lda : Int) (bufX : Int → α) (incbufX : Int)
    (incY : Int) (Y : Int → β) : gemvN dot b M N A lda bufX incbufX incY Y =
    tiles dot b.y 1 b.x M 1 N false (fun ii _ => ii * incY) (fun _ _ j ii _ =>
      pairs (min b.x (N - j)) (ptr A (ii * lda + j)) 1 (ptr bufX (j * incbufX)) incbufX) Y := by
  unfold gemvN tiles forS
  rfl

theorem gemvT_tiles (dot : List (α × α) → β → β) (b : GemvB) (M N : Nat) (A : Int → α) (lda : Int) (bufX : Int → α) (incbufX : Int)
    (incY : Int) (g : Nat → Nat → Int → α) (Y : Int → β) : gemvT dot b M N A lda bufX incbufX incY g Y =
    tiles dot b.yt 1 b.xt N 1 M false (fun ii _ => ii * incY) (fun i _ j ii _ =>
      pairs (min b.xt (M - j)) (ptr (packT b M N i j A lda (g i j)) ((ii - i : Nat) * (b.xt : Int))) 1 (ptr bufX (j * incbufX)) incbufX) Y := by
  unfold gemvT tiles forS
  rfl

/-- One row of the matrix-vector product: the dot product calls, put together, cover the row exactly once, in order. -/
theorem gemv_eq (dot : List (α × α) → β → β) (unit : Bool) (scl : α → α) {b : GemvB} (hb : b.OK) (gx : Int → α) (g : Nat → Nat → Int → α)
    (Order TransA : Char) {M N : Nat} (hM : M ≠ 0) (hN : N ≠ 0) (A : Int → α) (lda : Int) (X : Int → α) (incX : Int) (Y : Int → β)
    {incY : Int} (hY : incY ≠ 0) :
    (∀ r : Nat, r < (if isNo TransA then M else N) → ∃ bs : List (List (α × α)),
      bs.flatten = (List.range (if isNo TransA then N else M)).map (fun c : Nat =>
        (opEl (isRow Order) (isNo TransA) A lda r c, (if unit then id else scl) (X (c * incX)))) ∧
      gemv dot false unit scl b gx g Order TransA M N A lda X incX Y incY (r * incY) = bs.foldl (fun z b => dot b z) (Y (r * incY))) ∧
    (∀ l : Int, (∀ r : Nat, r < (if isNo TransA then M else N) → (r : Int) * incY ≠ l) →
      gemv dot false unit scl b gx g Order TransA M N A lda X incX Y incY l = Y l) := by
  have hloc : ∀ R r c r' c' : Nat, r < R → c < 1 → r' < R → c' < 1 → (r : Int) * incY = r' * incY → r = r' ∧ c = c' := by
    intro R r c r' c' _ hc _ hc' h
    have := Int.eq_of_mul_eq_mul_right hY h
    omega
  have rowN : ∀ M N : Nat, N ≠ 0 → ((∀ r : Nat, r < M → ∃ bs : List (List (α × α)),
      bs.flatten = (List.range N).map (fun c : Nat => (A (r * lda + c), (if unit then id else scl) (X (c * incX)))) ∧
      gemvN dot b M N A lda (scaleX unit scl N X incX gx).1 (scaleX unit scl N X incX gx).2 incY Y (r * incY)
        = bs.foldl (fun z b => dot b z) (Y (r * incY))) ∧
      ∀ l : Int, (∀ r : Nat, r < M → (r : Int) * incY ≠ l) →
        gemvN dot b M N A lda (scaleX unit scl N X incX gx).1 (scaleX unit scl N X incX gx).2 incY Y l = Y l) := by
    intro M N hN
    rw [gemvN_tiles]
    refine ⟨fun r hr => ?_, fun l hl => tiles_frame _ _ _ (fun r _ hr _ => hl r hr)⟩
    refine tiles_eq dot (pos_of_pow hb.y) (Nat.le_refl 1) (pos_of_pow hb.x) (hloc M) _ Y hr (Nat.zero_lt_one) ?_
    intro i j k _ _ _ _ hk
    apply pairs_block
    intro t ht
    unfold ptr
    congr 1
    · congr 1; push_cast; ring
    · rw [← scaleX_spec unit scl N X incX gx (show k + t < N by omega)]
      congr 1; push_cast; ring
  have rowT : ∀ M N : Nat, M ≠ 0 → ((∀ r : Nat, r < N → ∃ bs : List (List (α × α)),
      bs.flatten = (List.range M).map (fun c : Nat => (A (c * lda + r), (if unit then id else scl) (X (c * incX)))) ∧
      gemvT dot b M N A lda (scaleX unit scl M X incX gx).1 (scaleX unit scl M X incX gx).2 incY g Y (r * incY)
        = bs.foldl (fun z b => dot b z) (Y (r * incY))) ∧
      ∀ l : Int, (∀ r : Nat, r < N → (r : Int) * incY ≠ l) →
        gemvT dot b M N A lda (scaleX unit scl M X incX gx).1 (scaleX unit scl M X incX gx).2 incY g Y l = Y l) := by
    intro M N hN
    rw [gemvT_tiles]
    refine ⟨fun r hr => ?_, fun l hl => tiles_frame _ _ _ (fun r _ hr _ => hl r hr)⟩
    refine tiles_eq dot (pos_of_pow hb.yt) (Nat.le_refl 1) (pos_of_pow hb.xt) (hloc N) _ Y hr (Nat.zero_lt_one) ?_
    intro i j k hi1 hi2 _ _ hk
    apply pairs_block
    intro t ht
    unfold ptr
    congr 1
    · have := packT_spec hb (M := M) (N := N) (i := i) (j := k) A lda (g i k) (u := r - i) (v := t) (by omega) (by omega) (by omega) (by omega)
      rw [Int.mul_one, this, show i + (r - i) = r by omega]
    · rw [← scaleX_spec unit scl M X incX gx (show k + t < M by omega)]
      congr 1; push_cast; ring
  unfold gemv
  simp only [Bool.false_eq_true, or_false]
  rw [if_neg (show ¬ (M = 0 ∨ N = 0) by simp [hM, hN])]
  cases hO : isRow Order <;> cases hT : isNo TransA <;> simp only [↓reduceIte, Bool.false_eq_true, hM, hN, or_self]
  · exact rowN N M hM
  · exact rowT N M hN
  · exact rowT M N hM
  · exact rowN M N hN

/-- Block sizes of the matrix-matrix product as the tuner may choose them. -/
structure GemmB.OK (b : GemmB) : Prop where
  y : 1 ≤ b.y
  xy : b.y ≤ b.xy
  yt : 1 ≤ b.yt
  xyt : b.yt ≤ b.xyt

theorem GemmB.OK.x {b : GemmB} (h : b.OK) : 1 ≤ b.x := (Nat.le_div_iff_mul_le h.y).2 (by have := h.xy; omega)
theorem GemmB.OK.xt {b : GemmB} (h : b.OK) : 1 ≤ b.xt := (Nat.le_div_iff_mul_le h.yt).2 (by have := h.xyt; omega)

/-- One entry of the matrix-matrix product: the dot product calls, put together, cover row and column exactly once, in order. -/
theorem gemm_eq (dot : List (α × α) → β → β) (unit : Bool) (scl : α → α) {b : GemmB} (hb : b.OK) (g : Int → α) (ga gb : Nat → Nat → Nat → Int → α)
    (Order TransA TransB : Char) {M N K : Nat} (hK : K ≠ 0) (A : Int → α) (lda : Int) (B : Int → α) (ldb : Int) (C : Int → β)
    {ldc : Nat} (hC : (if isRow Order then N else M) ≤ ldc) :
    (∀ r c : Nat, r < M → c < N → ∃ bs : List (List (α × α)),
      bs.flatten = (List.range K).map (fun t : Nat =>
        ((if unit then id else scl) (opEl (isRow Order) (isNo TransA) A lda r t), opEl (isRow Order) (isNo TransB) B ldb t c)) ∧
      gemm dot false unit scl b g ga gb Order TransA TransB M N K A lda B ldb C ldc (opEl (isRow Order) true id ldc r c)
        = bs.foldl (fun z b => dot b z) (C (opEl (isRow Order) true id ldc r c))) ∧
    (∀ l : Int, (∀ r c : Nat, r < M → c < N → opEl (isRow Order) true id ldc r c ≠ l) →
      gemm dot false unit scl b g ga gb Order TransA TransB M N K A lda B ldb C ldc l = C l) := by
  have h1 := hb.y
  have h2 := hb.x
  have h3 := hb.yt
  have h4 := hb.xt
  by_cases hMN : M = 0 ∨ N = 0
  · refine ⟨fun r c hr hc => by omega, fun l _ => ?_⟩
    unfold gemm
    rw [if_pos (show M = 0 ∨ N = 0 ∨ K = 0 ∨ false = true by rcases hMN with h | h <;> simp [h])]
  have hlocR : N ≤ ldc → ∀ r c r' c' : Nat, r < M → c < N → r' < M → c' < N → (r : Int) * (ldc : Int) + c = r' * (ldc : Int) + c' → r = r' ∧ c = c' := by
    intro hl r c r' c' _ hc _ hc' h
    exact idx_inj (by omega) (by omega) h
  have hlocC : M ≤ ldc → ∀ r c r' c' : Nat, r < M → c < N → r' < M → c' < N → (c : Int) * (ldc : Int) + r = c' * (ldc : Int) + r' → r = r' ∧ c = c' := by
    intro hl r c r' c' hr _ hr' _ h
    have := idx_inj (w := ldc) (u := c) (v := r) (u' := c') (v' := r') (by omega) (by omega) h
    exact ⟨this.2, this.1⟩
  -- the two kinds of operands
  have opnA : ∀ r t : Nat, r < M → t < K → ∀ k : Nat, ptr (scaleA unit scl M K A lda g).1 (r * (scaleA unit scl M K A lda g).2 + k) ((t : Int) * 1)
      = (scaleA unit scl M K A lda g).1 (r * (scaleA unit scl M K A lda g).2 + (k + t : Nat)) := by
    intro r t _ _ k; unfold ptr; congr 1; push_cast; ring
  unfold gemm
  rw [if_neg (show ¬ (M = 0 ∨ N = 0 ∨ K = 0 ∨ false = true) by simp [hK]; omega)]
  cases hO : isRow Order <;> cases hA : isNo TransA <;> cases hB : isNo TransB <;>
    simp only [↓reduceIte, Bool.false_eq_true, hO] at hC ⊢ <;>
    refine ⟨fun r c hr hc => ?_, fun l hl => tiles_frame _ _ _ (fun r c hr hc => hl r c hr hc)⟩
  -- column-major, A transposed, B transposed
  · refine tiles_eq dot h1 h3 h4 (hlocC hC) _ C hr hc ?_
    intro i j k hi1 hi2 hj1 hj2 hk
    apply pairs_block
    intro t ht
    rw [opnA r t hr (by omega), scaleA_spec _ _ _ _ _ _ _ hr (show k + t < K by omega)]
    refine Prod.ext rfl ?_
    have := pack_spec (xt := b.xt) (yt := b.yt) id (K := K) (M := N) (k := k) (i := j) B ldb (gb i j k) (u := c - j) (v := t) (by omega) (by omega) (by omega) (by omega)
    unfold ptr
    dsimp only
    rw [Int.mul_one, this, show j + (c - j) = c by omega]; rfl
  -- column-major, A transposed, B not transposed
  · refine tiles_eq dot h1 h1 h2 (hlocC hC) _ C hr hc ?_
    intro i j k hi1 hi2 hj1 hj2 hk
    apply pairs_block
    intro t ht
    rw [opnA r t hr (by omega), scaleA_spec _ _ _ _ _ _ _ hr (show k + t < K by omega)]
    refine Prod.ext rfl ?_
    unfold ptr opEl
    dsimp only
    simp only [beq_iff_eq, Bool.false_eq_true, if_false]
    congr 1; push_cast; ring
  -- column-major, A not transposed, B transposed
  · refine tiles_eq dot h3 h3 h4 (hlocC hC) _ C hr hc ?_
    intro i j k hi1 hi2 hj1 hj2 hk
    apply pairs_block
    intro t ht
    have e1 := pack_spec (xt := b.xt) (yt := b.yt) (if unit then id else scl) (K := K) (M := M) (k := k) (i := i) A lda (ga i j k) (u := r - i) (v := t) (by omega) (by omega) (by omega) (by omega)
    have e2 := pack_spec (xt := b.xt) (yt := b.yt) id (K := K) (M := N) (k := k) (i := j) B ldb (gb i j k) (u := c - j) (v := t) (by omega) (by omega) (by omega) (by omega)
    unfold ptr
    rw [Int.mul_one, e1, e2, show i + (r - i) = r by omega, show j + (c - j) = c by omega]; rfl
  -- column-major, A not transposed, B not transposed
  · refine tiles_eq dot h3 h1 h4 (hlocC hC) _ C hr hc ?_
    intro i j k hi1 hi2 hj1 hj2 hk
    apply pairs_block
    intro t ht
    have e1 := pack_spec (xt := b.xt) (yt := b.yt) (if unit then id else scl) (K := K) (M := M) (k := k) (i := i) A lda (ga i j k) (u := r - i) (v := t) (by omega) (by omega) (by omega) (by omega)
    unfold ptr
    rw [Int.mul_one, e1, show i + (r - i) = r by omega]
    refine Prod.ext rfl ?_
    unfold opEl
    dsimp only
    simp only [beq_iff_eq, Bool.false_eq_true, if_false]
    congr 1; push_cast; ring
  -- row-major, A transposed, B transposed
  · refine tiles_eq dot h3 h1 h4 (hlocR hC) _ C hr hc ?_
    intro i j k hi1 hi2 hj1 hj2 hk
    apply pairs_block
    intro t ht
    have e1 := pack_spec (xt := b.xt) (yt := b.yt) (if unit then id else scl) (K := K) (M := M) (k := k) (i := i) A lda (ga i j k) (u := r - i) (v := t) (by omega) (by omega) (by omega) (by omega)
    unfold ptr
    rw [Int.mul_one, e1, show i + (r - i) = r by omega]
    refine Prod.ext rfl ?_
    unfold opEl
    dsimp only
    simp only [beq_iff_eq, Bool.false_eq_true, reduceCtorEq, if_false]
    congr 1; push_cast; ring
  -- row-major, A transposed, B not transposed
  · refine tiles_eq dot h3 h3 h4 (hlocR hC) _ C hr hc ?_
    intro i j k hi1 hi2 hj1 hj2 hk
    apply pairs_block
    intro t ht
    have e1 := pack_spec (xt := b.xt) (yt := b.yt) (if unit then id else scl) (K := K) (M := M) (k := k) (i := i) A lda (ga i j k) (u := r - i) (v := t) (by omega) (by omega) (by omega) (by omega)
    have e2 := pack_spec (xt := b.xt) (yt := b.yt) id (K := K) (M := N) (k := k) (i := j) B ldb (gb i j k) (u := c - j) (v := t) (by omega) (by omega) (by omega) (by omega)
    unfold ptr
    rw [Int.mul_one, e1, e2, show i + (r - i) = r by omega, show j + (c - j) = c by omega]; rfl
  -- row-major, A not transposed, B transposed
  · refine tiles_eq dot h1 h1 h2 (hlocR hC) _ C hr hc ?_
    intro i j k hi1 hi2 hj1 hj2 hk
    apply pairs_block
    intro t ht
    rw [opnA r t hr (by omega), scaleA_spec _ _ _ _ _ _ _ hr (show k + t < K by omega)]
    refine Prod.ext rfl ?_
    unfold ptr opEl
    dsimp only
    simp only [beq_iff_eq, Bool.false_eq_true, reduceCtorEq, if_false]
    congr 1; push_cast; ring
  -- row-major, A not transposed, B not transposed
  · refine tiles_eq dot h1 h3 h4 (hlocR hC) _ C hr hc ?_
    intro i j k hi1 hi2 hj1 hj2 hk
    apply pairs_block
    intro t ht
    rw [opnA r t hr (by omega), scaleA_spec _ _ _ _ _ _ _ hr (show k + t < K by omega)]
    refine Prod.ext rfl ?_
    have := pack_spec (xt := b.xt) (yt := b.yt) id (K := K) (M := N) (k := k) (i := j) B ldb (gb i j k) (u := c - j) (v := t) (by omega) (by omega) (by omega) (by omega)
    unfold ptr
    dsimp only
    rw [Int.mul_one, this, show j + (c - j) = c by omega]; rfl

end Repro
