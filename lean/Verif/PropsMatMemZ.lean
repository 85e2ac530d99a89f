import Verif.PropsMatMem
/-!
# C66: the complex matrix products in flat memory
-/

namespace Repro
open Fmt
variable {F : Fmt}

theorem isNo_trOf (c : Char) : isNo c = decide (trOf c = .no) := by
  unfold trOf
  cases h : isNo c <;> simp only [Bool.false_eq_true, if_false, if_true]
  · cases h2 : (c == 't' || c == 'T') <;> simp
  · simp

theorem zgemvC_tiles (dot : List ((Flt × Flt) × (Flt × Flt)) → Binned × Binned → Binned × Binned) (b : GemvB) (M N : Nat) (A : Int → Flt × Flt) (lda : Int)
    (bufX : Int → Flt × Flt) (incbufX incY : Int) (Y : Int → Binned × Binned) : zgemvC dot b M N A lda bufX incbufX incY Y =
    tiles dot b.y 1 b.x N 1 M false (fun ii _ => ii * incY) (fun _ _ j ii _ =>
      pairs (min b.x (N - j)) (ptr A (ii * lda + j)) 1 (ptr bufX (j * incbufX)) incbufX) Y := by
  unfold zgemvC tiles forS
  rfl

theorem zgemvC_pure (dot : List ((Flt × Flt) × (Flt × Flt)) → Binned × Binned → Binned × Binned) {b : GemvB} (hb : b.OK) {M N : Nat} (hMN : N ≤ M) {A : Int → Flt × Flt} {lda : Int}
    {bufX : Int → Flt × Flt} {incbufX : Int} (incY : Int) (Y : Int → Binned × Binned) {EA : Nat → Nat → Flt × Flt} {EX : Nat → Flt × Flt}
    (hA : ∀ r c : Nat, r < N → c < M → A (r * lda + c) = EA r c) (hX : ∀ c : Nat, c < M → bufX (c * incbufX) = EX c) : zgemvC dot b M N A lda bufX incbufX incY Y =
    tiles dot b.y 1 b.x N 1 M false (fun ii _ => ii * incY) (fun _ _ k ii _ => rowPairs EA EX (fun k => min b.x (N - k)) k ii) Y := by
  rw [zgemvC_tiles]
  refine tiles_congr dot (pos_of_pow hb.x) Y ?_
  intro i j k ii jj h1 h2 _ _ hk
  apply pairs_block
  intro t ht
  unfold ptr
  rw [← hA ii (k + t) (by omega) (by omega), ← hX (k + t) (by omega)]
  congr 1
  · congr 1; push_cast; ring
  · congr 1; push_cast; ring

/-- The scaled copy does not depend on which dot product follows. -/
theorem scaleXM_conj (F : Fmt) (T : Tune) (expand : Bool) (fold : Nat) (jA jD : Junk) (conj unit : Bool) (scl : Flt × Flt → Flt × Flt) (n : Nat) (X incX bufX : Int) (m : Mem) :
    scaleXM (cplxOps F T expand fold jA jD false) unit scl n X incX bufX m = scaleXM (cplxOps F T expand fold jA jD conj) unit scl n X incX bufX m := by
  unfold scaleXM
  cases unit <;> rfl

theorem cplxInit (F : Fmt) (T : Tune) (fold : Nat) (beta y : Flt × Flt) :
    (cplxAbs F T fold false).init (zzero beta) (F.zunit beta) (F.zscl beta) y = F.zbeta0 fold beta y := rfl

/-- An entry of the product depends on the matrix, the vector and its own previous contents only. -/
theorem zgemv_dep (T : Tune) (fold : Nat) {b : GemvB} (hb : b.OK) (gx : Int → Flt × Flt) (g : Nat → Nat → Int → Flt × Flt) (Order TransA : Char) {M N : Nat} (alpha : Flt × Flt)
    {A A' : Int → Flt × Flt} {lda : Int} {X X' : Int → Flt × Flt} {incX : Int} {Y Y' : Int → Binned × Binned} (incY : Int) {l : Int}
    (hMN : isRow Order = true ∨ trOf TransA ≠ .cj ∨ N ≤ M)
    (hA : ∀ r c : Nat, r < (if isNo TransA then M else N) → c < (if isNo TransA then N else M) → A (opEl (isRow Order) (isNo TransA) id lda r c) = A' (opEl (isRow Order) (isNo TransA) id lda r c))
    (hX : ∀ c : Nat, c < (if isNo TransA then N else M) → X (c * incX) = X' (c * incX)) (hY : Y l = Y' l) :
    F.zgemv T fold b gx g Order TransA M N alpha A lda X incX Y incY l = F.zgemv T fold b gx g Order TransA M N alpha A' lda X' incX Y' incY l := by
  unfold zgemv
  by_cases h0 : M = 0 ∨ N = 0 ∨ zzero alpha = true
  · simp only [if_pos h0]; exact hY
  have h0' : ¬ (N = 0 ∨ M = 0 ∨ zzero alpha = true) := by tauto
  simp only [if_neg h0, if_neg h0']
  have hx : ∀ n, (∀ c : Nat, c < n → X (c * incX) = X' (c * incX)) → ∀ c : Nat, c < n →
      (scaleX (F.zunit alpha) (F.zscl alpha) n X incX gx).1 (c * (scaleX (F.zunit alpha) (F.zscl alpha) n X incX gx).2)
        = (scaleX (F.zunit alpha) (F.zscl alpha) n X' incX gx).1 (c * (scaleX (F.zunit alpha) (F.zscl alpha) n X' incX gx).2) :=
    fun n h c hc => by rw [scaleX_spec _ _ n X incX gx hc, scaleX_spec _ _ n X' incX gx hc, h c hc]
  cases hO : isRow Order <;> cases ht : trOf TransA <;> have hn := isNo_trOf TransA <;> rw [ht] at hn <;>
    simp only [hO, ht, reduceCtorEq, decide_false, decide_true, hn, ↓reduceIte, Bool.false_eq_true] at hA hX ⊢
  · exact gemvT_dep _ hb g hA (hx _ hX) hY
  · exact gemvN_dep _ hb hA (hx _ hX) hY
  · have hNM : N ≤ M := by
      rcases hMN with h | h | h
      · rw [hO] at h; exact absurd h (by decide)
      · exact absurd ht h
      · exact h
    rw [zgemvC_pure _ hb hNM incY Y (EA := fun r c => A' (r * lda + c)) (EX := fun c => (scaleX (F.zunit alpha) (F.zscl alpha) M X' incX gx).1 (c * (scaleX (F.zunit alpha) (F.zscl alpha) M X' incX gx).2)) hA (hx _ hX),
      zgemvC_pure _ hb hNM incY Y' (EA := fun r c => A' (r * lda + c)) (EX := fun c => (scaleX (F.zunit alpha) (F.zscl alpha) M X' incX gx).1 (c * (scaleX (F.zunit alpha) (F.zscl alpha) M X' incX gx).2)) (fun _ _ _ _ => rfl) (fun _ _ => rfl)]
    exact tiles_local _ _ _ _ _ _ _ _ _ _ hY
  · exact gemvN_dep _ hb hA (hx _ hX) hY
  · exact gemvT_dep _ hb g hA (hx _ hX) hY
  · exact gemvT_dep _ hb g hA (hx _ hX) hY

theorem zgemm_dep (T : Tune) (fold : Nat) {b : GemmB} (hb : b.OK) (g : Int → Flt × Flt) (ga gb : Nat → Nat → Nat → Int → Flt × Flt) (Order TransA TransB : Char) {M N K : Nat} (alpha : Flt × Flt)
    {A A' : Int → Flt × Flt} {lda : Int} {B B' : Int → Flt × Flt} {ldb : Int} {f f' : Int → Binned × Binned} (ld : Int) {l : Int}
    (hA : ∀ r t : Nat, r < M → t < K → A (opEl (isRow Order) (isNo TransA) id lda r t) = A' (opEl (isRow Order) (isNo TransA) id lda r t))
    (hB : ∀ t c : Nat, t < K → c < N → B (opEl (isRow Order) (isNo TransB) id ldb t c) = B' (opEl (isRow Order) (isNo TransB) id ldb t c)) (hl : f l = f' l) :
    F.zgemm T fold b g ga gb Order TransA TransB M N K alpha A lda B ldb f ld l = F.zgemm T fold b g ga gb Order TransA TransB M N K alpha A' lda B' ldb f' ld l := by
  rw [zgemm_U, zgemm_U]
  by_cases h0 : M = 0 ∨ N = 0 ∨ K = 0 ∨ zzero alpha = true
  · rw [if_pos h0, if_pos h0]; exact hl
  rw [if_neg h0, if_neg h0]
  refine gemmU_dep _ hb _ _ _ _ _ _ _ _ _ _ ld (fun r t hr ht => ?_) (fun t c ht hc => ?_) hl
  · rw [idxA_eq]; exact hA r t hr ht
  · rw [idxB_eq]; exact hB t c ht hc

section
variable [F.OK] {T : Tune} (hT : T.OK F) (expand : Bool) {fold : Nat} (hf : 2 ≤ fold) (jA jD : Junk)
include hT hf

/-- **C66.** `binnedBLAS_zbzgemv` in memory; elements are pairs of words. For column-major conjugate transposed matrices there must not be more columns than rows: the code reads behind
the vector otherwise (see C45). -/
theorem C66_zgemv {b : GemvB} (hb : b.OK) (gx : Int → Flt × Flt) (g : Nat → Nat → Int → Flt × Flt) (Order TransA : Char) {M N : Nat} (alpha : Flt × Flt)
    {A lda X incX Y incY bufX bufA : Int} (m : Mem) {rows cols : Nat} (hr : rows = if isNo TransA then M else N) (hc : cols = if isNo TransA then N else M)
    (hMN : isRow Order = true ∨ trOf TransA ≠ .cj ∨ N ≤ M)
    (hs : GemvSep 2 (4 * fold) rows cols (b.xt * b.yt) (opEl (isRow Order) (isNo TransA) id lda) A X incX Y incY bufX bufA) :
    let m' := F.zgemvM T expand fold jA jD b Order TransA M N alpha A lda X incX Y incY bufX bufA m
    (∀ r : Nat, r < rows → cview fold (zpacked fold (Y + (4 * fold : Nat) * (r * incY))) m'
      = F.zgemv T fold b gx g Order TransA M N alpha (fun a => m.pair (A + (2 : Nat) * a)) lda (fun a => m.pair (X + (2 : Nat) * a)) incX
        (fun l => cview fold (zpacked fold (Y + (4 * fold : Nat) * l)) m) incY (r * incY)) ∧
    (∀ x, ¬ GemvWork 2 (4 * fold) rows cols (b.xt * b.yt) Y incY bufX bufA x → m' x = m x) := by
  subst hr hc
  intro m'
  have em : m' = F.zgemvM T expand fold jA jD b Order TransA M N alpha A lda X incX Y incY bufX bufA m := rfl
  unfold zgemvM at em
  unfold zgemv
  by_cases h0 : M = 0 ∨ N = 0 ∨ zzero alpha = true
  · simp only [if_pos h0] at em ⊢
    rw [em]
    exact ⟨fun _ _ => rfl, fun _ _ => rfl⟩
  have h0' : ¬ (N = 0 ∨ M = 0 ∨ zzero alpha = true) := by tauto
  simp only [if_neg h0, if_neg h0'] at em ⊢
  have hN := fun (M N : Nat) (hs : GemvSep 2 (4 * fold) M N (b.xt * b.yt) (opEl true true id lda) A X incX Y incY bufX bufA) =>
    gemvRow_spec (cplxLaw hT expand hf jA jD false) (F.zunit alpha) (F.zscl alpha) hb gx g true m hs
  have hT' := fun (conj : Bool) (M N : Nat) (hs : GemvSep 2 (4 * fold) N M (b.xt * b.yt) (opEl true false id lda) A X incX Y incY bufX bufA) =>
    gemvRow_spec (cplxLaw hT expand hf jA jD conj) (F.zunit alpha) (F.zscl alpha) hb gx g false m hs
  simp only [↓reduceIte, Bool.false_eq_true] at hN hT'
  cases hO : isRow Order <;> cases ht : trOf TransA <;> have hn := isNo_trOf TransA <;> rw [ht] at hn <;>
    simp only [hO, ht, reduceCtorEq, decide_false, decide_true, hn, ↓reduceIte, Bool.false_eq_true] at hs em ⊢
  · rw [em]; exact hT' false N M hs
  · rw [em]; exact hN N M hs
  · have hNM : N ≤ M := by
      rcases hMN with h | h | h
      · rw [hO] at h; exact absurd h (by decide)
      · exact absurd ht h
      · exact h
    have hL := cplxLaw hT expand hf jA jD true
    have hsc := scaleXM_spec hL (F.zunit alpha) (F.zscl alpha) M X incX bufX m (fun t ht x hx hx' => hs.vec t ht x hx (Or.inr (Or.inl hx')))
    rw [scaleXM_conj _ _ _ _ _ _ true] at em
    generalize hsv : scaleXM (cplxOps F T expand fold jA jD true) (F.zunit alpha) (F.zscl alpha) M X incX bufX m = s at hsc em
    have h := gemvInPlace_spec hL (pos_of_pow hb.y) (pos_of_pow hb.x) (M := N) (K := M) (A := A) (lda := lda) (bufX := s.1) (incbufX := s.2.1) (Y := Y) hs.inc
      (len := fun k => min b.x (N - k)) (EA := fun r c => m.pair (A + (2 : Nat) * (r * lda + c)))
      (EX := fun c => (if F.zunit alpha then id else F.zscl alpha) (m.pair (X + (2 : Nat) * (c * incX)))) s.2.2 ?_ ?_
    · rw [zgemvC_pure _ hb hNM incY _ (EA := fun r c => m.pair (A + (2 : Nat) * (r * lda + c)))
        (EX := fun c => (if F.zunit alpha then id else F.zscl alpha) (m.pair (X + (2 : Nat) * (c * incX)))) (fun _ _ _ _ => rfl)
        (fun c hc => scaleX_spec (F.zunit alpha) (F.zscl alpha) M (fun a => m.pair (X + (2 : Nat) * a)) incX gx hc), em]
      refine ⟨fun r hr => ?_, fun x hx => ?_⟩
      · refine (h.1 r hr).trans (tiles_local _ _ _ _ _ _ _ _ _ _ ?_)
        exact hL.bget_congr fun x hx => hsc.2.1 x (hs.resX r hr x hx)
      · exact (h.2 x (fun r hr hx' => hx (Or.inl ⟨r, hr, hx'⟩))).trans (hsc.2.1 x (fun h' => hx (Or.inr (Or.inl h'))))
    · intro r k t hr hk ht
      refine ⟨hL.get_congr fun x hx => hsc.2.1 x fun h' => hs.mat r (k + t) hr (by omega) x hx (Or.inr (Or.inl h')),
        fun r' hr' x hx h' => hs.mat r (k + t) hr (by omega) x hx (Or.inl ⟨r', hr', h'⟩)⟩
    · intro k t hk ht
      refine ⟨hsc.1 (k + t) (by omega), fun r hr x hx h2 => ?_⟩
      rcases hsc.2.2 (k + t) (by omega) x hx with h' | h'
      · exact hs.vec (k + t) (by omega) x h' (Or.inl ⟨r, hr, h2⟩)
      · exact hs.resX r hr x h2 h'
  · rw [em]; exact hN M N hs
  · rw [em]; exact hT' false M N hs
  · rw [em, scaleXM_conj _ _ _ _ _ _ true]; exact hT' true M N hs

/-- **C66.** `binnedBLAS_zbzgemm` in memory. -/
theorem C66_zgemm {b : GemmB} (hb : b.OK) (g : Int → Flt × Flt) (ga gb : Nat → Nat → Nat → Int → Flt × Flt) (Order TransA TransB : Char) {M N K : Nat} (alpha : Flt × Flt)
    {A lda B ldb C ldc bufS bufA bufB : Int} (m : Mem)
    (hs : GemmSep 2 (4 * fold) (isRow Order) M N K (b.xt * b.yt) (opEl (isRow Order) (isNo TransA) id lda) (opEl (isRow Order) (isNo TransB) id ldb) A B C ldc bufS bufA bufB) :
    let m' := F.zgemmM T expand fold jA jD b Order TransA TransB M N K alpha A lda B ldb C ldc bufS bufA bufB m
    (∀ r c : Nat, r < M → c < N → cview fold (zpacked fold (C + (4 * fold : Nat) * entryAt (isRow Order) ldc r c)) m'
      = F.zgemm T fold b g ga gb Order TransA TransB M N K alpha (fun a => m.pair (A + (2 : Nat) * a)) lda (fun a => m.pair (B + (2 : Nat) * a)) ldb
        (fun l => cview fold (zpacked fold (C + (4 * fold : Nat) * l)) m) ldc (entryAt (isRow Order) ldc r c)) ∧
    (∀ x, ¬ GemmWork 2 (4 * fold) (isRow Order) M N K (b.xt * b.yt) C ldc bufS bufA bufB x → m' x = m x) := by
  intro m'
  rw [zgemm_U]
  by_cases h0 : M = 0 ∨ N = 0 ∨ K = 0 ∨ zzero alpha = true
  · have e : m' = m := by show zgemmM _ _ _ _ _ _ _ _ _ _ _ _ _ _ _ _ _ _ _ _ _ _ _ _ = m; unfold zgemmM; rw [if_pos h0]
    rw [if_pos h0, e]
    exact ⟨fun _ _ _ _ => rfl, fun _ _ => rfl⟩
  rw [if_neg h0]
  have e : m' = F.zgemmM T expand fold jA jD b Order TransA TransB M N K alpha A lda B ldb C ldc bufS bufA bufB m := rfl
  unfold zgemmM at e
  rw [if_neg h0] at e
  have h := gemmM_spec (cplxLaw hT expand hf jA jD (F.zbranch (isRow Order) (trOf TransA) (trOf TransB) alpha).conj) hb (isRow Order) (isRow Order != isNo TransA) (isRow Order == isNo TransB)
    (F.zbranch (isRow Order) (trOf TransA) (trOf TransB) alpha).swap (F.zunit alpha) (F.zbranch (isRow Order) (trOf TransA) (trOf TransB) alpha).fA
    (F.zbranch (isRow Order) (trOf TransA) (trOf TransB) alpha).fB g ga gb (M := M) (N := N) (K := K) (A := A) (lda := lda) (B := B) (ldb := ldb) (C := C) (ldc := ldc)
    (bufS := bufS) (bufA := bufA) (bufB := bufB) m ?_
  · rw [e]
    simp only [entryAt_eq] at h
    exact h
  · have e1 := funext fun r => funext fun t => idxA_eq (isRow Order) (isNo TransA) lda r t
    have e2 := funext fun t => funext fun c => idxB_eq (isRow Order) (isNo TransB) ldb t c
    rw [e1, e2]
    exact hs

/-- **C66.** `reproBLAS_rzgemv` in memory - real and imaginary parts interleaved, binned values of `4 * fold` words, scratch buffers in the same memory - leaves in every entry of `Y` what the
program over abstract arrays (C45) leaves there, and writes nothing else but the array of binned values and the buffers. Excluded is the one case in which the program itself reads beyond its matrix. -/
theorem C66_rzgemv {b : GemvB} (hb : b.OK) (gx : Int → Flt × Flt) (g : Nat → Nat → Int → Flt × Flt) (yi : Int → Binned × Binned) (Order TransA : Char) {M N : Nat} (alpha : Flt × Flt)
    {A lda X incX : Int} (beta : Flt × Flt) {Y incY YI bufX bufA : Int} (m : Mem) {rows cols : Nat} (hr : rows = if isNo TransA then M else N) (hc : cols = if isNo TransA then N else M)
    (hMN : isRow Order = true ∨ trOf TransA ≠ .cj ∨ N ≤ M)
    (hs : GemvSep 2 (4 * fold) rows cols (b.xt * b.yt) (opEl (isRow Order) (isNo TransA) id lda) A X incX YI 1 bufX bufA)
    (hY : ∀ r : Nat, r < rows → ∀ x, Span (Y + (2 : Nat) * (r * incY)) 2 x → ¬ GemvWork 2 (4 * fold) rows cols (b.xt * b.yt) YI 1 bufX bufA x) :
    let m' := F.rzgemvM T expand fold jA jD b Order TransA M N alpha A lda X incX beta Y incY YI bufX bufA m
    (∀ l, (∀ x, Span (Y + (2 : Nat) * l) 2 x → ¬ GemvWork 2 (4 * fold) rows cols (b.xt * b.yt) YI 1 bufX bufA x) →
      m'.pair (Y + (2 : Nat) * l) = F.rzgemv T fold b gx g yi Order TransA M N alpha (fun a => m.pair (A + (2 : Nat) * a)) lda (fun a => m.pair (X + (2 : Nat) * a)) incX beta (fun a => m.pair (Y + (2 : Nat) * a)) incY l) ∧
    (∀ x, ¬ GemvWork 2 (4 * fold) rows cols (b.xt * b.yt) YI 1 bufX bufA x → (∀ r : Nat, r < rows → ¬ Span (Y + (2 : Nat) * (r * incY)) 2 x) → m' x = m x) := by
  have h := rgemvM_spec (cplxLaw hT expand hf jA jD false) (zzero beta) (F.zunit beta) (F.zscl beta)
    (fun YI => F.zgemvM T expand fold jA jD b Order TransA M N alpha A lda X incX YI 1 bufX bufA) (isNo TransA) (M := M) (N := N) Y incY YI m
    (W := GemvWork 2 (4 * fold) rows cols (b.xt * b.yt) YI 1 bufX bufA)
    (P := fun f => F.zgemv T fold b gx g Order TransA M N alpha (fun a => m.pair (A + (2 : Nat) * a)) lda (fun a => m.pair (X + (2 : Nat) * a)) incX f 1)
    (fun r hr' x hx => Or.inl ⟨r, hr ▸ hr', by rw [Int.mul_one]; exact hx⟩)
    (fun r hr' x hx => hY r (hr ▸ hr') x hx)
    (fun m1 hm1 => by
      have hg := C66_zgemv hT expand hf jA jD hb gx g Order TransA alpha (lda := lda) m1 hr hc hMN hs
      refine ⟨fun r hr' => ?_, hg.2⟩
      have h1 := hg.1 r (hr ▸ hr')
      rw [Int.mul_one] at h1
      refine h1.trans ?_
      subst hr hc
      refine zgemv_dep T fold hb gx g Order TransA alpha 1 hMN (fun r c hr hc => ?_) (fun c hc => ?_) rfl
      · exact (cplxLaw hT expand hf jA jD false).get_congr (fun x hx => hm1 x (hs.mat r c hr hc x hx))
      · exact (cplxLaw hT expand hf jA jD false).get_congr (fun x hx => hm1 x (hs.vec c hc x hx)))
    (fun f f' l hl => zgemv_dep T fold hb gx g Order TransA alpha 1 hMN (fun _ _ _ _ => rfl) (fun _ _ => rfl) hl) yi
  simp only [cplxInit, ← hr] at h
  refine ⟨fun l hl => ?_, h.2⟩
  refine (h.1 l hl).trans ?_
  unfold rzgemv
  by_cases h0 : N = 0 ∨ M = 0
  · simp only [if_pos h0]; rfl
  simp only [if_neg h0, ← hr]
  rfl

/-- **C66.** `reproBLAS_rzgemm` in memory leaves in every entry of `C` what the program over abstract arrays (C47) leaves there, and writes nothing else but the array of binned values and the
buffers. -/
theorem C66_rzgemm {b : GemmB} (hb : b.OK) (g : Int → Flt × Flt) (ga gb : Nat → Nat → Nat → Int → Flt × Flt) (ci : Int → Binned × Binned) (Order TransA TransB : Char) {M N K : Nat} (alpha : Flt × Flt)
    {A lda B ldb : Int} (beta : Flt × Flt) {C ldc CI bufS bufA bufB : Int} (m : Mem)
    (hs : GemmSep 2 (4 * fold) (isRow Order) M N K (b.xt * b.yt) (opEl (isRow Order) (isNo TransA) id lda) (opEl (isRow Order) (isNo TransB) id ldb) A B CI (if isRow Order then N else M) bufS bufA bufB)
    (hY : ∀ r c : Nat, r < M → c < N → ∀ x, Span (C + (2 : Nat) * entryAt (isRow Order) ldc r c) 2 x → ¬ GemmWork 2 (4 * fold) (isRow Order) M N K (b.xt * b.yt) CI (if isRow Order then N else M) bufS bufA bufB x) :
    let m' := F.rzgemmM T expand fold jA jD b Order TransA TransB M N K alpha A lda B ldb beta C ldc CI bufS bufA bufB m
    (∀ l, (∀ x, Span (C + (2 : Nat) * l) 2 x → ¬ GemmWork 2 (4 * fold) (isRow Order) M N K (b.xt * b.yt) CI (if isRow Order then N else M) bufS bufA bufB x) →
      m'.pair (C + (2 : Nat) * l) = F.rzgemm T fold b g ga gb ci Order TransA TransB M N K alpha (fun a => m.pair (A + (2 : Nat) * a)) lda (fun a => m.pair (B + (2 : Nat) * a)) ldb beta (fun a => m.pair (C + (2 : Nat) * a)) ldc l) ∧
    (∀ x, ¬ GemmWork 2 (4 * fold) (isRow Order) M N K (b.xt * b.yt) CI (if isRow Order then N else M) bufS bufA bufB x →
      (∀ r c : Nat, r < M → c < N → ¬ Span (C + (2 : Nat) * entryAt (isRow Order) ldc r c) 2 x) → m' x = m x) := by
  have h := rgemmM_spec (cplxLaw hT expand hf jA jD false) (zzero beta) (F.zunit beta) (F.zscl beta)
    (fun CI ld => F.zgemmM T expand fold jA jD b Order TransA TransB M N K alpha A lda B ldb CI ld bufS bufA bufB) (isRow Order) (M := M) (N := N) C ldc CI m
    (W := GemmWork 2 (4 * fold) (isRow Order) M N K (b.xt * b.yt) CI (if isRow Order then N else M) bufS bufA bufB)
    (P := fun f => F.zgemm T fold b g ga gb Order TransA TransB M N K alpha (fun a => m.pair (A + (2 : Nat) * a)) lda (fun a => m.pair (B + (2 : Nat) * a)) ldb f (if isRow Order then N else M))
    (fun r c hr hc x hx => Or.inl ⟨r, c, hr, hc, hx⟩)
    (fun r c hr hc x hx => by rw [entryAt_eq] at hx; exact hY r c hr hc x hx)
    (fun m1 hm1 => by
      have hg := C66_zgemm hT expand hf jA jD hb g ga gb Order TransA TransB alpha (lda := lda) (ldb := ldb) m1 hs
      refine ⟨fun r c hr hc => ?_, hg.2⟩
      have h1 := hg.1 r c hr hc
      rw [← entryAt_eq] at h1
      refine h1.trans ?_
      refine zgemm_dep T fold hb g ga gb Order TransA TransB alpha _ (fun r t hr ht => ?_) (fun t c ht hc => ?_) rfl
      · exact (cplxLaw hT expand hf jA jD false).get_congr (fun x hx => hm1 x (hs.matA r t hr ht x hx))
      · exact (cplxLaw hT expand hf jA jD false).get_congr (fun x hx => hm1 x (hs.matB t c ht hc x hx)))
    (fun f f' l hl => zgemm_dep T fold hb g ga gb Order TransA TransB alpha _ (fun _ _ _ _ => rfl) (fun _ _ _ _ => rfl) hl) ci
  simp only [cplxInit, entryAt_eq] at h
  refine ⟨fun l hl => ?_, h.2⟩
  refine (h.1 l hl).trans ?_
  unfold rzgemm
  by_cases h0 : M = 0 ∨ N = 0
  · simp only [if_pos h0]; rfl
  simp only [if_neg h0]
  cases isRow Order
  · simp only [Bool.false_eq_true, if_false]; rfl
  · simp only [if_true]; rfl

/-- **C45, C66**, in part. `reproBLAS_rzgemv` in memory, end to end. Missing: column-major order with the conjugate transpose of a matrix that is not square, where the program is wrong (C45). -/
theorem C66_rzgemv_partial {b : GemvB} (hb : b.OK) (Order TransA : Char) {M N : Nat} (hM : M ≠ 0) (hN : N ≠ 0) (alpha : Flt × Flt)
    {A lda X incX : Int} (beta : Flt × Flt) {Y incY YI bufX bufA : Int} (hinc : incY ≠ 0) (m : Mem) {rows cols : Nat} (hr : rows = if isNo TransA then M else N) (hc : cols = if isNo TransA then N else M)
    (hnb : 2 * min T.nb (min cols (gemvTile b Order TransA)) ≤ F.endurance) (hok : isRow Order = true ∨ trOf TransA ≠ .cj ∨ M = N)
    (hs : GemvSep 2 (4 * fold) rows cols (b.xt * b.yt) (opEl (isRow Order) (isNo TransA) id lda) A X incX YI 1 bufX bufA)
    (hY : ∀ r : Nat, r < rows → ∀ x, Span (Y + (2 : Nat) * (r * incY)) 2 x → ¬ GemvWork 2 (4 * fold) rows cols (b.xt * b.yt) YI 1 bufX bufA x)
    (hcap : 2 * cols + 1 ≤ F.capacity) :
    let m' := F.rzgemvM T expand fold jA jD b Order TransA M N alpha A lda X incX beta Y incY YI bufX bufA m
    let mA := fun a => m.pair (A + (2 : Nat) * a)
    let mX := fun a => m.pair (X + (2 : Nat) * a)
    let y := fun r : Nat => m.pair (Y + (2 : Nat) * (r * incY))
    (∀ r : Nat, r < rows → BetaFinite F beta (y r) →
      (zzero alpha = false → ∀ c : Nat, c < cols → DotFinite F (zopEl (isRow Order) (trOf TransA) mA lda r c) (alphaMul F alpha (mX (c * incX)))) →
      m'.pair (Y + (2 : Nat) * (r * incY)) =
        (convert F fold (F.specSum fold (zbetaTerm F Prod.fst beta (y r) ++ (if zzero alpha then [] else zgemvRe F (isRow Order) (trOf TransA) cols alpha mA lda mX incX r))),
         convert F fold (F.specSum fold (zbetaTerm F Prod.snd beta (y r) ++ (if zzero alpha then [] else zgemvIm F (isRow Order) (trOf TransA) cols alpha mA lda mX incX r))))) ∧
    (∀ x, ¬ GemvWork 2 (4 * fold) rows cols (b.xt * b.yt) YI 1 bufX bufA x → (∀ r : Nat, r < rows → ¬ Span (Y + (2 : Nat) * (r * incY)) 2 x) → m' x = m x) := by
  intro m' mA mX y
  have h := C66_rzgemv hT expand hf jA jD hb (fun _ => (zero, zero)) (fun _ _ _ => (zero, zero)) (fun _ => (dmsetzero fold, dmsetzero fold)) Order TransA alpha (lda := lda) beta (incY := incY) m hr hc
    (hok.imp id (Or.imp id (fun e => Nat.le_of_eq e.symm))) hs hY
  refine ⟨fun r hrr hy hx => ?_, h.2⟩
  exact (h.1 _ (hY r hrr)).trans ((C45_rzgemv_partial hT hf hb _ _ _ Order TransA hM hN alpha mA lda mX incX beta (fun a => m.pair (Y + (2 : Nat) * a)) hinc hr hc hnb hok hcap).1 r hrr hy hx)

/-- **C47, C66**, in part. `reproBLAS_rzgemm` in memory, end to end. Missing: column-major order with a transposed first factor and `alpha ≠ 1`, where the program is wrong (C47). -/
theorem C66_rzgemm_partial {b : GemmB} (hb : b.OK) (Order TransA TransB : Char) {M N K : Nat} (alpha : Flt × Flt)
    {A lda B ldb : Int} (beta : Flt × Flt) {C : Int} {ldc : Nat} {CI bufS bufA bufB : Int} (m : Mem)
    (hnb : 2 * min T.nb (min K (gemmTile b Order TransA TransB)) ≤ F.endurance)
    (hC : (if isRow Order then N else M) ≤ ldc) (hok : isRow Order = true ∨ trOf TransA = .no ∨ (F.feq alpha.1 F.one && isZero alpha.2) = true)
    (hs : GemmSep 2 (4 * fold) (isRow Order) M N K (b.xt * b.yt) (opEl (isRow Order) (isNo TransA) id lda) (opEl (isRow Order) (isNo TransB) id ldb) A B CI (if isRow Order then N else M) bufS bufA bufB)
    (hY : ∀ r c : Nat, r < M → c < N → ∀ x, Span (C + (2 : Nat) * entryAt (isRow Order) ldc r c) 2 x → ¬ GemmWork 2 (4 * fold) (isRow Order) M N K (b.xt * b.yt) CI (if isRow Order then N else M) bufS bufA bufB x)
    (hcap : 2 * K + 1 ≤ F.capacity) :
    let m' := F.rzgemmM T expand fold jA jD b Order TransA TransB M N K alpha A lda B ldb beta C ldc CI bufS bufA bufB m
    let mA := fun a => m.pair (A + (2 : Nat) * a)
    let mB := fun a => m.pair (B + (2 : Nat) * a)
    let y := fun r c : Nat => m.pair (C + (2 : Nat) * entryAt (isRow Order) ldc r c)
    (∀ r c : Nat, r < M → c < N → BetaFinite F beta (y r c) →
      (zzero alpha = false → ∀ t : Nat, t < K → DotFinite F (alphaMul F alpha (zopEl (isRow Order) (trOf TransA) mA lda r t)) (zopEl (isRow Order) (trOf TransB) mB ldb t c)) →
      m'.pair (C + (2 : Nat) * entryAt (isRow Order) ldc r c) =
        (convert F fold (F.specSum fold (zbetaTerm F Prod.fst beta (y r c) ++ (if zzero alpha then [] else zgemmRe F (isRow Order) (trOf TransA) (trOf TransB) K alpha mA lda mB ldb r c))),
         convert F fold (F.specSum fold (zbetaTerm F Prod.snd beta (y r c) ++ (if zzero alpha then [] else zgemmIm F (isRow Order) (trOf TransA) (trOf TransB) K alpha mA lda mB ldb r c))))) ∧
    (∀ x, ¬ GemmWork 2 (4 * fold) (isRow Order) M N K (b.xt * b.yt) CI (if isRow Order then N else M) bufS bufA bufB x →
      (∀ r c : Nat, r < M → c < N → ¬ Span (C + (2 : Nat) * entryAt (isRow Order) ldc r c) 2 x) → m' x = m x) := by
  intro m' mA mB y
  have h := C66_rzgemm hT expand hf jA jD hb (fun _ => (zero, zero)) (fun _ _ _ _ => (zero, zero)) (fun _ _ _ _ => (zero, zero)) (fun _ => (dmsetzero fold, dmsetzero fold)) Order TransA TransB alpha
    (lda := lda) (ldb := ldb) beta (ldc := ldc) m hs hY
  refine ⟨fun r c hrr hcc hy hx => ?_, h.2⟩
  exact (h.1 _ (hY r c hrr hcc)).trans ((C47_rzgemm_partial hT hf hb _ _ _ _ Order TransA TransB M N K alpha mA lda mB ldb beta (fun a => m.pair (C + (2 : Nat) * a)) hnb hC hok hcap).1 r c hrr hcc hy hx)

end

/-! Concrete cases. -/

/-- A 2 by 2 complex matrix at 0, a vector at 10, the result at 20; binned values (8 words each) at 100, buffers at 200 and 300. -/
example : GemvSep 2 (4 * 2) 2 2 4 (opEl (isRow 'r') (isNo 'c') id 2) 0 10 1 100 1 200 300 := by
  have hw : ∀ x, (GemvWork 2 (4 * 2) 2 2 4 100 1 200 300 x) → 100 ≤ x := by
    intro x h
    simp only [GemvWork, Span] at h
    rcases h with ⟨r, hr, h⟩ | h | h <;> omega
  constructor
  all_goals first
    | decide
    | (intro r c hr hc x hx h
       have := hw x h
       simp only [Span, opEl, isRow, isNo, id, Bool.or_true, Bool.true_or, Bool.or_self, Bool.or_false, beq_self_eq_true, Bool.true_beq, Char.reduceBEq, Bool.false_eq_true, if_false] at hx; omega)
    | (intro c hc x hx h
       have := hw x h
       simp only [Span] at hx; omega)
    | (intro r hr x hx; simp only [Span] at hx ⊢; omega)
    | (intro x; simp only [Span]; omega)

/-- The conjugate transpose of `[[i, 2+3i], [4+5i, 6+7i]]` (stored by rows at 0) times the column `(10+11i, 12+13i)` (at 10), plus `(20+21i, 22+23i)` (at 20). -/
example : (List.range 4).map (fun k : Nat => f32.rzgemvM gT true 2 (fun _ _ _ _ _ => gσ) (fun _ _ _ _ _ => gσ) ⟨1, 2, 2, 4, 1⟩ 'r' 'c' 2 2 (f32.one, zero) 0 2 10 1 (f32.one, zero) 20 1 100 200 300
      (fun a => f32.ofInt a) (20 + k)) = [f32.ofInt 144, f32.ofInt 3, f32.ofInt 238, f32.ofInt 9] := by decide +kernel

end Repro
