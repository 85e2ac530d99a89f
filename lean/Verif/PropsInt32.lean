import Verif.Int32Mat
import Verif.PropsMatMem
/-!
# C74: `int` overflow

The routines written with checked `int` arithmetic (`Verif/Int32.lean`) never fail and do what the other files prove about them, as long as the arrays, counted in words with the gaps between strided elements
(`Reach`, `Arr`), have at most 2147483647 words. For the matrix products this includes the arrays of binned values, `2 * fold` (`4 * fold`) words for each entry: `reproBLAS_rdgemm` allocates such an array
itself, and overflows although all arrays of the caller are small enough.
-/

namespace Repro
open Fmt
variable {F : Fmt}

/-- **C74**: `binnedBLAS_dmdsum`, `dmdasum`, `dmddot` and the single precision versions. `Reach 1 incX n`: the vector spans at most 2147483647 words. -/
theorem C74_real (hF : F = f64 ∨ F = f32) {T : Tune} (hT : T.OK F) (hs : T.Small) (op : DepOp) (expand : Bool) (fold : Nat) (l : Loc) {X incX Z incZ : Int} (jA jD : Nat → Regs) {n : Nat}
    (hN : n ≤ 2147483647) (hX : Reach 1 incX n) (hZ : op.prod = true → Reach 1 incZ n) (m : Mem) :
    F.rvecC T op expand fold l n X incX Z incZ jA jD m = some (F.rvecM T op expand fold l n X incX Z incZ jA jD m) :=
  rvecC_eq hF hT hs op expand fold l jA jD hN hX hZ m

/-- **C74**: `binnedBLAS_zmzsum`, `zmzdotu`, `zmzdotc` and the single precision versions. -/
theorem C74_complex (hF : F = f64 ∨ F = f32) {T : Tune} (hT : T.OK F) (hs : T.Small) (op : DepOp) (expand : Bool) (fold : Nat) (l : Loc) {X incX Z incZ : Int} (jA jD : Nat → Regs) {n : Nat}
    (hN : n ≤ 2147483647) (hX : Reach 2 incX n) (hZ : op.prod = true → Reach 2 incZ n) (m : Mem) :
    F.zvecC T op expand fold l n X incX Z incZ jA jD m = some (F.zvecM T op expand fold l n X incX Z incZ jA jD m) :=
  zvecC_eq hF hT hs op expand fold l jA jD hN hX hZ m

/-- **C74**: `binnedBLAS_dmdssq`, `dmzasum`, `dmzssq` and the single precision versions. -/
theorem C74_rest (hF : F = f64 ∨ F = f32) {T : Tune} (hT : T.OK F) (hs : T.Small) (expand : Bool) (fold : Nat) (l : Loc) (jA jD : Nat → Regs) {n : Nat} (hN : n ≤ 2147483647) {X incX : Int} (scl : Flt)
    (tmp t0 t1 : Int) (m : Mem) :
    (Reach 1 incX n → F.ssqVecC T expand fold l n X incX scl jA jD m = some (F.ssqVecM T expand fold l n X incX scl jA jD m)) ∧
    (Reach 2 incX n → F.zasumVecC T expand fold tmp l n X incX jA jD m = some (F.zasumVecM T expand fold tmp l n X incX jA jD m)) ∧
    (Reach 2 incX n → F.zssqVecC T expand fold tmp t0 t1 l n X incX scl jA jD m = some (F.zssqVecM T expand fold tmp t0 t1 l n X incX scl jA jD m)) :=
  ⟨fun h => ssqVecC_eq hF hT hs expand fold l scl jA jD hN h m, fun h => zasumVecC_eq hF hT hs expand fold tmp l jA jD hN h m,
    fun h => zssqVecC_eq hF hT hs expand fold tmp t0 t1 l scl jA jD hN h m⟩

/-- **C74**: `binnedBLAS_dbdgemv`, `sbsgemv` and `reproBLAS_rdgemv`, `rsgemv`. -/
theorem C74_gemv (hF : F = f64 ∨ F = f32) {T : Tune} (hT : T.OK F) (hs : T.Small) (expand : Bool) {fold : Nat} (hf : 1 ≤ fold) (jA jD : Junk) {b : GemvB} (hb : b.OK) {Order TransA : Char} {M N : Nat} (alpha : Flt)
    {A lda X incX : Int} (beta : Flt) {Y incY : Int} (YI bufX bufA : Int) (m : Mem) :
    (GemvFits 1 (2 * fold) b (isRow Order) (isNo TransA) M N lda incX incY →
      F.dgemvC T expand fold jA jD b Order TransA M N alpha A lda X incX Y incY bufX bufA m = some (F.dgemvM T expand fold jA jD b Order TransA M N alpha A lda X incX Y incY bufX bufA m)) ∧
    (GemvFits 1 (2 * fold) b (isRow Order) (isNo TransA) M N lda incX 1 → Reach 1 incY (if isNo TransA then M else N) →
      F.rdgemvC T expand fold jA jD b Order TransA M N alpha A lda X incX beta Y incY YI bufX bufA m =
        some (F.rdgemvM T expand fold jA jD b Order TransA M N alpha A lda X incX beta Y incY YI bufX bufA m)) :=
  ⟨fun h => dgemvC_eq hF hT hs expand hf jA jD hb alpha bufX bufA h m, fun h hY => rdgemvC_eq hF hT hs expand hf jA jD hb alpha beta YI bufX bufA h hY m⟩

/-- **C74**: `binnedBLAS_zbzgemv`, `cbcgemv` and `reproBLAS_rzgemv`, `rcgemv`. -/
theorem C74_zgemv (hF : F = f64 ∨ F = f32) {T : Tune} (hT : T.OK F) (hs : T.Small) (expand : Bool) {fold : Nat} (hf : 1 ≤ fold) (jA jD : Junk) {b : GemvB} (hb : b.OK) {Order TransA : Char} {M N : Nat} (alpha : Flt × Flt)
    {A lda X incX : Int} (beta : Flt × Flt) {Y incY : Int} (YI bufX bufA : Int) (hcj : isRow Order = false → trOf TransA = .cj → Reach 2 incX N ∧ Reach 2 1 N) (m : Mem) :
    (GemvFits 2 (4 * fold) b (isRow Order) (isNo TransA) M N lda incX incY →
      F.zgemvK T expand fold jA jD b Order TransA M N alpha A lda X incX Y incY bufX bufA m = some (F.zgemvM T expand fold jA jD b Order TransA M N alpha A lda X incX Y incY bufX bufA m)) ∧
    (GemvFits 2 (4 * fold) b (isRow Order) (isNo TransA) M N lda incX 1 → Reach 2 incY (if isNo TransA then M else N) →
      F.rzgemvK T expand fold jA jD b Order TransA M N alpha A lda X incX beta Y incY YI bufX bufA m =
        some (F.rzgemvM T expand fold jA jD b Order TransA M N alpha A lda X incX beta Y incY YI bufX bufA m)) :=
  ⟨fun h => zgemvK_eq hF hT hs expand hf jA jD hb alpha bufX bufA h hcj m, fun h hY => rzgemvK_eq hF hT hs expand hf jA jD hb alpha beta YI bufX bufA h hcj hY m⟩

/-- **C74**: `binnedBLAS_dbdgemm`, `sbsgemm` and `reproBLAS_rdgemm`, `rsgemm`; for the latter, the array of binned values, `2 * fold * M * N` words, must not be too large. -/
theorem C74_gemm (hF : F = f64 ∨ F = f32) {T : Tune} (hT : T.OK F) (hs : T.Small) (expand : Bool) {fold : Nat} (hf : 1 ≤ fold) (jA jD : Junk) {b : GemmB} (hb : b.OK)
    {Order TransA TransB : Char} {M N K : Nat} (alpha : Flt) {A lda B ldb : Int} (beta : Flt) {C ldc : Int} (CI bufS bufA bufB : Int) (m : Mem) :
    (GemmFits 1 (2 * fold) b (isRow Order) (isNo TransA) (isNo TransB) M N K lda ldb ldc →
      F.dgemmC T expand fold jA jD b Order TransA TransB M N K alpha A lda B ldb C ldc bufS bufA bufB m =
        some (F.dgemmM T expand fold jA jD b Order TransA TransB M N K alpha A lda B ldb C ldc bufS bufA bufB m)) ∧
    (GemmFits 1 (2 * fold) b (isRow Order) (isNo TransA) (isNo TransB) M N K lda ldb (if isRow Order then N else M : Nat) →
      Arr 1 (if isRow Order then M else N) ldc (if isRow Order then N else M) → ((2 * fold : Nat) : Int) * (M * N) ≤ 2147483647 →
      F.rdgemmC T expand fold jA jD b Order TransA TransB M N K alpha A lda B ldb beta C ldc CI bufS bufA bufB m =
        some (F.rdgemmM T expand fold jA jD b Order TransA TransB M N K alpha A lda B ldb beta C ldc CI bufS bufA bufB m)) :=
  ⟨fun h => dgemmC_eq hF hT hs expand hf jA jD hb.y hb.x hb.yt hb.xt alpha bufS bufA bufB h m,
    fun h hC hCI => rdgemmC_eq hF hT hs expand hf jA jD hb.y hb.x hb.yt hb.xt alpha beta CI bufS bufA bufB h hC hCI m⟩

/-- **C74**: `binnedBLAS_zbzgemm`, `cbcgemm` and `reproBLAS_rzgemm`, `rcgemm`. -/
theorem C74_zgemm (hF : F = f64 ∨ F = f32) {T : Tune} (hT : T.OK F) (hs : T.Small) (expand : Bool) {fold : Nat} (hf : 1 ≤ fold) (jA jD : Junk) {b : GemmB} (hb : b.OK)
    {Order TransA TransB : Char} {M N K : Nat} (alpha : Flt × Flt) {A lda B ldb : Int} (beta : Flt × Flt) {C ldc : Int} (CI bufS bufA bufB : Int) (m : Mem) :
    (GemmFits 2 (4 * fold) b (isRow Order) (isNo TransA) (isNo TransB) M N K lda ldb ldc →
      F.zgemmK T expand fold jA jD b Order TransA TransB M N K alpha A lda B ldb C ldc bufS bufA bufB m =
        some (F.zgemmM T expand fold jA jD b Order TransA TransB M N K alpha A lda B ldb C ldc bufS bufA bufB m)) ∧
    (GemmFits 2 (4 * fold) b (isRow Order) (isNo TransA) (isNo TransB) M N K lda ldb (if isRow Order then N else M : Nat) →
      Arr 2 (if isRow Order then M else N) ldc (if isRow Order then N else M) → ((4 * fold : Nat) : Int) * (M * N) ≤ 2147483647 →
      F.rzgemmK T expand fold jA jD b Order TransA TransB M N K alpha A lda B ldb beta C ldc CI bufS bufA bufB m =
        some (F.rzgemmM T expand fold jA jD b Order TransA TransB M N K alpha A lda B ldb beta C ldc CI bufS bufA bufB m)) :=
  ⟨fun h => zgemmK_eq hF hT hs expand hf jA jD hb.y hb.x hb.yt hb.xt alpha bufS bufA bufB h m,
    fun h hC hCI => rzgemmK_eq hF hT hs expand hf jA jD hb.y hb.x hb.yt hb.xt alpha beta CI bufS bufA bufB h hC hCI m⟩

/-- **C74**, end to end: `reproBLAS_rdgemm` with checked `int` arithmetic does not overflow, and every entry of `C` becomes the conversion of the reproducible sum of its terms (the hypotheses other than the three
about sizes are those of `C66_rdgemm`). -/
theorem C74_rdgemm_total [F.OK] (hF : F = f64 ∨ F = f32) {T : Tune} (hT : T.OK F) (hsm : T.Small) (expand : Bool) {fold : Nat} (hf : 2 ≤ fold) (jA jD : Junk)
    {b : GemmB} (hb : b.OK) (Order TransA TransB : Char) {M N K : Nat} (alpha : Flt)
    {A lda B ldb : Int} (beta : Flt) {C : Int} {ldc : Nat} {CI bufS bufA bufB : Int} (m : Mem)
    (hs : GemmSep 1 (2 * fold) (isRow Order) M N K (b.xt * b.yt) (opEl (isRow Order) (isNo TransA) id lda) (opEl (isRow Order) (isNo TransB) id ldb) A B CI (if isRow Order then N else M) bufS bufA bufB)
    (hY : ∀ r c : Nat, r < M → c < N → ¬ GemmWork 1 (2 * fold) (isRow Order) M N K (b.xt * b.yt) CI (if isRow Order then N else M) bufS bufA bufB (C + entryAt (isRow Order) ldc r c))
    (hC : (if isRow Order then N else M) ≤ ldc) (hcap : K + 1 ≤ F.capacity)
    (hfit : GemmFits 1 (2 * fold) b (isRow Order) (isNo TransA) (isNo TransB) M N K lda ldb (if isRow Order then N else M : Nat))
    (hCfit : Arr 1 (if isRow Order then M else N) ldc (if isRow Order then N else M)) (hCI : ((2 * fold : Nat) : Int) * (M * N) ≤ 2147483647) :
    let terms := gemmTerms F (isRow Order) (isNo TransA) (isNo TransB) K alpha (fun a => m (A + a)) lda (fun a => m (B + a)) ldb
    let at' := fun r c => C + entryAt (isRow Order) ldc r c
    ∃ m', F.rdgemmC T expand fold jA jD b Order TransA TransB M N K alpha A lda B ldb beta C ldc CI bufS bufA bufB m = some m' ∧
      ∀ r c : Nat, r < M → c < N → (isZero beta = false → F.Finite (m (at' r c)) ∧ F.Finite (F.mul (m (at' r c)) beta)) →
      (isZero alpha = false → (∀ t : Nat, t < K → F.Finite (opEl (isRow Order) (isNo TransA) (fun a => m (A + a)) lda r t)) ∧ ∀ x ∈ terms r c, F.Finite x) →
      m' (at' r c) = convert F fold (F.specSum fold (betaTerm F beta (m (at' r c)) ++ (if isZero alpha then [] else terms r c))) := by
  intro terms at'
  exact ⟨_, (C74_gemm hF hT hsm expand (by omega) jA jD hb alpha beta CI bufS bufA bufB m).2 hfit hCfit hCI,
    (C66_rdgemm hT expand hf jA jD hb Order TransA TransB alpha beta m hs hY hC hcap).1⟩

/-! ### overflow -/

theorem forC_none {cond : Nat → List Int × Bool} {body : Nat → Mem → Option Mem} {i0 : Nat} (hb : ∀ m, body i0 m = none) :
    ∀ (fuel i : Nat) (m : Mem), (∀ k, i ≤ k → k ≤ i0 → (cond k).2 = true) → i ≤ i0 → forC cond 1 body fuel i m = none := by
  intro fuel
  induction fuel with
  | zero => intros; rfl
  | succ fuel ih =>
    intro i m hc hi
    unfold forC
    rw [if_pos (hc i (le_refl _) hi)]
    rcases Nat.lt_or_eq_of_le hi with h | h
    · cases body i m with
      | none => exact chk_none _
      | some m' => rw [Option.bind_some, ih (i + 1) m' (fun k h1 h2 => hc k (by omega) h2) h, chk_none, chk_none]
    · subst h; rw [hb]; exact chk_none _

theorem for1_none {hi i0 : Nat} {body : Nat → Mem → Option Mem} (h : i0 < hi) (hb : ∀ m, body i0 m = none) (m : Mem) : for1 hi 1 body m = none :=
  forC_none hb _ _ _ (fun k _ hk => by simp; omega) (Nat.zero_le _)

theorem bind_none' {α β : Type} (o : Option α) : (o.bind fun _ => (none : Option β)) = none := by cases o <;> rfl

theorem rgemmC_none {α : Type} {O : COps α} (zero unit : Bool) (scl : α → α) (prod : Int → Int → Mem → Option Mem) (row : Bool) {M N : Nat} (hM : M ≠ 0) (hN : N ≠ 0) (C ldc CI : Int)
    (h : ((M : Int) * N - 1) * O.bw > 2147483647) (m : Mem) : rgemmC O zero unit scl prod row M N C ldc CI m = none := by
  unfold rgemmC
  rw [if_neg (by tauto)]
  have key : ∀ P Q : Nat, P ≠ 0 → Q ≠ 0 → ((P : Int) * Q - 1) * O.bw > 2147483647 → ∀ m, for1 P 1 (fun i => for1 Q 1 (fun j m => chk (entE O i Q j ++ subE O i ldc j) <|
      some (O.put m (C + O.w * (i * ldc + j)) (O.unconv (CI + O.bw * (i * (Q : Int) + j)) m)))) m = none := by
    intro P Q hP hQ h m
    refine for1_none (i0 := P - 1) (by omega) (fun m => for1_none (i0 := Q - 1) (by omega) (fun m => ?_) m) m
    have e : ((P - 1 : Nat) : Int) * Q + ((Q - 1 : Nat) : Int) = (P : Int) * Q - 1 := by
      rw [Nat.cast_sub (by omega), Nat.cast_sub (by omega)]; push_cast; ring
    refine chk_neg (z := (((P - 1 : Nat) : Int) * Q + ((Q - 1 : Nat) : Int)) * O.bw) (by simp [entE]) ?_
    rw [e]
    unfold InInt
    omega
  have hk : ∀ m, for1 (if row = true then M else N) 1 (fun i => for1 (if row = true then N else M) 1 (fun j m => chk (entE O i (if row = true then N else M : Nat) j ++ subE O i ldc j) <|
      some (O.put m (C + O.w * (i * ldc + j)) (O.unconv (CI + O.bw * (i * ((if row = true then N else M : Nat) : Int) + j)) m)))) m = none := by
    cases row <;> simp only [Bool.false_eq_true, if_false, if_true]
    · exact key N M hN hM (by rw [mul_comm (N : Int)]; exact h)
    · exact key M N hM hN h
  dsimp only
  simp only [hk, bind_none', chk_none]

/-- **C74**, violated by `reproBLAS_rdgemm`, `rsgemm`, `rzgemm`, `rcgemm`: whatever the operands, orders, transpositions, scalars and memory, if the array of binned values the routine allocates has more than 2147483647
words, the subscript `(i * N + j) * binned_dbnum(fold)` overflows - although `M * N` may be far below 2147483647 (20000 by 20000 with the default fold 3, or 14000 by 14000 complex). -/
theorem C74_gemm_violated (T : Tune) (expand : Bool) (fold : Nat) (jA jD : Junk) (b : GemmB) (Order TransA TransB : Char) {M N : Nat} (K : Nat) (hM : M ≠ 0) (hN : N ≠ 0)
    (A lda B ldb C ldc CI bufS bufA bufB : Int) (m : Mem) :
    (((M : Int) * N - 1) * (2 * fold : Nat) > 2147483647 → ∀ alpha beta : Flt, F.rdgemmC T expand fold jA jD b Order TransA TransB M N K alpha A lda B ldb beta C ldc CI bufS bufA bufB m = none) ∧
    (((M : Int) * N - 1) * (4 * fold : Nat) > 2147483647 → ∀ alpha beta : Flt × Flt, F.rzgemmK T expand fold jA jD b Order TransA TransB M N K alpha A lda B ldb beta C ldc CI bufS bufA bufB m = none) :=
  ⟨fun h alpha beta => rgemmC_none (O := realOpsC F T expand fold jA jD) _ _ _ _ _ hM hN C ldc CI h m,
    fun h alpha beta => rgemmC_none (O := cplxOpsC F T expand fold jA jD false) _ _ _ _ _ hM hN C ldc CI h m⟩

/-- 20000 by 20000, fold 3: every array of the caller has at most 400000000 words. -/
example : ((20000 : Nat) : Int) * (20000 : Nat) - 1 > 0 ∧ (((20000 : Nat) : Int) * (20000 : Nat) - 1) * (2 * 3 : Nat) > 2147483647 ∧ Arr 1 20000 20000 20000 := by
  refine ⟨by decide, by decide, ?_⟩
  unfold Arr; decide

/-! Concrete cases. -/

theorem gT_small : gT.Small := ⟨by decide, by decide⟩

/-- Blocks of 2048 elements, pipes of 8, 2 of them, maximum of 16 at a time: in the range of the tuner. -/
example : Tune.Small ⟨2048, 4, 8, 2, 16, true⟩ := ⟨by decide, by decide⟩

/-- The block sizes of `dbdgemv` fit for up to 2147450880 rows or columns. -/
example {d : Nat} (h : d ≤ 2147450880) : GemvB.Fit ⟨8, 32768, 128, 32768, 8⟩ d := by
  have h' : (d : Int) ≤ 2147450880 := by exact_mod_cast h
  constructor <;> simp [GemvB.x, GemvB.xt] <;> omega

/-- A vector of 100000000 elements with stride -20. -/
example : Reach 1 (-20) 100000000 := by unfold Reach; decide

/-- A 10000 by 10000 matrix, transposed, with leading dimension 20000, and strided vectors. -/
example : GemvFits 1 (2 * 3) ⟨8, 32768, 128, 32768, 8⟩ true false 10000 10000 20000 (-3) 2 := by
  constructor <;> first | (constructor <;> decide) | decide | (unfold Arr; decide) | (unfold Reach; decide)

/-- Three 10000 by 10000 matrices, in column-major order. -/
example : GemmFits 1 (2 * 3) ⟨32, 32768, 32, 32768⟩ false true false 10000 10000 10000 10000 10000 10000 := by
  constructor <;> first | (constructor <;> decide) | decide | (unfold Arr; decide)

/-- The sum of the 3 elements 5, 7, 9 with stride 2, run with checked arithmetic. -/
example : ((f32.rvecC gT .sum true 2 (packed 2 100) 3 5 2 0 0 (fun _ => gσ) (fun _ => gσ) (fun a => if a < 50 then f32.ofInt a else zero)).map (fun m => f32.convertM 2 (packed 2 100) m)) = some (f32.ofInt 21) := by
  decide +kernel

/-- With a stride of 2^30, three elements are too many: the subscript of the third is 2^31. -/
example : f32.rvecC gT .sum true 2 (packed 2 100) 3 5 1073741824 0 0 (fun _ => gσ) (fun _ => gσ) (fun a => if a < 50 then f32.ofInt a else zero) = none := by
  have : (f32.rvecC gT .sum true 2 (packed 2 100) 3 5 1073741824 0 0 (fun _ => gσ) (fun _ => gσ) (fun a => if a < 50 then f32.ofInt a else zero)).isNone = true := by decide +kernel
  exact Option.isNone_iff_eq_none.1 this

end Repro
