import Verif.PropsWordRun
import Verif.PropsZ
import Verif.PropsZDot
/-!
# C64, C71: the complex native routines, in memory and on words

`reproBLAS_rzsum_sub`, `rzdotu_sub`, `rzdotc_sub` (and the single precision ones) from `binned_zbsetzero` to `binned_zzbconv_sub`,
the vector routine in between being executed statement by statement (C64) or instruction by instruction (C71); the absolute
sum and the norm of complex vectors on words.
-/

namespace Repro
open Fmt

/-- `reproBLAS_rzsum_sub` (`src/reproBLAS/rzsum_sub.c:20-30`; op `.sum`), `reproBLAS_rzdotu_sub`, `reproBLAS_rzdotc_sub`
(`src/reproBLAS/rzdotc_sub.c:23-33`), `reproBLAS_rcsum_sub` and so on: the accumulator is allocated at `acc`. The result is the pair
written to the caller's variable. -/
def rzvecM (F : Fmt) (T : Tune) (op : DepOp) (expand : Bool) (fold : Nat) (acc : Int) (n : Nat) (X incX Z incZ : Int) (jA jD : Nat → Regs) (m : Mem) : Flt × Flt :=
  F.zzmconvM fold (zpacked fold acc) (F.zvecM T op expand fold (zpacked fold acc) n X incX Z incZ jA jD (zmsetzeroM fold (zpacked fold acc) m))

/-- The same on a machine with SSE or AVX. -/
def rzvecW (F : Fmt) (isa : Isa) (T : Tune) (op : DepOp) (expand : Bool) (fold : Nat) (acc : Int) (n : Nat) (X incX Z incZ : Int)
    (jA jD : Nat → IRegs isa.bits F.width) (w : F.Words) : Flt × Flt :=
  F.zzmconvM fold (zpacked fold acc) (F.decMem (F.zvecW isa T op expand fold (zpacked fold acc) n X incX Z incZ jA jD (F.onWords (zmsetzeroM fold (zpacked fold acc)) w)))

/-- The complex numbers of a memory, seen from the address `X`. -/
def pairsAt (m : Mem) (X : Int) : Int → Flt × Flt := fun a => (m (X + 2 * a), m (X + 2 * a + 1))

variable {F : Fmt}

/-- What the routines read: after clearing the accumulator the vector is unchanged. -/
theorem gatherZ_cleared {fold : Nat} {acc : Int} (m : Mem) {X incX : Int} {n : Nat}
    (hX : ∀ i : Nat, i < n → ¬ (zpacked fold acc).CIn fold (X + i * 2 * incX) ∧ ¬ (zpacked fold acc).CIn fold (X + i * 2 * incX + 1)) :
    gatherZ (pairsAt (zmsetzeroM fold (zpacked fold acc) m) X) incX n = gatherZ (pairsAt m X) incX n := by
  have h0 := (zmsetzero_spec (zpacked_csep fold acc) m).2
  unfold gatherZ pairsAt
  apply List.map_congr_left
  intro i hi
  have h := hX i (List.mem_range.mp hi)
  have e : X + 2 * ((i : Int) * incX) = X + i * 2 * incX := by ring
  rw [e, h0 _ h.1, h0 _ h.2]

section
variable [F.OK] {T : Tune} (hT : T.OK F) {expand : Bool} {fold : Nat} (hfold : 2 ≤ fold) {acc : Int} {n : Nat} {X incX Z incZ : Int}
include hT hfold

/-- **C64**, end to end: the complex native routines executed statement by statement in memory return what the list model
`F.rzsum`, `F.rzdotu`, `F.rzdotc` returns for the complex numbers stored, whatever these are (also infinities and NaN). -/
theorem C64_znative (jA jD : Nat → Regs) (m : Mem)
    (hX : ∀ i : Nat, i < n → ¬ (zpacked fold acc).CIn fold (X + i * 2 * incX) ∧ ¬ (zpacked fold acc).CIn fold (X + i * 2 * incX + 1)) :
    rzvecM F T .sum expand fold acc n X incX Z incZ jA jD m = F.rzsum T fold n (pairsAt m X) incX
    ∧ ((∀ i : Nat, i < n → ¬ (zpacked fold acc).CIn fold (Z + i * 2 * incZ) ∧ ¬ (zpacked fold acc).CIn fold (Z + i * 2 * incZ + 1)) →
      rzvecM F T .dotu expand fold acc n X incX Z incZ jA jD m = F.rzdotu T fold n (pairsAt m X) incX (pairsAt m Z) incZ
      ∧ rzvecM F T .dotc expand fold acc n X incX Z incZ jA jD m = F.rzdotc T fold n (pairsAt m X) incX (pairsAt m Z) incZ) := by
  have hs := zpacked_csep fold acc
  have h0 := (zmsetzero_spec hs m).1
  have conv : ∀ (m' : Mem) (y : Binned × Binned), cview fold (zpacked fold acc) m' = y →
      F.zzmconvM fold (zpacked fold acc) m' = (convert F fold y.1, convert F fold y.2) := by
    rintro m' y rfl
    exact C23_packed hfold acc m'
  have gX := gatherZ_cleared m hX
  refine ⟨?_, fun hZ => ⟨?_, ?_⟩⟩
  · have h := (C64_zsum (expand := expand) hT (by omega) (fun _ => hfold) n X incX Z incZ jA jD (zmsetzeroM fold (zpacked fold acc) m) hs hX).1
    rw [h0] at h
    rw [rzvecM, conv _ _ h]
    unfold rzsum zmzsum
    unfold pairsAt at gX ⊢
    rw [gX]
  · have h := (C64_dotu (expand := expand) hT (by omega) (fun _ => hfold) n X incX Z incZ jA jD (zmsetzeroM fold (zpacked fold acc) m) hs hX hZ).1
    rw [h0] at h
    rw [rzvecM, conv _ _ h]
    have gZ := gatherZ_cleared m hZ
    unfold rzdotu zmzdotu
    unfold pairsAt at gX gZ ⊢
    rw [gX, gZ]
  · have h := (C64_dotc (expand := expand) hT (by omega) (fun _ => hfold) n X incX Z incZ jA jD (zmsetzeroM fold (zpacked fold acc) m) hs hX hZ).1
    rw [h0] at h
    rw [rzvecM, conv _ _ h]
    have gZ := gatherZ_cleared m hZ
    unfold rzdotc zmzdotc
    unfold pairsAt at gX gZ ⊢
    rw [gX, gZ]

/-- **C64**: what `reproBLAS_rzsum_sub` returns, without the list model: the conversions of the specified sums of the real and of the
imaginary parts stored. -/
theorem C64_zsum_native (jA jD : Nat → Regs) (m : Mem) (hN : n ≤ F.capacity)
    (hX : ∀ i : Nat, i < n → ¬ (zpacked fold acc).CIn fold (X + i * 2 * incX) ∧ ¬ (zpacked fold acc).CIn fold (X + i * 2 * incX + 1))
    (hx : ∀ i : Nat, i < n → F.Finite (m (X + i * 2 * incX)) ∧ F.Finite (m (X + i * 2 * incX + 1))) :
    rzvecM F T .sum expand fold acc n X incX Z incZ jA jD m
      = (convert F fold (F.specSum fold ((List.range n).map (fun (i : Nat) => m (X + i * 2 * incX)))),
         convert F fold (F.specSum fold ((List.range n).map (fun (i : Nat) => m (X + i * 2 * incX + 1))))) := by
  have e : ∀ i : Nat, X + 2 * ((i : Int) * incX) = X + i * 2 * incX := fun i => by ring
  have key : ∀ (f : Flt × Flt → Flt) (g : Nat → Flt), (∀ i : Nat, f (pairsAt m X (i * incX)) = g i) → (∀ i : Nat, i < n → F.Finite (g i)) →
      (List.range n).foldl (fun y (i : Nat) => F.dmdadd fold (f (pairsAt m X (i * incX))) y) (dmsetzero fold) = F.specSum fold ((List.range n).map g) := by
    intro f g hg hfin
    have hfin' : ∀ x ∈ (List.range n).map g, F.Finite x := by
      intro x hm
      obtain ⟨i, hi, rfl⟩ := List.mem_map.1 hm
      exact hfin i (List.mem_range.1 hi)
    rw [← C01_sum_is_spec hfold hfin' (by simpa using hN)]
    unfold sumSeq
    rw [List.foldl_map]
    simp only [hg]
  rw [(C64_znative hT hfold (Z := Z) (incZ := incZ) jA jD m hX).1]
  unfold rzsum
  have hx' : ∀ i : Nat, i < n → F.Finite (pairsAt m X (i * incX)).1 ∧ F.Finite (pairsAt m X (i * incX)).2 := fun i hi => by
    simp only [pairsAt, e]
    exact hx i hi
  have e1 := C48_sum_re (h := .zero) hT hfold trivial (n := n) (X := pairsAt m X) (incX := incX) (fun _ => trivial) (fun i hi => (hx' i hi).1) (by simpa [Hist.nums] using hN) (dmsetzero fold)
  have e2 := C48_sum_im (h := .zero) hT hfold trivial (n := n) (X := pairsAt m X) (incX := incX) (fun _ => trivial) (fun i hi => (hx' i hi).2) (by simpa [Hist.nums] using hN) (dmsetzero fold)
  have e1' : (F.zmzsum T fold n (pairsAt m X) incX (dmsetzero fold, dmsetzero fold)).1 = F.specSum fold ((List.range n).map (fun (i : Nat) => m (X + i * 2 * incX))) :=
    e1.trans (key Prod.fst _ (fun i => by simp only [pairsAt, e]) (fun i hi => (hx i hi).1))
  have e2' : (F.zmzsum T fold n (pairsAt m X) incX (dmsetzero fold, dmsetzero fold)).2 = F.specSum fold ((List.range n).map (fun (i : Nat) => m (X + i * 2 * incX + 1))) :=
    e2.trans (key Prod.snd _ (fun i => by simp only [pairsAt, e]) (fun i hi => (hx i hi).2))
  dsimp only
  rw [e1', e2']

end

/-! ### Words -/

section
variable [F.OK] {isa : Isa} {T : Tune} (hT : T.OK F) (hu : T.Unit F isa true) {expand : Bool} {fold : Nat} (hfold : 2 ≤ fold)
  {acc : Int} {n : Nat} {X incX Z incZ : Int}
include hT hu

theorem rzvecW_dec {op : DepOp} (hop : ∀ inv, op = .ssq inv → F.Bits inv) (jA jD : Nat → IRegs isa.bits F.width) (w : F.Words) :
    rzvecW F isa T op expand fold acc n X incX Z incZ jA jD w
      = rzvecM F T op expand fold acc n X incX Z incZ (fun r => F.decRegs isa (jA r)) (fun r => F.decRegs isa (jD r)) (F.decMem w) := by
  have e := zloopW_dec hT expand fold hu op hop (zpacked fold acc) incX incZ jA jD n n X Z 0 (F.onWords (zmsetzeroM fold (zpacked fold acc)) w)
  rw [dec_onWords (zmsetzeroM_keeps _ _)] at e
  exact congrArg (F.zzmconvM fold (zpacked fold acc)) e

include hfold

/-- **C71**, end to end: the complex native routines with SSE or AVX instructions inside return what the list model returns
for the numbers the words stand for (infinities and NaN included). -/
theorem C71_znative (jA jD : Nat → IRegs isa.bits F.width) (w : F.Words)
    (hX : ∀ i : Nat, i < n → ¬ (zpacked fold acc).CIn fold (X + i * 2 * incX) ∧ ¬ (zpacked fold acc).CIn fold (X + i * 2 * incX + 1)) :
    rzvecW F isa T .sum expand fold acc n X incX Z incZ jA jD w = F.rzsum T fold n (pairsAt (F.decMem w) X) incX
    ∧ ((∀ i : Nat, i < n → ¬ (zpacked fold acc).CIn fold (Z + i * 2 * incZ) ∧ ¬ (zpacked fold acc).CIn fold (Z + i * 2 * incZ + 1)) →
      rzvecW F isa T .dotu expand fold acc n X incX Z incZ jA jD w = F.rzdotu T fold n (pairsAt (F.decMem w) X) incX (pairsAt (F.decMem w) Z) incZ
      ∧ rzvecW F isa T .dotc expand fold acc n X incX Z incZ jA jD w = F.rzdotc T fold n (pairsAt (F.decMem w) X) incX (pairsAt (F.decMem w) Z) incZ) := by
  have h := C64_znative hT (expand := expand) hfold (Z := Z) (incZ := incZ) (fun r => F.decRegs isa (jA r)) (fun r => F.decRegs isa (jD r)) (F.decMem w) hX
  rw [rzvecW_dec hT hu (fun inv h => by cases h), rzvecW_dec hT hu (fun inv h => by cases h), rzvecW_dec hT hu (fun inv h => by cases h)]
  exact h

/-- **C71**: `reproBLAS_rzsum_sub` on words returns the conversions of the specified sums of the two parts. -/
theorem C71_zsum_native (jA jD : Nat → IRegs isa.bits F.width) (w : F.Words) (hN : n ≤ F.capacity)
    (hX : ∀ i : Nat, i < n → ¬ (zpacked fold acc).CIn fold (X + i * 2 * incX) ∧ ¬ (zpacked fold acc).CIn fold (X + i * 2 * incX + 1))
    (hx : ∀ i : Nat, i < n → F.Finite (F.dec (w (X + i * 2 * incX))) ∧ F.Finite (F.dec (w (X + i * 2 * incX + 1)))) :
    rzvecW F isa T .sum expand fold acc n X incX Z incZ jA jD w
      = (convert F fold (F.specSum fold ((List.range n).map (fun (i : Nat) => F.dec (w (X + i * 2 * incX))))),
         convert F fold (F.specSum fold ((List.range n).map (fun (i : Nat) => F.dec (w (X + i * 2 * incX + 1)))))) := by
  rw [rzvecW_dec hT hu (fun inv h => by cases h)]
  exact C64_zsum_native hT hfold _ _ (F.decMem w) hN hX hx

/-- **C71**: `reproBLAS_rdzasum` on words. -/
theorem C71_zasum_native {tmp : Int} (jA jD : Nat → IRegs isa.bits F.width) (w : F.Words)
    (hr : Apart fold (zpacked fold tmp).re (packed fold acc)) (hi : Apart fold (zpacked fold tmp).im (packed fold acc))
    (hX : ∀ i : Nat, i < n → (¬ (packed fold acc).In fold (X + i * 2 * incX) ∧ ¬ (packed fold acc).In fold (X + i * 2 * incX + 1))
      ∧ (¬ (zpacked fold tmp).CIn fold (X + i * 2 * incX) ∧ ¬ (zpacked fold tmp).CIn fold (X + i * 2 * incX + 1))) :
    F.convertM fold (packed fold acc) (F.decMem (F.zasumVecW isa T expand fold tmp (packed fold acc) n X incX jA jD (F.onWords (dmsetzeroM fold (packed fold acc)) w)))
      = F.rdzasum T fold n (pairsAt (F.decMem w) X) incX := by
  have e := zasumLoopW_dec hT expand fold hu (zpacked fold tmp) (packed fold acc) incX jA jD n n X 0
    (F.onWords (zmsetzeroM fold (zpacked fold tmp)) (F.onWords (dmsetzeroM fold (packed fold acc)) w))
  rw [dec_onWords (zmsetzeroM_keeps _ _), dec_onWords (dmsetzeroM_keeps _ _)] at e
  exact (congrArg (F.convertM fold (packed fold acc)) e).trans
    (C64_zasum_native hT (expand := expand) hfold (fun r => F.decRegs isa (jA r)) (fun r => F.decRegs isa (jD r)) hr hi hX)

/-- **C71**: `reproBLAS_rdznrm2` on words returns the norm of all real and imaginary parts. -/
theorem C71_znorm (hJ : F.ssqHi + fold ≤ F.ssqJ + 1) {tmp t0 t1 : Int} (hN : 2 * n ≤ F.capacity)
    (jA jD : Nat → IRegs isa.bits F.width) (w : F.Words)
    (hr : Apart fold (zpacked fold tmp).re (packed fold acc)) (hi : Apart fold (zpacked fold tmp).im (packed fold acc))
    (hr0 : Apart fold (zpacked fold tmp).re (packed fold t0)) (hi0 : Apart fold (zpacked fold tmp).im (packed fold t0))
    (hi1 : Apart fold (zpacked fold tmp).im (packed fold t1)) (hl0 : Apart fold (packed fold t0) (packed fold acc)) (hl1 : Apart fold (packed fold t1) (packed fold acc))
    (hX : ∀ i : Nat, i < n → (¬ (packed fold acc).In fold (X + i * 2 * incX) ∧ ¬ (packed fold acc).In fold (X + i * 2 * incX + 1))
      ∧ (¬ (zpacked fold tmp).CIn fold (X + i * 2 * incX) ∧ ¬ (zpacked fold tmp).CIn fold (X + i * 2 * incX + 1)))
    (hx : ∀ i : Nat, i < n → F.Finite (F.dec (w (X + i * 2 * incX))) ∧ F.Finite (F.dec (w (X + i * 2 * incX + 1))))
    (hbig : ∃ i : Nat, i < n ∧ (2 ^ (F.p + 1) ≤ (F.toInt (F.dec (w (X + i * 2 * incX)))).natAbs ∨ 2 ^ (F.p + 1) ≤ (F.toInt (F.dec (w (X + i * 2 * incX + 1)))).natAbs)) :
    let r := F.zssqVecW isa T expand fold tmp t0 t1 (packed fold acc) n X incX zero jA jD (F.onWords (dmsetzeroM fold (packed fold acc)) w)
    IsNorm F fold ((List.range n).map (fun (i : Nat) => F.dec (w (X + i * 2 * incX))) ++ (List.range n).map (fun (i : Nat) => F.dec (w (X + i * 2 * incX + 1))))
      (normOfM F fold (packed fold acc) (r.1, F.decMem r.2)) := by
  intro r
  have e := zssqLoopW_dec hT expand fold hu t0 t1 (zpacked fold tmp) (packed fold acc) incX zero jA jD n n X 0 zero
    (F.onWords (zmsetzeroM fold (zpacked fold tmp)) (F.onWords (dmsetzeroM fold (packed fold acc)) w))
  rw [dec_onWords (zmsetzeroM_keeps _ _), dec_onWords (dmsetzeroM_keeps _ _)] at e
  have h := (C64_znorm (expand := expand) hT hfold hJ hN (fun r => F.decRegs isa (jA r)) (fun r => F.decRegs isa (jD r)) (m := F.decMem w)
    hr hi hr0 hi0 hi1 hl0 hl1 hX hx hbig).2
  exact (congrArg (normOfM F fold (packed fold acc)) e) ▸ h

end

/-- **C71**: the native complex sum on two machines, each with SSE or AVX, with tunings, register contents, addresses and strides of
their own, gives the same pair of numbers if the complex numbers of one vector are a permutation of those of the other. -/
theorem C71_zreproducible [F.OK] {isa isa' : Isa} {T T' : Tune} (hT : T.OK F) (hT' : T'.OK F) (hu : T.Unit F isa true) (hu' : T'.Unit F isa' true)
    {expand expand' : Bool} {fold : Nat} (hfold : 2 ≤ fold) {acc acc' : Int} {n : Nat} (hN : n ≤ F.capacity) {X X' incX incX' Z Z' incZ incZ' : Int}
    (jA jD : Nat → IRegs isa.bits F.width) (jA' jD' : Nat → IRegs isa'.bits F.width) {w w' : F.Words}
    (hX : ∀ i : Nat, i < n → ¬ (zpacked fold acc).CIn fold (X + i * 2 * incX) ∧ ¬ (zpacked fold acc).CIn fold (X + i * 2 * incX + 1))
    (hX' : ∀ i : Nat, i < n → ¬ (zpacked fold acc').CIn fold (X' + i * 2 * incX') ∧ ¬ (zpacked fold acc').CIn fold (X' + i * 2 * incX' + 1))
    (hp : ((List.range n).map (fun (i : Nat) => (w (X + i * 2 * incX), w (X + i * 2 * incX + 1)))).Perm
      ((List.range n).map (fun (i : Nat) => (w' (X' + i * 2 * incX'), w' (X' + i * 2 * incX' + 1)))))
    (hx : ∀ i : Nat, i < n → F.Finite (F.dec (w (X + i * 2 * incX))) ∧ F.Finite (F.dec (w (X + i * 2 * incX + 1)))) :
    rzvecW F isa T .sum expand fold acc n X incX Z incZ jA jD w = rzvecW F isa' T' .sum expand' fold acc' n X' incX' Z' incZ' jA' jD' w' := by
  have g : ∀ (w : F.Words) (X incX : Int), gatherZ (pairsAt (F.decMem w) X) incX n
      = ((List.range n).map (fun (i : Nat) => (w (X + i * 2 * incX), w (X + i * 2 * incX + 1)))).map (fun a => (F.dec a.1, F.dec a.2)) := by
    intro w X incX
    rw [List.map_map]
    unfold gatherZ pairsAt
    apply List.map_congr_left
    intro i _
    have e : X + 2 * ((i : Int) * incX) = X + i * 2 * incX := by ring
    rw [e]
    rfl
  rw [(C71_znative hT hu hfold (Z := Z) (incZ := incZ) jA jD w hX).1, (C71_znative hT' hu' hfold (Z := Z') (incZ := incZ') jA' jD' w' hX').1]
  refine (C48_independent hT hT' hfold ?_ ?_ hN).2
  · rw [g, g]
    exact hp.map _
  · intro i hi
    have e : X + 2 * ((i : Int) * incX) = X + i * 2 * incX := by ring
    simp only [pairsAt, e]
    exact hx i hi

/-! Concrete cases. -/

/-- The complex sum of `(1 + 2i, 3 + 4i)` in memory. -/
example : rzvecM f32 gT .sum true 2 100 2 0 1 0 1 (fun _ => gσ) (fun _ => gσ) (fun a => f32.ofInt (a + 1)) = (f32.ofInt 4, f32.ofInt 6) := by decide +kernel

/-- Its conjugated dot product with itself: 1 + 4 + 9 + 16. -/
example : rzvecM f32 gT .dotc true 2 100 2 0 1 0 1 (fun _ => gσ) (fun _ => gσ) (fun a => f32.ofInt (a + 1)) = (f32.ofInt 30, f32.ofInt 0) := by decide +kernel

/-- A place for the accumulator that meets the hypotheses, with vectors at 0 and stride 3. -/
example : ∀ i : Nat, i < 50 → ¬ (zpacked 3 1100).CIn 3 (0 + i * 2 * 3) ∧ ¬ (zpacked 3 1100).CIn 3 (0 + i * 2 * 3 + 1) := by
  intro i hi
  simp only [Loc.In, Loc.CIn, Loc.P, Loc.C, Loc.re, Loc.im, zpacked]
  constructor <;> (rintro (⟨j, hj, h⟩ | ⟨j, hj, h⟩) <;> omega)

/-- Tunings for both units. -/
example : (Tune.mk 4 4 4 1 4 true).OK f32 ∧ (Tune.mk 4 4 4 1 4 true).Unit f32 .avx true ∧ (Tune.mk 2 2 2 1 2 true).Unit f32 .sse true := by
  refine ⟨by constructor <;> first | decide | exact ⟨2, rfl⟩ | exact ⟨0, rfl⟩, ⟨rfl, rfl⟩, ⟨rfl, rfl⟩⟩

end Repro
