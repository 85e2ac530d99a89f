import Verif.PropsGenRunZq
import Verif.PropsRoutine
import Verif.PropsNorm
import Verif.PropsAccuracy2
/-!
# C64: statements for the scaled sums of squares, the absolute sums of complex vectors and the norms

`ssqVecM`, `zasumVecM`, `zssqVecM` (`Verif/GenRunSq.lean`) execute the routines in one flat memory, the kernels being the
assignments the generator emits.
-/

namespace Repro
open Fmt

/-- `scl * sqrt(binned_ddbconv(fold, ssq))` (`src/reproBLAS/rdnrm2.c:31`, `rsnrm2.c:31`), the binned value being in memory. -/
def normOfM (F : Fmt) (fold : Nat) (l : Loc) (s : Flt × Mem) : Flt :=
  if F = f32 then narrow (f64.mul (widen s.1) (f64.sqrt (widen (f32.convertM fold l s.2))))
  else f64.mul s.1 (f64.sqrt (f64.convertM fold l s.2))

/-- `reproBLAS_rdnrm2` (`src/reproBLAS/rdnrm2.c:22-34`): the accumulator is allocated at `acc`. -/
def rdnrm2M (F : Fmt) (T : Tune) (expand : Bool) (fold : Nat) (acc : Int) (n : Nat) (X incX : Int) (jA jD : Nat → Regs) (m : Mem) : Flt :=
  normOfM F fold (packed fold acc) (F.ssqVecM T expand fold (packed fold acc) n X incX zero jA jD (dmsetzeroM fold (packed fold acc) m))

/-- `reproBLAS_rdznrm2` (`src/reproBLAS/rdznrm2.c:22-34`); `tmp`, `t0`, `t1` are the addresses the routines called allocate. -/
def rdznrm2M (F : Fmt) (T : Tune) (expand : Bool) (fold : Nat) (acc tmp t0 t1 : Int) (n : Nat) (X incX : Int) (jA jD : Nat → Regs) (m : Mem) : Flt :=
  normOfM F fold (packed fold acc) (F.zssqVecM T expand fold tmp t0 t1 (packed fold acc) n X incX zero jA jD (dmsetzeroM fold (packed fold acc) m))

/-- `reproBLAS_rdzasum` (`src/reproBLAS/rdzasum.c:20-31`). -/
def rdzasumM (F : Fmt) (T : Tune) (expand : Bool) (fold : Nat) (acc tmp : Int) (n : Nat) (X incX : Int) (jA jD : Nat → Regs) (m : Mem) : Flt :=
  F.convertM fold (packed fold acc) (F.zasumVecM T expand fold tmp (packed fold acc) n X incX jA jD (dmsetzeroM fold (packed fold acc) m))

variable {F : Fmt}

theorem gatherZ_pairs (m : Mem) (X incX : Int) (n : Nat) :
    gatherZ (fun a => (m (X + 2 * a), m (X + 2 * a + 1))) incX n = zvals (fun x _ => x) m X X incX incX n := by
  unfold gatherZ zvals Mem.pair
  apply List.map_congr_left
  intro i _
  dsimp only
  rw [show X + 2 * ((i : Int) * incX) = X + i * 2 * incX by ring]

theorem zmsetzero_spec {fold : Nat} {s : Loc} (hs : CSep fold s) (m : Mem) :
    cview fold s (zmsetzeroM fold s m) = (dmsetzero fold, dmsetzero fold) ∧ ∀ a, ¬ s.CIn fold a → zmsetzeroM fold s m a = m a :=
  both_parts hs (dmsetzeroM_refines hs.re) (dmsetzeroM_refines hs.im) m

section
variable [F.OK] {T : Tune} (hT : T.OK F) {expand : Bool} {fold : Nat} (hf : 1 ≤ fold) (he : expand = true → 2 ≤ fold) {l : Loc}
  (n : Nat) (X incX : Int) (jA jD : Nat → Regs) (m : Mem)
include hT hf he

/-- **C64.** `binnedBLAS_dmdssq`: scale and accumulator are those of the list model, for every initial scale that is zero or has a
finite reciprocal, and no other word is written. -/
theorem C64_ssq {scl : Flt} (hS : scl = zero ∨ F.Finite (F.div F.one scl)) (hs : Sep fold l) (hX : ∀ i : Nat, i < n → ¬ l.In fold (X + i * incX))
    (hw : ∀ i : Nat, i < n → F.expo (m (X + i * incX)) ≤ F.emax) :
    ((F.ssqVecM T expand fold l n X incX scl jA jD m).1, view fold l (F.ssqVecM T expand fold l n X incX scl jA jD m).2)
      = F.dmdssq T fold n (fun a => m (X + a)) incX scl (view fold l m)
    ∧ ∀ a, ¬ l.In fold a → (F.ssqVecM T expand fold l n X incX scl jA jD m).2 a = m a := by
  have h := ssqLoopM_spec hT hf he hs incX jA jD n n X 0 scl m hS hX hw
  refine ⟨h.1.trans ?_, h.2⟩
  unfold dmdssq ssqList
  rw [gather_length]
  rfl

/-- **C64.** `binnedBLAS_dmzasum`: besides the accumulator only the temporary it allocates is written. -/
theorem C64_zasum {tmp : Int} (hs : Sep fold l) (hr : Apart fold (zpacked fold tmp).re l) (hi : Apart fold (zpacked fold tmp).im l)
    (hX : ∀ i : Nat, i < n → (¬ l.In fold (X + i * 2 * incX) ∧ ¬ l.In fold (X + i * 2 * incX + 1))
      ∧ (¬ (zpacked fold tmp).CIn fold (X + i * 2 * incX) ∧ ¬ (zpacked fold tmp).CIn fold (X + i * 2 * incX + 1))) :
    view fold l (F.zasumVecM T expand fold tmp l n X incX jA jD m)
      = F.dmzasum T fold n (fun a => (m (X + 2 * a), m (X + 2 * a + 1))) incX (view fold l m)
    ∧ ∀ a, ¬ l.In fold a → ¬ (zpacked fold tmp).CIn fold a → F.zasumVecM T expand fold tmp l n X incX jA jD m a = m a := by
  have ht : TmpOK fold (zpacked fold tmp) l := ⟨zpacked_csep fold tmp, hs, hr, hi⟩
  have h0 := zmsetzero_spec ht.cs m
  have h := zasumLoopM_spec hT hf he ht incX jA jD n n X 0 (zmsetzeroM fold (zpacked fold tmp) m) hX
  refine ⟨h.1.trans ?_, fun a h1 h2 => (h.2 a h1 h2).trans (h0.2 a h2)⟩
  unfold dmzasum
  rw [gatherZ_pairs, h0.1, ht.viewL h0.2, AzReads.vals (s := zpacked fold tmp) (l := l) hX (Nat.le_refl _) (fun a _ h2 => h0.2 a h2)]

/-- **C64.** `binnedBLAS_dmzssq`: besides the accumulator only the temporary values the routine and the functions it calls
allocate are written. -/
theorem C64_zssq {tmp t0 t1 : Int} (scaleY : Flt) (hs : Sep fold l) (hr : Apart fold (zpacked fold tmp).re l) (hi : Apart fold (zpacked fold tmp).im l)
    (hr0 : Apart fold (zpacked fold tmp).re (packed fold t0)) (hi0 : Apart fold (zpacked fold tmp).im (packed fold t0))
    (hi1 : Apart fold (zpacked fold tmp).im (packed fold t1)) (hl0 : Apart fold (packed fold t0) l) (hl1 : Apart fold (packed fold t1) l)
    (hX : ∀ i : Nat, i < n → (¬ l.In fold (X + i * 2 * incX) ∧ ¬ l.In fold (X + i * 2 * incX + 1))
      ∧ (¬ (zpacked fold tmp).CIn fold (X + i * 2 * incX) ∧ ¬ (zpacked fold tmp).CIn fold (X + i * 2 * incX + 1))) :
    ((F.zssqVecM T expand fold tmp t0 t1 l n X incX scaleY jA jD m).1, view fold l (F.zssqVecM T expand fold tmp t0 t1 l n X incX scaleY jA jD m).2)
      = F.dmzssq T fold n (fun a => (m (X + 2 * a), m (X + 2 * a + 1))) incX scaleY (view fold l m)
    ∧ ∀ a, ¬ l.In fold a → ¬ (zpacked fold tmp).CIn fold a → ¬ (packed fold t0).In fold a → ¬ (packed fold t1).In fold a →
      (F.zssqVecM T expand fold tmp t0 t1 l n X incX scaleY jA jD m).2 a = m a := by
  have ht : SqTmpOK fold t0 t1 (zpacked fold tmp) l := ⟨⟨zpacked_csep fold tmp, hs, hr, hi⟩, rfl, hr0, hi0, hi1, hl0, hl1⟩
  have h0 := zmsetzero_spec ht.cs m
  have h := zssqLoopM_spec hT hf he ht incX scaleY jA jD n n X 0 zero (zmsetzeroM fold (zpacked fold tmp) m) hX
  refine ⟨h.1.trans ?_, fun a h1 h2 h3 h4 => (h.2 a h1 h2 h3 h4).trans (h0.2 a h2)⟩
  unfold dmzssq zssqList
  rw [gatherZ_pairs, zvals_length, h0.1, ht.viewL h0.2, AzReads.vals (s := zpacked fold tmp) (l := l) hX (Nat.le_refl _) (fun a _ h2 => h0.2 a h2)]

end

theorem normOfM_eq {fold : Nat} (hf : 2 ≤ fold) (l : Loc) (s : Flt × Mem) : normOfM F fold l s = normOf F fold (s.1, view fold l s.2) := by
  unfold normOfM normOf
  rw [C31_convert hf, C31_convert hf]

/-- **C64**, end to end. `reproBLAS_rdnrm2` executed statement by statement in memory returns the norm: its square is that close to
the exact sum of the squares, whatever the vector unit, the tuning, the contents of the registers, the stride and the place
of the accumulator. -/
theorem C64_norm [F.OK] {T : Tune} (hT : T.OK F) {expand : Bool} {fold : Nat} (hfold : 2 ≤ fold) (hJ : F.ssqHi + fold ≤ F.ssqJ + 1)
    {acc : Int} {n : Nat} (hN : n ≤ F.capacity) {X incX : Int} (jA jD : Nat → Regs) {m : Mem}
    (hX : ∀ i : Nat, i < n → ¬ (packed fold acc).In fold (X + i * incX)) (hx : ∀ i : Nat, i < n → F.Finite (m (X + i * incX)))
    (hbig : ∃ i : Nat, i < n ∧ 2 ^ (F.p + 1) ≤ (F.toInt (m (X + i * incX))).natAbs) :
    rdnrm2M F T expand fold acc n X incX jA jD m = rdnrm2 F T fold n (fun a => m (X + a)) incX
    ∧ IsNorm F fold ((List.range n).map (fun (i : Nat) => m (X + i * incX))) (rdnrm2M F T expand fold acc n X incX jA jD m) := by
  have h0 := dmsetzeroM_refines (packed_sep' fold acc) m
  have hfr : ∀ i : Nat, i < n → dmsetzeroM fold (packed fold acc) m (X + i * incX) = m (X + i * incX) := fun i hi => h0.2 _ (hX i hi)
  have key : rdnrm2M F T expand fold acc n X incX jA jD m = rdnrm2 F T fold n (fun a => m (X + a)) incX := by
    have h := (C64_ssq (expand := expand) hT (by omega) (fun _ => hfold) n X incX jA jD (dmsetzeroM fold (packed fold acc) m) (Or.inl rfl) (packed_sep' fold acc) hX
      (fun i hi => by rw [hfr i hi]; exact expo_le_finite (hx i hi))).1
    unfold rdnrm2M rdnrm2
    rw [normOfM_eq hfold, h, h0.1]
    unfold dmdssq gather
    congr 2
    exact List.map_congr_left (fun i hi => hfr i (List.mem_range.mp hi))
  exact ⟨key, key ▸ C56_norm hT hfold hJ hx hN hbig⟩

/-- **C64**, end to end. `reproBLAS_rdznrm2` executed statement by statement in memory returns the norm of all real and imaginary
parts. -/
theorem C64_znorm [F.OK] {T : Tune} (hT : T.OK F) {expand : Bool} {fold : Nat} (hfold : 2 ≤ fold) (hJ : F.ssqHi + fold ≤ F.ssqJ + 1)
    {acc tmp t0 t1 : Int} {n : Nat} (hN : 2 * n ≤ F.capacity) {X incX : Int} (jA jD : Nat → Regs) {m : Mem}
    (hr : Apart fold (zpacked fold tmp).re (packed fold acc)) (hi : Apart fold (zpacked fold tmp).im (packed fold acc))
    (hr0 : Apart fold (zpacked fold tmp).re (packed fold t0)) (hi0 : Apart fold (zpacked fold tmp).im (packed fold t0))
    (hi1 : Apart fold (zpacked fold tmp).im (packed fold t1)) (hl0 : Apart fold (packed fold t0) (packed fold acc)) (hl1 : Apart fold (packed fold t1) (packed fold acc))
    (hX : ∀ i : Nat, i < n → (¬ (packed fold acc).In fold (X + i * 2 * incX) ∧ ¬ (packed fold acc).In fold (X + i * 2 * incX + 1))
      ∧ (¬ (zpacked fold tmp).CIn fold (X + i * 2 * incX) ∧ ¬ (zpacked fold tmp).CIn fold (X + i * 2 * incX + 1)))
    (hx : ∀ i : Nat, i < n → F.Finite (m (X + i * 2 * incX)) ∧ F.Finite (m (X + i * 2 * incX + 1)))
    (hbig : ∃ i : Nat, i < n ∧ (2 ^ (F.p + 1) ≤ (F.toInt (m (X + i * 2 * incX))).natAbs ∨ 2 ^ (F.p + 1) ≤ (F.toInt (m (X + i * 2 * incX + 1))).natAbs)) :
    rdznrm2M F T expand fold acc tmp t0 t1 n X incX jA jD m = rdznrm2 F T fold n (fun a => (m (X + 2 * a), m (X + 2 * a + 1))) incX
    ∧ IsNorm F fold ((List.range n).map (fun (i : Nat) => m (X + i * 2 * incX)) ++ (List.range n).map (fun (i : Nat) => m (X + i * 2 * incX + 1))) (rdznrm2M F T expand fold acc tmp t0 t1 n X incX jA jD m) := by
  have h0 := dmsetzeroM_refines (packed_sep' fold acc) m
  have key : rdznrm2M F T expand fold acc tmp t0 t1 n X incX jA jD m = rdznrm2 F T fold n (fun a => (m (X + 2 * a), m (X + 2 * a + 1))) incX := by
    have h := (C64_zssq (expand := expand) hT (by omega) (fun _ => hfold) n X incX jA jD (dmsetzeroM fold (packed fold acc) m) zero (packed_sep' fold acc) hr hi hr0 hi0 hi1 hl0 hl1 hX).1
    unfold rdznrm2M rdznrm2
    rw [normOfM_eq hfold, h, h0.1]
    unfold dmzssq
    rw [gatherZ_pairs, gatherZ_pairs]
    congr 2
    exact zvals_congr (op := .sum) (fun _ _ _ _ => rfl) (fun i hi => ⟨⟨h0.2 _ (hX i hi).1.1, h0.2 _ (hX i hi).1.2⟩, fun hp => by cases hp⟩)
  have hp : parts (gatherZ (fun a => (m (X + 2 * a), m (X + 2 * a + 1))) incX n)
      = (List.range n).map (fun (i : Nat) => m (X + i * 2 * incX)) ++ (List.range n).map (fun (i : Nat) => m (X + i * 2 * incX + 1)) := by
    rw [gatherZ_pairs]
    unfold parts zvals Mem.pair
    rw [List.map_map, List.map_map]
    rfl
  refine ⟨key, ?_⟩
  rw [key, ← hp]
  refine C56_znorm hT hfold hJ ?_ hN ?_
  · rw [hp]
    intro x hxm
    rcases List.mem_append.mp hxm with hxm | hxm
    · obtain ⟨i, hi, rfl⟩ := List.mem_map.mp hxm
      exact (hx i (List.mem_range.mp hi)).1
    · obtain ⟨i, hi, rfl⟩ := List.mem_map.mp hxm
      exact (hx i (List.mem_range.mp hi)).2
  · rw [hp]
    obtain ⟨i, hi, h | h⟩ := hbig
    · exact ⟨_, List.mem_append.mpr (Or.inl (List.mem_map.mpr ⟨i, List.mem_range.mpr hi, rfl⟩)), h⟩
    · exact ⟨_, List.mem_append.mpr (Or.inr (List.mem_map.mpr ⟨i, List.mem_range.mpr hi, rfl⟩)), h⟩

/-- **C64**, end to end. `reproBLAS_rdzasum` executed statement by statement in memory. -/
theorem C64_zasum_native [F.OK] {T : Tune} (hT : T.OK F) {expand : Bool} {fold : Nat} (hfold : 2 ≤ fold)
    {acc tmp : Int} {n : Nat} {X incX : Int} (jA jD : Nat → Regs) {m : Mem}
    (hr : Apart fold (zpacked fold tmp).re (packed fold acc)) (hi : Apart fold (zpacked fold tmp).im (packed fold acc))
    (hX : ∀ i : Nat, i < n → (¬ (packed fold acc).In fold (X + i * 2 * incX) ∧ ¬ (packed fold acc).In fold (X + i * 2 * incX + 1))
      ∧ (¬ (zpacked fold tmp).CIn fold (X + i * 2 * incX) ∧ ¬ (zpacked fold tmp).CIn fold (X + i * 2 * incX + 1))) :
    rdzasumM F T expand fold acc tmp n X incX jA jD m = F.rdzasum T fold n (fun a => (m (X + 2 * a), m (X + 2 * a + 1))) incX := by
  have h0 := dmsetzeroM_refines (packed_sep' fold acc) m
  have h := (C64_zasum (expand := expand) hT (by omega) (fun _ => hfold) n X incX jA jD (dmsetzeroM fold (packed fold acc) m) (packed_sep' fold acc) hr hi hX).1
  unfold rdzasumM rdzasum
  rw [C31_convert hfold, h, h0.1]
  unfold dmzasum
  rw [gatherZ_pairs, gatherZ_pairs]
  congr 2
  exact zvals_congr (op := .sum) (fun _ _ _ _ => rfl) (fun i hi => ⟨⟨h0.2 _ (hX i hi).1.1, h0.2 _ (hX i hi).1.2⟩, fun hp => by cases hp⟩)

/-! Concrete cases. -/

/-- Places that meet the hypotheses of `C64_znorm`: the vector at 0, the accumulator at 1000, the temporaries behind it. -/
example : Apart 3 (zpacked 3 1100).re (packed 3 1000) ∧ Apart 3 (zpacked 3 1100).im (packed 3 1000) ∧ Apart 3 (zpacked 3 1100).re (packed 3 1200)
    ∧ Apart 3 (zpacked 3 1100).im (packed 3 1300) ∧ Apart 3 (packed 3 1200) (packed 3 1000)
    ∧ ∀ i : Nat, i < 50 → ¬ (zpacked 3 1100).CIn 3 (0 + i * 2 * 3) ∧ ¬ (zpacked 3 1100).CIn 3 (0 + i * 2 * 3 + 1) := by
  refine ⟨?_, ?_, ?_, ?_, ?_, fun i hi => ⟨?_, ?_⟩⟩
  all_goals simp only [Apart, Loc.In, Loc.CIn, Loc.P, Loc.C, Loc.re, Loc.im, packed, zpacked]
  all_goals first
    | (rintro a ⟨i, hi, h⟩ ⟨j, hj, h'⟩; omega)
    | (rintro (⟨j, hj, h⟩ | ⟨j, hj, h⟩) <;> omega)

/-- The norm of `(3, 4)` in memory. -/
example : rdnrm2M f32 gT true 2 100 2 0 1 (fun _ => gσ) (fun _ => gσ) (fun a => f32.ofInt (a + 3)) = f32.ofInt 5 := by decide +kernel

/-- The absolute sum of `(1 + 2i, 3 + 4i)` in memory. -/
example : rdzasumM f32 gT true 2 100 200 2 0 1 (fun _ => gσ) (fun _ => gσ) (fun a => f32.ofInt (a + 1)) = f32.ofInt 10 := by decide +kernel

end Repro
