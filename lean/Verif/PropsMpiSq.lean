import Verif.ScaleMem
import Verif.PropsMpi
import Verif.PropsSsqInf
/-!
# C28: MPI reductions of scaled sums of squares
-/

namespace Repro
namespace Fmt
variable (F : Fmt)

/-- `dbdbaddsqv` (`src/binnedMPI/DBDBADDSQ.ccog:9-14`), `sbsbaddsqv` (`src/binnedMPI/SBSBADDSQ.ccog:8-13`): an element is a
scale followed by a packed binned value. The scale that `binned_dmdmaddsq` returns is not used. `tmp i` is the address of the
temporary value that the call for element `i` may allocate. -/
def dbdbaddsqvM (fold : Nat) (tmp : Nat → Int) (n : Nat) (X Y : Int) (m : Mem) : Mem :=
  (List.range n).foldl (fun m (i : Nat) =>
    let x := X + i * (dbnum fold + 1)
    let y := Y + i * (dbnum fold + 1)
    (F.dmdmaddsqM fold (tmp i) (m x) (packed fold (x + 1)) (m y) (packed fold (y + 1)) m).2) m

/-- `binnedMPI_dbdbaddsq_{fold}` (`src/binnedMPI/DBDBADDSQ.ccog:16-24`) on the datatype `MPI_Type_contiguous(binned_dbnum(fold)
+ 1, MPI_DOUBLE)` (`src/binnedMPI/DOUBLE_BINNED_SCALED.c:29`). -/
def mpiAddSq (fold : Nat) (tmp : Nat → Int) : RedOp where
  words := dbnum fold + 1
  op invec inoutvec len m := F.dbdbaddsqvM fold tmp len invec inoutvec m

end Fmt
open Fmt
variable {F : Fmt}

/-- Element of a buffer of scaled sums of squares: the scale and the binned value. -/
def lookS (fold : Nat) (a : Int) (m : Mem) : Flt × Binned := (m a, view fold (packed fold (a + 1)) m)

/-- What the MPI operation does to an element. -/
def mergeSq (F : Fmt) (fold : Nat) (x y : Flt × Binned) : Flt × Binned := (y.1, (F.dmdmaddsq fold x.1 x.2 y.1 y.2).2)

theorem lookS_local {fold : Nat} (a b : Int) (m m' : Mem) (h : ∀ d, 0 ≤ d → d < dbnum fold + 1 → m (a + d) = m' (b + d)) :
    lookS fold a m = lookS fold b m' := by
  unfold lookS
  have h0 := h 0 (by omega) (by unfold dbnum; omega)
  rw [Int.add_zero, Int.add_zero] at h0
  rw [h0]
  congr 1
  apply lookD_local
  intro d h1 h2
  have := h (1 + d) (by omega) (by omega)
  rw [Int.add_assoc, Int.add_assoc]; exact this

/-- The loop over elements, for buffers that do not overlap each other or the temporary values. -/
theorem addsqv_spec {n : Nat} (hn : 1 ≤ n) {tmp : Nat → Int} {X Y : Int} (N : Nat)
    (hXY : ∀ i < N, ∀ j < N, (dbnum n + 1) ≤ (X + i * (dbnum n + 1) - (Y + j * (dbnum n + 1))).natAbs)
    (htX : ∀ i < N, ∀ j < N, (dbnum n + 1) ≤ (X + i * (dbnum n + 1) - tmp j).natAbs)
    (htY : ∀ i < N, ∀ j < N, (dbnum n + 1) ≤ (Y + i * (dbnum n + 1) - tmp j).natAbs) (m : Mem) :
    (∀ i < N, lookS n (Y + i * (dbnum n + 1)) (F.dbdbaddsqvM n tmp N X Y m) =
      mergeSq F n (lookS n (X + i * (dbnum n + 1)) m) (lookS n (Y + i * (dbnum n + 1)) m)) ∧
    (∀ a, (∀ i < N, ¬ (packed n (Y + i * (dbnum n + 1) + 1)).In n a ∧ ¬ (packed n (tmp i)).In n a) →
      F.dbdbaddsqvM n tmp N X Y m a = m a) := by
  have hd : dbnum n = 2 * n := rfl
  induction N with
  | zero => exact ⟨fun i hi => absurd hi (by omega), fun a _ => rfl⟩
  | succ N ih =>
    have ih := ih (fun i hi j hj => hXY i (by omega) j (by omega)) (fun i hi j hj => htX i (by omega) j (by omega))
      (fun i hi j hj => htY i (by omega) j (by omega))
    have e : F.dbdbaddsqvM n tmp (N + 1) X Y m =
        (F.dmdmaddsqM n (tmp N) (F.dbdbaddsqvM n tmp N X Y m (X + N * (dbnum n + 1))) (packed n (X + N * (dbnum n + 1) + 1))
          (F.dbdbaddsqvM n tmp N X Y m (Y + N * (dbnum n + 1))) (packed n (Y + N * (dbnum n + 1) + 1)) (F.dbdbaddsqvM n tmp N X Y m)).2 := by
      unfold dbdbaddsqvM
      rw [List.range_succ, List.foldl_append]; rfl
    have gap : ∀ i j : Nat, i ≠ j → dbnum n + 1 ≤ (Y + i * (dbnum n + 1) - (Y + j * (dbnum n + 1))).natAbs := by
      intro i j hij
      have := mul_gap (i := i) (j := j) (d := dbnum n + 1) (n := dbnum n + 1) (by omega) hij
      have e2 : Y + (i : Int) * (dbnum n + 1) - (Y + j * (dbnum n + 1)) = i * (dbnum n + 1) - j * (dbnum n + 1) := by omega
      rw [e2]; exact this
    have h := dmdmaddsqM_refines (F := F) hn (tmp := tmp N) (x := packed n (X + N * (dbnum n + 1) + 1)) (y := packed n (Y + N * (dbnum n + 1) + 1))
      (packed_sep n _) (packed_apart (by have := hXY N (by omega) N (by omega); omega))
      (packed_apart (by have := htX N (by omega) N (by omega); omega))
      (packed_apart (by have := htY N (by omega) N (by omega); omega))
      (F.dbdbaddsqvM n tmp N X Y m (X + N * (dbnum n + 1))) (F.dbdbaddsqvM n tmp N X Y m (Y + N * (dbnum n + 1))) (F.dbdbaddsqvM n tmp N X Y m)
    dsimp only at h
    rw [← e] at h
    have frame : ∀ a, ¬ (packed n (Y + N * (dbnum n + 1) + 1)).In n a → ¬ (packed n (tmp N)).In n a →
        F.dbdbaddsqvM n tmp (N + 1) X Y m a = F.dbdbaddsqvM n tmp N X Y m a := h.2
    -- elements not written by a prefix of the loop
    have keep : ∀ k ≤ N + 1, ∀ b, (∀ i < k, dbnum n + 1 ≤ (Y + i * (dbnum n + 1) - b).natAbs ∧ dbnum n + 1 ≤ (tmp i - b).natAbs) →
        ∀ d, 0 ≤ d → d < dbnum n + 1 → ∀ i < k, ¬ (packed n (Y + i * (dbnum n + 1) + 1)).In n (b + d) ∧ ¬ (packed n (tmp i)).In n (b + d) := by
      intro k _ b hb d h0 h1 i hi
      have := hb i hi
      rw [packed_in, packed_in]
      omega
    have look_same : ∀ b, (∀ i < N, dbnum n + 1 ≤ (Y + i * (dbnum n + 1) - b).natAbs ∧ dbnum n + 1 ≤ (tmp i - b).natAbs) →
        lookS n b (F.dbdbaddsqvM n tmp N X Y m) = lookS n b m := by
      intro b hb
      apply lookS_local
      intro d h0 h1
      exact ih.2 _ (keep N (by omega) b hb d h0 h1)
    refine ⟨fun i hi => ?_, fun a ha => ?_⟩
    · by_cases hiN : i = N
      · subst hiN
        have lx := look_same (X + i * (dbnum n + 1)) (fun j hj => ⟨by have := hXY i (by omega) j (by omega); omega, by
          have := htX i (by omega) j (by omega); omega⟩)
        have ly := look_same (Y + i * (dbnum n + 1)) (fun j hj => ⟨gap j i (by omega), by
          have := htY i (by omega) j (by omega); omega⟩)
        have hy0 : F.dbdbaddsqvM n tmp (i + 1) X Y m (Y + i * (dbnum n + 1)) = F.dbdbaddsqvM n tmp i X Y m (Y + i * (dbnum n + 1)) := by
          apply frame
          · rw [packed_in]; omega
          · have := htY i (by omega) i (by omega); rw [packed_in]; omega
        unfold mergeSq
        rw [← lx, ← ly]
        unfold lookS
        dsimp only
        rw [← h.1, hy0]
      · have h1 : lookS n (Y + i * (dbnum n + 1)) (F.dbdbaddsqvM n tmp (N + 1) X Y m) = lookS n (Y + i * (dbnum n + 1)) (F.dbdbaddsqvM n tmp N X Y m) := by
          apply lookS_local
          intro d h0 h1
          have g := gap i N hiN
          have t := htY i (by omega) N (by omega)
          apply frame
          · rw [packed_in]; omega
          · rw [packed_in]; omega
        rw [h1]
        exact ih.1 i (by omega)
    · rw [frame a (ha N (by omega)).1 (ha N (by omega)).2, ih.2 a (fun i hi => ha i (by omega))]

theorem mpiAddSq_sound {fold : Nat} (hfold : 1 ≤ fold) {tmp : Nat → Int} (ht : ∀ i, tmp i ≤ -(dbnum fold + 1)) :
    (F.mpiAddSq fold tmp).Sound (lookS fold) (mergeSq F fold) where
  pos := by show 0 < dbnum fold + 1; unfold dbnum; omega
  local_ := lookS_local
  op := by
    intro len m i hi
    show lookS fold (len * (dbnum fold + 1) + i * (dbnum fold + 1)) (F.dbdbaddsqvM fold tmp len 0 (len * (dbnum fold + 1)) m) = _
    have hd : 0 < dbnum fold + 1 := by unfold dbnum; omega
    have h := (addsqv_spec (F := F) hfold (tmp := tmp) (X := 0) (Y := len * (dbnum fold + 1)) len ?_ ?_ ?_ m).1 i hi
    · rw [Int.zero_add] at h
      exact h
    · intro i hi j hj
      have h3 := seg_lt (d := dbnum fold) hi hd (by omega) (by omega)
      have h4 := seg_lt (d := 0) hj hd (by omega) (by omega)
      omega
    · intro i hi j hj
      have h3 := seg_lt (d := 0) hi hd (by omega) (by omega)
      have := ht j
      omega
    · intro i hi j hj
      have h3 := seg_lt (d := 0) hi hd (by omega) (by omega)
      have := ht j
      have h5 : (len : Int) * (dbnum fold + 1) = (dbnum fold + 1) * len := Int.mul_comm _ _
      omega

/-- **C28**, one operation, in full generality: element `i` of `inoutvec` gets the binned value of the sum and keeps its own
scale; so the element becomes the sum of the two scaled sums of squares exactly if the scale of the other one is not
larger. -/
theorem C28_element_partial {fold : Nat} (hfold : 1 ≤ fold) {tmp : Nat → Int} (ht : ∀ i, tmp i ≤ -(dbnum fold + 1)) (len : Nat) (m : Mem)
    {i : Nat} (hi : i < len) :
    let w := dbnum fold + 1
    let x := lookS fold (i * w) m
    let y := lookS fold (len * w + i * w) m
    let z := lookS fold (len * w + i * w) ((F.mpiAddSq fold tmp).op 0 (len * w) len m)
    z.1 = y.1 ∧ z.2 = (F.dmdmaddsq fold x.1 x.2 y.1 y.2).2 ∧
    (F.lt y.1 x.1 = false → x.1.neg = false → y.1.neg = false → z = F.dmdmaddsq fold x.1 x.2 y.1 y.2) ∧
    (F.lt y.1 x.1 = true → z ≠ F.dmdmaddsq fold x.1 x.2 y.1 y.2) := by
  dsimp only
  have h : lookS fold (len * (dbnum fold + 1) + i * (dbnum fold + 1)) ((F.mpiAddSq fold tmp).op 0 (len * (dbnum fold + 1)) len m) =
      mergeSq F fold (lookS fold (i * (dbnum fold + 1)) m) (lookS fold (len * (dbnum fold + 1) + i * (dbnum fold + 1)) m) := (mpiAddSq_sound (F := F) hfold ht).op len m i hi
  rw [h]
  generalize lookS fold (i * (dbnum fold + 1)) m = x
  generalize lookS fold (len * (dbnum fold + 1) + i * (dbnum fold + 1)) m = y
  refine ⟨rfl, rfl, fun hlt nx ny => ?_, fun hlt e => ?_⟩
  · unfold mergeSq dmdmaddsq
    rw [hlt]
    simp only [Bool.false_eq_true, if_false]
    split
    next he =>
      dsimp only
      congr 1
      unfold feq key at he
      rw [nx, ny] at he
      obtain ⟨⟨xn, xm⟩, xb⟩ := x
      obtain ⟨⟨yn, ym⟩, yb⟩ := y
      simp at he nx ny
      simp only
      rw [nx, ny, he.2]
    · rfl
  · have e1 : y.1 = (F.dmdmaddsq fold x.1 x.2 y.1 y.2).1 := by rw [← e]; rfl
    have e2 : (F.dmdmaddsq fold x.1 x.2 y.1 y.2).1 = x.1 := by unfold dmdmaddsq; rw [if_pos hlt]
    rw [e2] at e1
    rw [e1] at hlt
    have : F.lt x.1 x.1 = false := by unfold lt; simp
    rw [this] at hlt; simp at hlt

theorem scaleOf_same [F.OK] {xs ys : List Flt} {S : Flt} (hx : ∀ x ∈ xs, F.Finite x) (hy : ∀ y ∈ ys, F.Finite y)
    (h1 : scaleOf F xs = S) (h2 : scaleOf F ys = S) : scaleOf F (xs ++ ys) = S := by
  by_cases a : xs = []
  · subst a; exact h2
  · by_cases b : ys = []
    · subst b; rw [List.append_nil]; exact h1
    · rw [scaleOf_append a b hx hy, h1, h2]; split <;> rfl

/-- **C28** for any tree over the ranks, if all ranks have the same scale. -/
theorem C28_tree_partial [F.OK] {fold : Nat} (hfold : 2 ≤ fold) (hJ : F.ssqHi + fold ≤ F.ssqJ + 1) {data : Nat → List Flt} {S : Flt} :
    ∀ t : RTree, (∀ r ∈ t.ranks, (∀ x ∈ data r, F.Finite x) ∧ scaleOf F (data r) = S) → (t.ranks.flatMap data).length ≤ F.capacity →
    t.eval (mergeSq F fold) (fun r => ssqSpec F fold (data r)) = ssqSpec F fold (t.ranks.flatMap data) ∧
    scaleOf F (t.ranks.flatMap data) = S ∧ ∀ x ∈ t.ranks.flatMap data, F.Finite x := by
  intro t
  induction t with
  | rank r =>
    intro h _
    have := h r (by simp [RTree.ranks])
    simp only [RTree.ranks, RTree.eval, List.flatMap_cons, List.flatMap_nil, List.append_nil]
    exact ⟨trivial, this.2, this.1⟩
  | node l r ihl ihr =>
    intro h hN
    have e : (RTree.node l r).ranks.flatMap data = l.ranks.flatMap data ++ r.ranks.flatMap data := by
      show (l.ranks ++ r.ranks).flatMap data = _; rw [List.flatMap_append]
    rw [e] at hN ⊢
    rw [List.length_append] at hN
    obtain ⟨l1, l2, l3⟩ := ihl (fun a ha => h a (by simp [RTree.ranks, ha])) (by omega)
    obtain ⟨r1, r2, r3⟩ := ihr (fun a ha => h a (by simp [RTree.ranks, ha])) (by omega)
    have hs := scaleOf_same l3 r3 l2 r2
    refine ⟨?_, hs, fun x hx => ?_⟩
    · show mergeSq F fold _ _ = _
      rw [l1, r1]
      unfold mergeSq
      rw [C29_merge hfold hJ l3 r3 hN]
      have : (ssqSpec F fold (r.ranks.flatMap data)).1 = (ssqSpec F fold (l.ranks.flatMap data ++ r.ranks.flatMap data)).1 := by
        show scaleOf F _ = scaleOf F _
        rw [hs, r2]
      rw [this]
    · rcases List.mem_append.1 hx with h | h
      · exact l3 x h
      · exact r3 x h

/-- **C28**, whole reductions: if the local scaled sums of squares of an element all have the same scale, then however the
reduction proceeds its result is the scaled sum of squares of all the data. Missing: different scales, for which this
is false (`C28_violated`). -/
theorem C28_reduce_partial [F.OK] {fold : Nat} (hfold : 2 ≤ fold) (hJ : F.ssqHi + fold ≤ F.ssqJ + 1) {tmp : Nat → Int}
    (ht : ∀ i, tmp i ≤ -(dbnum fold + 1)) {R L : Nat} {buf : Nat → Mem} (data : Nat → Nat → List Flt)
    (hbuf : ∀ r < R, ∀ i < L, lookS fold (i * (dbnum fold + 1)) (buf r) = ssqSpec F fold (data r i))
    {s : Mpi} (hr : MpiRun (F.mpiAddSq fold tmp) R L (Mpi.start R L buf) s) {i : Nat} (hi : i < L)
    {root : Nat} (hroot : root < R) (hdone : ∀ r < R, s.live r i = true ↔ r = root)
    (hx : ∀ r < R, ∀ x ∈ data r i, F.Finite x) {S : Flt} (hS : ∀ r < R, scaleOf F (data r i) = S)
    (hN : ((List.range R).flatMap (fun r => data r i)).length ≤ F.capacity) :
    lookS fold (i * (dbnum fold + 1)) (s.buf root) = ssqSpec F fold ((List.range R).flatMap (fun r => data r i)) := by
  obtain ⟨t, ht', h⟩ := mpi_done (mpiAddSq_sound (F := F) (by omega : 1 ≤ fold) ht) hr hi hroot hdone
  have hR : ∀ r ∈ t.ranks, r < R := fun r hr => List.mem_range.1 (ht'.mem_iff.1 hr)
  refine h.trans ?_
  have hp := ht'.flatMap_right (fun r => data r i)
  show t.eval (mergeSq F fold) (fun r => lookS fold (i * (dbnum fold + 1)) (buf r)) = _
  rw [RTree.eval_congr (g := fun r => ssqSpec F fold (data r i)) (fun r hr => hbuf r hr i hi) t hR, ← ssqSpec_perm hp]
  exact (C28_tree_partial hfold hJ t (fun r hr => ⟨hx r (hR r hr), hS r (hR r hr)⟩) (by rw [hp.length_eq]; exact hN)).1

/-- A buffer with one element. -/
def sqBuf (fold : Nat) (s : Flt × Binned) : Mem := fun a =>
  if a = 0 then s.1 else if a ≤ fold then nth s.2.pri (a - 1).toNat else nth s.2.car (a - 1 - fold).toNat

/-- **C28 is false of the code**: two ranks, with the one-element vectors (2^200) and (1). Whichever is passed first, both
deliver an element; if the larger scale comes in `invec` the result is paired with the smaller scale, so that it is not the
scaled sum of squares of the two numbers, and the two possible orders (the operation is registered as commutative) give
different results. -/
theorem C28_violated :
    let buf : Nat → Mem := fun r => sqBuf 3 (ssqSpec f64 3 [if r = 0 then f64.pow2 200 else f64.one])
    let res : Bool → Mpi := fun b =>
      { live := fun r i => if r = 0 ∧ 0 ≤ i ∧ i < 0 + 1 then false else (Mpi.start 2 1 buf).live r i
        buf := fun r => if r = 1 then (f64.mpiAddSq 3 (fun _ => -7)).combine b 0 1 (buf 1) (buf 0) else buf r }
    (∀ b, MpiRun (f64.mpiAddSq 3 (fun _ => -7)) 2 1 (Mpi.start 2 1 buf) (res b)) ∧
    (∀ b, ∀ r < 2, (res b).live r 0 = true ↔ r = 1) ∧
    (∀ r < 2, lookS 3 0 (buf r) = ssqSpec f64 3 [if r = 0 then f64.pow2 200 else f64.one]) ∧
    lookS 3 0 ((res true).buf 1) ≠ ssqSpec f64 3 [f64.pow2 200, f64.one] ∧
    (lookS 3 0 ((res true).buf 1)).1 = f64.dscale f64.one ∧
    lookS 3 0 ((res false).buf 1) = ssqSpec f64 3 [f64.pow2 200, f64.one] := by
  intro buf res
  refine ⟨fun b => ?_, by decide, ?_, by decide +kernel, by decide +kernel, by decide +kernel⟩
  · exact MpiRun.step (MpiRun.start _) (MpiStep.message (Mpi.start 2 1 buf) 0 1 0 1 b (by decide) (by decide) (by decide) (by decide)
      (by intro i h1 h2; have : i = 0 := by omega
          subst this; decide))
  · decide +kernel

/-- Equal scales, different data: the hypotheses of `C28_reduce_partial`. -/
example : scaleOf f64 [f64.ofInt 3, f64.ofInt 1] = scaleOf f64 [f64.ofInt 7] ∧
    (∀ r < 2, lookS 3 0 (sqBuf 3 (ssqSpec f64 3 (if r = 0 then [f64.ofInt 3, f64.ofInt 1] else [f64.ofInt 7]))) =
      ssqSpec f64 3 (if r = 0 then [f64.ofInt 3, f64.ofInt 1] else [f64.ofInt 7])) := by decide +kernel

end Repro
