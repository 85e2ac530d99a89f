import Verif.Scale
import Verif.MemLemmas
/-!
# Rescaling and adding scaled sums of squares, on memory
-/

namespace Repro

/-- The value without its first bin: `priY + incpriY, incpriY, carY + inccarY, inccarY`. -/
def Loc.next (l : Loc) : Loc := ⟨l.pri + l.incpri, l.incpri, l.car + l.inccar, l.inccar⟩

namespace Fmt
variable (F : Fmt)

/-- The loop of `binned_dmdrescale` (`src/binned/dmdrescale.c:30-36`) on the last bins, `l` being the location of the bin
of the current round (`priY + i * incpriY, ...`). -/
def rescaleLoopM (r : Flt) : Nat → Loc → Mem → Mem
  | 0, _, m => m
  | n + 1, l, m =>
    let m := m.set l.pri (F.div (m l.pri) r)
    if isZero (m l.pri) then F.dmdupdateM (n + 1) zero l m else rescaleLoopM r n l.next m

/-- `binned_dmdrescale` (`src/binned/dmdrescale.c:20-37`), `binned_smsrescale` (`src/binned/smsrescale.c:20-37`). -/
def dmdrescaleM (fold : Nat) (X scaleY : Flt) (l : Loc) (m : Mem) : Mem :=
  if F.feq X scaleY || isZero X || isZero scaleY then m
  else
    let r := F.div X scaleY
    let r := F.mul r r
    F.rescaleLoopM r fold l m

/-- `binned_dmdmaddsq` (`src/binned/dmdmaddsq.c:26-41`): `tmp` is the address of the temporary value allocated in the last
branch (it is never freed). -/
def dmdmaddsqM (fold : Nat) (tmp : Int) (scaleX : Flt) (x : Loc) (scaleY : Flt) (y : Loc) (m : Mem) : Flt × Mem :=
  if F.lt scaleY scaleX then (scaleX, F.dmdmaddM fold x y (F.dmdrescaleM fold scaleX scaleY y m))
  else if F.feq scaleX scaleY then (scaleX, F.dmdmaddM fold x y m)
  else
    let t := packed fold tmp
    (scaleY, F.dmdmaddM fold t y (F.dmdrescaleM fold scaleY scaleX t (dmdmsetM fold x t m)))

end Fmt
open Fmt
variable {F : Fmt}

theorem Loc.next_P (l : Loc) (i : Nat) : l.next.P i = l.P (i + 1) := by
  simp only [Loc.P, Loc.next]; push_cast; rw [Int.add_mul]; omega
theorem Loc.next_C (l : Loc) (i : Nat) : l.next.C i = l.C (i + 1) := by
  simp only [Loc.C, Loc.next]; push_cast; rw [Int.add_mul]; omega

theorem view_succ (n : Nat) (l : Loc) (m : Mem) :
    view (n + 1) l m = ⟨m l.pri :: (view n l.next m).pri, m l.car :: (view n l.next m).car⟩ := by
  unfold view
  rw [List.range_succ_eq_map]
  simp only [List.map_cons, List.map_map, Loc.P0, Loc.C0, Function.comp_def, Loc.next_P, Loc.next_C]

theorem Sep.next {n : Nat} {l : Loc} (h : Sep (n + 1) l) : Sep n l.next := by
  refine ⟨fun i hi j hj e => ?_, fun i hi j hj e => ?_, fun i hi j hj => ?_⟩
  · rw [Loc.next_P, Loc.next_P] at e
    have := h.pp _ (by omega) _ (by omega) e; omega
  · rw [Loc.next_C, Loc.next_C] at e
    have := h.cc _ (by omega) _ (by omega) e; omega
  · rw [Loc.next_P, Loc.next_C]
    exact h.pc _ (by omega) _ (by omega)

theorem Loc.next_in {n : Nat} {l : Loc} {a : Int} (h : l.next.In n a) : l.In (n + 1) a := by
  obtain ⟨i, hi, h⟩ := h
  rw [Loc.next_P, Loc.next_C] at h
  exact ⟨i + 1, by omega, h⟩

theorem rescaleLoopM_refines (r : Flt) : ∀ (n : Nat) {l : Loc}, Sep n l →
    Refines n l (fun y => F.rescaleLoop r y.pri y.car) (F.rescaleLoopM r n l) := by
  intro n
  induction n with
  | zero => intro l _ m; exact ⟨rfl, fun a _ => rfl⟩
  | succ n ih =>
    intro l hs m
    have hP : l.In (n + 1) l.pri := by have := l.inP (n := n + 1) (i := 0) (by omega); rwa [Loc.P0] at this
    have hC : l.In (n + 1) l.car := by have := l.inC (n := n + 1) (i := 0) (by omega); rwa [Loc.C0] at this
    have hnP : ¬ l.next.In n l.pri := by
      rintro ⟨i, hi, h | h⟩
      · rw [Loc.next_P] at h
        have := hs.pp 0 (by omega) (i + 1) (by omega) (by rw [Loc.P0]; exact h); omega
      · rw [Loc.next_C] at h
        exact hs.pc 0 (by omega) (i + 1) (by omega) (by rw [Loc.P0]; exact h)
    have hnC : ¬ l.next.In n l.car := by
      rintro ⟨i, hi, h | h⟩
      · rw [Loc.next_P] at h
        exact hs.pc (i + 1) (by omega) 0 (by omega) (by rw [Loc.C0]; exact h.symm)
      · rw [Loc.next_C] at h
        have := hs.cc 0 (by omega) (i + 1) (by omega) (by rw [Loc.C0]; exact h); omega
    have hPC : l.car ≠ l.pri := fun e => hs.pc 0 (by omega) 0 (by omega) (by rw [Loc.P0, Loc.C0]; exact e.symm)
    have hset : view n l.next (m.set l.pri (F.div (m l.pri) r)) = view n l.next m :=
      view_congr (fun a ha => Mem.set_ne _ _ (fun e => hnP (e ▸ ha)))
    have hvl : (view n l.next m).pri.length = n := by simp [view]
    unfold rescaleLoopM
    rw [view_succ n l m]
    dsimp only
    unfold rescaleLoop
    dsimp only
    rw [Mem.set_same]
    split
    next hz =>
      have hu := dmdupdateM_refines (F := F) (n := n + 1) (by omega) hs zero (m.set l.pri (F.div (m l.pri) r))
      refine ⟨?_, fun a ha => ?_⟩
      · rw [hu.1, view_succ, Mem.set_same, hset, Mem.set_ne _ _ hPC, hvl]
      · rw [hu.2 a ha, Mem.set_ne _ _ (show a ≠ l.pri from fun e => ha (by rw [e]; exact hP))]
    next hz =>
      have hi := ih hs.next (m.set l.pri (F.div (m l.pri) r))
      refine ⟨?_, fun a ha => ?_⟩
      · rw [view_succ, hi.1, hi.2 _ hnP, hi.2 _ hnC, Mem.set_same, hset, Mem.set_ne _ _ hPC]
        rfl
      · rw [hi.2 a (fun h => ha (Loc.next_in h)), Mem.set_ne _ _ (show a ≠ l.pri from fun e => ha (by rw [e]; exact hP))]

theorem dmdrescaleM_refines {n : Nat} {l : Loc} (hs : Sep n l) (X S : Flt) :
    Refines n l (F.dmdrescale X S) (F.dmdrescaleM n X S l) := by
  intro m
  unfold dmdrescaleM dmdrescale
  split
  · exact ⟨rfl, fun a _ => rfl⟩
  · exact rescaleLoopM_refines _ n hs m

theorem packed_sep' (n : Nat) (X : Int) : Sep n (packed n X) := by
  refine ⟨?_, ?_, ?_⟩ <;> intro i hi j hj <;> simp only [Loc.P, Loc.C, packed] <;> omega

/-- Adding scaled sums of squares in memory: the result is that of the list-level function, only the accumulator and the
temporary value change. -/
theorem dmdmaddsqM_refines {n : Nat} (hn : 1 ≤ n) {tmp : Int} {x y : Loc} (hs : Sep n y) (ha : Apart n x y)
    (htx : Apart n x (packed n tmp)) (hty : Apart n (packed n tmp) y) (sX sY : Flt) (m : Mem) :
    let r := F.dmdmaddsqM n tmp sX x sY y m
    (r.1, view n y r.2) = F.dmdmaddsq n sX (view n x m) sY (view n y m) ∧
    ∀ a, ¬ y.In n a → ¬ (packed n tmp).In n a → r.2 a = m a := by
  dsimp only
  unfold dmdmaddsqM dmdmaddsq
  split
  · have h1 := dmdrescaleM_refines (F := F) hs sX sY m
    have h2 := dmdmaddM_refines (F := F) hn hs ha (F.dmdrescaleM n sX sY y m)
    refine ⟨?_, fun a h _ => by dsimp only; rw [h2.2 a h, h1.2 a h]⟩
    dsimp only
    rw [h2.1, h1.1, view_frame ha h1.2]
  · split
    · have h2 := dmdmaddM_refines (F := F) hn hs ha m
      exact ⟨by dsimp only; rw [h2.1], fun a h _ => h2.2 a h⟩
    · have ht := packed_sep' n tmp
      have h0 := dmdmsetM_refines ht htx m
      have h1 := dmdrescaleM_refines (F := F) ht sY sX (dmdmsetM n x (packed n tmp) m)
      have h2 := dmdmaddM_refines (F := F) hn hs hty (F.dmdrescaleM n sY sX (packed n tmp) (dmdmsetM n x (packed n tmp) m))
      refine ⟨?_, fun a h h' => by dsimp only; rw [h2.2 a h, h1.2 a h', h0.2 a h']⟩
      dsimp only
      rw [h2.1, h1.1, h0.1]
      congr 2
      rw [view_frame hty.symm h1.2, view_frame hty.symm h0.2]

end Repro
