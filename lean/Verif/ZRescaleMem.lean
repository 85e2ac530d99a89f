import Verif.GenRunSq
import Verif.PropsMem
import Mathlib.Tactic.Ring
/-!
# `binned_zmdrescale` in memory

The loop over memory (`Verif/GenRunSq.lean`) has the effect of the list model, provided that the stride of the primaries is
one: the word `priY[i * incpriY]` the loop looks at is then the real or imaginary part of entry `i / 2`.
-/

namespace Repro
open Fmt
variable {F : Fmt}

/-- The value without its first `i` bins. -/
def Loc.from (l : Loc) (i : Nat) : Loc := ⟨l.P i, l.incpri, l.C i, l.inccar⟩

theorem Loc.from_P (l : Loc) (i j : Nat) : (l.from i).P j = l.P (i + j) := by
  simp only [Loc.P, Loc.from]; push_cast; ring
theorem Loc.from_C (l : Loc) (i j : Nat) : (l.from i).C j = l.C (i + j) := by
  simp only [Loc.C, Loc.from]; push_cast; ring

theorem Loc.from_in {n i : Nat} {l : Loc} {a : Int} (h : (l.from i).In (n - i) a) : l.In n a := by
  obtain ⟨j, hj, h⟩ := h
  rw [Loc.from_P, Loc.from_C] at h
  exact ⟨i + j, by omega, h⟩

theorem Sep.from {n i : Nat} {l : Loc} (h : Sep n l) : Sep (n - i) (l.from i) := by
  refine ⟨fun a ha b hb e => ?_, fun a ha b hb e => ?_, fun a ha b hb => ?_⟩
  · rw [Loc.from_P, Loc.from_P] at e
    have := h.pp _ (by omega) _ (by omega) e; omega
  · rw [Loc.from_C, Loc.from_C] at e
    have := h.cc _ (by omega) _ (by omega) e; omega
  · rw [Loc.from_P, Loc.from_C]
    exact h.pc _ (by omega) _ (by omega)

theorem view_from {n i : Nat} (hi : i ≤ n) (l : Loc) (m : Mem) :
    (view (n - i) (l.from i) m) = ⟨(view n l m).pri.drop i, (view n l m).car.drop i⟩ := by
  unfold view
  rw [← List.map_drop, ← List.map_drop, List.range_eq_range', List.range_eq_range', List.drop_range', List.range'_eq_map_range, List.range'_eq_map_range]
  simp only [List.map_map, Nat.zero_add]
  congr 1
  · apply List.map_congr_left; intro j _; simp only [Function.comp_apply, Nat.mul_one]; rw [l.from_P i j]
  · apply List.map_congr_left; intro j _; simp only [Function.comp_apply, Nat.mul_one]; rw [l.from_C i j]

theorem tailUpdate_refines {n i : Nat} (hi : i < n) {l : Loc} (hs : Sep n l) :
    Refines n l (F.tailUpdate i) (F.dmdupdateM (n - i) zero (l.from i)) := by
  intro m
  have h := dmdupdateM_refines (F := F) (n := n - i) (by omega) hs.from zero m
  refine ⟨?_, fun a ha => h.2 a (fun h' => ha (Loc.from_in h'))⟩
  have hv := h.1
  rw [view_from (by omega) l m, view_from (by omega) l] at hv
  have hlen : (view n l m).pri.length = n := by simp [view]
  unfold tailUpdate
  dsimp only
  rw [hlen, ← hv]
  generalize hm' : F.dmdupdateM (n - i) zero (l.from i) m = m' at *
  have hout : ∀ j, j < i → m' (l.P j) = m (l.P j) ∧ m' (l.C j) = m (l.C j) := by
    intro j hj
    refine ⟨h.2 _ ?_, h.2 _ ?_⟩
    · rintro ⟨k, hk, e | e⟩
      · rw [Loc.from_P] at e; have := hs.pp _ (by omega) _ (by omega) e; omega
      · rw [Loc.from_C] at e; exact hs.pc _ (by omega) _ (by omega) e
    · rintro ⟨k, hk, e | e⟩
      · rw [Loc.from_P] at e; exact hs.pc _ (by omega) _ (by omega) e.symm
      · rw [Loc.from_C] at e; have := hs.cc _ (by omega) _ (by omega) e; omega
  have t1 : (view n l m).pri.take i = (view n l m').pri.take i := by
    unfold view; dsimp only
    rw [← List.map_take, ← List.map_take, List.take_range, Nat.min_eq_left (by omega)]
    exact List.map_congr_left (fun j hj => ((hout j (List.mem_range.mp hj)).1).symm)
  have t2 : (view n l m).car.take i = (view n l m').car.take i := by
    unfold view; dsimp only
    rw [← List.map_take, ← List.map_take, List.take_range, Nat.min_eq_left (by omega)]
    exact List.map_congr_left (fun j hj => ((hout j (List.mem_range.mp hj)).2).symm)
  rw [t1, t2, List.take_append_drop, List.take_append_drop]

theorem setP_refines {n i : Nat} (hi : i < n) {l : Loc} (hs : Sep n l) (f : Flt → Flt) :
    Refines n l (fun y => ⟨y.pri.set i (f (nth y.pri i)), y.car⟩) (fun m => m.set (l.P i) (f (m (l.P i)))) := by
  intro m
  refine ⟨?_, fun a ha => Mem.set_ne _ _ (fun e => ha (e ▸ l.inP hi))⟩
  dsimp only
  rw [nth_view_pri l m hi]
  apply view_mk
  · apply List.ext_getElem
    · simp [view]
    · intro j h1 h2
      have hj : j < n := by simpa using h1
      rw [List.getElem_map, List.getElem_range]
      rw [List.getElem_set]
      split
      · next e => subst e; exact Mem.set_same _ _ _
      · next e =>
        rw [Mem.set_ne _ _ (fun e' => e (hs.pp _ hj _ hi e').symm)]
        simp [view]
  · intro j hj
    exact Mem.set_ne _ _ (fun e => hs.pc i hi j hj e.symm)

theorem zrescaleLoopM_refines (r : Flt) {fold : Nat} {l : Loc} (hs : CSep fold l) (h1 : l.incpri = 1) : ∀ (n i : Nat) (m : Mem), i + n = fold →
    cview fold l (F.zrescaleLoopM r fold l n i m) = F.zrescaleLoop r n i (cview fold l m)
    ∧ ∀ a, ¬ l.CIn fold a → F.zrescaleLoopM r fold l n i m a = m a := by
  intro n
  induction n with
  | zero => intro i m _; exact ⟨rfl, fun a _ => rfl⟩
  | succ n ih =>
    intro i m hin
    have hi : i < fold := by omega
    unfold zrescaleLoopM zrescaleLoop
    dsimp only
    have eR : l.pri + (i : Int) * 2 * l.incpri = l.re.P i := by simp only [Loc.P, Loc.re]; ring
    have eI : l.pri + (i : Int) * 2 * l.incpri + 1 = l.im.P i := by simp only [Loc.P, Loc.im]; ring
    rw [eI, eR]
    have hd := both_parts hs (setP_refines hi hs.re (fun x => F.div x r)) (setP_refines hi hs.im (fun x => F.div x r)) m
    generalize hm' : (m.set (l.re.P i) (F.div (m (l.re.P i)) r)).set (l.im.P i) (F.div ((m.set (l.re.P i) (F.div (m (l.re.P i)) r)) (l.im.P i)) r) = m' at *
    have hdd := hd.1
    have hfr := hd.2
    clear hd
    have d1 := congrArg Prod.fst hdd
    have d2 := congrArg Prod.snd hdd
    have d1 : view fold l.re m' = ⟨(cview fold l m).1.pri.set i (F.div (nth (cview fold l m).1.pri i) r), (cview fold l m).1.car⟩ := d1
    have d2 : view fold l.im m' = ⟨(cview fold l m).2.pri.set i (F.div (nth (cview fold l m).2.pri i) r), (cview fold l m).2.car⟩ := d2
    have hprobe : m' (l.pri + (i : Int) * l.incpri)
        = if i % 2 = 0 then nth ((cview fold l m).1.pri.set i (F.div (nth (cview fold l m).1.pri i) r)) (i / 2)
          else nth ((cview fold l m).2.pri.set i (F.div (nth (cview fold l m).2.pri i) r)) (i / 2) := by
      have e1 := congrArg Binned.pri d1
      have e2 := congrArg Binned.pri d2
      dsimp only at e1 e2
      rw [← e1, ← e2, nth_view_pri _ _ (by omega), nth_view_pri _ _ (by omega)]
      split
      · next h => congr 1; simp only [Loc.P, Loc.re, h1]; omega
      · next h => congr 1; simp only [Loc.P, Loc.im, h1]; omega
    rw [← hprobe]
    split
    · have ht := both_parts hs (tailUpdate_refines (F := F) hi hs.re) (tailUpdate_refines (F := F) hi hs.im) m'
      have e : F.zmdupdateM (fold - i) zero ⟨l.re.P i, l.incpri, l.car + i * 2 * l.inccar, l.inccar⟩ m'
          = F.dmdupdateM (fold - i) zero (l.im.from i) (F.dmdupdateM (fold - i) zero (l.re.from i) m') := by
        have a1 : (Loc.mk (l.re.P i) l.incpri (l.car + i * 2 * l.inccar) l.inccar).re = l.re.from i := by
          simp only [Loc.re, Loc.from, Loc.P, Loc.C, Loc.mk.injEq, true_and]; exact ⟨by ring, trivial⟩
        have a2 : (Loc.mk (l.re.P i) l.incpri (l.car + i * 2 * l.inccar) l.inccar).im = l.im.from i := by
          simp only [Loc.re, Loc.im, Loc.from, Loc.P, Loc.C, Loc.mk.injEq, true_and]; exact ⟨by ring, by ring, trivial⟩
        unfold zmdupdateM
        rw [a1, a2]
      rw [e]
      refine ⟨ht.1.trans ?_, fun a ha => (ht.2 a ha).trans (hfr a ha)⟩
      rw [d1, d2]
    · have := ih (i + 1) m' (by omega)
      refine ⟨this.1.trans ?_, fun a ha => (this.2 a ha).trans (hfr a ha)⟩
      rw [show cview fold l m' = (view fold l.re m', view fold l.im m') from rfl, d1, d2]

/-- `binned_zmdrescale` on a value with stride one. -/
theorem zmdrescaleM_spec {fold : Nat} {l : Loc} (hs : CSep fold l) (h1 : l.incpri = 1) (X S : Flt) (m : Mem) :
    cview fold l (F.zmdrescaleM fold X S l m) = F.zmdrescale fold X S (cview fold l m)
    ∧ ∀ a, ¬ l.CIn fold a → F.zmdrescaleM fold X S l m a = m a := by
  unfold zmdrescaleM zmdrescale
  split
  · exact ⟨rfl, fun a _ => rfl⟩
  · exact zrescaleLoopM_refines _ hs h1 fold 0 m (by omega)

end Repro
