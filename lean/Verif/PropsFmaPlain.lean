import Verif.PropsFma
import Verif.ZGemmLemmas
/-!
# C72: contraction with special values

Where the dot products meet infinities and NaNs, only the contraction of the exceptional loops matters: if these are left alone, every
contraction of the kernels gives the same bits for every input.
-/

namespace Repro
open Fmt
variable {F : Fmt}

theorem add_mul_fneg [F.OK] (w x y : Flt) : F.add w (F.mul (fneg x) y) = F.sub w (F.mul x y) := by
  unfold sub
  by_cases h : F.isNaN (F.mul x y) = true
  · have h1 : F.isNaN (fneg (F.mul x y)) = true := h
    have h2 : F.isNaN (F.mul (fneg x) y) = true := by
      unfold mul at h ⊢
      have e1 : F.isNaN (fneg x) = F.isNaN x := rfl
      have e2 : F.isInf (fneg x) = F.isInf x := rfl
      have e3 : (fneg x).mag = x.mag := rfl
      rw [e1, e2, e3]
      split at h
      · rw [if_pos ‹_›]; exact h
      · rw [if_neg ‹_›]
        split at h
        · rw [if_pos ‹_›]
          split at h
          · rw [if_pos ‹_›]; exact h
          · rw [if_neg ‹_›]; exact h
        · rw [if_neg ‹_›]; exact h
    unfold add
    rw [if_pos (by rw [h2]; simp), if_pos (by rw [h1]; simp)]
  · rw [mul_fneg_left (by simpa using h)]

/-- The exceptional terms without contraction. -/
theorem dotTermC_none [F.OK] (T : Tune) (conj : Bool) (a : (Flt × Flt) × (Flt × Flt)) :
    F.dotTermC conj false none a = (if conj then F.dotcOp T else F.dotuOp T).tR a ∧ F.dotTermC conj true none a = (if conj then F.dotcOp T else F.dotuOp T).tI a := by
  cases conj
  · exact ⟨add_mul_fneg _ _ _, rfl⟩
  · exact ⟨rfl, add_mul_fneg _ _ _⟩

theorem accum0C_plain (l : List (Flt × Flt)) (y : Binned) : F.accum0C (fun _ => false) l y = F.accum0 (l.map (fun p => F.mul p.1 p.2)) y := by
  unfold accum0C accum0
  cases y.pri with
  | nil => rfl
  | cons m ms =>
    dsimp only
    rw [foldl_zipIdx_ignore _ _ _ (g := fun a (p : Flt × Flt) => F.add a (F.mul p.1 p.2)) (fun _ _ _ _ => rfl), List.foldl_map]

theorem dotLoopC_plain [F.OK] (ch : Nat → Picks) (T : Tune) (fold : Nat) : ∀ (fuel : Nat) (ps : List (Flt × Flt)) (d : Nat) (y : Binned),
    F.dotLoopC ch (fun _ _ => false) T fold fuel ps d y = F.vecLoop T fold fuel (ps.map (fun p => F.mul p.1 p.2)) d y
  | 0, _, _, _ => rfl
  | fuel + 1, ps, d, y => by
    unfold dotLoopC vecLoop
    by_cases h0 : ps = []
    · rw [if_pos h0, if_pos (by rw [h0]; rfl)]
    · have h0' : ¬ ps.map (fun p => F.mul p.1 p.2) = [] := by simpa using h0
      rw [if_neg h0, if_neg h0']
      simp only [← List.map_take, ← List.map_drop, List.length_map, kernelC_eq, dotLoopC_plain ch T fold fuel, accum0C_plain]

/-- **C72** (special values). If the exceptional loops of the dot products are compiled without contraction, any contraction in the deposits leaves all results unchanged, for every input:
with infinities, NaNs and overflowing products. -/
theorem C72_dot_special [F.OK] (conj : Bool) (ch chR chI : Nat → Picks) (T : Tune) (fold n : Nat) (incX incY : Int) :
    (∀ (X Y : Int → Flt) (z : Binned), F.dmddotC ch (fun _ _ => false) T fold n X incX Y incY z = F.dmddot T fold n X incX Y incY z)
    ∧ (∀ (X Y : Int → Flt × Flt) (z : Binned × Binned),
      F.zdotC conj chR chI (fun _ _ => none) (fun _ _ => none) T fold n X incX Y incY z = zdot F conj T fold n X incX Y incY z) := by
  constructor
  · intro X Y z
    unfold dmddotC dmddot vecSum
    rw [dotLoopC_plain, List.length_zipWith, gather_length, gather_length, Nat.min_self]
    congr 1
    rw [List.zip, List.map_zipWith]
  · intro X Y z
    have hl : ((gatherZ X incX n).zip (gatherZ Y incY n)).length = n := by simp [gatherZ]
    have hzd : zdot F conj T fold n X incX Y incY z = F.zvecSum T fold (if conj then F.dotcOp T else F.dotuOp T) ((gatherZ X incX n).zip (gatherZ Y incY n)) z := by
      unfold zdot zmzdotc zmzdotu; cases conj <;> rfl
    rw [hzd]
    unfold zdotC zvecSum
    rw [hl]
    refine zvecLoopC_eq _ _ _ _ _ _ _ _ _ _ _ (fun r b w _ _ => ?_) (fun r b w _ _ => ?_)
    · rw [map_zipIdx_ignore b 0 (fun a _ _ => (dotTermC_none T conj a).1)]
    · rw [map_zipIdx_ignore b 0 (fun a _ _ => (dotTermC_none T conj a).2)]

/-- Special values do occur: an infinity times one, with everything contracted in the deposits. -/
example : f32.isInf (nth (f32.zdotC true (fun _ _ => (true, true)) (fun _ _ => (true, true)) (fun _ _ => none) (fun _ _ => none) ⟨2, 1, 2, 1, 1, false⟩ 2 1
    (fun _ => (f32.inf true, f32.one)) 1 (fun _ => (f32.one, f32.one)) 1 (dmsetzero 2, dmsetzero 2)).1.pri 0) = true := by decide +kernel

end Repro
