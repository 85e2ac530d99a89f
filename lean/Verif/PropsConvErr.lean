import Verif.PropsBound

/-!
# C49: the conversion of a binned number to a native number is accurate

Independent vocabulary: `Fmt.exactVal` (the exact value held in a binned number, `Spec.lean`), `Fmt.toInt` (the exact value of a
native number in units of `2^-eta`), `Hist` (a call history building a binned number).
-/

namespace Repro
open Fmt

/-- **C49.** Converting the binned number left by any history (deposits, batches, merges, negations, renormalisations) to a
native number gives the exact value of the binned number up to a relative error of `2^(3-p)` of the result: `2^-50` for
`double`, `2^-21` for `float`, no matter how much cancellation took place among the bins; and when the result is not exact
it is at least `2^(p-1)` units of the lowest bin. -/
theorem C49_conversion_error {F : Fmt} [F.OK] {fold : Nat} (hfold : 2 ≤ fold) (hfold' : fold < 2 ^ 50) {h : Hist} (hl : h.Legal F)
    (hs : h.Settled) (hN : h.nums.length ≤ F.capacity) (hne : h.seen ≠ [])
    (hlow : F.minIndex h.seen + fold - 1 ≤ F.maxIndex)
    (hS : F.Finite (convert F fold (h.eval F fold))) :
    let T := F.exactVal fold (h.eval F fold)
    let S := F.toInt (convert F fold (h.eval F fold))
    S = T ∨ (2 ^ (F.p - 3) * (S - T).natAbs ≤ S.natAbs ∧ 2 ^ (F.p - 1) * 2 ^ F.uexp (F.minIndex h.seen + fold - 1) ≤ S.natAbs) := by
  have hm := hist_mid hfold h hl hN
  have hev := (hm.2.1 hne).exactVal (by omega) (Nat.zero_le _) hN
  have hsp : h.eval F fold = F.canon fold (F.minIndex h.seen) (F.total h.nums) := by
    rw [hm.2.2 hs]
    unfold Hist.spec
    rw [if_neg hne]
  have hcap : ∀ j, (F.total h.nums j).natAbs ≤ F.capacity * 2 ^ (F.W - 1) := fun j => by
    obtain ⟨_, _, _, _, _, _, _, _, hb⟩ := hm.2.1 hne
    exact Nat.le_trans (hb j) (Nat.mul_le_mul_right _ hN)
  have := conv_canon_err hfold hfold' (minIndex_le _) hcap (fun j h1 h2 => by omega) (hsp ▸ hS)
  rw [hev, hsp]
  exact this

/-- The hypotheses are met by a history whose conversion is inexact: `2^60 + 2^-10 + 2^-12` summed, negated and merged. -/
example : (let h := Hist.renorm (Hist.negate (Hist.merge (Hist.add (f64.pow2 60) (Hist.add (f64.pow2 (-10)) Hist.zero)) (Hist.add (f64.pow2 (-12)) Hist.zero)))
    h.Legal f64 ∧ h.Settled ∧ h.seen ≠ [] ∧ f64.minIndex h.seen + 3 - 1 ≤ f64.maxIndex ∧
    f64.Finite (convert f64 3 (h.eval f64 3)) ∧ f64.toInt (convert f64 3 (h.eval f64 3)) ≠ f64.exactVal 3 (h.eval f64 3)) := by
  simp only [Hist.Legal, Hist.Settled, Hist.seen]
  decide +kernel

end Repro
