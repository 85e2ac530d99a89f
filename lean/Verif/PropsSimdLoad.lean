import Verif.PropsSimdCode
import Mathlib.Tactic.IntervalCases
/-!
# C65: the intrinsics written for loads, partial loads, broadcasts and the constant of `consolidate_into`

`evalI` gives these expressions the register that has the right word in every lane. Here the intrinsics themselves are
modelled, case by case as in `src/gen/vectorizations.py`, and shown to compute that register.
-/

namespace Repro
open Fmt

/-- Element `i` of the list `load` returns (`src/gen/vectorizations.py:442-461, 705-724`): `_mm_loadu_pd(ptr + index)` or
`_mm_set_pd(ptr[…], …)` with the words in descending order. -/
def loadI (F : Fmt) (isa : Isa) (G : Gen) (M : Int → BitVec F.width) (inc : Int) (i : Nat) : BitVec isa.bits :=
  if inc = 1 ∨ G.tsz = 1 then mmLoadu isa.bits M (G.index inc (i * G.base))
  else mmSet isa.bits ((List.range G.base).map (fun t => M (G.index inc (i * G.base + (G.base - 1 - t)))))

/-- `((double *)ptr)[i]` for a pointer to `float`: two words. -/
def dword {w : Nat} (M : Int → BitVec w) (i : Int) : BitVec (w + w) := M (2 * i + 1) ++ M (2 * i)

/-- `load_partial` (`src/gen/vectorizations.py:463-475, 726-740`); the complex `double` case does not exist for SSE. `M[index]`
are the words at `data_type.index(0, inc, i)`. -/
def partialI (F : Fmt) (isa : Isa) (cplx : Bool) (M : Int → BitVec F.width) (inc : Int) (n : Nat) : BitVec isa.bits :=
  let x := fun (i : Nat) => if cplx then M (2 * inc * ((i / 2 : Nat) : Int) + ((i % 2 : Nat) : Int)) else M (inc * i)
  let c := fun (k i : Nat) => if n > k then x i else 0
  let d := fun (k : Nat) => if n > k then dword M (inc * k) else 0
  match isa, decide (F = f64), cplx with
  | .sse, false, true => mmSet 128 [0, 0, x 1, x 0]
  | .sse, true, false => mmSet 128 [0, x 0]
  | .sse, false, false => mmSet 128 [0, c 2 2, c 1 1, x 0]
  | .sse, true, true => 0
  | .avx, true, true => mmSet 256 [0, 0, x 1, x 0]
  | .avx, false, true => mmSet 256 [0, d 2, d 1, dword M (inc * 0)]
  | .avx, true, false => mmSet 256 [0, c 2 2, c 1 1, x 0]
  | .avx, false, false => mmSet 256 [0, c 6 6, c 5 5, c 4 4, c 3 3, c 2 2, c 1 1, x 0]

/-- `propagate_into` (`src/gen/vectorizations.py:423-431, 687-695`) of the number with the words `a`, `b`; `b` is not used for
real data. -/
def propagateI (F : Fmt) (isa : Isa) (cplx : Bool) (a b : BitVec F.width) : BitVec isa.bits :=
  match isa, decide (F = f64), cplx with
  | .sse, false, true => mmSet1 128 (b ++ a)
  | .sse, true, true => mmLoadu 128 (fun i => if i = 0 then a else b) 0
  | .avx, false, true => mmSet1 256 (b ++ a)
  | .avx, true, true => mmBroadcastPd (mmLoadu 128 (fun i => if i = 0 then a else b) 0)
  | .sse, _, false => mmSet1 128 a
  | .avx, _, false => mmSet1 256 a

/-- The second argument of the first subtraction of `consolidate_into` (`src/gen/vectorizations.py:392-397, 654-661`); there is
none for complex `double` and SSE. -/
def consI (F : Fmt) (isa : Isa) (cplx : Bool) (a b : BitVec F.width) : BitVec isa.bits :=
  match isa, decide (F = f64), cplx with
  | .sse, false, false => mmSet 128 [a, a, a, 0]
  | .sse, true, false => mmSet 128 [a, 0]
  | .sse, false, true => mmSet 128 [b, a, 0, 0]
  | .sse, true, true => 0
  | .avx, false, false => mmSet 256 [a, a, a, a, a, a, a, 0]
  | .avx, true, false => mmSet 256 [a, a, a, 0]
  | .avx, false, true => mmSet 256 [b, a, b, a, b, a, 0, 0]
  | .avx, true, true => mmSet 256 [b, a, 0, 0]

variable {F : Fmt}

theorem bits_lanes [F.OK] (isa : Isa) : isa.bits = isa.lanes F * F.width := by
  rcases ‹F.OK›.isDoubleOrFloat with rfl | rfl <;> cases isa <;> decide +kernel

theorem lane_ext [F.OK] {isa : Isa} {a b : BitVec isa.bits} (h : ∀ t, t < isa.lanes F → lane F.width t a = lane F.width t b) : a = b := by
  apply BitVec.eq_of_getLsbD_eq
  intro i hi
  have hw : 0 < F.width := by have := (width_pos (F := F)).1; omega
  have hd := Nat.div_add_mod i F.width
  have hm := Nat.mod_lt i hw
  have hl : i / F.width < isa.lanes F := Nat.div_lt_of_lt_mul (by rw [Nat.mul_comm, ← bits_lanes]; exact hi)
  have := congrArg (fun r => r.getLsbD (i % F.width)) (h _ hl)
  rw [getLsbD_lane, getLsbD_lane, decide_eq_true hm, Nat.mul_comm, hd] at this
  exact this

theorem lane_vpack2 {w n t : Nat} (f : Nat → BitVec (w + w)) (h : t * w + w ≤ n) :
    lane w t (vpack (w + w) n f) = (f (t / 2)).extractLsb' (t % 2 * w) w := by
  apply BitVec.eq_of_getLsbD_eq
  intro i hi
  have hw : 0 < w := by omega
  have ht := Nat.div_add_mod t 2
  have hb2 : t % 2 < 2 := by omega
  generalize t / 2 = q at *
  generalize t % 2 = b at *
  have hlt : b * w + i < w + w := by
    interval_cases b <;> omega
  have he : t * w + i = (w + w) * q + (b * w + i) := by
    rw [← ht, Nat.add_mul, Nat.add_assoc, Nat.mul_assoc, Nat.two_mul, Nat.add_mul, Nat.mul_comm q w]
  rw [getLsbD_lane, getLsbD_vpack, decide_eq_true hi, decide_eq_true (by omega : t * w + i < n), he, Nat.mul_add_div (by omega), Nat.mul_add_mod,
    Nat.div_eq_of_lt hlt, Nat.mod_eq_of_lt hlt, BitVec.getLsbD_extractLsb', decide_eq_true hi]
  rfl

theorem append_lo {w : Nat} (a b : BitVec w) : (a ++ b).extractLsb' (0 * w) w = b := by
  apply BitVec.eq_of_getLsbD_eq
  intro i hi
  rw [BitVec.getLsbD_extractLsb', BitVec.getLsbD_append, decide_eq_true hi, Nat.zero_mul, Nat.zero_add, if_pos hi]
  rfl

theorem append_hi {w : Nat} (a b : BitVec w) : (a ++ b).extractLsb' (1 * w) w = a := by
  apply BitVec.eq_of_getLsbD_eq
  intro i hi
  rw [BitVec.getLsbD_extractLsb', BitVec.getLsbD_append, decide_eq_true hi, Nat.one_mul, if_neg (by omega), Nat.add_sub_cancel_left]
  rfl

/-- **C65.** The intrinsics written for a load compute the register that has the word of each element in its lane. -/
theorem C65_load [F.OK] {isa : Isa} {G : Gen} (hG : G.T.simd = true) (hb : G.base = isa.lanes F) (M : Nat → Int → BitVec F.width)
    (σ : IRegs isa.bits F.width) (p : Nat) (inc : Int) (n : Nat) :
    (G.load p inc n).map (F.evalI isa M σ) = (List.range (n / G.tsz)).map (loadI F isa G (M p) inc) := by
  unfold Gen.load
  rw [if_pos hG, List.map_map]
  apply List.map_congr_left
  intro i _
  apply lane_ext (F := F)
  intro t ht
  unfold loadI Function.comp
  have hget : ∀ f : Nat → Option Int, ((List.range G.base).map f).getD t none = f t := fun f => by
    rw [List.getD_eq_getElem?_getD, List.getElem?_map, List.getElem?_range (by omega)]
    rfl
  split
  · unfold evalI mmLoadu
    rw [lane_vpack _ (lane_in ht), lane_vpack _ (lane_in ht), hget]
  · unfold evalI
    rw [lane_vpack _ (lane_in ht), lane_set (lane_in ht), hget]
    dsimp only
    rw [List.getD_eq_getElem?_getD, List.getElem?_reverse (by simpa using by omega)]
    simp only [List.length_map, List.length_range, List.getElem?_map]
    rw [List.getElem?_range (by omega), Option.map_some, Option.getD_some, show G.base - 1 - (G.base - 1 - t) = t by omega]

theorem mk_getD (f : Nat → Option Int) {L t : Nat} (h : t < L) : ((List.range L).map f).getD t none = f t := by
  rw [List.getD_eq_getElem?_getD, List.getElem?_map, List.getElem?_range h]
  rfl

theorem dw0 {w : Nat} (M : Int → BitVec w) (i : Int) : (dword M i).extractLsb' 0 w = M (2 * i) := by
  have := append_lo (M (2 * i + 1)) (M (2 * i))
  rwa [Nat.zero_mul] at this

theorem dw1 {w : Nat} (M : Int → BitVec w) (i : Int) : (dword M i).extractLsb' w w = M (2 * i + 1) := by
  have := append_hi (M (2 * i + 1)) (M (2 * i))
  rwa [Nat.one_mul] at this

/-- The dimensions of a register. -/
theorem isa_lanes : Isa.lanes .sse f64 = 2 ∧ Isa.lanes .avx f64 = 4 ∧ Isa.lanes .sse f32 = 4 ∧ Isa.lanes .avx f32 = 8 := by decide +kernel

/-- **C65.** The intrinsics written for a partial load of `n` elements, less than a register holds. -/
theorem C65_loadPartial [F.OK] {isa : Isa} {G : Gen} (hG : G.T.simd = true) (hb : G.base = isa.lanes F) (hts : 2 ≤ G.tsz) (M : Nat → Int → BitVec F.width)
    (σ : IRegs isa.bits F.width) (p : Nat) (inc : Int) (n : Nat) :
    (G.loadPartial p inc n).map (F.evalI isa M σ) = [partialI F isa G.cplx (M p) inc n] := by
  have ⟨ht1, hb1⟩ := Gen.simd_dims hG
  unfold Gen.loadPartial
  rw [List.map_singleton]
  congr 1
  apply lane_ext (F := F)
  intro t ht
  unfold evalI
  rw [lane_vpack _ (lane_in ht), mk_getD _ (by omega)]
  have hne : f32 ≠ f64 := by decide
  rw [ht1] at hts ⊢
  have hin := lane_in ht
  have hix : ∀ i, G.index inc i = if G.cplx then 2 * inc * ((i / 2 : Nat) : Int) + ((i % 2 : Nat) : Int) else inc * i := fun _ => rfl
  have hpw : G.pw = if G.cplx then 2 else 1 := rfl
  rw [hb1] at hb
  rw [hpw] at hb ⊢
  simp only [hix]
  generalize G.cplx = cx at *
  generalize G.T.ts = ts at *
  have ⟨l1, l2, l3, l4⟩ := isa_lanes
  unfold partialI
  rcases ‹F.OK›.isDoubleOrFloat with rfl | rfl <;> cases isa <;> cases cx <;>
    simp only [l1, l2, l3, l4, hne, decide_true, decide_false, if_true, Bool.false_eq_true, if_false] at hb ht ⊢
  · refine Eq.trans ?_ (lane_set (F := f64) (n := 128) hin).symm
    obtain rfl : ts = 2 := by omega
    interval_cases t <;> simp
  · omega
  · refine Eq.trans ?_ (lane_set (F := f64) (n := 256) hin).symm
    obtain rfl : ts = 4 := by omega
    interval_cases t <;> simp <;> split_ifs <;> rfl
  · refine Eq.trans ?_ (lane_set (F := f64) (n := 256) hin).symm
    obtain rfl : ts = 2 := by omega
    interval_cases t <;> simp
  · refine Eq.trans ?_ (lane_set (F := f32) (n := 128) hin).symm
    obtain rfl : ts = 4 := by omega
    interval_cases t <;> simp <;> split_ifs <;> rfl
  · refine Eq.trans ?_ (lane_set (F := f32) (n := 128) hin).symm
    obtain rfl : ts = 2 := by omega
    interval_cases t <;> simp
  · refine Eq.trans ?_ (lane_set (F := f32) (n := 256) hin).symm
    obtain rfl : ts = 8 := by omega
    interval_cases t <;> simp <;> split_ifs <;> rfl
  · refine Eq.trans ?_ (lane_vpack2 (n := 256) _ hin).symm
    obtain rfl : ts = 4 := by omega
    interval_cases t <;> simp [dw0, dw1]
    all_goals split_ifs
    all_goals simp [dw0, dw1, Int.mul_assoc]

theorem lane_broadcast (r : BitVec 128) {t : Nat} (ht : t < 4) : lane 64 t (mmBroadcastPd r) = lane 64 (t % 2) r := by
  apply BitVec.eq_of_getLsbD_eq
  intro i hi
  unfold mmBroadcastPd
  rw [getLsbD_lane, getLsbD_lane, BitVec.getLsbD_append]
  interval_cases t
  · rw [if_pos (by omega)]
  · rw [if_pos (by omega)]
  · rw [if_neg (by omega), show 2 * 64 + i - 128 = 2 % 2 * 64 + i by omega]
  · rw [if_neg (by omega), show 3 * 64 + i - 128 = 3 % 2 * 64 + i by omega]

theorem lane_broadcast64 (r : BitVec 128) {t : Nat} (ht : t < 4) : lane f64.width t (mmBroadcastPd r) = lane f64.width (t % 2) r := by
  rw [w64]
  exact lane_broadcast r ht

/-- **C65.** The intrinsics written for a broadcast of a word or a pair of words of the accumulator. -/
theorem C65_propagate [F.OK] {isa : Isa} {G : Gen} (M : Nat → Int → BitVec F.width) (σ : IRegs isa.bits F.width) (j : Nat) :
    F.evalI isa M σ (G.bcast j) = propagateI F isa G.cplx (σ.sc (.y 0 j)) (σ.sc (.y 1 j)) := by
  have hne : f32 ≠ f64 := by decide
  have h0 : F.evalS isa σ (.lane (.y 0 j) 0) = σ.sc (.y 0 j) := rfl
  have h1 : F.evalS isa σ (.lane (.y 1 j) 0) = σ.sc (.y 1 j) := rfl
  unfold Gen.bcast
  cases G.cplx
  · rw [if_neg Bool.false_ne_true]
    unfold evalI propagateI
    rw [h0]
    cases isa <;> rcases decide (F = f64) <;> rfl
  · rw [if_pos rfl]
    apply lane_ext (F := F)
    intro t ht
    have hin := lane_in ht
    unfold evalI
    rw [lane_set hin, alt_reverse _ _ _ (show isa.bits / F.width % 2 = 0 from (lanes_even isa).1) ht, h0, h1]
    generalize σ.sc (.y 0 j) = a
    generalize σ.sc (.y 1 j) = b
    have ⟨l1, l2, l3, l4⟩ := isa_lanes
    have hb : t % 2 < 2 := by omega
    have pair : (if t % 2 = 0 then a else b) = (b ++ a).extractLsb' (t % 2 * F.width) F.width := by
      generalize t % 2 = q at *
      interval_cases q
      · rw [append_lo, if_pos rfl]
      · rw [append_hi, if_neg (by decide)]
    unfold propagateI
    rcases ‹F.OK›.isDoubleOrFloat with rfl | rfl <;> cases isa <;> simp only [l1, l2, l3, l4, hne, decide_true, decide_false] at ht ⊢
    · refine Eq.trans ?_ (lane_vpack (n := 128) _ hin).symm
      interval_cases t <;> simp
    · have hw := w64
      refine Eq.trans ?_ (lane_broadcast64 _ ht).symm
      refine Eq.trans ?_ (lane_vpack (n := 128) _ (by rw [hw]; omega)).symm
      interval_cases t <;> simp
    · rw [pair]
      exact (lane_vpack2 (n := 128) (fun _ => b ++ a) hin).symm
    · rw [pair]
      exact (lane_vpack2 (n := 256) (fun _ => b ++ a) hin).symm

/-- **C65.** The constant the first register is reduced by in `consolidate_into`. -/
theorem C65_cons [F.OK] {isa : Isa} {G : Gen} (hG : G.T.simd = true) (hb : G.base = isa.lanes F) (hc : (G.cplx && G.tsz == 1) = false)
    (M : Nat → Int → BitVec F.width) (σ : IRegs isa.bits F.width) (j : Nat) :
    F.evalI isa M σ (.first G.pw (.cst Fmt.zero) (G.bcast j)) = consI F isa G.cplx (σ.sc (.y 0 j)) (σ.sc (.y 1 j)) := by
  have hne : f32 ≠ f64 := by decide
  have ⟨ht1, hb1⟩ := Gen.simd_dims hG
  have h0 : F.evalS isa σ (.lane (.y 0 j) 0) = σ.sc (.y 0 j) := rfl
  have h1 : F.evalS isa σ (.lane (.y 1 j) 0) = σ.sc (.y 1 j) := rfl
  have hz : F.evalS isa σ (.cst Fmt.zero) = 0 := enc_zero
  have hpw : G.pw = if G.cplx then 2 else 1 := rfl
  rw [hb1] at hb
  rw [ht1] at hc
  rw [hpw] at hb ⊢
  apply lane_ext (F := F)
  intro t ht
  have hin := lane_in ht
  unfold evalI Gen.bcast
  rw [lane_vpack _ hin, hz]
  have ⟨l1, l2, l3, l4⟩ := isa_lanes
  generalize G.cplx = cx at *
  generalize G.T.ts = ts at *
  unfold consI
  rcases ‹F.OK›.isDoubleOrFloat with rfl | rfl <;> cases isa <;> cases cx <;>
    simp only [l1, l2, l3, l4, hne, decide_true, decide_false, if_true, Bool.false_eq_true, if_false, h0, h1] at hb ht ⊢
  · refine Eq.trans ?_ (lane_set (F := f64) (n := 128) hin).symm
    interval_cases t <;> simp
  · obtain rfl : ts = 1 := by omega
    cases hc
  · refine Eq.trans ?_ (lane_set (F := f64) (n := 256) hin).symm
    interval_cases t <;> simp
  · refine Eq.trans ?_ (lane_set (F := f64) (n := 256) hin).symm
    interval_cases t <;> simp
  · refine Eq.trans ?_ (lane_set (F := f32) (n := 128) hin).symm
    interval_cases t <;> simp
  · refine Eq.trans ?_ (lane_set (F := f32) (n := 128) hin).symm
    interval_cases t <;> simp
  · refine Eq.trans ?_ (lane_set (F := f32) (n := 256) hin).symm
    interval_cases t <;> simp
  · refine Eq.trans ?_ (lane_set (F := f32) (n := 256) hin).symm
    interval_cases t <;> simp

/-! Concrete cases: a partial load of two `float complex` numbers 7 elements apart in AVX code; a partial load of one `double`
in SSE code; a broadcast of `1 + 2i`. -/
example : (partialI f32 .avx true (fun a => BitVec.ofInt f32.width a) 7 2).toNat = 0x0000000000000000_0000000000000000_0000000F0000000E_0000000100000000 := by
  decide +kernel
example : (partialI f64 .sse false (fun a => BitVec.ofInt f64.width (a + 5)) 7 1).toNat = 5 := by decide +kernel
example : (propagateI f64 .avx true (f64.enc (f64.ofInt 1)) (f64.enc (f64.ofInt 2))).toNat
    = 0x4000000000000000_3FF0000000000000_4000000000000000_3FF0000000000000 := by decide +kernel

end Repro
