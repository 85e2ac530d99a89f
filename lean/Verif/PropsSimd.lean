import Verif.Simd
import Verif.PropsGen
import Verif.PropsGenAmax
/-!
# C65: lemmas about registers, masks and shuffles
-/

namespace Repro
open Fmt

theorem bitsNat_lt (b : Nat → Bool) : ∀ n, bitsNat b n < 2 ^ n
  | 0 => by simp [bitsNat]
  | n + 1 => by
    have := bitsNat_lt b n
    unfold bitsNat
    rw [Nat.pow_succ]
    split <;> omega

theorem bitsNat_testBit (b : Nat → Bool) : ∀ n i, (bitsNat b n).testBit i = (decide (i < n) && b i)
  | 0, i => by simp [bitsNat]
  | n + 1, i => by
    have hl := bitsNat_lt b n
    have ih := bitsNat_testBit b n i
    unfold bitsNat
    by_cases hb : b n = true
    · rw [if_pos hb, Nat.add_comm]
      by_cases hi : i < n
      · rw [Nat.testBit_two_pow_add_gt hi, ih, decide_eq_true hi, decide_eq_true (by omega : i < n + 1)]
      · by_cases he : i = n
        · subst he
          rw [Nat.testBit_two_pow_add_eq, ih, decide_eq_false hi, decide_eq_true (by omega : i < i + 1), hb]
          rfl
        · rw [decide_eq_false (by omega : ¬ i < n + 1), Bool.false_and]
          exact Nat.testBit_lt_two_pow (Nat.lt_of_lt_of_le (by rw [Nat.pow_succ]; omega : 2 ^ n + bitsNat b n < 2 ^ (n + 1)) (Nat.pow_le_pow_right (by omega) (by omega)))
    · rw [if_neg hb, Nat.add_zero, ih]
      by_cases hi : i < n
      · rw [decide_eq_true hi, decide_eq_true (by omega : i < n + 1)]
      · by_cases he : i = n
        · subst he
          rw [decide_eq_false hi, Bool.eq_false_iff.mpr hb, Bool.and_false, Bool.and_false]
        · rw [decide_eq_false hi, decide_eq_false (by omega : ¬ i < n + 1)]

theorem getLsbD_vpack {w n : Nat} (f : Nat → BitVec w) (i : Nat) :
    (vpack w n f).getLsbD i = (decide (i < n) && (f (i / w)).getLsbD (i % w)) := by
  unfold vpack
  rw [BitVec.getLsbD_ofNat, bitsNat_testBit]
  cases decide (i < n) <;> rfl

theorem getLsbD_lane {w n k : Nat} (r : BitVec n) (i : Nat) : (lane w k r).getLsbD i = (decide (i < w) && r.getLsbD (k * w + i)) :=
  BitVec.getLsbD_extractLsb' _ _ _ _

theorem lane_vpack {w n k : Nat} (f : Nat → BitVec w) (h : k * w + w ≤ n) : lane w k (vpack w n f) = f k := by
  apply BitVec.eq_of_getLsbD_eq
  intro i hi
  have hw : 0 < w := by omega
  rw [getLsbD_lane, getLsbD_vpack, decide_eq_true hi, decide_eq_true (by omega : k * w + i < n), Nat.mul_comm k w, Nat.mul_add_div hw,
    Nat.mul_add_mod, Nat.div_eq_of_lt hi, Nat.mod_eq_of_lt hi]
  rfl

theorem lane_and {w n k : Nat} (a b : BitVec n) : lane w k (a &&& b) = lane w k a &&& lane w k b := BitVec.extractLsb'_and
theorem lane_or {w n k : Nat} (a b : BitVec n) : lane w k (a ||| b) = lane w k a ||| lane w k b := BitVec.extractLsb'_or
theorem lane_xor {w n k : Nat} (a b : BitVec n) : lane w k (a ^^^ b) = lane w k a ^^^ lane w k b := BitVec.extractLsb'_xor

variable {F : Fmt}

theorem width_pos [F.OK] : 2 ≤ F.width ∧ F.width = F.width - 1 + 1 ∧ 2 ^ (F.width - 1) = 2 ^ (F.p - 1) * (F.emax + 1) := by
  rcases ‹F.OK›.isDoubleOrFloat with rfl | rfl <;> decide +kernel

theorem dec_bits [F.OK] (b : BitVec F.width) : F.Bits (F.dec b) := Nat.mod_lt _ (Nat.two_pow_pos _)

theorem dec_enc [F.OK] {x : Flt} (h : F.Bits x) : F.dec (F.enc x) = x := by
  have ⟨h2, hs, _⟩ := width_pos (F := F)
  unfold Bits at h
  obtain ⟨k, hk⟩ : ∃ k, F.width - 1 = k := ⟨_, rfl⟩
  rw [hk] at h hs
  have hp : 2 ^ F.width = 2 * 2 ^ k := by rw [hs, Nat.pow_succ, Nat.mul_comm]
  have hN : (F.enc x).toNat = x.mag + if x.neg then 2 ^ k else 0 := by
    unfold enc
    rw [BitVec.toNat_ofNat, hk, hp, Nat.mod_eq_of_lt]
    split <;> omega
  unfold dec
  rw [BitVec.msb_eq_decide, hN, hk]
  cases x with
  | mk s m =>
    cases s
    · simp only [Bool.false_eq_true, if_false, Nat.add_zero] at *
      rw [Nat.mod_eq_of_lt h, decide_eq_false (by omega)]
    · simp only [if_true] at *
      rw [Nat.add_mod_right, Nat.mod_eq_of_lt h, decide_eq_true (by omega)]

theorem enc_zero [F.OK] : F.enc zero = 0 := by
  unfold enc zero
  simp

theorem dec_zero [F.OK] : F.dec 0 = zero := by
  rw [← enc_zero, dec_enc]
  exact Nat.two_pow_pos _

/-- The mask of the sign bit. -/
def signBit (F : Fmt) : BitVec F.width := BitVec.ofNat F.width (2 ^ (F.width - 1))

/-- The mask of the other bits. -/
def restBits (F : Fmt) : BitVec F.width := BitVec.ofNat F.width (2 ^ (F.width - 1) - 1)

theorem pow_width [F.OK] : 2 ^ F.width = 2 * 2 ^ (F.width - 1) := by
  have ⟨h2, hs, _⟩ := width_pos (F := F)
  obtain ⟨k, hk⟩ : ∃ k, F.width - 1 = k := ⟨_, rfl⟩
  rw [hk] at hs ⊢
  rw [hs, Nat.pow_succ, Nat.mul_comm]

theorem dec_or1 [F.OK] (b : BitVec F.width) : F.dec (b ||| 1) = or1 (F.dec b) := by
  have ⟨h2, hs, _⟩ := width_pos (F := F)
  unfold dec or1
  have h1 : (1 : BitVec F.width).toNat = 1 := by
    show 1 % 2 ^ F.width = 1
    exact Nat.mod_eq_of_lt (Nat.one_lt_two_pow (by omega))
  have hm : (1 : BitVec F.width).msb = false := by
    rw [BitVec.msb_eq_decide, h1]
    exact decide_eq_false (by have := Nat.one_lt_two_pow (n := F.width - 1) (by omega); omega)
  rw [BitVec.msb_or, hm, Bool.or_false, BitVec.toNat_or, h1, Nat.or_mod_two_pow, Nat.mod_eq_of_lt (a := 1) (Nat.one_lt_two_pow (by omega))]

theorem dec_abs [F.OK] (b : BitVec F.width) : F.dec (b &&& restBits F) = fabs (F.dec b) := by
  have ⟨h2, hs, _⟩ := width_pos (F := F)
  have hp := pow_width (F := F)
  have hpos := Nat.two_pow_pos (F.width - 1)
  have h1 : (restBits F).toNat = 2 ^ (F.width - 1) - 1 := by
    unfold restBits
    rw [BitVec.toNat_ofNat]
    exact Nat.mod_eq_of_lt (by omega)
  have hm : (restBits F).msb = false := by
    rw [BitVec.msb_eq_decide, h1]
    exact decide_eq_false (by omega)
  unfold dec fabs
  rw [BitVec.msb_and, hm, Bool.and_false, BitVec.toNat_and, h1, Nat.and_two_pow_sub_one_eq_mod, Nat.mod_mod]

theorem dec_neg [F.OK] (b : BitVec F.width) : F.dec (b ^^^ signBit F) = fneg (F.dec b) := by
  have ⟨h2, hs, _⟩ := width_pos (F := F)
  have hp := pow_width (F := F)
  have hpos := Nat.two_pow_pos (F.width - 1)
  have h1 : (signBit F).toNat = 2 ^ (F.width - 1) := by
    unfold signBit
    rw [BitVec.toNat_ofNat]
    exact Nat.mod_eq_of_lt (by omega)
  have hm : (signBit F).msb = true := by
    rw [BitVec.msb_eq_decide, h1]
    exact decide_eq_true (by omega)
  unfold dec fneg
  rw [BitVec.msb_xor, hm, Bool.xor_true, BitVec.toNat_xor, h1, Nat.xor_mod_two_pow, Nat.mod_self, Nat.xor_zero]

/-! Results of operations have bits. -/

theorem roundMag_bits [F.OK] (n s : Nat) : F.roundMag n s < 2 ^ (F.width - 1) := by
  rw [(width_pos (F := F)).2.2]
  refine Nat.lt_of_le_of_lt (Nat.min_le_right _ _) ?_
  unfold infMag
  rw [Nat.mul_comm]
  exact Nat.mul_lt_mul_of_pos_left (by omega) (Nat.two_pow_pos _)

theorem nan_bits [F.OK] : F.Bits F.nan := by
  rcases ‹F.OK›.isDoubleOrFloat with rfl | rfl <;> (unfold Bits; decide +kernel)

theorem infMag_bits [F.OK] : F.infMag < 2 ^ (F.width - 1) := by
  rw [(width_pos (F := F)).2.2]
  unfold infMag
  rw [Nat.mul_comm]
  exact Nat.mul_lt_mul_of_pos_left (by omega) (Nat.two_pow_pos _)

theorem zero_bits [F.OK] (s : Bool) : F.Bits ⟨s, 0⟩ := Nat.two_pow_pos _

theorem add_bits [F.OK] {x y : Flt} (hx : F.Bits x) (hy : F.Bits y) : F.Bits (F.add x y) := by
  unfold add
  split
  · exact nan_bits
  split
  · split
    · exact nan_bits
    · exact hx
  split
  · exact hy
  dsimp only
  split
  · exact zero_bits _
  · exact roundMag_bits _ _

theorem sub_bits [F.OK] {x y : Flt} (hx : F.Bits x) (hy : F.Bits y) : F.Bits (F.sub x y) := add_bits hx (show F.Bits (fneg y) from hy)

theorem mul_bits [F.OK] (x y : Flt) : F.Bits (F.mul x y) := by
  unfold mul
  split
  · exact nan_bits
  split
  · split
    · exact nan_bits
    · exact infMag_bits
  · exact roundMag_bits _ _

theorem div_bits [F.OK] (x y : Flt) : F.Bits (F.div x y) := by
  unfold div
  split
  · exact nan_bits
  split
  · split
    · exact nan_bits
    · exact infMag_bits
  split
  · exact zero_bits _
  split
  · split
    · exact nan_bits
    · exact infMag_bits
  · exact roundMag_bits _ _

theorem dec_max [F.OK] (a b : BitVec F.width) : F.dec (F.maxBits a b) = F.fmax (F.dec a) (F.dec b) := by
  unfold maxBits fmax
  split <;> rfl

/-! ## Masks -/

theorem one_mask [F.OK] : F.enc (F.ofInt 1) ^^^ F.enc F.onePlusEps = 1 := by
  rcases ‹F.OK›.isDoubleOrFloat with rfl | rfl <;> decide +kernel

theorem abs_mask [F.OK] : (F.enc (F.ofInt (-1)) ^^^ F.enc (F.ofInt 1)) ^^^ BitVec.allOnes F.width = restBits F := by
  rcases ‹F.OK›.isDoubleOrFloat with rfl | rfl <;> decide +kernel

theorem one_eq [F.OK] : F.feq (F.dec (F.enc (F.ofInt 1))) (F.dec (F.enc (F.ofInt 1))) = true := by
  rcases ‹F.OK›.isDoubleOrFloat with rfl | rfl <;> decide +kernel

theorem sign_mask [F.OK] : F.enc (F.ofInt (-1)) ^^^ F.enc (F.ofInt 1) = signBit F := by
  rcases ‹F.OK›.isDoubleOrFloat with rfl | rfl <;> decide +kernel

theorem zero_mask [F.OK] : F.enc (F.ofInt 0) ^^^ F.enc (F.ofInt 0) = 0 := BitVec.xor_self

section
variable [F.OK] {n k : Nat} (h : k * F.width + F.width ≤ n)
include h

theorem lane_blp : lane F.width k (F.blpMask n) = 1 := by
  unfold blpMask mmSet1
  rw [lane_xor, lane_vpack _ h, lane_vpack _ h, one_mask]

theorem lane_abs : lane F.width k (F.absMask n) = restBits F := by
  unfold absMask mmSet1 mmCmpeq
  dsimp only
  rw [lane_xor, lane_xor, lane_vpack _ h, lane_vpack _ h, lane_vpack _ h, lane_vpack _ h, one_eq, if_pos rfl, abs_mask]

omit [F.OK] in
theorem lane_set {args : List (BitVec F.width)} : lane F.width k (mmSet n args) = args.reverse.getD k 0 := by
  unfold mmSet
  rw [lane_vpack _ h]

end

theorem alt_reverse {α : Type} (a b d : α) {L k : Nat} (hL : L % 2 = 0) (hk : k < L) :
    (((List.range L).map (fun i => if i % 2 = 0 then a else b)).reverse).getD k d = if k % 2 = 0 then b else a := by
  rw [List.getD_eq_getElem?_getD, List.getElem?_reverse (by simpa using hk)]
  simp only [List.length_map, List.length_range, List.getElem?_map]
  rw [List.getElem?_range (by omega)]
  simp only [Option.map_some, Option.getD_some]
  by_cases h : k % 2 = 0
  · rw [if_neg (by omega), if_pos h]
  · rw [if_pos (by omega), if_neg h]

theorem w64 : f64.width = 64 := by decide +kernel
theorem w32 : f32.width = 32 := by decide +kernel

theorem shufflePd_lane (r : BitVec 128) (imm : BitVec 8) {f : Nat → Nat} (hf : ∀ k, k < 2 → (imm.getLsbD k).toNat = f k) {k : Nat} (h : k < 2) :
    lane 64 k (mmShufflePd r r imm) = lane 64 (f k) r := by
  unfold mmShufflePd
  rw [lane_vpack _ (by omega), ite_self, hf k h]

theorem shufflePs_lane (r : BitVec 128) (imm : BitVec 8) {f : Nat → Nat} (hf : ∀ k, k < 4 → (imm.extractLsb' (2 * k) 2).toNat = f k) {k : Nat} (h : k < 4) :
    lane 32 k (mmShufflePs r r imm) = lane 32 (f k) r := by
  unfold mmShufflePs
  rw [lane_vpack _ (by omega), ite_self, hf k h]

theorem permutePd_lane (r : BitVec 256) (imm : BitVec 8) {f : Nat → Nat} (hf : ∀ k, k < 4 → 2 * (k / 2) + (imm.getLsbD k).toNat = f k) {k : Nat} (h : k < 4) :
    lane 64 k (mmPermutePd r imm) = lane 64 (f k) r := by
  unfold mmPermutePd
  rw [lane_vpack _ (by omega), hf k h]

theorem permutePs_lane (r : BitVec 256) (imm : BitVec 8) {f : Nat → Nat}
    (hf : ∀ k, k < 8 → 4 * (k / 4) + (imm.extractLsb' (2 * (k % 4)) 2).toNat = f k) {k : Nat} (h : k < 8) :
    lane 32 k (mmPermutePs r imm) = lane 32 (f k) r := by
  unfold mmPermutePs
  rw [lane_vpack _ (by omega), hf k h]

/-- The numbers in a register. -/
def Isa.lanes (isa : Isa) (F : Fmt) : Nat := isa.bits / F.width

theorem lanes_even [F.OK] (isa : Isa) : (isa.lanes F) % 2 = 0 ∧ 2 ≤ isa.lanes F := by
  rcases ‹F.OK›.isDoubleOrFloat with rfl | rfl <;> cases isa <;> decide +kernel

theorem lane_in {isa : Isa} {k : Nat} (h : k < isa.lanes F) : k * F.width + F.width ≤ isa.bits := by
  unfold Isa.lanes at h
  have := Nat.div_mul_le_self isa.bits F.width
  have h2 : (k + 1) * F.width ≤ isa.bits / F.width * F.width := Nat.mul_le_mul_right _ (by omega)
  rw [Nat.add_mul, Nat.one_mul] at h2
  omega

section
variable [F.OK] {isa : Isa} {k : Nat} (h : k < isa.lanes F)
include h

theorem lane_conj : lane F.width k (F.conjMask isa.bits) = if k % 2 = 0 then 0 else signBit F := by
  unfold conjMask conjArgs
  rw [lane_xor, lane_set (lane_in h), lane_set (lane_in h), alt_reverse _ _ _ (show isa.bits / F.width % 2 = 0 from (lanes_even isa).1) h,
    alt_reverse _ _ _ (show isa.bits / F.width % 2 = 0 from (lanes_even isa).1) h]
  split
  · exact zero_mask
  · exact sign_mask

theorem lane_nconj : lane F.width k (F.nconjMask isa.bits) = if k % 2 = 0 then signBit F else 0 := by
  unfold nconjMask nconjArgs
  rw [lane_xor, lane_set (lane_in h), lane_set (lane_in h), alt_reverse _ _ _ (show isa.bits / F.width % 2 = 0 from (lanes_even isa).1) h,
    alt_reverse _ _ _ (show isa.bits / F.width % 2 = 0 from (lanes_even isa).1) h]
  split
  · exact sign_mask
  · exact zero_mask

theorem lane_swap (r : BitVec isa.bits) : lane F.width k (F.mmSwap isa r) = lane F.width ((k + 1) % 2 + 2 * (k / 2)) r := by
  unfold Isa.lanes at h
  rcases ‹F.OK›.isDoubleOrFloat with rfl | rfl
  · have hw := w64
    generalize f64.width = w at *
    subst hw
    cases isa
    · exact shufflePd_lane r 0x1 (f := fun k => (k + 1) % 2 + 2 * (k / 2)) (by decide) h
    · exact permutePd_lane r 0x5 (f := fun k => (k + 1) % 2 + 2 * (k / 2)) (by decide) h
  · have hw := w32
    generalize f32.width = w at *
    subst hw
    cases isa
    · exact shufflePs_lane r 0xB1 (f := fun k => (k + 1) % 2 + 2 * (k / 2)) (by decide) h
    · exact permutePs_lane r 0xB1 (f := fun k => (k + 1) % 2 + 2 * (k / 2)) (by decide) h

theorem lane_evens (r : BitVec isa.bits) : lane F.width k (F.mmEvens isa r) = lane F.width (2 * (k / 2)) r := by
  unfold Isa.lanes at h
  rcases ‹F.OK›.isDoubleOrFloat with rfl | rfl
  · have hw := w64
    generalize f64.width = w at *
    subst hw
    cases isa
    · exact shufflePd_lane r 0x0 (f := fun k => 2 * (k / 2)) (by decide) h
    · exact permutePd_lane r 0x0 (f := fun k => 2 * (k / 2)) (by decide) h
  · have hw := w32
    generalize f32.width = w at *
    subst hw
    cases isa
    · exact shufflePs_lane r 0xA0 (f := fun k => 2 * (k / 2)) (by decide) h
    · exact permutePs_lane r 0xA0 (f := fun k => 2 * (k / 2)) (by decide) h

theorem lane_odds (r : BitVec isa.bits) : lane F.width k (F.mmOdds isa r) = lane F.width (2 * (k / 2) + 1) r := by
  unfold Isa.lanes at h
  rcases ‹F.OK›.isDoubleOrFloat with rfl | rfl
  · have hw := w64
    generalize f64.width = w at *
    subst hw
    cases isa
    · exact shufflePd_lane r 0x3 (f := fun k => 2 * (k / 2) + 1) (by decide) h
    · exact permutePd_lane r 0xF (f := fun k => 2 * (k / 2) + 1) (by decide) h
  · have hw := w32
    generalize f32.width = w at *
    subst hw
    cases isa
    · exact shufflePs_lane r 0xF5 (f := fun k => 2 * (k / 2) + 1) (by decide) h
    · exact permutePs_lane r 0xF5 (f := fun k => 2 * (k / 2) + 1) (by decide) h

end

end Repro
