import Verif.PropsBoundVec
import Verif.PropsConvErr
import Verif.NormCore

/-!
# C58: accuracy and overflow of the converted sums

Independent vocabulary: `Fmt.toInt` (the exact value of a finite number in units of `2^-eta`), `Fmt.exactSum` (the exact sum of
a list in those units), `Fmt.exactVal` (the exact value of an accumulator), `IsSum` and `IsDot` below. In units of `2^-eta` the
overflow threshold `2^MAX_EXP` is `2^(eta + maxExp)`.
-/

namespace Repro
open Fmt

variable {F : Fmt}

theorem thr_eq [F.OK] : F.p + F.emax - 2 = F.eta + F.maxExp := by
  rcases ‹F.OK›.isDoubleOrFloat with h | h <;> rw [h] <;> decide

/-- The conversion of a normalised accumulator, including overflow. -/
theorem conv_canon_over [F.OK] {fold k : Nat} {A : Nat → Int} (hfold : 2 ≤ fold) (hfold' : fold < 2 ^ 50) (hk : k ≤ F.maxIndex)
    (hcap : ∀ j, (A j).natAbs ≤ F.capacity * 2 ^ (F.W - 1))
    (h0 : ∀ j, F.maxIndex < j → j < k + fold → A j = 0)
    (hS : ¬ F.Finite (convert F fold (F.canon fold k A))) :
    let T := sumTo (fun i => A (k + i) * 2 ^ F.uexp (k + i)) fold
    convert F fold (F.canon fold k A) = F.inf (decide (T < 0)) ∧
      (2 ^ (F.p - 3) - 1) * 2 ^ (F.eta + F.maxExp) ≤ 2 ^ (F.p - 3) * T.natAbs := by
  intro T
  have hcv : convert F fold (F.canon fold k A) = F.ofUnits (rndZ 53 (convTotal (F.carTerm (fun j => A j / 2 ^ (F.p - 3)))
      (F.priTerm (fun j => A j % 2 ^ (F.p - 3))) k fold)) := convert_canon hfold hfold' hk hcap
  have he := convTotal_err (F := F) (fold := fold) (k := k) (by omega) hcap h0
  dsimp only at he
  have hT : sumTo (fun i => A (k + i) * 2 ^ F.uexp (k + i)) fold = T := rfl
  rw [hT] at he
  have hRep := rep_rnd (convTotal (F.carTerm (fun j => A j / 2 ^ (F.p - 3)))
      (F.priTerm (fun j => A j % 2 ^ (F.p - 3))) k fold)
  generalize rndZ 53 (convTotal (F.carTerm (fun j => A j / 2 ^ (F.p - 3)))
      (F.priTerm (fun j => A j % 2 ^ (F.p - 3))) k fold) = R at *
  have hRS : 2 ^ (F.p + F.emax - 2) ≤ (rndZ F.p R).natAbs := by
    by_contra hc
    rw [hcv] at hS
    exact hS (ofUnits_good (by omega)).1
  have hpos : 0 < 2 ^ (F.p + F.emax - 2) := pow_pos' _
  have hR0 : R ≠ 0 := by
    rintro rfl
    rw [rndZ_zero] at hRS
    simp at hRS
  have hd : 2 ^ 50 * (R - T).natAbs ≤ R.natAbs := by
    rcases he with rfl | h
    · simp
    · exact h.1
  clear_value T
  have hsg : R < 0 ↔ T < 0 := by omega
  refine ⟨?_, ?_⟩
  · rw [hcv]
    unfold ofUnits
    rw [roundMag_overflow hRS]
    unfold Fmt.inf
    congr 1
    exact decide_eq_decide.2 hsg
  · rw [← thr_eq]
    clear hcv hS hT hcap h0 he hpos
    rcases ‹F.OK›.isDoubleOrFloat with h | h
    · rw [h] at hRS ⊢
      have e1 : rndZ f64.p R = R := hRep
      rw [e1] at hRS
      have e2 : f64.p - 3 = 50 := rfl
      rw [e2]
      generalize 2 ^ (f64.p + f64.emax - 2) = M at *
      omega
    · rw [h] at hRS ⊢
      have h1 : 2 ^ 24 * (rndZ 24 R - R).natAbs ≤ (rndZ 24 R).natAbs := rnd_relF (F := f32) R
      have e1 : rndZ f32.p R = rndZ 24 R := rfl
      rw [e1] at hRS
      have e2 : f32.p - 3 = 21 := rfl
      rw [e2]
      generalize 2 ^ (f32.p + f32.emax - 2) = M at *
      generalize rndZ 24 R = S at *
      omega

/-- **C58** (conversion). The native number obtained from a binned accumulator, whatever the history of operations that
filled it, overflows only if the exact value of the accumulator reaches the overflow threshold `2^MAX_EXP` up to the relative
error `2^(3-p)` of the conversion: then it is the infinity with the sign of that value, never NaN. Conversely it is finite only
below the threshold plus the same relative error. Partial sums that exceed the range on the way do no harm. -/
theorem C58_overflow [F.OK] {fold : Nat} (hfold : 2 ≤ fold) (hfold' : fold < 2 ^ 50) {h : Hist} (hl : h.Legal F)
    (hs : h.Settled) (hN : h.nums.length ≤ F.capacity) (hne : h.seen ≠ [])
    (hlow : F.minIndex h.seen + fold - 1 ≤ F.maxIndex) :
    let T := F.exactVal fold (h.eval F fold)
    let S := convert F fold (h.eval F fold)
    (¬ F.Finite S → S = F.inf (decide (T < 0)) ∧ (2 ^ (F.p - 3) - 1) * 2 ^ (F.eta + F.maxExp) ≤ 2 ^ (F.p - 3) * T.natAbs) ∧
    (F.Finite S → 2 ^ (F.p - 3) * T.natAbs < (2 ^ (F.p - 3) + 1) * 2 ^ (F.eta + F.maxExp)) := by
  intro T S
  constructor
  · intro hS
    have hm := hist_mid hfold h hl hN
    have hev := (hm.2.1 hne).exactVal (by omega) (Nat.zero_le _) hN
    have hsp : h.eval F fold = F.canon fold (F.minIndex h.seen) (F.total h.nums) := by
      rw [hm.2.2 hs]
      unfold Hist.spec
      rw [if_neg hne]
    have hcap : ∀ j, (F.total h.nums j).natAbs ≤ F.capacity * 2 ^ (F.W - 1) := fun j => by
      obtain ⟨_, _, _, _, _, _, _, _, hb⟩ := hm.2.1 hne
      exact Nat.le_trans (hb j) (Nat.mul_le_mul_right _ hN)
    have hS' : ¬ F.Finite (convert F fold (F.canon fold (F.minIndex h.seen) (F.total h.nums))) := hsp ▸ hS
    have := conv_canon_over hfold hfold' (minIndex_le _) hcap (fun j h1 h2 => by omega) hS'
    show convert F fold (h.eval F fold) = F.inf (decide (F.exactVal fold (h.eval F fold) < 0)) ∧
      _ ≤ 2 ^ (F.p - 3) * (F.exactVal fold (h.eval F fold)).natAbs
    rw [hev, hsp]
    exact this
  · intro hS
    have h1 := C49_conversion_error hfold hfold' hl hs hN hne hlow hS
    dsimp only at h1
    have h2 : (F.toInt (convert F fold (h.eval F fold))).natAbs < 2 ^ (F.eta + F.maxExp) := by
      rw [toInt_natAbs, ← thr_eq]; exact val_lt hS
    have hT : F.exactVal fold (h.eval F fold) = T := rfl
    rw [hT] at h1
    clear_value T
    generalize F.toInt (convert F fold (h.eval F fold)) = s at *
    have hP : 0 < 2 ^ (F.p - 3) := pow_pos' _
    generalize 2 ^ (F.p - 3) = P at *
    generalize 2 ^ (F.eta + F.maxExp) = M at *
    have h3 : P * T.natAbs ≤ P * s.natAbs + s.natAbs := by
      rcases h1 with rfl | ⟨h1, _⟩
      · exact Nat.le_add_right _ _
      · have : T.natAbs ≤ s.natAbs + (s - T).natAbs := by omega
        have := Nat.mul_le_mul_left P this
        rw [Nat.mul_add] at this
        omega
    have h4 : P * s.natAbs ≤ P * M := Nat.mul_le_mul_left _ (by omega)
    rw [Nat.add_mul]
    omega

/-! ## The native sums -/

/-- The largest exact magnitude in a list. -/
def maxVal (F : Fmt) (xs : List Flt) : Nat := F.val (maxMag xs)

/-- The absolute error of the accumulation: `N max|x| 2^(-W (fold-1))`. -/
def sumErr (F : Fmt) (fold : Nat) (xs : List Flt) : Rat := xs.length * maxVal F xs / 2 ^ (F.W * (fold - 1))

/-- The number `S` is a sum of the exact value `E`, up to the error `e` and a relative error of `2^(3-p)`: if it is finite it is
that close to `E`; otherwise it is an infinity (not NaN) and `E` reaches the overflow threshold `2^MAX_EXP` on that side, up to
the same errors. -/
def IsSum (F : Fmt) (S : Flt) (E e : Rat) : Prop :=
  (F.Finite S → |(F.toInt S : Rat) - E| ≤ |(F.toInt S : Rat)| / 2 ^ (F.p - 3) + e) ∧
  (¬ F.Finite S → ∃ neg : Bool, S = F.inf neg ∧ (1 - 1 / 2 ^ (F.p - 3)) * 2 ^ (F.eta + F.maxExp) ≤ (if neg then -E else E) + e)

/-- The summands are within the range the accumulators cover: some summand is large enough for `fold` bins to lie above the
smallest bin, or every summand is a multiple of the unit `2^(eta + maxExp + 1 - W - W maxIndex)` of the smallest bin
(`2^-1055` for double, `2^-144` for float). -/
def InRange (F : Fmt) (fold : Nat) (xs : List Flt) : Prop :=
  (fold ≤ F.maxIndex + 1 ∧ ∃ x ∈ xs, 2 ^ (F.eta + F.maxExp - (F.maxIndex + 2 - fold) * F.W) ≤ F.val x.mag) ∨
  (∀ x ∈ xs, (2 ^ (F.eta + F.maxExp + 1 - F.W - F.W * F.maxIndex) : Int) ∣ F.toInt x)

theorem low_of_range [F.OK] {fold : Nat} {xs : List Flt} (hx : ∀ x ∈ xs, F.Finite x) (hr : InRange F fold xs) :
    F.minIndex xs + fold - 1 ≤ F.maxIndex ∨ (∀ x ∈ xs, (2 ^ F.uexp (F.minIndex xs + fold - 1) : Int) ∣ F.toInt x) := by
  rcases hr with ⟨hf, x, hm, hb⟩ | hd
  · left
    have h1 := minIndex_le_mem (F := F) hm
    have ⟨_, h2, _⟩ := C10_index_brackets (hx x hm)
    have : F.eta + F.maxExp - (F.maxIndex + 2 - fold) * F.W < F.eta + F.maxExp - F.dindex x * F.W := by
      apply (Nat.pow_lt_pow_iff_right (by norm_num : 1 < 2)).1
      omega
    have h3 : F.dindex x < F.maxIndex + 2 - fold := by
      by_contra hc
      have := Nat.mul_le_mul_right F.W (Nat.not_lt.1 hc)
      omega
    omega
  · by_cases hl : F.minIndex xs + fold - 1 ≤ F.maxIndex
    · exact Or.inl hl
    · right
      intro x hm
      have := hd x hm
      have e : F.uexp (F.minIndex xs + fold - 1) = F.eta + F.maxExp + 1 - F.W - F.W * F.maxIndex := by
        have ⟨b1, b2, b3, b4, b5, b6, b7, _⟩ := F.bfacts
        unfold uexp
        rw [Nat.min_eq_right (by omega)]
      rw [e]; exact this

theorem IsSum.shift {S : Flt} {E E' e d : Rat} (h : IsSum F S E e) (hd : |E - E'| ≤ d) : IsSum F S E' (e + d) := by
  have ⟨d1, d2⟩ := abs_le.1 hd
  refine ⟨fun hf => ?_, fun hf => ?_⟩
  · have h1 := h.1 hf
    have : |(F.toInt S : Rat) - E'| ≤ |(F.toInt S : Rat) - E| + |E - E'| := abs_sub_le _ _ _
    linarith
  · obtain ⟨neg, h1, h2⟩ := h.2 hf
    refine ⟨neg, h1, ?_⟩
    cases neg <;> simp only [Bool.false_eq_true, if_false, if_true] at h2 ⊢ <;> linarith

/-- The conversion of the specified sum of a list. -/
theorem sum_list [F.OK] {fold : Nat} (hfold : 2 ≤ fold) (hfold' : fold < 2 ^ 50) {xs : List Flt}
    (hx : ∀ x ∈ xs, F.Finite x) (hN : xs.length ≤ F.capacity) (hr : InRange F fold xs) :
    IsSum F (convert F fold (F.specSum fold xs)) (F.exactSum xs) (sumErr F fold xs) := by
  by_cases hne : xs = []
  · subst hne
    have e : convert F fold (F.specSum fold []) = zero := by
      unfold specSum
      rw [if_pos rfl]
      exact (C19_sequences hfold hfold').1
    rw [e]
    have hf : F.Finite zero := zero_finite
    refine ⟨fun _ => ?_, fun h => absurd hf h⟩
    have e2 : F.toInt zero = 0 := by
      unfold toInt zero
      simp [val_eq_zero.2]
    rw [e2]
    unfold exactSum sumErr
    simp
  have hlow := low_of_range hx hr
  have hcap : ∀ j, (F.total xs j).natAbs ≤ F.capacity * 2 ^ (F.W - 1) := fun j =>
    Nat.le_trans (total_bound hx j) (Nat.mul_le_mul_right _ hN)
  have h0 : ∀ j, F.maxIndex < j → j < F.minIndex xs + fold → F.total xs j = 0 := by
    intro j hj hjf
    rcases hlow with h | hd
    · omega
    · have : ∀ x ∈ xs, F.slice (F.toInt x) j = 0 := by
        intro x hm
        obtain ⟨i, rfl⟩ : ∃ i, j = i + 1 := ⟨j - 1, by omega⟩
        refine slice_resid_zero (resid_zero_of_dvd ?_)
        have hu : F.uexp i = F.uexp (F.minIndex xs + fold - 1) := by
          unfold uexp; rw [Nat.min_eq_right (by omega), Nat.min_eq_right (by omega)]
        rw [hu]; exact hd x hm
      unfold total
      have hz : ∀ l : List Int, (∀ a ∈ l, a = 0) → l.sum = 0 := by
        intro l hl
        induction l with
        | nil => rfl
        | cons a l ih => rw [List.sum_cons, hl a List.mem_cons_self, ih (fun b hb => hl b (List.mem_cons_of_mem _ hb))]; rfl
      apply hz
      intro a ha
      obtain ⟨x, hm, rfl⟩ := List.mem_map.1 ha
      exact this x hm
  have hsp : F.specSum fold xs = F.canon fold (F.minIndex xs) (F.total xs) := by
    unfold specSum
    rw [if_neg hne]
  have hloss : |(F.exactSum xs : Rat) - F.exactVal fold (F.sumSeq fold xs (dmsetzero fold))| ≤ sumErr F fold xs := by
    rcases hlow with hl | hd
    · obtain ⟨m, hm, hmx, hb⟩ := C16_error_relative hfold hne hx hN hl
      have hmv : F.val m.mag ≤ maxVal F xs := val_mono (le_maxMag hm)
      unfold sumErr
      have hb' : (F.exactSum xs - F.exactVal fold (F.sumSeq fold xs (dmsetzero fold))).natAbs * 2 ^ (F.W * (fold - 1)) ≤ xs.length * maxVal F xs := by
        refine Nat.le_trans ?_ (Nat.mul_le_mul_left _ hmv)
        exact_mod_cast hb
      have hc : |(F.exactSum xs : Rat) - F.exactVal fold (F.sumSeq fold xs (dmsetzero fold))| =
          ((F.exactSum xs - F.exactVal fold (F.sumSeq fold xs (dmsetzero fold))).natAbs : Rat) := by
        rw [Nat.cast_natAbs]; push_cast; rfl
      rw [hc, le_div_iff₀ (by positivity)]
      exact_mod_cast hb'
    · rw [C41_exact hfold hne hx hN hd, sub_self, abs_zero]
      unfold sumErr
      positivity
  rw [exactVal_sumSeq hfold hne hx hN] at hloss
  rw [hsp]
  have key : IsSum F (convert F fold (F.canon fold (F.minIndex xs) (F.total xs)))
      ((sumTo (fun i => F.total xs (F.minIndex xs + i) * 2 ^ F.uexp (F.minIndex xs + i)) fold : Int) : Rat) 0 := by
    refine ⟨fun hf => ?_, fun hf => ?_⟩
    · have := conv_canon_err hfold hfold' (minIndex_le _) hcap h0 hf
      dsimp only at this
      generalize sumTo (fun i => F.total xs (F.minIndex xs + i) * 2 ^ F.uexp (F.minIndex xs + i)) fold = T at *
      generalize F.toInt (convert F fold (F.canon fold (F.minIndex xs) (F.total xs))) = S at *
      have hP : (0 : Rat) < 2 ^ (F.p - 3) := by positivity
      rw [add_zero, le_div_iff₀ hP]
      rcases this with rfl | ⟨h1, _⟩
      · simp
      · have h2 : ((2 ^ (F.p - 3) * (S - T).natAbs : Nat) : Rat) ≤ (S.natAbs : Rat) := by exact_mod_cast h1
        push_cast [Nat.cast_natAbs] at h2
        linarith
    · have := conv_canon_over hfold hfold' (minIndex_le _) hcap h0 hf
      dsimp only at this
      generalize sumTo (fun i => F.total xs (F.minIndex xs + i) * 2 ^ F.uexp (F.minIndex xs + i)) fold = T at *
      obtain ⟨h1, h2⟩ := this
      refine ⟨_, h1, ?_⟩
      have hP : (0 : Rat) < 2 ^ (F.p - 3) := by positivity
      have h1P : 1 ≤ 2 ^ (F.p - 3) := pow_pos' _
      have h3 : (((2 ^ (F.p - 3) - 1) * 2 ^ (F.eta + F.maxExp) : Nat) : Rat) ≤ ((2 ^ (F.p - 3) * T.natAbs : Nat) : Rat) := by exact_mod_cast h2
      push_cast [Nat.cast_natAbs, Nat.cast_sub h1P] at h3
      have e1 : (if decide (T < 0) = true then -(T : Rat) else T) = |(T : Rat)| := by
        by_cases hn : T < 0
        · rw [if_pos (by simpa using hn), abs_of_neg (by exact_mod_cast hn)]
        · rw [if_neg (by simpa using hn), abs_of_nonneg (by exact_mod_cast (by omega))]
      rw [e1, add_zero, one_sub_div hP.ne', div_mul_eq_mul_div, div_le_iff₀ hP]
      linarith
  have := key.shift (E' := F.exactSum xs) (d := sumErr F fold xs) (by rw [abs_sub_comm]; exact hloss)
  rwa [zero_add] at this

/-- **C58** (sums). `reproBLAS_rdsum` and `rdasum`, for every tuning, stride and order of the elements: a finite result is within
a relative error of `2^(3-p)` plus `N max|x| 2^(-W (fold-1))` of the exact sum; the result is infinite only if the exact sum
reaches the overflow threshold up to that error, and then it has the right sign; it is never NaN. -/
theorem C58_sum [F.OK] {T : Tune} (hT : T.OK F) {fold : Nat} (hfold : 2 ≤ fold) (hfold' : fold < 2 ^ 50)
    {n : Nat} {X : Int → Flt} {incX : Int} (hN : n ≤ F.capacity) (hx : ∀ i : Nat, i < n → F.Finite (X (i * incX)))
    (hr : InRange F fold (gather X incX n)) :
    IsSum F (F.rdsum T fold n X incX) (F.exactSum (gather X incX n)) (sumErr F fold (gather X incX n)) ∧
    IsSum F (F.rdasum T fold n X incX) (F.exactSum ((gather X incX n).map fabs)) (sumErr F fold (gather X incX n)) := by
  have hw := (C36_wrappers (Y := X) (incY := incX) hT hfold hN).1 hx
  have hf : ∀ x ∈ gather X incX n, F.Finite x := by
    intro x hm
    obtain ⟨i, hi, rfl⟩ := mem_gather hm
    exact hx i hi
  rw [hw.1, hw.2]
  refine ⟨sum_list hfold hfold' hf (by rw [gather_length]; exact hN) hr, ?_⟩
  have he : sumErr F fold (gather X incX n) = sumErr F fold ((gather X incX n).map fabs) := by
    unfold sumErr maxVal
    have : maxMag ((gather X incX n).map fabs) = maxMag (gather X incX n) := by
      unfold maxMag
      rw [List.foldr_map]
      rfl
    rw [this, List.length_map]
  rw [he]
  refine sum_list hfold hfold' ?_ (by rw [List.length_map, gather_length]; exact hN) ?_
  · intro x hm
    obtain ⟨z, hz, rfl⟩ := List.mem_map.1 hm
    exact hf z hz
  · rcases hr with ⟨h1, x, h2, h3⟩ | h
    · exact Or.inl ⟨h1, fabs x, List.mem_map.2 ⟨x, h2, rfl⟩, h3⟩
    · right
      intro x hm
      obtain ⟨z, hz, rfl⟩ := List.mem_map.1 hm
      have := h z hz
      rw [← Int.natAbs_dvd_natAbs, toInt_natAbs] at this ⊢
      exact this

/-! ## The dot product -/

/-- The exact product of two numbers, in units of `2^-eta`. -/
def exactMul (F : Fmt) (x y : Flt) : Rat := F.toInt x * F.toInt y / 2 ^ F.eta

/-- The exact dot product, in units of `2^-eta`. -/
def exactDot (F : Fmt) (n : Nat) (X : Int → Flt) (incX : Int) (Y : Int → Flt) (incY : Int) : Rat :=
  ((List.range n).map (fun (i : Nat) => exactMul F (X (i * incX)) (Y (i * incY)))).sum

/-- The sum of the absolute values of the exact products. -/
def absDot (F : Fmt) (n : Nat) (X : Int → Flt) (incX : Int) (Y : Int → Flt) (incY : Int) : Rat :=
  ((List.range n).map (fun (i : Nat) => |exactMul F (X (i * incX)) (Y (i * incY))|)).sum

/-- A finite rounded product is within half a unit in the last place: relative `2^-p`, or half a unit of the subnormals. -/
theorem mul_err [F.OK] {x y : Flt} (hx : F.Finite x) (hy : F.Finite y) (hf : F.Finite (F.mul x y)) :
    |(F.toInt (F.mul x y) : Rat) - exactMul F x y| ≤ |exactMul F x y| / 2 ^ F.p + 1 / 2 := by
  have ⟨hp, hW, hWp, _⟩ := F.facts
  rw [mul_finite hx hy] at hf ⊢
  obtain ⟨n, hn⟩ : ∃ n, n = F.val x.mag * F.val y.mag := ⟨_, rfl⟩
  rw [← hn] at hf ⊢
  have hm : F.roundMag n F.eta = F.rk n F.eta * 2 ^ (F.p - 1) + rne n (F.eta + F.rk n F.eta) := by
    rw [roundMag_def]
    apply Nat.min_eq_left
    by_contra hc
    unfold Fmt.Finite at hf
    rw [roundMag_def] at hf
    have := min_eq_right (Nat.le_of_lt (Nat.not_le.1 hc))
    dsimp only at hf
    omega
  have hv : F.val (F.roundMag n F.eta) = rne n (F.eta + F.rk n F.eta) * 2 ^ F.rk n F.eta := by rw [hm, round_val]
  have hr := rne_err n (F.eta + F.rk n F.eta)
  have hb := (rk_bounds (F := F) n F.eta).2
  rw [Nat.pow_add 2 F.eta] at hr
  have hE : (0 : Rat) < 2 ^ F.eta := by positivity
  have hP : (0 : Rat) < 2 ^ F.p := by positivity
  -- the magnitudes
  have key : |(F.val (F.roundMag n F.eta) : Rat) - n / 2 ^ F.eta| ≤ n / 2 ^ F.eta / 2 ^ F.p + 1 / 2 := by
    rw [hv]
    have r1 : (2 * (rne n (F.eta + F.rk n F.eta) * (2 ^ F.eta * 2 ^ F.rk n F.eta)) : Rat) ≤ 2 * n + 2 ^ F.eta * 2 ^ F.rk n F.eta := by exact_mod_cast hr.1
    have r2 : (2 * n : Rat) ≤ 2 * (rne n (F.eta + F.rk n F.eta) * (2 ^ F.eta * 2 ^ F.rk n F.eta)) + 2 ^ F.eta * 2 ^ F.rk n F.eta := by exact_mod_cast hr.2
    have r3 : (2 ^ F.eta * 2 ^ F.rk n F.eta : Rat) ≤ 2 * n / 2 ^ F.p + 2 ^ F.eta := by
      by_cases h0 : F.rk n F.eta = 0
      · rw [h0, pow_zero, mul_one]
        have : (0 : Rat) ≤ 2 * n / 2 ^ F.p := by positivity
        linarith
      · have h1 := hb (by omega)
        have h2 : 2 ^ F.p * (2 ^ F.eta * 2 ^ F.rk n F.eta) ≤ 2 * n := by
          have e : 2 ^ F.p = 2 * 2 ^ (F.p - 1) := by rw [← Nat.pow_succ']; congr 1; omega
          rw [Nat.pow_add, Nat.pow_add] at h1
          rw [e]
          have : 2 * 2 ^ (F.p - 1) * (2 ^ F.eta * 2 ^ F.rk n F.eta) = 2 * (2 ^ (F.p - 1) * (2 ^ F.eta * 2 ^ F.rk n F.eta)) := by ring
          omega
        have h3 : (2 ^ F.eta * 2 ^ F.rk n F.eta : Rat) ≤ 2 * n / 2 ^ F.p := by
          rw [le_div_iff₀ hP]
          have : ((2 ^ F.p * (2 ^ F.eta * 2 ^ F.rk n F.eta) : Nat) : Rat) ≤ ((2 * n : Nat) : Rat) := by exact_mod_cast h2
          push_cast at this
          linarith
        linarith
    push_cast
    generalize (rne n (F.eta + F.rk n F.eta) : Rat) = r at *
    generalize (2 ^ F.rk n F.eta : Rat) = k at *
    generalize (2 ^ F.eta : Rat) = E at *
    generalize (2 ^ F.p : Rat) = P at *
    have e1 : r * k - (n : Rat) / E = (r * (E * k) - n) / E := by field_simp
    have e2 : (n : Rat) / E / P + 1 / 2 = (2 * n / P + E) / 2 / E := by field_simp
    rw [e1, e2, abs_div, abs_of_pos hE]
    apply div_le_div_of_nonneg_right _ hE.le
    rw [abs_le]
    constructor <;> linarith
  have ex : ∀ z : Flt, (F.toInt z : Rat) = if z.neg then -(F.val z.mag : Rat) else F.val z.mag := by
    intro z
    unfold toInt
    split <;> push_cast <;> rfl
  have hnn : (n : Rat) = F.val x.mag * F.val y.mag := by rw [hn]; push_cast; rfl
  unfold exactMul
  rw [ex, ex, ex]
  dsimp only
  have hs : ∀ v : Rat, |v| / 2 ^ F.p + 1 / 2 = |-v| / 2 ^ F.p + 1 / 2 := fun v => by rw [abs_neg]
  have h0 : |(n : Rat) / 2 ^ F.eta| = n / 2 ^ F.eta := abs_of_nonneg (by positivity)
  have key : |(F.val (F.roundMag n F.eta) : Rat) - n / 2 ^ F.eta| ≤ |(n : Rat) / 2 ^ F.eta| / 2 ^ F.p + 1 / 2 := by rw [h0]; exact key
  generalize (F.val (F.roundMag n F.eta) : Rat) = v at *
  generalize (F.val x.mag : Rat) = a at *
  generalize (F.val y.mag : Rat) = b at *
  rw [hnn] at key
  have key' : |-v - -(a * b / 2 ^ F.eta)| ≤ |-(a * b / 2 ^ F.eta)| / 2 ^ F.p + 1 / 2 := by
    rw [abs_neg, show -v - -(a * b / 2 ^ F.eta) = -(v - a * b / 2 ^ F.eta) by ring, abs_neg]
    exact key
  cases x.neg <;> cases y.neg <;> simp only [bne_self_eq_false, Bool.false_eq_true, if_false, if_true, Bool.bne_true, Bool.bne_false, Bool.not_false, neg_mul, mul_neg, neg_neg, neg_div] <;>
    first | exact key | exact key'

theorem abs_sum_err {α : Type} {f g : α → Rat} {a c : Rat} : ∀ {l : List α}, (∀ x ∈ l, |f x - g x| ≤ |g x| / a + c) →
    |(l.map f).sum - (l.map g).sum| ≤ (l.map (fun x => |g x|)).sum / a + l.length * c
  | [], _ => by simp
  | x :: l, h => by
    have h1 := h x List.mem_cons_self
    have h2 := abs_sum_err (fun z hz => h z (List.mem_cons_of_mem _ hz))
    simp only [List.map_cons, List.sum_cons, List.length_cons]
    push_cast
    have e : f x + (l.map f).sum - (g x + (l.map g).sum) = (f x - g x) + ((l.map f).sum - (l.map g).sum) := by ring
    rw [e, add_div]
    have := abs_add_le (f x - g x) ((l.map f).sum - (l.map g).sum)
    linarith

/-- **C58** (dot product). `reproBLAS_rddot`, for every tuning and stride: within a relative error of `2^(3-p)` plus
`N max|x y| 2^(-W (fold-1))` plus the rounding errors of the products (relative `2^-p` each, or half the smallest subnormal)
of the exact dot product; infinite only if the exact dot product reaches the overflow threshold up to that error, with the right
sign; never NaN, provided the products do not overflow. -/
theorem C58_dot [F.OK] {T : Tune} (hT : T.OK F) {fold : Nat} (hfold : 2 ≤ fold) (hfold' : fold < 2 ^ 50)
    {n : Nat} {X Y : Int → Flt} {incX incY : Int} (hN : n ≤ F.capacity)
    (hx : ∀ i : Nat, i < n → F.Finite (X (i * incX)) ∧ F.Finite (Y (i * incY)) ∧ F.Finite (F.mul (X (i * incX)) (Y (i * incY))))
    (hr : InRange F fold (products F n X incX Y incY)) :
    IsSum F (F.rddot T fold n X incX Y incY) (exactDot F n X incX Y incY)
      (sumErr F fold (products F n X incX Y incY) + (absDot F n X incX Y incY / 2 ^ F.p + n * (1 / 2))) := by
  rw [(C36_wrappers hT hfold hN).2 (fun i hi => (hx i hi).2.2)]
  have hf : ∀ x ∈ products F n X incX Y incY, F.Finite x := by
    intro x hm
    obtain ⟨i, hi, rfl⟩ := List.mem_map.1 hm
    exact (hx i (List.mem_range.1 hi)).2.2
  refine (sum_list hfold hfold' hf (by simpa [products] using hN) hr).shift ?_
  have := abs_sum_err (l := List.range n) (f := fun i : Nat => (F.toInt (F.mul (X (i * incX)) (Y (i * incY))) : Rat))
    (g := fun i : Nat => exactMul F (X (i * incX)) (Y (i * incY))) (a := 2 ^ F.p) (c := 1 / 2) (fun i hi => by
      have h := hx i (List.mem_range.1 hi)
      exact mul_err h.1 h.2.1 h.2.2)
  rw [List.length_range] at this
  have e : ((F.exactSum (products F n X incX Y incY) : Int) : Rat) =
      ((List.range n).map (fun i : Nat => (F.toInt (F.mul (X (i * incX)) (Y (i * incY))) : Rat))).sum := by
    unfold exactSum products
    rw [List.map_map]
    have : ∀ l : List Nat, (((l.map (F.toInt ∘ fun i : Nat => F.mul (X (i * incX)) (Y (i * incY)))).sum : Int) : Rat) =
        (l.map (fun i : Nat => (F.toInt (F.mul (X (i * incX)) (Y (i * incY))) : Rat))).sum := by
      intro l
      induction l with
      | nil => simp
      | cons a l ih => simp only [List.map_cons, List.sum_cons, Function.comp]; push_cast; rw [← ih]
    exact this _
  rw [e]
  exact this

/-- The hypotheses of `C58_overflow` are met by a history whose partial sums leave the range of the format and whose result does
not, and by one whose result overflows to minus infinity. -/
example : (let m := f64.pow2 1023
    let h := Hist.add (fneg m) (Hist.add (fneg m) (Hist.add m (Hist.add m (Hist.add m Hist.zero))))
    let g := Hist.add (fneg m) (Hist.add (fneg m) Hist.zero)
    h.Legal f64 ∧ h.Settled ∧ f64.minIndex h.seen + 3 - 1 ≤ f64.maxIndex ∧ convert f64 3 (h.eval f64 3) = m ∧
    g.Legal f64 ∧ g.Settled ∧ f64.minIndex g.seen + 3 - 1 ≤ f64.maxIndex ∧ convert f64 3 (g.eval f64 3) = f64.inf true) := by
  simp only [Hist.Legal, Hist.Settled, Hist.seen]
  decide +kernel

/-- The hypotheses of `C58_sum` and `C58_dot` are met: large numbers that cancel, next to a tiny one; and (second alternative of
`InRange`) a sum of tiny multiples of the smallest unit. -/
example : (∀ i : Nat, i < 3 → f64.Finite ((fun i : Int => if i = 1 then fneg (f64.pow2 1000) else f64.pow2 (1000 - 1000 * (i / 2))) (i * 1))) ∧
    InRange f64 3 (gather (fun i : Int => if i = 1 then fneg (f64.pow2 1000) else f64.pow2 (1000 - 1000 * (i / 2))) 1 3) ∧
    InRange f64 3 (products f64 3 (fun i : Int => f64.pow2 i) 1 (fun i : Int => f64.pow2 (2 * i)) 1) ∧
    f64.rdsum ⟨1, 1, 1, 1, 1, false⟩ 3 3 (fun i : Int => if i = 1 then fneg (f64.pow2 1000) else f64.pow2 (1000 - 1000 * (i / 2))) 1 = zero :=
  ⟨by decide +kernel, Or.inl ⟨by decide, f64.pow2 1000, by decide +kernel, by decide +kernel⟩,
    Or.inl ⟨by decide, f64.pow2 6, by decide +kernel, by decide +kernel⟩, by decide +kernel⟩

example : InRange f32 3 [⟨false, 32⟩, ⟨true, 96⟩] := Or.inr (by decide +kernel)

end Repro
