import Verif.NormLemmas

/-!
# Accuracy of the scaled sum of squares
-/

namespace Repro
open Fmt

variable {F : Fmt}

/-- The exact sum of squares, in units of `2^(-2 eta)`. -/
def sumSq (F : Fmt) (xs : List Flt) : Int := (xs.map (fun x => F.toInt x ^ 2)).sum

/-- Errors of the terms add up. -/
theorem sum_err {α : Type} {f g : α → Rat} {a c : Rat} : ∀ {l : List α}, (∀ x ∈ l, |f x - g x| ≤ a * g x + c) →
    |(l.map f).sum - (l.map g).sum| ≤ a * (l.map g).sum + l.length * c
  | [], _ => by simp
  | x :: l, h => by
    have h1 := h x List.mem_cons_self
    have h2 := sum_err (fun z hz => h z (List.mem_cons_of_mem _ hz))
    simp only [List.map_cons, List.sum_cons, List.length_cons]
    push_cast
    have e : f x + (l.map f).sum - (g x + (l.map g).sum) = (f x - g x) + ((l.map f).sum - (l.map g).sum) := by ring
    rw [e]
    refine le_trans (abs_add_le _ _) ?_
    linarith

theorem cast_sum {α : Type} (f : α → Int) : ∀ l : List α, (((l.map f).sum : Int) : Rat) = (l.map (fun x => (f x : Rat))).sum
  | [] => by simp
  | x :: l => by rw [List.map_cons, List.sum_cons, List.map_cons, List.sum_cons]; push_cast; rw [cast_sum f l]

theorem sum_mul_left {α : Type} (k : Rat) (f : α → Rat) : ∀ l : List α, (l.map (fun x => k * f x)).sum = k * (l.map f).sum
  | [] => by simp
  | x :: l => by rw [List.map_cons, List.sum_cons, List.map_cons, List.sum_cons, sum_mul_left k f l]; ring

/-- The largest element is not much below its scale. -/
theorem scale_big [F.OK] {x : Flt} (hb : 2 ^ (F.p + 1) ≤ F.val x.mag) {n m : Nat}
    (hz : (n : Int) = F.eta + F.W * F.scaleZ (F.expo x)) (hS : F.IsScale (F.dscale x) n m) (hw : F.W ≤ F.expo x → 2 ^ n < 2 ^ F.W * F.val x.mag) :
    2 ^ (4 * F.eta - 4 * F.W + 8) ≤ (F.val x.mag * 2 ^ m) ^ 2 := by
  have ⟨hp, hW, hWp, hpW, he, he1, hbi, het, hb3, hb4⟩ := F.facts
  have hnm := hS.nm
  have key : 2 ^ (2 * F.eta - 2 * F.W + 4) ≤ F.val x.mag * 2 ^ m := by
    by_cases hc : F.W ≤ F.expo x
    · have h1 : 2 ^ n * 2 ^ m < 2 ^ F.W * F.val x.mag * 2 ^ m := Nat.mul_lt_mul_of_pos_right (hw hc) (pow_pos' _)
      rw [← Nat.pow_add, hnm, Nat.mul_assoc] at h1
      have e : 2 * F.eta = F.W + (2 * F.eta - F.W) := by omega
      rw [e, Nat.pow_add] at h1
      have h2 := Nat.lt_of_mul_lt_mul_left h1
      exact Nat.le_trans (Nat.pow_le_pow_right (by omega) (by omega)) (Nat.le_of_lt h2)
    · have hn : n + 3 ≤ F.p + 2 * F.W := by
        have e : F.scaleZ (F.expo x) = F.scaleZ 0 := by
          unfold scaleZ
          rw [if_pos (by omega), if_pos (by omega)]
        rw [e] at hz
        have : (F.eta : Int) + F.W * F.scaleZ 0 + 3 ≤ F.p + 2 * F.W := by
          rcases ‹F.OK›.isDoubleOrFloat with h | h <;> rw [h] <;> decide
        omega
      calc 2 ^ (2 * F.eta - 2 * F.W + 4) ≤ 2 ^ (F.p + 1 + m) := Nat.pow_le_pow_right (by omega) (by omega)
        _ = 2 ^ (F.p + 1) * 2 ^ m := Nat.pow_add ..
        _ ≤ _ := Nat.mul_le_mul_right _ hb
  calc 2 ^ (4 * F.eta - 4 * F.W + 8) = (2 ^ (2 * F.eta - 2 * F.W + 4)) ^ 2 := by rw [← Nat.pow_mul]; congr 1; omega
    _ ≤ _ := Nat.pow_le_pow_left key 2

/-- The rounded square of a scaled number, in rationals. -/
theorem sq_err [F.OK] {S x : Flt} {n m : Nat} (hS : F.IsScale S n m) (hx : F.Finite x) (hb : F.val x.mag < 2 ^ (F.W + n)) :
    |(2 ^ (3 * F.eta) / 2 ^ (2 * m) : Rat) * F.toInt (F.sq S x) - (F.toInt x : Rat) ^ 2| ≤
      2 * (1 / 2 ^ F.p) * (F.toInt x : Rat) ^ 2 + 2 ^ (F.p + 3 * F.eta) / 2 ^ (2 * m) := by
  obtain ⟨-, a1, a2, a3, -⟩ := sq_val hS hx hb
  have e1 : F.toInt (F.sq S x) = (F.val (F.sq S x).mag : Int) := by unfold toInt; rw [a1]; rfl
  have e2 : (F.toInt x : Rat) ^ 2 = (F.val x.mag : Rat) ^ 2 := by
    unfold toInt; split <;> push_cast <;> ring
  rw [e1, e2]
  push_cast
  have hm : (0 : Rat) < 2 ^ (2 * m) := by positivity
  generalize F.val (F.sq S x).mag = V at *
  have hq : (((F.val x.mag * 2 ^ m) ^ 2 : Nat) : Rat) = (F.val x.mag : Rat) ^ 2 * 2 ^ (2 * m) := by
    push_cast; rw [mul_pow, ← pow_mul, Nat.mul_comm m 2]
  have hu0 : (0 : Rat) ≤ 1 / 2 ^ F.p := by positivity
  have hu : (1 : Rat) / 2 ^ F.p ≤ 1 / 2 := by
    apply one_div_le_one_div_of_le (by norm_num)
    calc (2 : Rat) = 2 ^ 1 := by norm_num
      _ ≤ 2 ^ F.p := pow_le_pow_right₀ (by norm_num) (by have ⟨hp, _⟩ := F.facts; omega)
  have goal' : |(V : Rat) * 2 ^ (3 * F.eta) - (((F.val x.mag * 2 ^ m) ^ 2 : Nat) : Rat)| ≤
      2 * (1 / 2 ^ F.p) * (((F.val x.mag * 2 ^ m) ^ 2 : Nat) : Rat) + 2 ^ (F.p + 3 * F.eta) := by
    by_cases hc : 2 ^ (F.p + 3 * F.eta) ≤ (F.val x.mag * 2 ^ m) ^ 2
    · have h1 := a2 hc
      have h2 := round_rat (F := F) ((F.val x.mag * 2 ^ m) ^ 2)
      have e3 : (((F.val x.mag * 2 ^ m : Nat) : Int) ^ 2) = (((F.val x.mag * 2 ^ m) ^ 2 : Nat) : Int) := by push_cast; rfl
      rw [e3] at h1
      rw [← h1] at h2
      push_cast at h2 ⊢
      have hr0 : (0 : Rat) ≤ (V : Rat) * 2 ^ (3 * F.eta) := by positivity
      generalize ((F.val x.mag : Rat) * 2 ^ m) ^ 2 = q at *
      generalize (V : Rat) * 2 ^ (3 * F.eta) = r at *
      generalize (1 : Rat) / 2 ^ F.p = u at *
      have hpos : (0 : Rat) ≤ 2 ^ (F.p + 3 * F.eta) := by positivity
      have h3 := abs_le.1 h2
      have hur : u * r ≤ 1 / 2 * r := mul_le_mul_of_nonneg_right hu hr0
      have hr : r ≤ 2 * q := by linarith
      have := mul_le_mul_of_nonneg_left hr hu0
      linarith
    · have h1 := a3 (by omega)
      have h2 : (V : Rat) * 2 ^ (3 * F.eta) ≤ 2 ^ (F.p + 3 * F.eta) := by
        rw [pow_add]
        have : (V : Rat) ≤ 2 ^ F.p := by exact_mod_cast h1
        gcongr
      have h3 : (((F.val x.mag * 2 ^ m) ^ 2 : Nat) : Rat) ≤ 2 ^ (F.p + 3 * F.eta) := by
        have : (F.val x.mag * 2 ^ m) ^ 2 ≤ 2 ^ (F.p + 3 * F.eta) := by omega
        exact_mod_cast this
      have h4 : (0 : Rat) ≤ (((F.val x.mag * 2 ^ m) ^ 2 : Nat) : Rat) := by positivity
      have h5 : (0 : Rat) ≤ (V : Rat) * 2 ^ (3 * F.eta) := by positivity
      generalize (((F.val x.mag * 2 ^ m) ^ 2 : Nat) : Rat) = q at *
      have h6 : 0 ≤ 2 * (1 / 2 ^ F.p) * q := by positivity
      rw [abs_le]
      constructor <;> linarith
  rw [hq] at goal'
  have e : (2 ^ (3 * F.eta) / 2 ^ (2 * m) : Rat) * V - (F.val x.mag : Rat) ^ 2 =
      ((V : Rat) * 2 ^ (3 * F.eta) - (F.val x.mag : Rat) ^ 2 * 2 ^ (2 * m)) / 2 ^ (2 * m) := by
    field_simp
  rw [e, abs_div, abs_of_pos hm, div_le_iff₀ hm]
  refine le_trans goal' (le_of_eq ?_)
  rw [add_mul, div_mul_cancel₀ _ (ne_of_gt hm)]
  ring

theorem sumSq_cast (F : Fmt) (xs : List Flt) : (sumSq F xs : Rat) = (xs.map (fun x => (F.toInt x : Rat) ^ 2)).sum := by
  unfold sumSq
  rw [cast_sum]
  simp

/-- The converted sum of squares, given the error of the squares (`c` is what underflow may cost in each) and that all bins exist. -/
theorem ssq_core_gen [F.OK] {fold : Nat} (hfold : 2 ≤ fold) (hfold' : fold < 2 ^ 50) {xs : List Flt} (hf : ∀ x ∈ xs, F.Finite x)
    (hN : xs.length ≤ F.capacity) (hne : xs ≠ []) {n m : Nat} {S : Flt} (hS : F.IsScale S n m) (hSd : F.dscale ⟨false, maxMag xs⟩ = S)
    (hvn : F.val (maxMag xs) < 2 ^ (F.W + n)) {c : Rat}
    (hsq : ∀ x ∈ xs, |(2 ^ (3 * F.eta) / 2 ^ (2 * m) : Rat) * F.toInt (F.sq S x) - (F.toInt x : Rat) ^ 2| ≤ 2 * (1 / 2 ^ F.p) * (F.toInt x : Rat) ^ 2 + c)
    (hc : ∀ N : Nat, N ≤ F.capacity → (N : Rat) * c ≤ 1 / 4 * (1 / 2 ^ F.p) * (F.val (maxMag xs) : Rat) ^ 2)
    (hk : ∀ z ∈ xs, z.mag = maxMag xs → F.Finite (F.sq S z) → 15 / 16 * (F.val (maxMag xs) : Rat) ^ 2 ≤ 2 ^ (3 * F.eta) / 2 ^ (2 * m) * (F.val (F.sq S z).mag : Rat) →
      F.dindex (F.sq S z) + fold - 1 ≤ F.maxIndex ∧ F.dindex (F.sq S z) + 1 ≤ F.maxIndex) :
      F.Finite (convert F fold (ssqSpec F fold xs).2) ∧ (convert F fold (ssqSpec F fold xs).2).neg = false ∧
      |(2 ^ (3 * F.eta) / 2 ^ (2 * m) : Rat) * F.val (convert F fold (ssqSpec F fold xs).2).mag - sumSq F xs| ≤
        (12 * (1 / 2 ^ F.p) + 3 / 2 * (xs.length / 2 ^ (F.W * (fold - 1)))) * (sumSq F xs : Rat) ∧
      (F.val (maxMag xs) : Rat) ^ 2 / 2 ≤ 2 ^ (3 * F.eta) / 2 ^ (2 * m) * (F.val (convert F fold (ssqSpec F fold xs).2).mag : Rat) := by
  have ⟨hp, hW, hWp, hpW, he, he1, hbi, het, hb3, hb4⟩ := F.facts
  have e1 : (ssqSpec F fold xs).1 = F.dscale ⟨false, maxMag xs⟩ := by
    unfold ssqSpec scaleOf; dsimp only; rw [if_neg hne]
  rw [hSd] at e1
  have hvx : ∀ x ∈ xs, F.val x.mag < 2 ^ (F.W + n) := fun x hx => Nat.lt_of_le_of_lt (val_mono (le_maxMag hx)) hvn
  have hlen : (xs.map (F.sq S)).length = xs.length := List.length_map ..
  have hvs : ∀ v ∈ xs.map (F.sq S), F.Finite v ∧ v.neg = false ∧ F.val v.mag ≤ 2 ^ (2 * F.W + F.eta) := by
    intro v hv
    obtain ⟨x, hx, rfl⟩ := List.mem_map.1 hv
    obtain ⟨a1, a2, -, -, a5⟩ := sq_val hS (hf x hx) (hvx x hx)
    exact ⟨a1, a2, a5⟩
  have hvf : ∀ v ∈ xs.map (F.sq S), F.Finite v := fun v h => (hvs v h).1
  have hvne : xs.map (F.sq S) ≠ [] := by simpa using hne
  have hvN : (xs.map (F.sq S)).length ≤ F.capacity := by rw [hlen]; exact hN
  have e2 : (ssqSpec F fold xs).2 = F.sumSeq fold (xs.map (F.sq S)) (dmsetzero fold) := by
    rw [C01_sum_is_spec hfold hvf hvN]
    show F.specSum fold (xs.map (F.sq (ssqSpec F fold xs).1)) = _
    rw [e1]
  rw [e2]
  -- the largest element
  obtain ⟨z, hzm, hze⟩ := maxMag_mem hne
  have hzf := hf z hzm
  have hkz : F.minIndex (xs.map (F.sq S)) = F.dindex (F.sq S z) := by
    rw [minIndex_sq hS hne hf hvn, sq_mag hS hzf (y := ⟨false, maxMag xs⟩) hze]
  have hse := hsq z hzm
  have hzv := hvs _ (List.mem_map_of_mem hzm)
  have hzi : F.toInt (F.sq S z) = (F.val (F.sq S z).mag : Int) := by unfold toInt; rw [hzv.2.1]; rfl
  have hzM : (F.toInt z : Rat) ^ 2 = (F.val (maxMag xs) : Rat) ^ 2 := by
    rw [← hze]; unfold toInt; split <;> push_cast <;> ring
  have hm0 : (0 : Rat) < 2 ^ (2 * m) := by positivity
  have hu0 : (0 : Rat) ≤ 1 / 2 ^ F.p := by positivity
  have hu : (1 : Rat) / 2 ^ F.p ≤ 1 / 256 := by
    apply one_div_le_one_div_of_le (by norm_num)
    calc (256 : Rat) = 2 ^ 8 := by norm_num
      _ ≤ 2 ^ F.p := pow_le_pow_right₀ (by norm_num) (by omega)
  have hMsq0 : (0 : Rat) ≤ (F.val (maxMag xs) : Rat) ^ 2 := by positivity
  have hKVz : 15 / 16 * (F.val (maxMag xs) : Rat) ^ 2 ≤ 2 ^ (3 * F.eta) / 2 ^ (2 * m) * (F.val (F.sq S z).mag : Rat) := by
    rw [hzM, hzi] at hse
    push_cast at hse
    have h1 := hc 1 (by have := List.length_pos_of_ne_nil hne; omega)
    have h2 := (abs_le.1 hse).1
    have h3 : (1 : Rat) / 2 ^ F.p * (F.val (maxMag xs) : Rat) ^ 2 ≤ 1 / 256 * (F.val (maxMag xs) : Rat) ^ 2 := mul_le_mul_of_nonneg_right hu hMsq0
    push_cast at h1
    linarith
  obtain ⟨hk1, hk2⟩ := hk z hzm hze hzv.1 hKVz
  rw [← hkz] at hk1 hk2
  have h0 : ∀ j, F.maxIndex < j → j < F.minIndex (xs.map (F.sq S)) + fold → F.total (xs.map (F.sq S)) j = 0 := fun j a b => by omega
  have hge := exactVal_ge hfold (fun x h => ⟨(hvs x h).1, (hvs x h).2.1⟩) hvN (List.mem_map_of_mem (f := F.sq S) hzm)
  obtain ⟨v, hvm, -, hrel⟩ := C16_error_relative hfold hvne hvf hvN hk1
  have hce := conv_sum_err hfold hfold' hvne hvf hvN h0
  have hcf := conv_seq_ok hfold hfold' hvne hvf hvN h0
  dsimp only at hce
  have hlow := dindex_lower (F := F) hzv.1 (by omega)
  rw [← hkz] at hlow
  have hlow2 : 16 * 2 ^ F.uexp (F.minIndex (xs.map (F.sq S)) + fold - 1) ≤ 2 * F.val (F.sq S z).mag := by
    have h1 : F.uexp (F.minIndex (xs.map (F.sq S)) + fold - 1) ≤ F.uexp (F.minIndex (xs.map (F.sq S)) + 1) := uexp_anti (by omega)
    have h2 : F.uexp (F.minIndex (xs.map (F.sq S)) + 1) + 4 ≤ F.eta + F.maxExp - F.W * (F.minIndex (xs.map (F.sq S)) + 1) + 1 := by
      unfold uexp
      rw [Nat.min_eq_left hk2]
      have ⟨b1, b2, b3, b4, b5, b6, b7, _⟩ := F.bfacts
      have : F.W * (F.minIndex (xs.map (F.sq S)) + 1) ≤ F.W * F.maxIndex := Nat.mul_le_mul_left _ hk2
      omega
    calc 16 * 2 ^ F.uexp (F.minIndex (xs.map (F.sq S)) + fold - 1) = 2 ^ (F.uexp (F.minIndex (xs.map (F.sq S)) + fold - 1) + 4) := by
          rw [Nat.pow_add]; omega
      _ ≤ 2 ^ (F.eta + F.maxExp - F.W * (F.minIndex (xs.map (F.sq S)) + 1) + 1) := Nat.pow_le_pow_right (by omega) (by omega)
      _ ≤ _ := by rw [Nat.pow_succ]; omega
  have hVle : F.exactSum (xs.map (F.sq S)) ≤ xs.length * 2 ^ (2 * F.W + F.eta) := by
    have h1 := sum_natAbs_le (l := (xs.map (F.sq S)).map F.toInt) (M := 2 * 2 ^ (2 * F.W + F.eta)) (by
      intro a ha
      obtain ⟨x, hx, rfl⟩ := List.mem_map.1 ha
      rw [toInt_natAbs]
      have := (hvs x hx).2.2
      have : ((F.val x.mag : Nat) : Int) ≤ 2 ^ (2 * F.W + F.eta) := by exact_mod_cast this
      omega)
    rw [List.length_map, hlen] at h1
    unfold exactSum
    have e : (xs.length : Int) * (2 * 2 ^ (2 * F.W + F.eta)) = 2 * (xs.length * 2 ^ (2 * F.W + F.eta)) := by ring
    rw [e] at h1
    omega
  have hvle : F.val v.mag ≤ F.exactSum (xs.map (F.sq S)) := by
    have h1 : F.toInt v ≤ F.exactSum (xs.map (F.sq S)) := sum_ge_mem (f := F.toInt) (fun x hx => by
      unfold toInt; rw [(hvs x hx).2.1]; exact Int.natCast_nonneg _) hvm
    have h2 : F.toInt v = (F.val v.mag : Int) := by unfold toInt; rw [(hvs v hvm).2.1]; rfl
    omega
  rw [hzi] at hge
  rw [hlen] at hrel
  have hrel1 : (((F.exactSum (xs.map (F.sq S)) - F.exactVal fold (F.sumSeq fold (xs.map (F.sq S)) (dmsetzero fold))).natAbs : Nat) : Int) ≤
      xs.length * 2 ^ (2 * F.W + F.eta) := by
    have h1 : ((F.exactSum (xs.map (F.sq S)) - F.exactVal fold (F.sumSeq fold (xs.map (F.sq S)) (dmsetzero fold))).natAbs : Int) * 1 ≤
        ((F.exactSum (xs.map (F.sq S)) - F.exactVal fold (F.sumSeq fold (xs.map (F.sq S)) (dmsetzero fold))).natAbs : Int) * 2 ^ (F.W * (fold - 1)) :=
      mul_le_mul_of_nonneg_left (by have := ipow_pos (F.W * (fold - 1)); omega) (Int.natCast_nonneg _)
    have h2 : (xs.length : Int) * F.val v.mag ≤ xs.length * 2 ^ (2 * F.W + F.eta) :=
      mul_le_mul_of_nonneg_left (by exact_mod_cast (hvs v hvm).2.2) (Int.natCast_nonneg _)
    rw [mul_one] at h1
    exact le_trans h1 (le_trans hrel h2)
  have hrange : (xs.length : Int) * 2 ^ (2 * F.W + F.eta) * 2 < 2 ^ (F.p + F.emax - 4) := by
    have h1 : F.capacity * 2 ^ (2 * F.W + F.eta) * 2 < 2 ^ (F.p + F.emax - 4) := by
      rcases ‹F.OK›.isDoubleOrFloat with h | h <;> rw [h] <;> decide +kernel
    have h2 : xs.length * 2 ^ (2 * F.W + F.eta) * 2 < 2 ^ (F.p + F.emax - 4) :=
      Nat.lt_of_le_of_lt (Nat.mul_le_mul_right _ (Nat.mul_le_mul_right _ hN)) h1
    exact_mod_cast h2
  have hlow3 : 16 * (2 : Int) ^ F.uexp (F.minIndex (xs.map (F.sq S)) + fold - 1) ≤ 2 * F.val (F.sq S z).mag := by exact_mod_cast hlow2
  generalize F.exactVal fold (F.sumSeq fold (xs.map (F.sq S)) (dmsetzero fold)) = T at *
  generalize (2 : Int) ^ F.uexp (F.minIndex (xs.map (F.sq S)) + fold - 1) = U at *
  have hT0 : 15 * (F.val (F.sq S z).mag : Int) ≤ 16 * T := by omega
  have hT0' : 0 ≤ T := by have := Int.natCast_nonneg (F.val (F.sq S z).mag); omega
  have ⟨hcf1, hcf2⟩ := hcf hT0' (by omega)
  refine ⟨hcf1, hcf2, ?_⟩
  have hce := hce hcf1
  have hci : F.toInt (convert F fold (F.sumSeq fold (xs.map (F.sq S)) (dmsetzero fold))) =
      (F.val (convert F fold (F.sumSeq fold (xs.map (F.sq S)) (dmsetzero fold))).mag : Int) := by unfold toInt; rw [hcf2]; rfl
  rw [hci] at hce
  generalize F.val (convert F fold (F.sumSeq fold (xs.map (F.sq S)) (dmsetzero fold))).mag = s at *
  -- rationals
  have hK0 : (0 : Rat) < 2 ^ (3 * F.eta) / 2 ^ (2 * m) := by positivity
  have hQd := sumSq_cast F xs
  have hMQ : (F.val (maxMag xs) : Rat) ^ 2 ≤ sumSq F xs := by
    rw [← hzM]
    have := sum_ge_mem (f := fun x => F.toInt x ^ 2) (l := xs) (fun x _ => sq_nonneg _) hzm
    exact_mod_cast this
  have h1 : |2 ^ (3 * F.eta) / 2 ^ (2 * m) * (F.exactSum (xs.map (F.sq S)) : Rat) - sumSq F xs| ≤ 5 / 2 * (1 / 2 ^ F.p) * (sumSq F xs : Rat) := by
    have a1 := sum_err (l := xs) (f := fun x => 2 ^ (3 * F.eta) / 2 ^ (2 * m) * (F.toInt (F.sq S x) : Rat)) (g := fun x => (F.toInt x : Rat) ^ 2)
      (fun x hx => hsq x hx)
    have a2 : (xs.map (fun x => 2 ^ (3 * F.eta) / 2 ^ (2 * m) * (F.toInt (F.sq S x) : Rat))).sum =
        2 ^ (3 * F.eta) / 2 ^ (2 * m) * (F.exactSum (xs.map (F.sq S)) : Rat) := by
      rw [sum_mul_left]
      congr 1
      unfold exactSum
      rw [List.map_map, cast_sum]
      rfl
    rw [a2, ← hQd] at a1
    have a3 := hc xs.length hN
    have a4 : 1 / 4 * (1 / 2 ^ F.p) * (F.val (maxMag xs) : Rat) ^ 2 ≤ 1 / 4 * (1 / 2 ^ F.p) * sumSq F xs := mul_le_mul_of_nonneg_left hMQ (by linarith)
    have a5 : 0 ≤ 1 / 2 ^ F.p * (sumSq F xs : Rat) := mul_nonneg hu0 (le_trans hMsq0 hMQ)
    linarith
  have h2 : |2 ^ (3 * F.eta) / 2 ^ (2 * m) * (F.exactSum (xs.map (F.sq S)) : Rat) - 2 ^ (3 * F.eta) / 2 ^ (2 * m) * (T : Rat)| ≤
      (xs.length / 2 ^ (F.W * (fold - 1)) : Rat) * (2 ^ (3 * F.eta) / 2 ^ (2 * m) * (F.exactSum (xs.map (F.sq S)) : Rat)) := by
    rw [← mul_sub, abs_mul, abs_of_pos hK0]
    have a1 : |(F.exactSum (xs.map (F.sq S)) : Rat) - T| * 2 ^ (F.W * (fold - 1)) ≤ xs.length * (F.val v.mag : Rat) := by
      have e : |(F.exactSum (xs.map (F.sq S)) : Rat) - T| = (((F.exactSum (xs.map (F.sq S)) - T).natAbs : Nat) : Rat) := by
        rw [Nat.cast_natAbs]; push_cast; rfl
      rw [e]
      have := hrel
      exact_mod_cast this
    have a2 : (F.val v.mag : Rat) ≤ F.exactSum (xs.map (F.sq S)) := by exact_mod_cast hvle
    have a3 : (xs.length : Rat) * (F.val v.mag : Rat) ≤ xs.length * F.exactSum (xs.map (F.sq S)) := mul_le_mul_of_nonneg_left a2 (by positivity)
    have a4 : |(F.exactSum (xs.map (F.sq S)) : Rat) - T| ≤ xs.length * F.exactSum (xs.map (F.sq S)) / 2 ^ (F.W * (fold - 1)) := by
      rw [le_div_iff₀ (by positivity)]
      linarith
    calc 2 ^ (3 * F.eta) / 2 ^ (2 * m) * |(F.exactSum (xs.map (F.sq S)) : Rat) - T| ≤
        2 ^ (3 * F.eta) / 2 ^ (2 * m) * (xs.length * F.exactSum (xs.map (F.sq S)) / 2 ^ (F.W * (fold - 1))) := mul_le_mul_of_nonneg_left a4 (le_of_lt hK0)
      _ = _ := by ring
  have h3 : |2 ^ (3 * F.eta) / 2 ^ (2 * m) * (s : Rat) - 2 ^ (3 * F.eta) / 2 ^ (2 * m) * (T : Rat)| ≤
      8 * (1 / 2 ^ F.p) * (2 ^ (3 * F.eta) / 2 ^ (2 * m) * (s : Rat)) := by
    rw [← mul_sub, abs_mul, abs_of_pos hK0, mul_left_comm]
    apply mul_le_mul_of_nonneg_left _ (le_of_lt hK0)
    rcases hce with h | ⟨h, -⟩
    · have : (s : Rat) = T := by exact_mod_cast h
      rw [this, sub_self, abs_zero]
      have : (0 : Rat) ≤ T := by exact_mod_cast hT0'
      positivity
    · have e : |(s : Rat) - T| = ((((s : Int) - T).natAbs : Nat) : Rat) := by
        rw [Nat.cast_natAbs]; push_cast; rfl
      rw [e]
      rw [Int.natAbs_natCast] at h
      have h' : (2 : Rat) ^ (F.p - 3) * ((((s : Int) - T).natAbs : Nat) : Rat) ≤ s := by exact_mod_cast h
      have e2 : (2 : Rat) ^ F.p = 8 * 2 ^ (F.p - 3) := by
        rw [show F.p = 3 + (F.p - 3) by omega, pow_add]
        norm_num
      rw [e2]
      have hpp : (0 : Rat) < 2 ^ (F.p - 3) := by positivity
      rw [show 8 * (1 / (8 * 2 ^ (F.p - 3))) * (s : Rat) = s / 2 ^ (F.p - 3) by field_simp]
      rw [le_div_iff₀ hpp]
      linarith
  refine ⟨chain1 hu0 hu (by positivity) (le_trans hMsq0 hMQ) (by positivity) h1 h2 h3, ?_⟩
  have t1 : 15 * (F.val (F.sq S z).mag : Rat) ≤ 16 * T := by exact_mod_cast hT0
  have t2 := mul_le_mul_of_nonneg_left t1 (le_of_lt hK0)
  have t3 := (abs_le.1 h3).1
  have t4 : 0 ≤ 2 ^ (3 * F.eta) / 2 ^ (2 * m) * (s : Rat) := by positivity
  have t5 := mul_le_mul_of_nonneg_right hu t4
  generalize (2 : Rat) ^ (3 * F.eta) / 2 ^ (2 * m) = K at *
  linarith


/-- **The converted sum of squares.** -/
theorem ssq_core [F.OK] {fold : Nat} (hfold : 2 ≤ fold) (hJ : F.ssqHi + fold ≤ F.ssqJ + 1) {xs : List Flt} (hf : ∀ x ∈ xs, F.Finite x)
    (hN : xs.length ≤ F.capacity) (hbig : 2 ^ (F.p + 1) ≤ F.val (maxMag xs)) :
    ∃ n m, F.IsScale (ssqSpec F fold xs).1 n m ∧ 
      F.Finite (convert F fold (ssqSpec F fold xs).2) ∧ (convert F fold (ssqSpec F fold xs).2).neg = false ∧
      |(2 ^ (3 * F.eta) / 2 ^ (2 * m) : Rat) * F.val (convert F fold (ssqSpec F fold xs).2).mag - sumSq F xs| ≤
        (12 * (1 / 2 ^ F.p) + 3 / 2 * (xs.length / 2 ^ (F.W * (fold - 1)))) * (sumSq F xs : Rat) ∧
      (F.val (maxMag xs) : Rat) ^ 2 / 2 ≤ 2 ^ (3 * F.eta) / 2 ^ (2 * m) * (F.val (convert F fold (ssqSpec F fold xs).2).mag : Rat) := by
  have ⟨hp, hW, hWp, hpW, he, he1, hbi, het, hb3, hb4⟩ := F.facts
  have ⟨s1, s2, s3, s4, s5, s6, s7, s8⟩ := F.ssq_facts
  have hne : xs ≠ [] := by
    rintro rfl
    have h0 : F.val (maxMag []) = 0 := (val_eq_zero (F := F)).2 rfl
    rw [h0] at hbig
    have := pow_pos' (F.p + 1)
    omega
  have hMf := maxMag_finite hne hf
  obtain ⟨n, m, hz, hS, hvn, hw⟩ := scale_of hMf
  have e1 : (ssqSpec F fold xs).1 = F.dscale ⟨false, maxMag xs⟩ := by
    unfold ssqSpec scaleOf; dsimp only; rw [if_neg hne]
  have hq := scale_big (x := ⟨false, maxMag xs⟩) hbig hz hS hw
  generalize hSd : F.dscale ⟨false, maxMag xs⟩ = S at *
  have hvx : ∀ x ∈ xs, F.val x.mag < 2 ^ (F.W + n) := fun x hx => Nat.lt_of_le_of_lt (val_mono (le_maxMag hx)) hvn
  have hMsq0 : (0 : Rat) ≤ (F.val (maxMag xs) : Rat) ^ 2 := by positivity
  have hm0 : (0 : Rat) < 2 ^ (2 * m) := by positivity
  have hq' : (2 : Rat) ^ (4 * F.eta - 4 * F.W + 8) ≤ (F.val (maxMag xs) : Rat) ^ 2 * 2 ^ (2 * m) := by
    have : (2 ^ (4 * F.eta - 4 * F.W + 8) : Nat) ≤ F.val (maxMag xs) ^ 2 * 2 ^ (2 * m) := by
      refine Nat.le_trans hq (Nat.le_of_eq ?_)
      rw [mul_pow, ← pow_mul, Nat.mul_comm m 2]
    exact_mod_cast this
  have hcapc : F.capacity * 2 ^ (2 * F.p + 2 + 4 * F.W) ≤ 2 ^ (F.eta + 8) := by
    rcases ‹F.OK›.isDoubleOrFloat with h | h <;> rw [h] <;> decide +kernel
  have hc : ∀ N : Nat, N ≤ F.capacity → (N : Rat) * (2 ^ (F.p + 3 * F.eta) / 2 ^ (2 * m)) ≤ 1 / 4 * (1 / 2 ^ F.p) * (F.val (maxMag xs) : Rat) ^ 2 := by
    intro N hNc
    have h1 : N * 2 ^ (2 * F.p + 2 + 4 * F.W) ≤ 2 ^ (F.eta + 8) := Nat.le_trans (Nat.mul_le_mul_right _ hNc) hcapc
    have h2 : N * 2 ^ (2 * F.p + 2 + 4 * F.W) * 2 ^ (3 * F.eta - 4 * F.W) ≤ 2 ^ (F.eta + 8) * 2 ^ (3 * F.eta - 4 * F.W) := Nat.mul_le_mul_right _ h1
    rw [Nat.mul_assoc, ← Nat.pow_add, ← Nat.pow_add, show 2 * F.p + 2 + 4 * F.W + (3 * F.eta - 4 * F.W) = F.p + 3 * F.eta + (2 + F.p) by omega,
      show F.eta + 8 + (3 * F.eta - 4 * F.W) = 4 * F.eta - 4 * F.W + 8 by omega, Nat.pow_add 2 (F.p + 3 * F.eta)] at h2
    have h3 : (N : Rat) * (2 ^ (F.p + 3 * F.eta) * 2 ^ (2 + F.p)) ≤ 2 ^ (4 * F.eta - 4 * F.W + 8) := by exact_mod_cast h2
    have h4 := le_trans h3 hq'
    have hp0 : (0 : Rat) < 2 ^ F.p := by positivity
    rw [pow_add 2 2] at h4
    rw [← mul_div_assoc, div_le_iff₀ hm0]
    rw [show 1 / 4 * (1 / 2 ^ F.p) * (F.val (maxMag xs) : Rat) ^ 2 * 2 ^ (2 * m) = ((F.val (maxMag xs) : Rat) ^ 2 * 2 ^ (2 * m)) / (2 ^ 2 * 2 ^ F.p) by field_simp; ring]
    rw [le_div_iff₀ (by positivity)]
    linarith
  have hfold' : fold < 2 ^ 50 := by
    have : F.ssqJ + 1 < 2 ^ 50 := by rcases ‹F.OK›.isDoubleOrFloat with h | h <;> rw [h] <;> decide
    omega
  have g := ssq_core_gen hfold hfold' hf hN hne hS hSd hvn (fun x hx => sq_err hS (hf x hx) (hvx x hx)) hc (fun z hzm hze hzf hKVz => by
    -- its bin
    have hVz : 2 ^ (F.eta - 4 * F.W + 7) ≤ F.val (F.sq S z).mag := by
      have h1 : (2 : Rat) ^ (4 * F.eta - 4 * F.W + 8) / 2 ≤ 2 ^ (3 * F.eta) * (F.val (F.sq S z).mag : Rat) := by
        have h2 : 15 / 16 * (F.val (maxMag xs) : Rat) ^ 2 * 2 ^ (2 * m) ≤ 2 ^ (3 * F.eta) * (F.val (F.sq S z).mag : Rat) := by
          have := mul_le_mul_of_nonneg_right hKVz (le_of_lt hm0)
          rw [mul_right_comm (2 ^ (3 * F.eta) / 2 ^ (2 * m) : Rat), div_mul_cancel₀ _ (ne_of_gt hm0)] at this
          exact this
        have h3 : (0 : Rat) ≤ (F.val (maxMag xs) : Rat) ^ 2 * 2 ^ (2 * m) := by positivity
        linarith
      rw [show 4 * F.eta - 4 * F.W + 8 = 3 * F.eta + (F.eta - 4 * F.W + 7) + 1 by omega, pow_succ, mul_div_assoc, div_self (by norm_num), mul_one, pow_add] at h1
      have h4 := le_of_mul_le_mul_left h1 (by positivity)
      exact_mod_cast h4
    have hk : F.dindex (F.sq S z) + fold - 1 ≤ F.maxIndex ∧ F.dindex (F.sq S z) + 1 ≤ F.maxIndex := by
      have h1 := Nat.lt_of_le_of_lt hVz (dindex_upper (F := F) hzf)
      have h2 := (Nat.pow_lt_pow_iff_right (a := 2) (by omega)).1 h1
      clear hq' hcapc hc hKVz hVz h1 hq e1 hzf
      generalize F.dindex (F.sq S z) = d at *
      rcases ‹F.OK›.isDoubleOrFloat with h | h
      · have a1 : F.eta = 1074 := by rw [h]; rfl
        have a2 : F.W = 40 := by rw [h]; rfl
        have a3 : F.maxExp = 1024 := by rw [h]; rfl
        have a4 : F.maxIndex = 51 := by rw [h]; rfl
        have a5 := (C29_folds.1 fold).1 (by rw [h] at hJ; exact hJ)
        rw [a1, a2, a3] at h2
        rw [a4]
        omega
      · have a1 : F.eta = 149 := by rw [h]; rfl
        have a2 : F.W = 13 := by rw [h]; rfl
        have a3 : F.maxExp = 128 := by rw [h]; rfl
        have a4 : F.maxIndex = 20 := by rw [h]; rfl
        have a5 := (C29_folds.2 fold).1 (by rw [h] at hJ; exact hJ)
        rw [a1, a2, a3] at h2
        rw [a4]
        omega
    exact hk)
  rw [e1]
  exact ⟨n, m, hS, g⟩

/-- The rounded square of a scaled number, when it does not underflow. -/
theorem sq_err_big [F.OK] {S x : Flt} {n m : Nat} (hS : F.IsScale S n m) (hx : F.Finite x) (hb : F.val x.mag < 2 ^ (F.W + n))
    (hc : 2 ^ (F.p + 3 * F.eta) ≤ (F.val x.mag * 2 ^ m) ^ 2) :
    |(2 ^ (3 * F.eta) / 2 ^ (2 * m) : Rat) * F.toInt (F.sq S x) - (F.toInt x : Rat) ^ 2| ≤ 2 * (1 / 2 ^ F.p) * (F.toInt x : Rat) ^ 2 := by
  obtain ⟨-, a1, a2, -, -⟩ := sq_val hS hx hb
  have e1 : F.toInt (F.sq S x) = (F.val (F.sq S x).mag : Int) := by unfold toInt; rw [a1]; rfl
  have e2 : (F.toInt x : Rat) ^ 2 = (F.val x.mag : Rat) ^ 2 := by
    unfold toInt; split <;> push_cast <;> ring
  rw [e1, e2]
  push_cast
  have hm : (0 : Rat) < 2 ^ (2 * m) := by positivity
  generalize F.val (F.sq S x).mag = V at *
  have hq : (((F.val x.mag * 2 ^ m) ^ 2 : Nat) : Rat) = (F.val x.mag : Rat) ^ 2 * 2 ^ (2 * m) := by
    push_cast; rw [mul_pow, ← pow_mul, Nat.mul_comm m 2]
  have hu0 : (0 : Rat) ≤ 1 / 2 ^ F.p := by positivity
  have hu : (1 : Rat) / 2 ^ F.p ≤ 1 / 2 := by
    apply one_div_le_one_div_of_le (by norm_num)
    calc (2 : Rat) = 2 ^ 1 := by norm_num
      _ ≤ 2 ^ F.p := pow_le_pow_right₀ (by norm_num) (by have ⟨hp, _⟩ := F.facts; omega)
  have goal' : |(V : Rat) * 2 ^ (3 * F.eta) - (((F.val x.mag * 2 ^ m) ^ 2 : Nat) : Rat)| ≤
      2 * (1 / 2 ^ F.p) * (((F.val x.mag * 2 ^ m) ^ 2 : Nat) : Rat) := by
    have h1 := a2 hc
    have h2 := round_rat (F := F) ((F.val x.mag * 2 ^ m) ^ 2)
    have e3 : (((F.val x.mag * 2 ^ m : Nat) : Int) ^ 2) = (((F.val x.mag * 2 ^ m) ^ 2 : Nat) : Int) := by push_cast; rfl
    rw [e3] at h1
    rw [← h1] at h2
    push_cast at h2 ⊢
    have hr0 : (0 : Rat) ≤ (V : Rat) * 2 ^ (3 * F.eta) := by positivity
    generalize ((F.val x.mag : Rat) * 2 ^ m) ^ 2 = q at *
    generalize (V : Rat) * 2 ^ (3 * F.eta) = r at *
    generalize (1 : Rat) / 2 ^ F.p = u at *
    have h3 := abs_le.1 h2
    have hur : u * r ≤ 1 / 2 * r := mul_le_mul_of_nonneg_right hu hr0
    have hr : r ≤ 2 * q := by linarith
    have := mul_le_mul_of_nonneg_left hr hu0
    linarith
  rw [hq] at goal'
  have e : (2 ^ (3 * F.eta) / 2 ^ (2 * m) : Rat) * V - (F.val x.mag : Rat) ^ 2 =
      ((V : Rat) * 2 ^ (3 * F.eta) - (F.val x.mag : Rat) ^ 2 * 2 ^ (2 * m)) / 2 ^ (2 * m) := by
    field_simp
  rw [e, abs_div, abs_of_pos hm, div_le_iff₀ hm]
  refine le_trans goal' (le_of_eq ?_)
  ring

end Repro
