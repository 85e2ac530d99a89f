import Verif.SsqRescale
/-!
# Rescaling of a binned number, up to the bins that cannot be relied on
-/

namespace Repro
open Fmt
namespace Fmt
variable {F : Fmt}

theorem nth_cons_zero (a : Flt) (l : List Flt) : nth (a :: l) 0 = a := rfl
theorem nth_cons_succ (a : Flt) (l : List Flt) (i : Nat) : nth (a :: l) (i + 1) = nth l i := rfl

theorem nth_ext {a b : List Flt} {n : Nat} (ha : a.length = n) (hb : b.length = n) (h : ∀ i, i < n → nth a i = nth b i) : a = b := by
  apply List.ext_getElem (by omega)
  intro i h1 h2
  have := h i (by omega)
  unfold nth at this
  simpa [List.getD, List.getElem?_eq_getElem h1, List.getElem?_eq_getElem h2] using this

theorem update_len {fold : Nat} {x : Flt} {y : Binned} (h1 : y.pri.length = fold) (h2 : y.car.length = fold) :
    (F.dmdupdate fold x y).pri.length = fold ∧ (F.dmdupdate fold x y).car.length = fold := by
  unfold dmdupdate
  dsimp only
  split
  · exact ⟨h1, h2⟩
  · split
    · simp
    · split
      · simp
      · exact ⟨h1, h2⟩

theorem rescale_len {r : Flt} : ∀ (pri car : List Flt), pri.length = car.length →
    (F.rescaleLoop r pri car).pri.length = pri.length ∧ (F.rescaleLoop r pri car).car.length = pri.length := by
  intro pri
  induction pri with
  | nil => intro car h; simp at h; simp [rescaleLoop]; exact List.eq_nil_of_length_eq_zero h.symm
  | cons p pri ih =>
    intro car h
    unfold rescaleLoop
    dsimp only
    split
    · exact update_len (y := ⟨F.div p r :: pri, car⟩) (by simp) (by simp at h ⊢; omega)
    · obtain ⟨i1, i2⟩ := ih car.tail (by simp at h ⊢; omega)
      simp [i1, i2]

theorem rescale_nth {r : Flt} : ∀ (pri car : List Flt) (i : Nat), pri.length = car.length → i < pri.length →
    (∀ l, l ≤ i → isZero (F.div (nth pri l) r) = false) →
    nth (F.rescaleLoop r pri car).pri i = F.div (nth pri i) r ∧ nth (F.rescaleLoop r pri car).car i = nth car i := by
  intro pri
  induction pri with
  | nil => intro car i h hi; simp at hi
  | cons p pri ih =>
    intro car i h hi hz
    have h0 := hz 0 (by omega)
    rw [nth_cons_zero] at h0
    unfold rescaleLoop
    dsimp only
    rw [h0]
    simp only [Bool.false_eq_true, if_false]
    cases car with
    | nil => simp at h
    | cons c car =>
      cases i with
      | zero => exact ⟨rfl, rfl⟩
      | succ i =>
        rw [nth_cons_succ, nth_cons_succ, nth_cons_succ, List.tail_cons, nth_cons_succ]
        refine ih car i (by simpa using h) (by simpa using hi) (fun l hl => ?_)
        have := hz (l + 1) (by omega)
        rwa [nth_cons_succ] at this

theorem rescale_zero [F.OK] {r : Flt} {pri car : List Flt} (h : pri ≠ []) (hz : isZero (F.div (nth pri 0) r) = true) :
    nth (F.rescaleLoop r pri car).pri 0 = F.bins F.maxIndex := by
  cases pri with
  | nil => exact absurd rfl h
  | cons p pri =>
    rw [nth_cons_zero] at hz
    unfold rescaleLoop
    dsimp only
    rw [hz]
    simp only [if_true]
    unfold dmdupdate
    dsimp only
    rw [nth_cons_zero, hz]
    have hm : (F.div p r).mag = 0 := by unfold isZero at hz; simpa using hz
    have hf : F.isNaNInf (F.div p r) = false := by
      have : F.Finite (F.div p r) := by
        show _ < _; rw [hm]; unfold infMag
        have ⟨hp, hW, hWp, _, he, _⟩ := F.facts
        have := pow_pos' (F.p - 1)
        exact Nat.mul_pos (by omega) this
      exact isNaNInf_false this
    rw [hf]
    have hd : F.dindex zero = F.maxIndex := by unfold dindex expo isZero zero; simp
    simp [nth, hd, List.getD]

/-- `y` and `y0` hold the same in all bins up to `J`. -/
structure Near (F : Fmt) (fold J : Nat) (y y0 : Binned) : Prop where
  p : y.pri.length = fold
  c : y.car.length = fold
  p0 : y0.pri.length = fold
  c0 : y0.car.length = fold
  z : isZero (nth y.pri 0) = false
  z0 : isZero (nth y0.pri 0) = false
  s : F.isNaNInf (nth y.pri 0) = false
  s0 : F.isNaNInf (nth y0.pri 0) = false
  eq : (F.dmindex (nth y.pri 0) = F.dmindex (nth y0.pri 0) ∧
      ∀ i, i < fold → F.dmindex (nth y0.pri 0) + i ≤ J → nth y.pri i = nth y0.pri i ∧ nth y.car i = nth y0.car i) ∨
    (J < F.dmindex (nth y.pri 0) ∧ J < F.dmindex (nth y0.pri 0))

theorem Near.refl {fold J : Nat} {y : Binned} (h1 : y.pri.length = fold) (h2 : y.car.length = fold) (hz : isZero (nth y.pri 0) = false)
    (hs : F.isNaNInf (nth y.pri 0) = false) : F.Near fold J y y :=
  ⟨h1, h2, h1, h2, hz, hz, hs, hs, Or.inl ⟨rfl, fun _ _ _ => ⟨rfl, rfl⟩⟩⟩

theorem Near.update {fold J : Nat} {y y0 : Binned} (h : F.Near fold J y y0) {x : Flt} (hx : F.dindex x + fold ≤ J + 1)
    (hi : F.dindex x ≤ F.dmindex (nth y0.pri 0)) : F.dmdupdate fold x y = F.dmdupdate fold x y0 := by
  unfold dmdupdate
  dsimp only
  rw [h.s, h.s0, h.z, h.z0]
  simp only [Bool.false_eq_true, if_false]
  rcases h.eq with ⟨e1, e2⟩ | ⟨e1, e2⟩
  · rw [e1]
    split
    · next hlt =>
      congr 1 <;>
      · apply List.map_congr_left
        intro i hi'
        rw [List.mem_range] at hi'
        split
        · rfl
        · have := e2 (i - (F.dmindex (nth y0.pri 0) - F.dindex x)) (by omega) (by omega)
          first | exact this.1 | exact this.2
    · next hlt =>
      have hall : ∀ i, i < fold → nth y.pri i = nth y0.pri i ∧ nth y.car i = nth y0.car i := fun i hi' => e2 i hi' (by omega)
      have a := nth_ext h.p h.p0 (fun i hi' => (hall i hi').1)
      have b := nth_ext h.c h.c0 (fun i hi' => (hall i hi').2)
      cases y; cases y0
      simp only at a b
      rw [a, b]
  · by_cases hf : fold = 0
    · have a1 := h.p; have a2 := h.c; have a3 := h.p0; have a4 := h.c0
      rw [hf] at a1 a2 a3 a4
      cases y; cases y0
      simp only at a1 a2 a3 a4
      rw [List.eq_nil_of_length_eq_zero a1, List.eq_nil_of_length_eq_zero a2, List.eq_nil_of_length_eq_zero a3, List.eq_nil_of_length_eq_zero a4]
    · rw [if_pos (by omega), if_pos (by omega)]
      congr 1 <;>
      · apply List.map_congr_left
        intro i hi'
        rw [List.mem_range] at hi'
        rw [if_pos (by omega), if_pos (by omega)]

theorem Near.madd_right {fold J : Nat} {x y y0 : Binned} (h : F.Near fold J y y0) (hx : F.dmindex (nth x.pri 0) + fold ≤ J + 1)
    (hxz : isZero (nth x.pri 0) = false) (hxs : F.isNaNInf (nth x.pri 0) = false) (hf : 1 ≤ fold)
    (hi : F.dmindex (nth x.pri 0) ≤ F.dmindex (nth y0.pri 0)) : F.dmdmadd fold x y = F.dmdmadd fold x y0 := by
  unfold dmdmadd
  dsimp only
  rw [h.s, h.s0, h.z, h.z0, hxz, hxs]
  simp only [Bool.false_eq_true, if_false, Bool.or_false]
  rcases h.eq with ⟨e1, e2⟩ | ⟨e1, e2⟩
  · rw [e1]
    split
    · congr 2 <;>
      · apply List.map_congr_left
        intro i hi'
        rw [List.mem_range] at hi'
        split
        · rfl
        · have := e2 (i - (F.dmindex (nth y0.pri 0) - F.dmindex (nth x.pri 0))) (by omega) (by omega)
          first | rw [this.1] | rw [this.2]
    · have hall : ∀ i, i < fold → nth y.pri i = nth y0.pri i ∧ nth y.car i = nth y0.car i := fun i hi' => e2 i hi' (by omega)
      congr 2 <;>
      · apply List.map_congr_left
        intro i hi'
        rw [List.mem_range] at hi'
        have := hall i hi'
        first | rw [this.1] | rw [this.2]
  · rw [if_pos (by omega), if_pos (by omega)]
    congr 2 <;>
    · apply List.map_congr_left
      intro i hi'
      rw [List.mem_range] at hi'
      rw [if_pos (by omega), if_pos (by omega)]

theorem Near.madd_left {fold J : Nat} {x y y0 : Binned} (h : F.Near fold J y y0) (hx : F.dmindex (nth x.pri 0) + fold ≤ J + 1)
    (hxz : isZero (nth x.pri 0) = false) (hxs : F.isNaNInf (nth x.pri 0) = false) (hf : 1 ≤ fold)
    (hi : F.dmindex (nth x.pri 0) ≤ F.dmindex (nth y0.pri 0)) : F.dmdmadd fold y x = F.dmdmadd fold y0 x := by
  unfold dmdmadd
  dsimp only
  rw [h.s, h.s0, h.z, h.z0, hxz, hxs]
  simp only [Bool.false_eq_true, if_false, Bool.or_false]
  rcases h.eq with ⟨e1, e2⟩ | ⟨e1, e2⟩
  · rw [e1, if_neg (by omega), if_neg (by omega)]
    congr 2 <;>
    · apply List.map_congr_left
      intro i hi'
      rw [List.mem_range] at hi'
      split
      · rfl
      · have := e2 (i - (F.dmindex (nth y0.pri 0) - F.dmindex (nth x.pri 0))) (by omega) (by omega)
        first | rw [this.1] | rw [this.2]
  · rw [if_neg (by omega), if_neg (by omega)]
    congr 2 <;>
    · apply List.map_congr_left
      intro i hi'
      rw [List.mem_range] at hi'
      rw [if_pos (by omega), if_pos (by omega)]

/-- What the bins hold outside the window of a value can be chosen. -/
theorem Mid.congr [F.OK] {fold n N N' k : Nat} {A A' : Nat → Int} {y : Binned} (h : F.Mid fold n N k A y)
    (he : ∀ j, k ≤ j → j < k + fold → A' j = A j) (hz : ∀ j, j < k → A' j = 0) (hN : ∀ j, (A' j).natAbs ≤ N' * 2 ^ (F.W - 1)) :
    F.Mid fold n N' k A' y := by
  obtain ⟨B, C, Z, h1, h2, h3, h4, h5, h6⟩ := h
  have hT := ipow_pos (F.p - 3)
  have hcp := cast_pow (F.p - 3)
  refine ⟨fun j => if k ≤ j ∧ j < k + fold then B j else A' j % 2 ^ (F.p - 3),
    fun j => if k ≤ j ∧ j < k + fold then C j else A' j / 2 ^ (F.p - 3), fun j => if k ≤ j ∧ j < k + fold then Z j else false, ?_, ?_, ?_, ?_, h5, hN⟩
  · rw [h1]
    unfold midZ
    congr 1 <;>
    · apply List.map_congr_left
      intro i hi
      simp only [List.mem_range'] at hi
      obtain ⟨a, b, rfl⟩ := hi
      have hc : k ≤ k + 1 * a ∧ k + 1 * a < k + fold := by omega
      simp only [if_pos hc]
  · intro j
    dsimp only
    by_cases hj : k ≤ j ∧ j < k + fold
    · rw [if_pos hj, if_pos hj, he j hj.1 hj.2, h2 j]
    · rw [if_neg hj, if_neg hj]
      have := Int.mul_ediv_add_emod (A' j) (2 ^ (F.p - 3)); rw [mul_comm] at this; omega
  · intro j
    dsimp only
    by_cases hj : k ≤ j ∧ j < k + fold
    · rw [if_pos hj]; exact h3 j
    · rw [if_neg hj]
      have h1 := Int.emod_nonneg (A' j) (ne_of_gt hT)
      have h2 := Int.emod_lt_of_pos (A' j) hT
      omega
  · intro j hj
    dsimp only
    rw [if_neg (by omega), if_neg (by omega), if_neg (by omega), hz j hj]
    simp

theorem dmindex_small [F.OK] {m : Flt} {J : Nat} (hJ : J + 1 ≤ F.maxIndex) (hv : F.val m.mag < 2 ^ (F.p + F.uexp (J + 1))) :
    J < F.dmindex m := by
  have ⟨hp, hW, hWp, hpW, he, he1, hbi, het, hb3, hb4⟩ := F.facts
  have ⟨b1, b2, b3, b4, b5, b6, b7, _⟩ := F.bfacts
  have hu := uexp_lin (F := F) hJ
  have hx : F.expo m ≤ F.uexp (J + 1) + 1 := by
    by_cases h1 : 1 ≤ F.expo m
    · have h2 := (val_expo (F := F) m).2 h1
      have h3 := (Nat.pow_lt_pow_iff_right (a := 2) (by omega)).1 (Nat.lt_of_le_of_lt h2 hv)
      omega
    · omega
  unfold dmindex
  rw [Nat.lt_iff_add_one_le, Nat.le_div_iff_mul_le (by omega), Nat.mul_comm]
  omega

theorem mkPri_pos [F.OK] {j : Nat} {b : Int} (h : F.Win b) : isZero (F.mkPri j b) = false := mkPri_isZero h

theorem midZ_len (F : Fmt) (fold k : Nat) (B C : Nat → Int) (Z : Nat → Bool) :
    (F.midZ fold k B C Z).pri.length = fold ∧ (F.midZ fold k B C Z).car.length = fold := by
  unfold midZ; simp

/-- **Rescaling shifts the bins**, up to bin `J`. -/
theorem rescale_near [F.OK] {S S' : Flt} {n m n' m' t : Nat} (hS : F.IsScale S n m) (hS' : F.IsScale S' n' m') (ht : n' = n + F.W * t)
    (ht1 : 1 ≤ t) {fold d N k : Nat} {A : Nat → Int} {y : Binned} (hfold : 1 ≤ fold) (hm : F.Mid fold d N k A y) (hd : d ≤ F.endurance)
    (hk : F.ssqLo ≤ k) :
    ∃ y0, F.Near fold F.ssqJ (F.dmdrescale S' S y) y0 ∧
      F.Mid fold d N (min (k + 2 * t) (F.ssqJ + 1)) (fun j => if j < 2 * t then 0 else A (j - 2 * t)) y0 := by
  have ⟨hp, hW, hWp, hpW, he, he1, hbi, het, hb3, hb4⟩ := F.facts
  have ⟨s1, s2, s3, s4, s5, s6, s7, s8⟩ := F.ssq_facts
  have hr := factor hS hS' ht
  dsimp only at hr
  have hne : F.feq S' S = false := by
    unfold feq key
    rw [hS.neg, hS'.neg]
    have h1 : S'.mag ≠ S.mag := by
      intro h
      have h2 := hS.val
      rw [← h, hS'.val] at h2
      have h3 := Nat.pow_right_injective (Nat.le_refl 2) h2
      have : 1 * 1 ≤ F.W * t := Nat.mul_le_mul (by omega) ht1
      omega
    simp
    intro _ _ h
    exact h1 (by omega)
  have hz' : isZero S' = false := by
    unfold isZero; simpa using mag_ne_of_val hS'.val
  have hz : isZero S = false := by
    unfold isZero; simpa using mag_ne_of_val hS.val
  obtain ⟨B, C, Z, h1, h2, h3, h4, h5, h6⟩ := hm
  have hwin : ∀ j, F.Win (B j) := fun j => win_of_bound hd (h3 j)
  have hy : F.dmdrescale S' S y = F.rescaleLoop (F.mul (F.div S' S) (F.div S' S)) y.pri y.car := by
    unfold dmdrescale
    rw [hne, hz, hz']
    rfl
  rw [hy]
  generalize F.mul (F.div S' S) (F.div S' S) = r at *
  have hl := midZ_len F fold k B C Z
  rw [← h1] at hl
  have hrl := rescale_len (F := F) (r := r) y.pri y.car (by rw [hl.1, hl.2])
  rw [hl.1] at hrl
  have hwin' : ∀ j, F.Win ((fun j => if j < 2 * t then 0 else B (j - 2 * t)) j) := by
    intro j; dsimp only; split
    · have := h3 0; exact win_of_bound (n := 0) (by omega) (by have := pow_pos' (F.p - 3); simpa using this)
    · exact hwin _
  have hpn : ∀ i, i < fold → nth y.pri i = F.mkPri (k + i) (B (k + i)) := fun i hi => by rw [h1]; exact nth_pri_midZ' hi
  have hcn : ∀ i, i < fold → nth y.car i = F.carF (Z (k + i)) (C (k + i)) := fun i hi => by rw [h1]; exact nth_car_midZ hi
  have hl0 := midZ_len F fold (min (k + 2 * t) (F.ssqJ + 1)) (fun j => if j < 2 * t then 0 else B (j - 2 * t))
    (fun j => if j < 2 * t then 0 else C (j - 2 * t)) (fun j => if j < 2 * t then false else Z (j - 2 * t))
  have hp0 := nth_pri_midZ (F := F) (fold := fold) (k := min (k + 2 * t) (F.ssqJ + 1)) (B := fun j => if j < 2 * t then 0 else B (j - 2 * t))
    (C := fun j => if j < 2 * t then 0 else C (j - 2 * t)) (Z := fun j => if j < 2 * t then false else Z (j - 2 * t)) hfold
  refine ⟨F.midZ fold (min (k + 2 * t) (F.ssqJ + 1)) (fun j => if j < 2 * t then 0 else B (j - 2 * t))
    (fun j => if j < 2 * t then 0 else C (j - 2 * t)) (fun j => if j < 2 * t then false else Z (j - 2 * t)), ?_, ?_⟩
  · have hz0 := mkPri_isZero (F := F) (j := min (k + 2 * t) (F.ssqJ + 1)) (hwin' (min (k + 2 * t) (F.ssqJ + 1)))
    have hn0 := mkPri_isNaNInf (F := F) (j := min (k + 2 * t) (F.ssqJ + 1)) (hwin' (min (k + 2 * t) (F.ssqJ + 1)))
    have hi0 := dmindex_mkPri (F := F) (hwin' (min (k + 2 * t) (F.ssqJ + 1))) (j := min (k + 2 * t) (F.ssqJ + 1)) (by omega)
    rw [← hp0] at hz0 hn0 hi0
    by_cases hc : k + 2 * t ≤ F.ssqJ
    · have hWt := ssqJ_shift (F := F) hk hc
      have hdiv : ∀ i, i < fold → k + 2 * t + i ≤ F.ssqJ → F.div (nth y.pri i) r = F.mkPri (k + 2 * t + i) (B (k + i)) := by
        intro i hi hle
        rw [hpn i hi, (div_pri hr (hwin _) (by omega)).1 (by omega) hWt]
        congr 1; omega
      have hnth : ∀ i, i < fold → k + 2 * t + i ≤ F.ssqJ →
          nth (F.rescaleLoop r y.pri y.car).pri i = F.mkPri (k + 2 * t + i) (B (k + i)) ∧
          nth (F.rescaleLoop r y.pri y.car).car i = F.carF (Z (k + i)) (C (k + i)) := by
        intro i hi hle
        have := rescale_nth (F := F) (r := r) y.pri y.car i (by rw [hl.1, hl.2]) (by rw [hl.1]; exact hi)
          (fun l hll => by rw [hdiv l (by omega) (by omega)]; exact mkPri_isZero (hwin _))
        rw [this.1, this.2, hdiv i hi hle, hcn i hi]
        exact ⟨rfl, rfl⟩
      have h0 := (hnth 0 (by omega) (by omega)).1
      rw [Nat.add_zero, Nat.add_zero] at h0
      refine ⟨hrl.1, hrl.2, hl0.1, hl0.2, by rw [h0]; exact mkPri_isZero (hwin _), hz0, by rw [h0]; exact mkPri_isNaNInf (hwin _), hn0, Or.inl ⟨?_, ?_⟩⟩
      · rw [h0, hi0, dmindex_mkPri (hwin _) (by omega)]; omega
      · intro i hi hle
        rw [hi0] at hle
        rw [(hnth i hi (by omega)).1, (hnth i hi (by omega)).2, nth_pri_midZ' hi, nth_car_midZ hi]
        rw [Nat.min_eq_left (by omega)]
        rw [if_neg (by omega), if_neg (by omega), if_neg (by omega), show k + 2 * t + i - 2 * t = k + i by omega]
        exact ⟨rfl, rfl⟩
    · have hd0 := (div_pri hr (hwin k) (j := k) (by omega)).2 h5 (by omega)
      have e0 : nth y.pri 0 = F.mkPri k (B k) := hpn 0 (by omega)
      rw [← e0] at hd0
      have hne : y.pri ≠ [] := by intro hh; rw [hh] at hl; simp at hl; omega
      by_cases hq : isZero (F.div (nth y.pri 0) r) = true
      · have h0 := rescale_zero (F := F) (car := y.car) hne hq
        have hb : F.bins F.maxIndex = F.mkPri F.maxIndex 0 := bins_eq _
        have hw0 : F.Win 0 := by have h3' := pow_pos' (F.p - 3); exact win_of_bound (n := 0) (by omega) (by simpa using h3')
        rw [hb] at h0
        refine ⟨hrl.1, hrl.2, hl0.1, hl0.2, by rw [h0]; exact mkPri_isZero hw0, hz0, by rw [h0]; exact mkPri_isNaNInf hw0, hn0, Or.inr ⟨?_, ?_⟩⟩
        · rw [h0, dmindex_mkPri hw0 (le_refl _)]; omega
        · rw [hi0]; omega
      · have hq' : isZero (F.div (nth y.pri 0) r) = false := by simpa using hq
        have h0 := (rescale_nth (F := F) (r := r) y.pri y.car 0 (by rw [hl.1, hl.2]) (by rw [hl.1]; omega)
          (fun l hll => by rw [show l = 0 by omega]; exact hq')).1
        refine ⟨hrl.1, hrl.2, hl0.1, hl0.2, by rw [h0]; exact hq', hz0, by rw [h0]; exact isNaNInf_false hd0.1, hn0, Or.inr ⟨?_, ?_⟩⟩
        · rw [h0]; exact dmindex_small (by omega) hd0.2
        · rw [hi0]; omega
  · refine ⟨_, _, _, rfl, ?_, ?_, ?_, by omega, ?_⟩
    · intro j; dsimp only; split
      · simp
      · exact h2 _
    · intro j;  split
      · have := pow_pos' (F.p - 3)
        simp only [Int.natAbs_zero]; omega
      · exact h3 _
    · intro j hj; skip
      by_cases hj2 : j < 2 * t
      · simp only [if_pos hj2]; simp
      · simp only [if_neg hj2]; exact h4 _ (by omega)
    · intro j; dsimp only; split
      · simp
      · exact h6 _

end Fmt
end Repro
