import Verif.FtzConv
import Verif.PropsFtz
import Verif.ConvEqS
import Verif.FmaLemmas
/-!
# C57 for the conversions: with the check at 0 they are the same in flush-to-zero mode
-/

namespace Repro
namespace Fmt
variable {F : Fmt}

/-! ### Multiples of a power of two -/

/-- Not finite, or a multiple of `2^u` least subnormals. -/
def Grid (F : Fmt) (u : Nat) (x : Flt) : Prop := F.Finite x → (2 ^ u : Int) ∣ F.toInt x

theorem Grid.mono {u v : Nat} {x : Flt} (h : v ≤ u) (hx : F.Grid u x) : F.Grid v x := fun hf => Int.dvd_trans (pow_dvd_pow 2 h) (hx hf)

theorem Grid.flush [F.OK] {u : Nat} {x : Flt} (hu : F.p - 1 ≤ u) (hx : F.Grid u x) : F.flush x = x := by
  by_cases hf : F.Finite x
  · exact flush_dvd hu (hx hf)
  · apply flush_normal
    have ⟨hp, _, _, _, he, _⟩ := F.facts
    intro hc
    rw [expo_zero] at hc
    apply hf
    unfold Finite
    rw [infMag_eq]
    refine Nat.lt_of_lt_of_le hc ?_
    exact Nat.le_mul_of_pos_left _ (by omega)

theorem rne_dvd {n q : Nat} (h : 2 ^ q ∣ n) : rne n q * 2 ^ q = n := by
  obtain ⟨m, rfl⟩ := h
  have h0 := pow_pos' q
  unfold rne
  have e1 : 2 ^ q * m / 2 ^ q = m := Nat.mul_div_cancel_left _ h0
  have e2 : 2 ^ q * m % 2 ^ q = 0 := Nat.mul_mod_right _ _
  dsimp only
  rw [e1, e2, if_neg (by omega), Nat.mul_comm]

theorem rndZ_dvd {p u : Nat} {n : Int} (h : (2 ^ u : Int) ∣ n) : 2 ^ u ∣ (rndZ p n).natAbs := by
  have hn : 2 ^ u ∣ n.natAbs := by
    have := Int.natAbs_dvd_natAbs.2 h
    rwa [Int.natAbs_pow] at this
  rw [rndZ_natAbs]
  generalize Nat.log2 n.natAbs - (p - 1) = q
  by_cases hq : q ≤ u
  · rw [rne_dvd (Nat.dvd_trans (pow_dvd_pow 2 hq) hn)]; exact hn
  · exact Dvd.dvd.mul_left (pow_dvd_pow 2 (by omega)) _

theorem round_grid [F.OK] {u : Nat} {n : Int} (s : Bool) (h : (2 ^ u : Int) ∣ n) : F.Grid u ⟨s, F.roundMag n.natAbs 0⟩ := by
  intro hf
  have hb : (rndZ F.p n).natAbs < 2 ^ (F.p + F.emax - 2) := by
    by_contra hc
    have := roundMag_overflow (F := F) (Nat.not_lt.1 hc)
    unfold Finite at hf
    dsimp only at hf
    omega
  have hv := (roundMag_rndZ hb).2
  have hd := rndZ_dvd (p := F.p) h
  have : 2 ^ u ∣ (F.toInt ⟨s, F.roundMag n.natAbs 0⟩).natAbs := by rw [toInt_natAbs]; dsimp only; rw [hv]; exact hd
  rw [← Int.natAbs_dvd_natAbs, Int.natAbs_pow]
  exact this

theorem not_finite {x : Flt} (h : F.infMag ≤ x.mag) : ¬ F.Finite x := Nat.not_lt.2 h

theorem Grid.of_nan {u : Nat} {x : Flt} (h : F.infMag ≤ x.mag) : F.Grid u x := fun hf => absurd hf (not_finite h)

theorem Grid.add [F.OK] {u : Nat} {x y : Flt} (hx : F.Grid u x) (hy : F.Grid u y) : F.Grid u (F.add x y) := by
  by_cases fx : F.Finite x
  · by_cases fy : F.Finite y
    · rw [add_finite fx fy]
      have hd := Int.dvd_add (hx fx) (hy fy)
      split
      · intro _; rw [toInt_mag0 rfl]; exact Int.dvd_zero _
      · exact round_grid _ hd
    · exact fun h => absurd (add_finite_args h).2 fy
  · exact fun h => absurd (add_finite_args h).1 fx

theorem Grid.fneg {u : Nat} {x : Flt} (hx : F.Grid u x) : F.Grid u (fneg x) := fun hf => by
  rw [toInt_fneg, Int.dvd_neg]; exact hx hf

theorem Grid.sub [F.OK] {u : Nat} {x y : Flt} (hx : F.Grid u x) (hy : F.Grid u y) : F.Grid u (F.sub x y) := hx.add hy.fneg

theorem Grid.mul [F.OK] {u : Nat} {x y : Flt} (h : F.Finite x → F.Finite y → (2 ^ (u + F.eta) : Int) ∣ F.toInt x * F.toInt y) : F.Grid u (F.mul x y) := by
  unfold Fmt.mul
  split
  · exact Grid.of_nan (by unfold nan; exact Nat.le_add_right _ _)
  · next h1 =>
    split
    · split
      · exact Grid.of_nan (by unfold nan; exact Nat.le_add_right _ _)
      · exact Grid.of_nan (Nat.le_refl _)
    · next h2 =>
      simp only [Bool.or_eq_true, not_or, Bool.not_eq_true] at h1 h2
      have fx : F.Finite x := finite_iff.2 ⟨h1.1, h2.1⟩
      have fy : F.Finite y := finite_iff.2 ⟨h1.2, h2.2⟩
      have hd := Int.natAbs_dvd_natAbs.2 (h fx fy)
      rw [Int.natAbs_pow, Int.natAbs_mul, toInt_natAbs, toInt_natAbs] at hd
      change 2 ^ (u + F.eta) ∣ _ at hd
      obtain ⟨m, hm⟩ := hd
      have e : F.val x.mag * F.val y.mag = (2 ^ u * m) * 2 ^ F.eta := by rw [hm, Nat.pow_add]; ring
      rw [e, roundMag_shift]
      have := round_grid (F := F) (u := u) (n := ((2 ^ u * m : Nat) : Int)) (x.neg != y.neg) ⟨m, by push_cast; ring⟩
      rw [Int.natAbs_natCast] at this
      exact this

theorem Grid.addZ [F.OK] {u : Nat} (hu : F.p - 1 ≤ u) {x y : Flt} (hx : F.Grid u x) (hy : F.Grid u y) : F.addZ x y = F.add x y := by
  unfold Fmt.addZ; rw [hx.flush hu, hy.flush hu, (hx.add hy).flush hu]

theorem Grid.subZ [F.OK] {u : Nat} (hu : F.p - 1 ≤ u) {x y : Flt} (hx : F.Grid u x) (hy : F.Grid u y) : F.subZ x y = F.sub x y := by
  unfold Fmt.subZ; rw [hx.flush hu, hy.flush hu, (hx.sub hy).flush hu]

theorem Grid.mulZ [F.OK] {u v w : Nat} (hu : F.p - 1 ≤ u) (hv : F.p - 1 ≤ v) (hw : F.p - 1 ≤ w) {x y : Flt} (hx : F.Grid u x) (hy : F.Grid v y) (h : F.Grid w (F.mul x y)) : F.mulZ x y = F.mul x y := by
  unfold Fmt.mulZ; rw [hx.flush hu, hy.flush hv, h.flush hw]

theorem dvd_mul_pow {a b : Int} {s t r : Nat} (ha : (2 ^ s : Int) ∣ a) (hb : (2 ^ t : Int) ∣ b) (h : r ≤ s + t) : (2 ^ r : Int) ∣ a * b :=
  Int.dvd_trans (pow_dvd_pow 2 h) (by rw [pow_add]; exact Int.mul_dvd_mul ha hb)

/-- The product of a multiple of `2^s` and one of `2^t`. -/
theorem Grid.mul' [F.OK] {u s t : Nat} {x y : Flt} (hx : F.Grid s x) (hy : F.Grid t y) (h : u + F.eta ≤ s + t) : F.Grid u (F.mul x y) :=
  Grid.mul fun fx fy => dvd_mul_pow (hx fx) (hy fy) h

/-- The loops. -/
theorem fold_grid {u : Nat} {fZ f : Flt → Nat → Flt} : ∀ (l : List Nat) (Y : Flt), (∀ i ∈ l, ∀ Y, F.Grid u Y → fZ Y i = f Y i ∧ F.Grid u (f Y i)) → F.Grid u Y →
    l.foldl fZ Y = l.foldl f Y ∧ F.Grid u (l.foldl f Y)
  | [], _, _, hY => ⟨rfl, hY⟩
  | i :: l, Y, h, hY => by
    obtain ⟨h1, h2⟩ := h i (by simp) Y hY
    rw [List.foldl_cons, List.foldl_cons, h1]
    exact fold_grid l _ (fun j hj => h j (by simp [hj])) h2

/-! ### The terms -/

theorem car_grid [F.OK] {z : Bool} {c : Int} (h : c.natAbs ≤ 2 ^ F.p) : F.Grid F.eta (F.carF z c) := fun _ => by
  rw [(carF_ok h).2]; exact Int.dvd_mul_left _ _

theorem bin_grid [F.OK] {j : Nat} {b : Int} (h : F.Win b) : F.Grid (F.sexp j) (F.mkPri j b) := fun _ => by
  rw [mkPri_toInt h]; exact Int.dvd_mul_left _ _

theorem bin6_grid [F.OK] (j : Nat) : F.Grid (F.p - 3 + F.sexp j) (F.div (F.bins j) F.six) := fun _ => by
  rw [(bin6_ok j).2]

theorem six_grid [F.OK] : F.Grid F.eta F.six := fun _ => by
  have h6 := six_ok (F := F)
  rw [← Int.natAbs_dvd_natAbs, Int.natAbs_pow, toInt_natAbs, h6.2.1]
  exact Dvd.dvd.mul_left (Nat.dvd_refl _) _

theorem bin6Z [F.OK] {j : Nat} (hj : F.p - 1 ≤ F.sexp j) : F.divZ (F.bins j) F.six = F.div (F.bins j) F.six := by
  unfold divZ
  have hb : F.Grid (F.sexp j) (F.bins j) := by rw [bins_eq]; exact bin_grid (win_zero F)
  rw [hb.flush hj, six_grid.flush eta_ge, (bin6_grid j).flush (by omega)]

theorem pow2_grid [F.OK] {e : Int} {n : Nat} (h : (F.eta : Int) + e = n) (hn : n < F.p + F.emax - 2) : F.Grid n (F.pow2 e) := fun _ => by
  rw [(pow2_ok h hn).2.1]

/-! ### Doubles -/

theorem sexp_lo : ∀ {j : Nat}, j ≤ 3 → 1000 ≤ f64.sexp j
  | 0, _ => by decide
  | 1, _ => by decide
  | 2, _ => by decide
  | 3, _ => by decide
  | _ + 4, h => by omega

/-- `carX[i] * (bins[i]/6.0)` -/
theorem carT {j : Nat} {c : Int} {z : Bool} (hj : 52 ≤ f64.sexp j) (hc : c.natAbs ≤ 2 ^ 53) :
    f64.mulZ (f64.carF z c) (f64.divZ (f64.bins j) f64.six) = f64.mul (f64.carF z c) (f64.div (f64.bins j) f64.six) ∧
    f64.Grid 52 (f64.mul (f64.carF z c) (f64.div (f64.bins j) f64.six)) := by
  have g1 := car_grid (F := f64) (z := z) (c := c) hc
  have g2 := bin6_grid (F := f64) j
  have g3 : f64.Grid 52 (f64.mul (f64.carF z c) (f64.div (f64.bins j) f64.six)) := g1.mul' g2 (by show 52 + 1074 ≤ 1074 + (50 + f64.sexp j); omega)
  rw [bin6Z (F := f64) hj]
  exact ⟨g1.mulZ (v := 50 + f64.sexp j) (by decide) (by show 52 ≤ 50 + f64.sexp j; omega) (Nat.le_refl 52) g2 g3, g3⟩

/-- `pri[i] - bins[i]` -/
theorem offT {j : Nat} {b : Int} (hj : 52 ≤ f64.sexp j) (hb : f64.Win b) :
    f64.subZ (f64.mkPri j b) (f64.bins j) = f64.sub (f64.mkPri j b) (f64.bins j) ∧ f64.Grid (f64.sexp j) (f64.sub (f64.mkPri j b) (f64.bins j)) := by
  have g1 := bin_grid (F := f64) (j := j) hb
  have g2 : f64.Grid (f64.sexp j) (f64.bins j) := by rw [bins_eq]; exact bin_grid (win_zero f64)
  exact ⟨g1.subZ hj g2, g1.sub g2⟩

theorem down_grid : f64.Grid 1008 f64.convDown := pow2_grid (n := 1008) (by decide) (by decide)
theorem up_grid : f64.Grid 1140 f64.convUp := pow2_grid (n := 1140) (by decide) (by decide)
theorem exp_grid : f64.Grid 1088 f64.expansion := pow2_grid (n := 1088) (by decide) (by decide)

/-- `(bins[i]/6.0) * scale_down` -/
theorem bin6D {j : Nat} (hj : 1000 ≤ f64.sexp j) :
    f64.mulZ (f64.divZ (f64.bins j) f64.six) f64.convDown = f64.mul (f64.div (f64.bins j) f64.six) f64.convDown ∧
    f64.Grid 900 (f64.mul (f64.div (f64.bins j) f64.six) f64.convDown) := by
  have g2 := bin6_grid (F := f64) j
  have g3 : f64.Grid 900 (f64.mul (f64.div (f64.bins j) f64.six) f64.convDown) := g2.mul' down_grid (by show 900 + 1074 ≤ (50 + f64.sexp j) + 1008; omega)
  rw [bin6Z (by show 52 ≤ _; omega)]
  exact ⟨g2.mulZ (u := 50 + f64.sexp j) (by show 52 ≤ 50 + f64.sexp j; omega) (by decide) (by decide) down_grid g3, g3⟩

/-- `carX[i] * ((bins[i]/6.0) * scale_down)` -/
theorem carD {j : Nat} {c : Int} {z : Bool} (hj : 1000 ≤ f64.sexp j) (hc : c.natAbs ≤ 2 ^ 53) :
    f64.mulZ (f64.carF z c) (f64.mulZ (f64.divZ (f64.bins j) f64.six) f64.convDown) = f64.mul (f64.carF z c) (f64.mul (f64.div (f64.bins j) f64.six) f64.convDown) ∧
    f64.Grid 52 (f64.mul (f64.carF z c) (f64.mul (f64.div (f64.bins j) f64.six) f64.convDown)) := by
  have g1 := car_grid (F := f64) (z := z) (c := c) hc
  obtain ⟨e2, g2⟩ := bin6D hj
  have g3 : f64.Grid 52 (f64.mul (f64.carF z c) (f64.mul (f64.div (f64.bins j) f64.six) f64.convDown)) := g1.mul' g2 (by decide)
  rw [e2]
  exact ⟨g1.mulZ (by decide) (by decide) (by decide) g2 g3, g3⟩

/-- `(pri[i] - bins[i]) * scale_down` -/
theorem offD {j : Nat} {b : Int} (hj : 1000 ≤ f64.sexp j) (hb : f64.Win b) :
    f64.mulZ (f64.subZ (f64.mkPri j b) (f64.bins j)) f64.convDown = f64.mul (f64.sub (f64.mkPri j b) (f64.bins j)) f64.convDown ∧
    f64.Grid 900 (f64.mul (f64.sub (f64.mkPri j b) (f64.bins j)) f64.convDown) := by
  obtain ⟨e2, g2⟩ := offT (j := j) (b := b) (by omega) hb
  have g3 : f64.Grid 900 (f64.mul (f64.sub (f64.mkPri j b) (f64.bins j)) f64.convDown) := g2.mul' down_grid (by show 900 + 1074 ≤ f64.sexp j + 1008; omega)
  rw [e2]
  exact ⟨g2.mulZ (by show 52 ≤ _; omega) (by decide) (by decide) down_grid g3, g3⟩

theorem zero_grid {u : Nat} : f64.Grid u zero := fun _ => by rw [toInt_mag0 rfl]; exact Int.dvd_zero _

theorem add52 {Y Y' t t' : Flt} (hY : Y = Y' ∧ f64.Grid 52 Y') (ht : t = t' ∧ f64.Grid 52 t') : f64.addZ Y t = f64.add Y' t' ∧ f64.Grid 52 (f64.add Y' t') := by
  rw [hY.1, ht.1]; exact ⟨hY.2.addZ (Nat.le_refl 52) ht.2, hY.2.add ht.2⟩

theorem up52 {Y Y' : Flt} (hY : Y = Y' ∧ f64.Grid 52 Y') : f64.mulZ Y f64.convUp = f64.mul Y' f64.convUp ∧ f64.Grid 52 (f64.mul Y' f64.convUp) := by
  have g3 : f64.Grid 52 (f64.mul Y' f64.convUp) := hY.2.mul' up_grid (by decide)
  rw [hY.1]; exact ⟨hY.2.mulZ (by decide) (by decide) (by decide) up_grid g3, g3⟩

/-- `binned_ddmconv` on bins far above the subnormal range. -/
theorem ddmconvZ_eq {fold k : Nat} {B C : Nat → Int} {Z : Nat → Bool} (hfold : 2 ≤ fold) (hk : k ≤ f64.maxIndex)
    (hu : ∀ j, j < k + fold → 52 ≤ f64.sexp j) (hB : ∀ j, f64.Win (B j)) (hC : ∀ j, (C j).natAbs ≤ 2 ^ 53) :
    f64.ddmconvZ fold (f64.midZ fold k B C Z) = f64.ddmconv fold (f64.midZ fold k B C Z) ∧ f64.Grid 52 (f64.ddmconv fold (f64.midZ fold k B C Z)) := by
  have p0 : nth (f64.midZ fold k B C Z).pri 0 = f64.mkPri k (B k) := nth_pri_midZ' (k := k) (i := 0) (by omega)
  have hN : f64.isNaNInf (nth (f64.midZ fold k B C Z).pri 0) = false := by rw [p0]; exact mkPri_isNaNInf (hB k)
  have hZ0 : isZero (nth (f64.midZ fold k B C Z).pri 0) = false := by rw [p0]; exact mkPri_isZero (hB k)
  have hZ1 : f64.isZeroZ (nth (f64.midZ fold k B C Z).pri 0) = false := by rw [p0]; exact mkPri_isZeroZ (hB k)
  have hd : f64.dmindex (nth (f64.midZ fold k B C Z).pri 0) = k := by rw [p0]; exact dmindex_mkPri (hB k) hk
  unfold ddmconvZ ddmconv
  rw [hN, hZ0, hZ1, hd]
  simp only [Bool.false_eq_true, if_false]
  rw [show 3 * f64.p / f64.W = 3 from rfl]
  have car : ∀ i, i < fold → nth (f64.midZ fold k B C Z).car i = f64.carF (Z (k + i)) (C (k + i)) := fun i hi => nth_car_midZ hi
  have pri : ∀ i, i < fold → nth (f64.midZ fold k B C Z).pri i = f64.mkPri (k + i) (B (k + i)) := fun i hi => nth_pri_midZ' hi
  have last : f64.subZ (nth (f64.midZ fold k B C Z).pri (fold - 1)) (f64.bins (k + (fold - 1))) = f64.sub (nth (f64.midZ fold k B C Z).pri (fold - 1)) (f64.bins (k + (fold - 1))) ∧
      f64.Grid 52 (f64.sub (nth (f64.midZ fold k B C Z).pri (fold - 1)) (f64.bins (k + (fold - 1)))) := by
    rw [pri _ (by omega)]
    have h := hu (k + (fold - 1)) (by omega)
    have := offT (j := k + (fold - 1)) (b := B (k + (fold - 1))) h (hB _)
    exact ⟨this.1, this.2.mono h⟩
  have step : ∀ i, 1 ≤ i → i < fold → ∀ Y, f64.Grid 52 Y → f64.convStepZ (f64.midZ fold k B C Z) k Y i = f64.convStep (f64.midZ fold k B C Z) k Y i ∧ f64.Grid 52 (f64.convStep (f64.midZ fold k B C Z) k Y i) := by
    intro i h1 hi Y hY
    unfold convStepZ convStep
    rw [car i hi, pri (i - 1) (by omega)]
    have h := hu (k + (i - 1)) (by omega)
    have o := offT (j := k + (i - 1)) (b := B (k + (i - 1))) h (hB _)
    exact add52 (add52 ⟨rfl, hY⟩ (carT (hu _ (by omega)) (hC _))) ⟨o.1, o.2.mono h⟩
  by_cases h3 : k ≤ 3
  · rw [if_pos h3, if_pos h3]
    generalize hs : (if k = 0 then
          (f64.add (f64.add (f64.add zero (f64.mul (nth (f64.midZ fold k B C Z).car 0) (f64.mul (f64.mul (f64.div (f64.bins 0) f64.six) f64.convDown) f64.expansion)))
            (f64.mul (nth (f64.midZ fold k B C Z).car 1) (f64.mul (f64.div (f64.bins 1) f64.six) f64.convDown)))
            (f64.mul (f64.mul (f64.sub (nth (f64.midZ fold k B C Z).pri 0) (f64.bins 0)) f64.convDown) f64.expansion), 2)
        else
          (f64.add zero (f64.mul (nth (f64.midZ fold k B C Z).car 0) (f64.mul (f64.div (f64.bins k) f64.six) f64.convDown)), 1) : Flt × Nat) = start
    generalize hsZ : (if k = 0 then
          (f64.addZ (f64.addZ (f64.addZ zero (f64.mulZ (nth (f64.midZ fold k B C Z).car 0) (f64.mulZ (f64.mulZ (f64.divZ (f64.bins 0) f64.six) f64.convDown) f64.expansion)))
            (f64.mulZ (nth (f64.midZ fold k B C Z).car 1) (f64.mulZ (f64.divZ (f64.bins 1) f64.six) f64.convDown)))
            (f64.mulZ (f64.mulZ (f64.subZ (nth (f64.midZ fold k B C Z).pri 0) (f64.bins 0)) f64.convDown) f64.expansion), 2)
        else
          (f64.addZ zero (f64.mulZ (nth (f64.midZ fold k B C Z).car 0) (f64.mulZ (f64.divZ (f64.bins k) f64.six) f64.convDown)), 1) : Flt × Nat) = startZ
    have key : startZ = start ∧ f64.Grid 52 start.1 ∧ (start.2 = if k = 0 then 2 else 1) := by
      by_cases k0 : k = 0
      · rw [if_pos k0] at hs hsZ
        rw [← hs, ← hsZ, car 0 (by omega), car 1 (by omega), pri 0 (by omega), if_pos k0]
        subst k0
        have h0 : 1000 ≤ f64.sexp 0 := sexp_lo (by omega)
        have h1 : 1000 ≤ f64.sexp 1 := sexp_lo (by omega)
        obtain ⟨b1, b2⟩ := bin6D h0
        have b3 : f64.Grid 800 (f64.mul (f64.mul (f64.div (f64.bins 0) f64.six) f64.convDown) f64.expansion) := b2.mul' exp_grid (by decide)
        have b4 : f64.mulZ (f64.mulZ (f64.divZ (f64.bins 0) f64.six) f64.convDown) f64.expansion = f64.mul (f64.mul (f64.div (f64.bins 0) f64.six) f64.convDown) f64.expansion := by
          rw [b1]; exact b2.mulZ (by decide) (by decide) (by decide) exp_grid b3
        have c1 := car_grid (F := f64) (z := Z (0 + 0)) (c := C (0 + 0)) (hC _)
        have c2 : f64.Grid 52 (f64.mul (f64.carF (Z (0 + 0)) (C (0 + 0))) (f64.mul (f64.mul (f64.div (f64.bins 0) f64.six) f64.convDown) f64.expansion)) := c1.mul' b3 (by decide)
        have t1 := add52 (Y := zero) ⟨rfl, zero_grid⟩ (t := f64.mulZ (f64.carF (Z (0 + 0)) (C (0 + 0))) (f64.mulZ (f64.mulZ (f64.divZ (f64.bins 0) f64.six) f64.convDown) f64.expansion)) ⟨by rw [b4]; exact c1.mulZ (by decide) (by decide) (by decide) b3 c2, c2⟩
        have t2 := add52 t1 (carD (z := Z (0 + 1)) (c := C (0 + 1)) h1 (hC _))
        obtain ⟨o1, o2⟩ := offD (b := B (0 + 0)) h0 (hB _)
        have o3 : f64.Grid 52 (f64.mul (f64.mul (f64.sub (f64.mkPri 0 (B (0 + 0))) (f64.bins 0)) f64.convDown) f64.expansion) := o2.mul' exp_grid (by decide)
        have t3 := add52 t2 (t := f64.mulZ (f64.mulZ (f64.subZ (f64.mkPri 0 (B (0 + 0))) (f64.bins 0)) f64.convDown) f64.expansion) ⟨by rw [o1]; exact o2.mulZ (by decide) (by decide) (by decide) exp_grid o3, o3⟩
        exact ⟨Prod.ext t3.1 rfl, t3.2, rfl⟩
      · rw [if_neg k0] at hs hsZ
        rw [← hs, ← hsZ, car 0 (by omega), if_neg k0]
        have t := add52 (Y := zero) ⟨rfl, zero_grid⟩ (carD (j := k) (z := Z (k + 0)) (c := C (k + 0)) (sexp_lo h3) (hC _))
        exact ⟨Prod.ext t.1 rfl, t.2, rfl⟩
    obtain ⟨k1, k2, k3⟩ := key
    rw [k1]
    have k4 : start.2 ≤ 2 := by rw [k3]; split <;> omega
    have stepS : ∀ i ∈ List.range' start.2 (min fold (3 - k) - start.2), ∀ Y, f64.Grid 52 Y → f64.convStepSZ (f64.midZ fold k B C Z) k Y i = f64.convStepS (f64.midZ fold k B C Z) k Y i ∧ f64.Grid 52 (f64.convStepS (f64.midZ fold k B C Z) k Y i) := by
      intro i hi Y hY
      obtain ⟨i1, i2⟩ := List.mem_range'_1.1 hi
      have hi1 : 1 ≤ i := by rw [k3] at i1; split at i1 <;> omega
      have hi2 : i < fold := by omega
      unfold convStepSZ convStepS
      rw [car i hi2, pri (i - 1) (by omega)]
      have o := offD (j := k + (i - 1)) (b := B (k + (i - 1))) (sexp_lo (by omega)) (hB _)
      exact add52 (add52 ⟨rfl, hY⟩ (carD (sexp_lo (by omega)) (hC _))) ⟨o.1, o.2.mono (by decide)⟩
    obtain ⟨l1, l2⟩ := fold_grid _ start.1 stepS k2
    rw [l1]
    generalize (List.range' start.2 (min fold (3 - k) - start.2)).foldl (f64.convStepS (f64.midZ fold k B C Z) k) start.1 = Y at l2
    have hup := up52 (Y := Y) ⟨rfl, l2⟩
    by_cases hi : max start.2 (min fold (3 - k)) = fold
    · rw [if_pos hi, if_pos hi]
      refine up52 (add52 ⟨rfl, l2⟩ ?_)
      rw [pri _ (by omega)]
      have o := offD (j := k + (fold - 1)) (b := B (k + (fold - 1))) (sexp_lo (by rw [k3] at hi; split at hi <;> omega)) (hB _)
      exact ⟨o.1, o.2.mono (by decide)⟩
    · rw [if_neg hi, if_neg hi, hup.1]
      split
      · exact ⟨rfl, hup.2⟩
      · obtain ⟨m1, m2⟩ := fold_grid (List.range' (max start.2 (min fold (3 - k))) (fold - max start.2 (min fold (3 - k)))) (f64.mul Y f64.convUp) (fun i hi Y hY => step i (by
            have := (List.mem_range'_1.1 hi).1
            rw [k3] at this; split at this <;> omega) (by have := (List.mem_range'_1.1 hi).2; omega) Y hY) hup.2
        exact add52 ⟨m1, m2⟩ last
  · rw [if_neg h3, if_neg h3]
    have t := add52 (Y := zero) ⟨rfl, zero_grid⟩ (carT (j := k) (z := Z (k + 0)) (c := C (k + 0)) (hu k (by omega)) (hC _))
    rw [car 0 (by omega), t.1]
    obtain ⟨m1, m2⟩ := fold_grid (List.range' 1 (fold - 1)) _ (fun i hi Y hY => step i (List.mem_range'_1.1 hi).1 (by have := (List.mem_range'_1.1 hi).2; omega) Y hY) t.2
    exact add52 ⟨m1, m2⟩ last

end Fmt
open Fmt

/-! ### Floats -/

theorem widen_grid {u : Nat} {x : Flt} (hx : f32.Finite x) (h : f32.Grid u x) : f64.Grid (u + 925) (widen x) := fun _ => by
  rw [(widen_ok hx).2.1, pow_add]; exact Int.mul_dvd_mul (h hx) (Int.dvd_refl _)

theorem widenZ_eq {u : Nat} {x : Flt} (hu : 23 ≤ u) (hx : f32.Finite x) (h : f32.Grid u x) : widenZ x = widen x := by
  unfold widenZ
  rw [h.flush hu, (widen_grid hx h).flush (by show 52 ≤ _; omega)]

theorem narrowZ_eq {Y : Flt} (h : f64.Grid 948 Y) : narrowZ Y = narrow Y := by
  unfold narrowZ
  rw [h.flush (by decide)]
  by_cases hf : f64.Finite Y
  · have ⟨y1, y2⟩ := finite_iff.1 hf
    unfold narrow
    rw [y1, y2, etaDiff]
    simp only [Bool.false_eq_true, if_false]
    have hd := Int.natAbs_dvd_natAbs.2 (h hf)
    rw [Int.natAbs_pow, toInt_natAbs] at hd
    change 2 ^ 948 ∣ _ at hd
    obtain ⟨m, hm⟩ := hd
    have e : f64.val Y.mag = (2 ^ 23 * m) * 2 ^ 925 := by rw [hm]; generalize hb : (925 : Nat) = b; rw [show 948 = 23 + b by omega, Nat.pow_add]; ring
    rw [e, roundMag_shift]
    have := round_grid (F := f32) (u := 23) (n := ((2 ^ 23 * m : Nat) : Int)) Y.neg ⟨m, by push_cast; ring⟩
    rw [Int.natAbs_natCast] at this
    exact this.flush (Nat.le_refl 23)
  · have hn : ¬ f32.Finite (narrow Y) := by
      unfold narrow
      split
      · exact not_finite (by unfold nan; exact Nat.le_add_right _ _)
      · split
        · exact not_finite (Nat.le_refl _)
        · next h1 h2 => exact absurd (finite_iff.2 ⟨Bool.not_eq_true _ ▸ h1, Bool.not_eq_true _ ▸ h2⟩) hf
    exact (show f32.Grid 23 (narrow Y) from fun h => absurd h hn).flush (Nat.le_refl 23)

theorem scar_grid {z : Bool} {c : Int} (hc : c.natAbs ≤ 2 ^ 24) : widenZ (f32.carF z c) = widen (f32.carF z c) ∧ f64.Grid 1074 (widen (f32.carF z c)) :=
  have hf := (carF_ok (F := f32) (z := z) hc).1
  have g := car_grid (F := f32) (z := z) hc
  ⟨widenZ_eq (by decide) hf g, widen_grid hf g⟩

theorem sbin6_grid {j : Nat} (hj : 23 ≤ f32.sexp j) : sbin6Z j = sbin6 j ∧ f64.Grid 969 (sbin6 j) := by
  have hb : f32.Finite (f32.bins j) := by rw [bins_eq]; exact mkPri_finite (win_zero f32)
  have g : f32.Grid (f32.sexp j) (f32.bins j) := by rw [bins_eq]; exact bin_grid (win_zero f32)
  have g6 : f64.Grid 969 (sbin6 j) := fun _ => by rw [(sbin6_ok j).2]; exact pow_dvd_pow 2 (by show 969 ≤ 21 + f32.sexp j + 925; omega)
  refine ⟨?_, g6⟩
  unfold sbin6Z divZ
  rw [widenZ_eq hj hb g, (widen_grid hb g).flush (by show 52 ≤ _; omega), six_grid.flush eta_ge]
  exact g6.flush (by decide)

theorem soff_grid {j : Nat} {b : Int} (hj : 23 ≤ f32.sexp j) (hb : f32.Win b) :
    widenZ (f32.subZ (f32.mkPri j b) (f32.bins j)) = widen (f32.sub (f32.mkPri j b) (f32.bins j)) ∧ f64.Grid 948 (widen (f32.sub (f32.mkPri j b) (f32.bins j))) := by
  have hf := (offset_ok (F := f32) (j := j) hb).1
  have g1 := bin_grid (F := f32) (j := j) hb
  have g2 : f32.Grid (f32.sexp j) (f32.bins j) := by rw [bins_eq]; exact bin_grid (win_zero f32)
  have g3 := (g1.sub g2).mono hj
  rw [g1.subZ hj g2, widenZ_eq (Nat.le_refl _) hf g3]
  exact ⟨rfl, widen_grid hf g3⟩

theorem sexp_grid : widenZ f32.expansion = widen f32.expansion ∧ f64.Grid 1086 (widen f32.expansion) := by
  have hok := pow2_ok (F := f32) (e := (f32.p : Int) - f32.W + 1) (n := 161) (by decide) (by decide)
  have g : f32.Grid 161 f32.expansion := pow2_grid (F := f32) (n := 161) (by decide) (by decide)
  exact ⟨widenZ_eq (by decide) hok.1 g, widen_grid hok.1 g⟩

theorem add948 {Y Y' t t' : Flt} (hY : Y = Y' ∧ f64.Grid 948 Y') (ht : t = t' ∧ f64.Grid 948 t') : f64.addZ Y t = f64.add Y' t' ∧ f64.Grid 948 (f64.add Y' t') := by
  rw [hY.1, ht.1]; exact ⟨hY.2.addZ (by decide) ht.2, hY.2.add ht.2⟩

theorem scarT {j : Nat} {c : Int} {z : Bool} (hj : 23 ≤ f32.sexp j) (hc : c.natAbs ≤ 2 ^ 24) :
    f64.mulZ (widenZ (f32.carF z c)) (sbin6Z j) = f64.mul (widen (f32.carF z c)) (sbin6 j) ∧ f64.Grid 948 (f64.mul (widen (f32.carF z c)) (sbin6 j)) := by
  obtain ⟨a1, a2⟩ := scar_grid (z := z) hc
  obtain ⟨b1, b2⟩ := sbin6_grid hj
  have g : f64.Grid 948 (f64.mul (widen (f32.carF z c)) (sbin6 j)) := a2.mul' b2 (by decide)
  rw [a1, b1]
  exact ⟨a2.mulZ (by decide) (by decide) (by decide) b2 g, g⟩

theorem mulExp {Y Y' : Flt} (hY : Y = Y' ∧ f64.Grid 948 Y') : f64.mulZ Y (widenZ f32.expansion) = f64.mul Y' (widen f32.expansion) ∧ f64.Grid 948 (f64.mul Y' (widen f32.expansion)) := by
  have g : f64.Grid 948 (f64.mul Y' (widen f32.expansion)) := hY.2.mul' sexp_grid.2 (by decide)
  rw [hY.1, sexp_grid.1]
  exact ⟨hY.2.mulZ (by decide) (by decide) (by decide) sexp_grid.2 g, g⟩

/-- `binned_ssmconv` on bins far above the subnormal range. -/
theorem ssmconvZ_eq {fold k : Nat} {B C : Nat → Int} {Z : Nat → Bool} (hfold : 2 ≤ fold) (hk : k ≤ f32.maxIndex)
    (hu : ∀ j, j < k + fold → 23 ≤ f32.sexp j) (hB : ∀ j, f32.Win (B j)) (hC : ∀ j, (C j).natAbs ≤ 2 ^ 24) :
    ssmconvZ fold (f32.midZ fold k B C Z) = ssmconv fold (f32.midZ fold k B C Z) := by
  have p0 : nth (f32.midZ fold k B C Z).pri 0 = f32.mkPri k (B k) := nth_pri_midZ' (k := k) (i := 0) (by omega)
  have hN : f32.isNaNInf (nth (f32.midZ fold k B C Z).pri 0) = false := by rw [p0]; exact mkPri_isNaNInf (hB k)
  have hZ0 : isZero (nth (f32.midZ fold k B C Z).pri 0) = false := by rw [p0]; exact mkPri_isZero (hB k)
  have hZ1 : f32.isZeroZ (nth (f32.midZ fold k B C Z).pri 0) = false := by rw [p0]; exact mkPri_isZeroZ (hB k)
  have hd : f32.dmindex (nth (f32.midZ fold k B C Z).pri 0) = k := by rw [p0]; exact dmindex_mkPri (hB k) hk
  unfold ssmconvZ ssmconv
  rw [hN, hZ0, hZ1, hd]
  simp only [Bool.false_eq_true, if_false]
  have car : ∀ i, i < fold → nth (f32.midZ fold k B C Z).car i = f32.carF (Z (k + i)) (C (k + i)) := fun i hi => nth_car_midZ hi
  have pri : ∀ i, i < fold → nth (f32.midZ fold k B C Z).pri i = f32.mkPri (k + i) (B (k + i)) := fun i hi => nth_pri_midZ' hi
  have last := soff_grid (j := k + (fold - 1)) (b := B (k + (fold - 1))) (hu _ (by omega)) (hB _)
  rw [← pri _ (by omega)] at last
  have step : ∀ i, 1 ≤ i → i < fold → ∀ Y, f64.Grid 948 Y → sconvStepZ (f32.midZ fold k B C Z) k Y i = sconvStep (f32.midZ fold k B C Z) k Y i ∧ f64.Grid 948 (sconvStep (f32.midZ fold k B C Z) k Y i) := by
    intro i h1 hi Y hY
    unfold sconvStepZ sconvStep
    rw [car i hi, pri (i - 1) (by omega)]
    exact add948 (add948 ⟨rfl, hY⟩ (scarT (hu _ (by omega)) (hC _))) (soff_grid (hu _ (by omega)) (hB _))
  have z0 : f64.Grid 948 zero := zero_grid
  generalize hs : (if k = 0 then
        (f64.add (f64.add (f64.add zero (f64.mul (f64.mul (widen (nth (f32.midZ fold k B C Z).car 0)) (sbin6 0)) (widen f32.expansion)))
          (f64.mul (widen (nth (f32.midZ fold k B C Z).car 1)) (sbin6 1)))
          (f64.mul (widen (f32.sub (nth (f32.midZ fold k B C Z).pri 0) (f32.bins 0))) (widen f32.expansion)), 2)
      else (f64.add zero (f64.mul (widen (nth (f32.midZ fold k B C Z).car 0)) (sbin6 k)), 1) : Flt × Nat) = start
  generalize hsZ : (if k = 0 then
        (f64.addZ (f64.addZ (f64.addZ zero (f64.mulZ (f64.mulZ (widenZ (nth (f32.midZ fold k B C Z).car 0)) (sbin6Z 0)) (widenZ f32.expansion)))
          (f64.mulZ (widenZ (nth (f32.midZ fold k B C Z).car 1)) (sbin6Z 1)))
          (f64.mulZ (widenZ (f32.subZ (nth (f32.midZ fold k B C Z).pri 0) (f32.bins 0))) (widenZ f32.expansion)), 2)
      else (f64.addZ zero (f64.mulZ (widenZ (nth (f32.midZ fold k B C Z).car 0)) (sbin6Z k)), 1) : Flt × Nat) = startZ
  have key : startZ = start ∧ f64.Grid 948 start.1 ∧ (start.2 = if k = 0 then 2 else 1) := by
    by_cases k0 : k = 0
    · rw [if_pos k0] at hs hsZ
      rw [← hs, ← hsZ, car 0 (by omega), car 1 (by omega), pri 0 (by omega), if_pos k0]
      subst k0
      have t1 := add948 (Y := zero) ⟨rfl, z0⟩ (mulExp (scarT (j := 0) (z := Z (0 + 0)) (c := C (0 + 0)) (hu _ (by omega)) (hC _)))
      have t2 := add948 t1 (scarT (j := 1) (z := Z (0 + 1)) (c := C (0 + 1)) (hu _ (by omega)) (hC _))
      have t3 := add948 t2 (mulExp (soff_grid (j := 0) (b := B (0 + 0)) (hu _ (by omega)) (hB _)))
      exact ⟨Prod.ext t3.1 rfl, t3.2, rfl⟩
    · rw [if_neg k0] at hs hsZ
      rw [← hs, ← hsZ, car 0 (by omega), if_neg k0]
      have t := add948 (Y := zero) ⟨rfl, z0⟩ (scarT (j := k) (z := Z (k + 0)) (c := C (k + 0)) (hu _ (by omega)) (hC _))
      exact ⟨Prod.ext t.1 rfl, t.2, rfl⟩
  obtain ⟨k1, k2, k3⟩ := key
  rw [k1]
  have k4 : 1 ≤ start.2 ∧ start.2 ≤ 2 := by rw [k3]; split <;> omega
  obtain ⟨m1, m2⟩ := fold_grid (List.range' start.2 (fold - start.2)) start.1 (fun i hi Y hY => step i (by have := (List.mem_range'_1.1 hi).1; omega) (by have := (List.mem_range'_1.1 hi).2; omega) Y hY) k2
  have t := add948 ⟨m1, m2⟩ last
  rw [t.1]
  exact narrowZ_eq t.2

/-- **C57** (conversions). If the check returns 0 for an accumulator, converting it (`binned_ddbconv`, `binned_ssbconv`) in flush-to-zero mode gives the same bits as in IEEE mode. -/
theorem C57_convert {F : Fmt} [F.OK] {fold : Nat} (hfold : 2 ≤ fold) (h : Hist) (hl : h.Legal F) (hN : h.nums.length ≤ F.capacity)
    (hd : F.dmdenorm fold (nth (h.eval F fold).pri 0) = false) : convertZ F fold (h.eval F fold) = convert F fold (h.eval F fold) := by
  have e := endurance_pos (F := F)
  have hm := hist_mid hfold h hl (by omega)
  have hs : h.seen ≠ [] := by
    intro hs
    rw [(hm.1 hs).1, denorm_zero] at hd
    exact absurd hd (by simp)
  have hU := C57_units hfold h hl hN hd
  have hS : ∀ j, j < F.minIndex h.seen + fold → F.p - 1 ≤ F.sexp j := fun j hj => sexp_big (by have := hU j hj; have := (F.facts).2.1; omega)
  have hmax : F.minIndex h.seen ≤ F.maxIndex := minIndex_le _
  obtain ⟨B, C, Z, h1, h2, h3, h4, h5, h6⟩ := hm.2.1 hs
  rw [h1]
  have hW : ∀ j, F.Win (B j) := fun j => win_of_bound (Nat.zero_le _) (h3 j)
  have hC : ∀ j, (C j).natAbs ≤ 2 ^ F.p := fun j => Nat.le_trans (car_of_bound (Nat.zero_le _) hN (h3 j) (h6 j) (h2 j)) (Nat.pow_le_pow_right (by omega) (by omega))
  unfold convertZ convert
  rcases Fmt.OK.isDoubleOrFloat (F := F) with hF | hF
  · subst hF
    rw [if_neg (by decide), if_neg (by decide)]
    exact (ddmconvZ_eq hfold hmax hS hW hC).1
  · subst hF
    rw [if_pos rfl, if_pos rfl]
    exact ssmconvZ_eq hfold hmax hS hW hC

/-- One check at the start is enough for a whole sum: additions and the conversion in flush-to-zero mode give the bits of the IEEE run, which are those of the documented sum. -/
theorem C57_sum_convert {F : Fmt} [F.OK] {fold : Nat} (hfold : 2 ≤ fold) (h : Hist) (hl : h.Legal F) (xs : List Flt)
    (hx : ∀ x ∈ xs, F.Finite x) (hN : h.nums.length + xs.length ≤ F.capacity) (hd : F.dmdenorm fold (nth (h.eval F fold).pri 0) = false) :
    convertZ F fold (xs.foldl (fun y x => F.dmdaddZ fold x y) (h.eval F fold)) = convert F fold (F.sumSeq fold xs (h.eval F fold)) := by
  obtain ⟨e1, e2⟩ := C57_one_check hfold h hl xs hx hN hd
  rw [e1]
  have gen : ∀ (xs : List Flt) (h : Hist), h.Legal F → (∀ x ∈ xs, F.Finite x) → ∃ h' : Hist, h'.Legal F ∧ h'.eval F fold = F.sumSeq fold xs (h.eval F fold) ∧ h'.nums.length = h.nums.length + xs.length := by
    intro xs
    induction xs with
    | nil => intro h hl _; exact ⟨h, hl, rfl, rfl⟩
    | cons x xs ih =>
      intro h hl hx
      obtain ⟨h', a, b, c⟩ := ih (.add x h) ⟨hx x List.mem_cons_self, hl⟩ (fun z hz => hx z (List.mem_cons_of_mem _ hz))
      exact ⟨h', a, b, by rw [c]; simp only [Hist.nums, List.length_cons]; omega⟩
  obtain ⟨h', a, b, c⟩ := gen xs h hl hx
  rw [← b] at e2 ⊢
  exact C57_convert hfold h' a (by omega) e2

/-- The hypotheses are met and the operations are not trivially the same: 1 + 2^-1074 + 2^-30 (double), and with a float subnormal. -/
example : f64.dmdenorm 3 (nth ((Hist.add (f64.ofInt 1) .zero).eval f64 3).pri 0) = false ∧
    convertZ f64 3 ([⟨false, 1⟩, f64.pow2 (-30)].foldl (fun y x => f64.dmdaddZ 3 x y) ((Hist.add (f64.ofInt 1) .zero).eval f64 3)) = f64.add (f64.ofInt 1) (f64.pow2 (-30)) := by
  decide +kernel
example : f32.dmdenorm 3 (nth ((Hist.add (f32.ofInt 1) .zero).eval f32 3).pri 0) = false ∧
    convertZ f32 3 ([⟨false, 1⟩, f32.pow2 (-10)].foldl (fun y x => f32.dmdaddZ 3 x y) ((Hist.add (f32.ofInt 1) .zero).eval f32 3)) = f32.add (f32.ofInt 1) (f32.pow2 (-10)) := by
  decide +kernel

/-- Without the check the conversion, too, changes its result: of a subnormal number nothing is left. -/
theorem C57_guard_needed_convert :
    (convert f64 3 (f64.dmdadd 3 ⟨false, 2 ^ 40⟩ (dmsetzero 3)) = ⟨false, 2 ^ 40⟩ ∧ convertZ f64 3 (f64.dmdadd 3 ⟨false, 2 ^ 40⟩ (dmsetzero 3)) = ⟨false, 0⟩) ∧
    convert f32 3 (f32.dmdadd 3 ⟨false, 2 ^ 22 + 2 ^ 12⟩ (dmsetzero 3)) = ⟨false, 2 ^ 22 + 2 ^ 12⟩ ∧ convertZ f32 3 (f32.dmdadd 3 ⟨false, 2 ^ 22 + 2 ^ 12⟩ (dmsetzero 3)) = ⟨false, 0⟩ := by
  decide +kernel

end Repro
