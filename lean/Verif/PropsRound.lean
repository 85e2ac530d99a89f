import Verif.PropsConv
/-!
# C18: round trip of a single number
-/

namespace Repro
open Fmt
variable {F : Fmt}

namespace Fmt

/-- If something is left after bin `j`, the number is small compared to the unit of bin `j`. -/
theorem resid_ne_small [F.OK] {x : Flt} {j : Nat} (h : F.resid (F.toInt x) (j + 1) ≠ 0) :
    (F.toInt x).natAbs < 2 ^ (F.p - 1) * 2 ^ F.uexp j := by
  obtain ⟨mant, e, h1, h2, _⟩ := val_decomp (F := F) x.mag
  have ⟨hp, _⟩ := F.facts
  have hu := uexp_ge (F := F) j
  rw [toInt_natAbs, h1]
  have he : e < F.uexp j := by
    by_contra hc
    apply h
    apply resid_zero_of_dvd
    rw [← Int.natAbs_dvd_natAbs, toInt_natAbs, h1, Int.natAbs_pow]
    exact Dvd.dvd.mul_left (pow_dvd_pow 2 (by omega)) mant
  have h3 : mant * 2 ^ e < 2 ^ F.p * 2 ^ e := (Nat.mul_lt_mul_right (pow_pos' e)).2 h2
  have h4 : 2 ^ F.p * 2 ^ e ≤ 2 ^ (F.p - 1) * 2 ^ F.uexp j := by
    rw [← Nat.pow_add, ← Nat.pow_add]; exact Nat.pow_le_pow_right (by omega) (by omega)
  omega

theorem slice_resid_zero [F.OK] {r : Int} {j : Nat} (h : F.resid r j = 0) : F.slice r j = 0 := by
  unfold slice; rw [h]
  have hu := uexp_ge (F := F) j
  exact rha_zero (by omega) (by have := ipow_pos (F.uexp j); omega) (by have := ipow_pos (F.uexp j); omega)

/-- A number that is a multiple of `2^u` and less than `2^(p+u)` has at most `p` significant bits. -/
theorem rndZ_mult [F.OK] {n : Int} {u : Nat} (hd : (2 ^ u : Int) ∣ n) (h : n.natAbs < 2 ^ F.p * 2 ^ u) :
    rndZ 53 n = n ∧ rndZ F.p n = n := by
  have ⟨hp, _⟩ := F.facts
  have hp53 : F.p ≤ 53 := by
    have := ‹F.OK›.isDoubleOrFloat
    rcases this with h | h <;> rw [h] <;> decide
  obtain ⟨c, hc⟩ := hd
  have hn : n.natAbs = c.natAbs * 2 ^ u := by rw [hc, mul_comm, natAbs_mul_pow]
  have hcl : c.natAbs < 2 ^ F.p := by
    rw [hn] at h; exact (Nat.mul_lt_mul_right (pow_pos' u)).1 h
  exact ⟨rndZ_exact (by omega) hn (Nat.lt_of_lt_of_le hcl (Nat.pow_le_pow_right (by omega) hp53)), rndZ_exact (by omega) hn hcl⟩

/-- The partial sums of the conversion of a single number are exact. -/
theorem roundtrip_total [F.OK] {x : Flt} (hx : F.Finite x) {fold : Nat} (hfold : 1 ≤ fold) :
    let r := F.toInt x
    let k := F.dindex x
    convTotal (F.carTerm (fun j => F.slice r j / 2 ^ (F.p - 3))) (F.priTerm (fun j => F.slice r j % 2 ^ (F.p - 3))) k fold =
      r - F.resid r (k + fold) := by
  intro r k
  have ⟨hp, hW, hWp, _⟩ := F.facts
  have hT := ipow_pos (F.p - 3)
  have hfit := fits_dindex hx
  have hkm := dindex_le_max (F := F) x
  have hrk : F.resid r k = r := resid_of_fits hkm hfit k (Nat.le_refl _)
  have hA : ∀ j, (F.slice r j).natAbs < 2 ^ (F.p - 3) := by
    intro j
    have h1 := slice_le (fits0_finite hx) j
    have h2 : 2 ^ (F.W - 1) < 2 ^ (F.p - 3) := Nat.pow_lt_pow_right (by omega) (by omega)
    exact Nat.lt_of_le_of_lt h1 h2
  have hTn : ((2 ^ (F.p - 3) : Nat) : Int) = 2 ^ (F.p - 3) := by push_cast; rfl
  have hC : ∀ j, (F.slice r j / 2 ^ (F.p - 3) = 0 ∨ (F.slice r j / 2 ^ (F.p - 3) = -1 ∧ F.slice r j ≠ 0)) := by
    intro j
    have h1 := hA j
    by_cases hs : 0 ≤ F.slice r j
    · left; exact Int.ediv_eq_zero_of_lt hs (by omega)
    · right
      refine ⟨?_, by omega⟩
      rw [show F.slice r j = (F.slice r j + 2 ^ (F.p - 3)) + (-1) * 2 ^ (F.p - 3) by ring,
        Int.add_mul_ediv_right _ _ (ne_of_gt hT), Int.ediv_eq_zero_of_lt (by omega) (by omega)]
      rfl
  generalize hct : F.carTerm (fun j => F.slice r j / 2 ^ (F.p - 3)) = ct
  generalize hbt : F.priTerm (fun j => F.slice r j % 2 ^ (F.p - 3)) = bt
  have hsum : ∀ j, ct j + bt j = F.slice r j * 2 ^ F.uexp j := by
    intro j
    rw [← hct, ← hbt]; unfold carTerm priTerm
    have := Int.mul_ediv_add_emod (F.slice r j) (2 ^ (F.p - 3))
    rw [mul_comm] at this
    rw [← Int.add_mul, this]
  have hres : ∀ j, F.resid r (j + 1) = F.resid r j - F.slice r j * 2 ^ F.uexp j := fun j => rfl
  have hctv : ∀ j, ct j = 0 ∨ (ct j = - (2 ^ (F.p - 3) * 2 ^ F.uexp j) ∧ F.slice r j ≠ 0) := by
    intro j
    rw [← hct]; unfold carTerm
    rcases hC j with h | ⟨h, h2⟩
    · left; dsimp only; rw [h]; ring
    · right; refine ⟨?_, h2⟩; dsimp only; rw [h]; ring
  have hmul : ∀ i, (2 ^ F.uexp (k + i) : Int) ∣ r - F.resid r (k + i + 1) := by
    intro i
    have hs := slices_sum (F := F) r k (i + 1)
    rw [hrk] at hs
    have e : k + (i + 1) = k + i + 1 := by omega
    rw [e] at hs
    rw [← hs]
    have : ∀ n, n ≤ i + 1 → (2 ^ F.uexp (k + i) : Int) ∣ sumTo (fun i => F.slice r (k + i) * 2 ^ F.uexp (k + i)) n := by
      intro n
      induction n with
      | zero => intro _; unfold sumTo; exact dvd_zero _
      | succ n ih =>
        intro hn
        unfold sumTo
        exact Int.dvd_add (ih (by omega)) (pow_dvd_rha_mul (uexp_anti (by omega)) _)
    exact this (i + 1) (Nat.le_refl _)
  have hctd : ∀ i j, i ≤ j → j ≤ i + 1 → (2 ^ F.uexp i : Int) ∣ ct j := by
    intro i j hij hji
    rcases hctv j with h | ⟨h, _⟩
    · rw [h]; exact dvd_zero _
    · rw [h, Int.dvd_neg, ← pow_add]
      apply pow_dvd_pow
      have h1 : F.uexp i ≤ F.uexp (i + 1) + F.W := uexp_succ_le i
      have h2 : F.uexp (i + 1) ≤ F.uexp j := uexp_anti hji
      omega
  have hctb : ∀ j, (ct j).natAbs ≤ 2 ^ (F.p - 3) * 2 ^ F.uexp j := by
    intro j
    rcases hctv j with h | ⟨h, _⟩
    · rw [h]; simp
    · rw [h, Int.natAbs_neg, natAbs_mul_pow, Int.natAbs_pow]; exact Nat.le_refl _
  have hresb : ∀ j, 2 * (F.resid r (j + 1)).natAbs ≤ 2 ^ F.uexp j := by
    intro j
    have h := resid_succ_bound (F := F) r j
    have : ((2 ^ F.uexp j : Nat) : Int) = 2 ^ F.uexp j := by push_cast; rfl
    omega
  have hpp : 2 ^ F.p = 8 * 2 ^ (F.p - 3) := by
    have : F.p = 3 + (F.p - 3) := by omega
    conv_lhs => rw [this, Nat.pow_add]
  have hpp1 : 2 ^ (F.p - 1) = 4 * 2 ^ (F.p - 3) := by
    have : F.p - 1 = 2 + (F.p - 3) := by omega
    conv_lhs => rw [this, Nat.pow_add]
  have hWT : 2 * 2 ^ (F.W - 1) ≤ 2 ^ (F.p - 3) := by
    rw [← Nat.pow_succ']; exact Nat.pow_le_pow_right (by omega) (by omega)
  have hW2 : 2 ^ F.W = 2 * 2 ^ (F.W - 1) := by rw [← Nat.pow_succ']; congr 1; omega
  have hT1 : 1 ≤ 2 ^ (F.p - 3) := pow_pos' _
  have hT8 : 2 ^ 3 ≤ 2 ^ (F.p - 3) := Nat.pow_le_pow_right (by omega) (by omega)
  -- a full step
  have hacc : ∀ i, rndZ 53 (r - F.resid r (k + i + 1) + ct (k + i + 1)) = r - F.resid r (k + i + 1) + ct (k + i + 1) := by
    intro i
    by_cases h0 : F.resid r (k + i + 1) = 0
    · have hs : ct (k + i + 1) = 0 := by
        rcases hctv (k + i + 1) with h | ⟨_, h⟩
        · exact h
        · exact absurd (slice_resid_zero h0) h
      rw [h0, hs]
      obtain ⟨mant, e, h1, h2, _⟩ := val_decomp (F := F) x.mag
      have hp53 : F.p ≤ 53 := by
        have := ‹F.OK›.isDoubleOrFloat
        rcases this with h | h <;> rw [h] <;> decide
      refine rndZ_exact (by omega) (m := mant) (e := e) ?_ (Nat.lt_of_lt_of_le h2 (Nat.pow_le_pow_right (by omega) hp53))
      have : r - 0 + 0 = r := by ring
      rw [this, toInt_natAbs, h1]
    · refine (rndZ_mult (F := F) (u := F.uexp (k + i)) (Int.dvd_add (hmul i) (hctd _ _ (by omega) (by omega))) ?_).1
      have h1 := resid_ne_small h0
      have h2 := hresb (k + i)
      have h3 := hctb (k + i + 1)
      have h4 : 2 ^ (F.p - 3) * 2 ^ F.uexp (k + i + 1) ≤ 2 ^ (F.p - 3) * 2 ^ F.uexp (k + i) :=
        Nat.mul_le_mul_left _ (Nat.pow_le_pow_right (by omega) (uexp_anti (by omega)))
      have h5 : (r - F.resid r (k + i + 1) + ct (k + i + 1)).natAbs ≤ r.natAbs + (F.resid r (k + i + 1)).natAbs + (ct (k + i + 1)).natAbs := by omega
      rw [hpp]; rw [hpp1] at h1
      have e1 : 4 * 2 ^ (F.p - 3) * 2 ^ F.uexp (k + i) = 4 * (2 ^ (F.p - 3) * 2 ^ F.uexp (k + i)) := by ring
      have e2 : 8 * 2 ^ (F.p - 3) * 2 ^ F.uexp (k + i) = 8 * (2 ^ (F.p - 3) * 2 ^ F.uexp (k + i)) := by ring
      have h6 : 1 * 2 ^ F.uexp (k + i) ≤ 2 ^ (F.p - 3) * 2 ^ F.uexp (k + i) := Nat.mul_le_mul_right _ hT1
      omega
  -- a half step
  have hhalf : ∀ i, rndZ 53 (r - F.resid r (k + i) + ct (k + i) + ct (k + i + 1)) = r - F.resid r (k + i) + ct (k + i) + ct (k + i + 1) := by
    intro i
    cases i with
    | zero =>
      simp only [Nat.add_zero]
      rw [hrk]
      have e : r - r + ct k + ct (k + 1) = ct k + ct (k + 1) := by ring
      rw [e]
      have hd : (2 ^ (F.p - 3 + F.uexp (k + 1)) : Int) ∣ ct k + ct (k + 1) := by
        apply Int.dvd_add
        · rcases hctv k with h | ⟨h, _⟩
          · rw [h]; exact dvd_zero _
          · rw [h, Int.dvd_neg, ← pow_add]; exact pow_dvd_pow 2 (by have := uexp_succ_le' (F := F) k; omega)
        · rcases hctv (k + 1) with h | ⟨h, _⟩
          · rw [h]; exact dvd_zero _
          · rw [h, Int.dvd_neg, ← pow_add]
      refine (rndZ_mult (F := F) hd ?_).1
      have h1 := hctb k
      have h2 := hctb (k + 1)
      have h3 : 2 ^ (F.p - 3) * 2 ^ F.uexp k ≤ 2 ^ F.W * (2 ^ (F.p - 3) * 2 ^ F.uexp (k + 1)) := by
        rw [← Nat.pow_add, ← Nat.pow_add, ← Nat.pow_add]
        exact Nat.pow_le_pow_right (by omega) (by have := uexp_succ_le (F := F) k; omega)
      rw [Nat.pow_add]
      have h4 : 2 ^ F.W * (2 ^ (F.p - 3) * 2 ^ F.uexp (k + 1)) + (2 ^ (F.p - 3) * 2 ^ F.uexp (k + 1)) = (2 ^ F.W + 1) * (2 ^ (F.p - 3) * 2 ^ F.uexp (k + 1)) := by ring
      have h5 : (2 ^ F.W + 1) * (2 ^ (F.p - 3) * 2 ^ F.uexp (k + 1)) < 2 ^ F.p * (2 ^ (F.p - 3) * 2 ^ F.uexp (k + 1)) := by
        apply (Nat.mul_lt_mul_right ?_).2
        · omega
        · exact Nat.mul_pos (pow_pos' _) (pow_pos' _)
      omega
    | succ i =>
      have ei : k + (i + 1) = k + i + 1 := by omega
      rw [ei]
      rcases hctv (k + i + 1 + 1) with h | ⟨h, hne⟩
      · rw [h, add_zero]; exact hacc i
      · have hr : F.resid r (k + i + 1 + 1) ≠ 0 := fun h0 => hne (slice_resid_zero h0)
        refine (rndZ_mult (F := F) (u := F.uexp (k + i + 1)) ?_ ?_).1
        · refine Int.dvd_add (Int.dvd_add (dvd_trans (pow_dvd_pow 2 (uexp_anti (by omega))) (hmul i)) (hctd _ _ (by omega) (by omega))) (hctd _ _ (by omega) (by omega))
        · have h1 := resid_ne_small hr
          have h2 := hresb (k + i)
          have h2' : 2 ^ F.uexp (k + i) ≤ 2 ^ F.W * 2 ^ F.uexp (k + i + 1) := by
            rw [← Nat.pow_add]; exact Nat.pow_le_pow_right (by omega) (by have := uexp_succ_le (F := F) (k + i); omega)
          have h3 := hctb (k + i + 1)
          have h3' := hctb (k + i + 1 + 1)
          have h4 : 2 ^ (F.p - 3) * 2 ^ F.uexp (k + i + 1 + 1) ≤ 2 ^ (F.p - 3) * 2 ^ F.uexp (k + i + 1) :=
            Nat.mul_le_mul_left _ (Nat.pow_le_pow_right (by omega) (uexp_anti (by omega)))
          have h5 : (r - F.resid r (k + i + 1) + ct (k + i + 1) + ct (k + i + 1 + 1)).natAbs ≤
              r.natAbs + (F.resid r (k + i + 1)).natAbs + (ct (k + i + 1)).natAbs + (ct (k + i + 1 + 1)).natAbs := by omega
          have h6 : 2 ^ F.W * 2 ^ F.uexp (k + i + 1) ≤ 2 ^ (F.p - 3) * 2 ^ F.uexp (k + i + 1) := Nat.mul_le_mul_right _ (by omega)
          rw [hpp]; rw [hpp1] at h1
          have e1 : 4 * 2 ^ (F.p - 3) * 2 ^ F.uexp (k + i + 1) = 4 * (2 ^ (F.p - 3) * 2 ^ F.uexp (k + i + 1)) := by ring
          have e2 : 8 * 2 ^ (F.p - 3) * 2 ^ F.uexp (k + i + 1) = 8 * (2 ^ (F.p - 3) * 2 ^ F.uexp (k + i + 1)) := by ring
          have h7 := Nat.mul_pos hT1 (pow_pos' (F.uexp (k + i + 1)))
          omega
  have hconv : ∀ i, convAcc ct bt k i = r - F.resid r (k + i) + ct (k + i) := by
    intro i
    induction i with
    | zero =>
      unfold convAcc
      simp only [Nat.add_zero]
      rw [hrk, sub_self, zero_add]
      rcases hctv k with h | ⟨h, _⟩
      · rw [h, rndZ_zero]
      · refine rndZ_exact (by omega) (m := 1) (e := F.p - 3 + F.uexp k) ?_ (by norm_num)
        rw [h, Int.natAbs_neg, natAbs_mul_pow, Int.natAbs_pow, Nat.pow_add, Nat.one_mul]; rfl
    | succ i ih =>
      unfold convAcc
      rw [ih, hhalf i]
      have e : r - F.resid r (k + i) + ct (k + i) + ct (k + i + 1) + bt (k + i) = r - F.resid r (k + i + 1) + ct (k + i + 1) := by
        rw [hres (k + i), ← hsum (k + i)]; ring
      rw [e, hacc i]
      have : k + (i + 1) = k + i + 1 := by omega
      rw [this]
  unfold convTotal
  rw [hconv]
  have e : k + (fold - 1) + 1 = k + fold := by omega
  rw [← e, hres, ← hsum]; ring

end Fmt

/-- The state after converting a number: the canonical state of its slices. -/
theorem dmdconv_canon [F.OK] {fold : Nat} (hfold : 2 ≤ fold) {x : Flt} (hx : F.Finite x) :
    F.dmdconv fold x = F.canon fold (F.dindex x) (fun j => F.slice (F.toInt x) j) := by
  have hcap : 1 ≤ F.capacity := capacity_pos
  have h := C01_sum_is_spec (F := F) (xs := [x]) hfold (by simpa using hx) (by simpa using hcap)
  have e : F.dmdconv fold x = F.sumSeq fold [x] (dmsetzero fold) := rfl
  rw [e, h]
  unfold specSum
  rw [if_neg (by simp)]
  have e1 : F.minIndex [x] = F.dindex x := by
    rw [minIndex_cons]; exact Nat.min_eq_left (dindex_le_max x)
  rw [e1]
  congr 1
  funext j; rw [total_cons, total_nil, add_zero]

/-- **C18** (general). Converting a finite number to binned and back gives a finite multiple of the unit of the last
bin used that is within half of that unit of the number; with no error if the number is a multiple of the unit. -/
theorem C18_round_trip_error [F.OK] {fold : Nat} (hfold : 2 ≤ fold) (hfold' : fold < 2 ^ 50) {x : Flt} (hx : F.Finite x) :
    let u := F.uexp (F.dindex x + fold - 1)
    let y := convert F fold (F.dmdconv fold x)
    F.Finite y ∧ (2 ^ u : Int) ∣ F.toInt y ∧ 2 * (F.toInt y - F.toInt x).natAbs ≤ 2 ^ u ∧
    ((2 ^ u : Int) ∣ F.toInt x → F.toInt y = F.toInt x ∧ (F.toInt x = 0 → y.neg = false)) := by
  intro u y
  have ⟨hp, hW, hWp, _, he, he1, hb, het, _⟩ := F.facts
  have hcap : 1 ≤ F.capacity := capacity_pos
  have hk := dindex_le_max (F := F) x
  have hy : y = F.ofUnits (rndZ 53 (F.toInt x - F.resid (F.toInt x) (F.dindex x + fold))) := by
    show convert F fold (F.dmdconv fold x) = _
    rw [dmdconv_canon hfold hx, convert_canon hfold hfold' hk (fun j => by
      have := slice_le (fits0_finite hx) j
      have : 1 * 2 ^ (F.W - 1) ≤ F.capacity * 2 ^ (F.W - 1) := Nat.mul_le_mul_right _ hcap
      omega), roundtrip_total hx (by omega)]
  have e : F.dindex x + fold - 1 + 1 = F.dindex x + fold := by omega
  have hrb := resid_succ_bound (F := F) (F.toInt x) (F.dindex x + fold - 1)
  rw [e] at hrb
  have hu : ((2 ^ u : Nat) : Int) = 2 ^ u := by push_cast; rfl
  generalize hR : F.resid (F.toInt x) (F.dindex x + fold) = R at hy hrb
  have hdvd : (2 ^ u : Int) ∣ F.toInt x - R := by
    have hs := slices_sum (F := F) (F.toInt x) (F.dindex x) fold
    rw [resid_of_fits hk (fits_dindex hx) _ (Nat.le_refl _), hR] at hs
    rw [← hs]
    have : ∀ n, n ≤ fold → (2 ^ u : Int) ∣ sumTo (fun i => F.slice (F.toInt x) (F.dindex x + i) * 2 ^ F.uexp (F.dindex x + i)) n := by
      intro n
      induction n with
      | zero => intro _; unfold sumTo; exact dvd_zero _
      | succ n ih =>
        intro hn
        unfold sumTo
        exact Int.dvd_add (ih (by omega)) (pow_dvd_rha_mul (uexp_anti (by omega)) _)
    exact this fold (Nat.le_refl _)
  have hrep : rndZ 53 (F.toInt x - R) = F.toInt x - R ∧ rndZ F.p (F.toInt x - R) = F.toInt x - R ∧ (F.toInt x - R).natAbs < 2 ^ (F.p + F.emax - 2) := by
    by_cases h0 : R = 0
    · obtain ⟨mant, ee, h1, h2, _⟩ := val_decomp (F := F) x.mag
      have hp53 : F.p ≤ 53 := by
        have := ‹F.OK›.isDoubleOrFloat
        rcases this with h | h <;> rw [h] <;> decide
      have ha : (F.toInt x - R).natAbs = mant * 2 ^ ee := by rw [h0, sub_zero, toInt_natAbs, h1]
      refine ⟨rndZ_exact (by omega) ha (Nat.lt_of_lt_of_le h2 (Nat.pow_le_pow_right (by omega) hp53)), rndZ_exact (by omega) ha h2, ?_⟩
      rw [h0, sub_zero, toInt_natAbs]; exact val_lt hx
    · have hs := resid_ne_small (F := F) (x := x) (j := F.dindex x + fold - 1) (by rw [e, hR]; exact h0)
      have h1 : F.uexp (F.dindex x + fold - 1) = u := rfl
      rw [h1] at hs
      have hlt : (F.toInt x - R).natAbs < 2 ^ F.p * 2 ^ u := by
        have hpp := two_p (F := F)
        have : 1 * 2 ^ u ≤ 2 ^ (F.p - 1) * 2 ^ u := Nat.mul_le_mul_right _ (pow_pos' _)
        have e2 : 2 ^ F.p * 2 ^ u = 2 * (2 ^ (F.p - 1) * 2 ^ u) := by rw [hpp]; ring
        rw [h1] at hrb
        omega
      have hm := rndZ_mult (F := F) hdvd hlt
      refine ⟨hm.1, hm.2, Nat.lt_of_lt_of_le hlt ?_⟩
      rw [← Nat.pow_add]
      have : u < F.emax - 2 := uexp_emax (by omega)
      exact Nat.pow_le_pow_right (by omega) (by omega)
  have hg := ofUnits_good (F := F) (n := F.toInt x - R) (by rw [hrep.2.1]; exact hrep.2.2)
  rw [hrep.2.1] at hg
  rw [hrep.1] at hy
  rw [hy]
  refine ⟨hg.1, ?_, ?_, ?_⟩
  · rw [hg.2.1]; exact hdvd
  · rw [hg.2.1]
    have : F.uexp (F.dindex x + fold - 1) = u := rfl
    rw [this] at hrb
    omega
  · intro hd
    have h0 : R = 0 := by
      rw [← hR, ← e]; exact resid_zero_of_dvd hd
    rw [h0, sub_zero] at hg ⊢
    exact ⟨hg.2.1, hg.2.2⟩

/-- **C18.** With fold at least 3 every finite number that is a multiple of the unit of the smallest bin survives the
round trip with all its bits (a negative zero becomes a positive zero). -/
theorem C18_round_trip [F.OK] {fold : Nat} (hfold : 3 ≤ fold) (hfold' : fold < 2 ^ 50) {x : Flt} (hx : F.Finite x)
    (hd : (2 ^ F.uexp F.maxIndex : Int) ∣ F.toInt x) :
    convert F fold (F.dmdconv fold x) = if x.mag = 0 then zero else x := by
  have ⟨hp, hW, hWp, hpW, he, he1, hb, het, _⟩ := F.facts
  have ⟨b1, b2, b3, b4, b5, b6, b7, _⟩ := F.bfacts
  have h := C18_round_trip_error (F := F) (fold := fold) (by omega) hfold' hx
  dsimp only at h
  have hd' : (2 ^ F.uexp (F.dindex x + fold - 1) : Int) ∣ F.toInt x := by
    by_cases hm : F.maxIndex ≤ F.dindex x + fold - 1
    · have : F.uexp (F.dindex x + fold - 1) = F.uexp F.maxIndex := by
        unfold uexp; rw [Nat.min_eq_right hm, Nat.min_self]
      rw [this]; exact hd
    · -- two bins below the first one the unit is below the last bit
      obtain ⟨mant, e, h1, h2, _⟩ := val_decomp (F := F) x.mag
      have hlow := dindex_lower hx (by omega)
      have hge : 2 ^ (F.eta + F.maxExp - F.W * (F.dindex x + 1)) < 2 ^ (F.p + e) := by
        refine Nat.lt_of_le_of_lt hlow ?_
        rw [h1, Nat.pow_add]; exact (Nat.mul_lt_mul_right (pow_pos' e)).2 h2
      have hexp := (Nat.pow_lt_pow_iff_right (a := 2) (by omega)).1 hge
      rw [← Int.natAbs_dvd_natAbs, toInt_natAbs, h1, Int.natAbs_pow]
      refine Dvd.dvd.mul_left (pow_dvd_pow 2 ?_) mant
      have h3 : F.uexp (F.dindex x + fold - 1) ≤ F.uexp (F.dindex x + 2) := uexp_anti (by omega)
      refine Nat.le_trans h3 ?_
      unfold uexp
      rw [Nat.min_eq_left (by omega)]
      have e1 : F.W * (F.dindex x + 2) = F.W * (F.dindex x + 1) + F.W := by ring
      omega
  have h4 := h.2.2.2 hd'
  split
  · next h0 =>
    have hz : F.toInt x = 0 := by unfold toInt; rw [h0, val_eq_zero.2 rfl]; simp
    have hg : F.Good (convert F fold (F.dmdconv fold x)) 0 := ⟨h.1, by rw [h4.1, hz], fun _ => h4.2 hz⟩
    exact good_unique hg good_zero
  · next h0 =>
    have hz : F.toInt x ≠ 0 := by
      intro hc
      have := toInt_natAbs (F := F) x
      rw [hc] at this
      exact h0 (val_eq_zero.1 this.symm)
    exact good_unique (a := F.toInt x) ⟨h.1, h4.1, fun hc => absurd hc hz⟩ ⟨hx, rfl, fun hc => absurd hc hz⟩

/-- Every number of magnitude at least `2^(p-1)` units of the smallest bin qualifies: `2^-1003` in double, `2^-121` in float. -/
theorem C18_large [F.OK] {x : Flt} (h : 2 ^ (F.uexp F.maxIndex + F.p - 1) ≤ F.val x.mag) :
    (2 ^ F.uexp F.maxIndex : Int) ∣ F.toInt x := by
  have ⟨hp, _⟩ := F.facts
  obtain ⟨mant, e, h1, h2, _⟩ := val_decomp (F := F) x.mag
  rw [h1] at h
  have hlt : 2 ^ (F.uexp F.maxIndex + F.p - 1) < 2 ^ (F.p + e) := by
    refine Nat.lt_of_le_of_lt h ?_
    rw [Nat.pow_add]; exact (Nat.mul_lt_mul_right (pow_pos' e)).2 h2
  have hexp := (Nat.pow_lt_pow_iff_right (a := 2) (by omega)).1 hlt
  rw [← Int.natAbs_dvd_natAbs, toInt_natAbs, h1, Int.natAbs_pow]
  exact Dvd.dvd.mul_left (pow_dvd_pow 2 (by omega)) mant

/-- the units of the smallest bins are `2^-1055` and `2^-144` -/
example : f64.uexp f64.maxIndex = 1074 - 1055 ∧ f32.uexp f32.maxIndex = 149 - 144 := by decide

/-- The largest double, with its special code path, and an odd 53-bit integer. -/
example : convert f64 3 (f64.dmdconv 3 ⟨true, f64.infMag - 1⟩) = ⟨true, f64.infMag - 1⟩ ∧
    (2 ^ f64.uexp f64.maxIndex : Int) ∣ f64.toInt (f64.ofInt (2 ^ 52 + 1)) ∧
    convert f64 3 (f64.dmdconv 3 (f64.ofInt (2 ^ 52 + 1))) = f64.ofInt (2 ^ 52 + 1) := by
  decide +kernel

end Repro
