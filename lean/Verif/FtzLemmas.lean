import Verif.Ftz
/-!
# Flush-to-zero arithmetic on bins far above the subnormal range
-/

namespace Repro
namespace Fmt
variable {F : Fmt}

/-! ### flushing -/

theorem expo_zero {x : Flt} : F.expo x = 0 ↔ x.mag < 2 ^ (F.p - 1) := by
  unfold expo
  constructor
  · intro h
    by_contra hc
    have := Nat.div_pos (Nat.not_lt.1 hc) (pow_pos' (F.p - 1))
    omega
  · intro h; exact Nat.div_eq_of_lt h

theorem expo_zero_val {x : Flt} : F.expo x = 0 ↔ F.val x.mag < 2 ^ (F.p - 1) := by
  rw [expo_zero]
  constructor
  · intro h; unfold val; rw [if_pos h]; exact h
  · intro h
    by_contra hc
    unfold val at h
    rw [if_neg hc] at h
    have h1 : 2 ^ (F.p - 1) * 1 ≤ (2 ^ (F.p - 1) + x.mag % 2 ^ (F.p - 1)) * 2 ^ (x.mag / 2 ^ (F.p - 1) - 1) :=
      Nat.mul_le_mul (by omega) Nat.one_le_two_pow
    omega

theorem flush_normal {x : Flt} (h : F.expo x ≠ 0) : F.flush x = x := by
  unfold flush; rw [if_neg h]

theorem flush_sub {x : Flt} (h : F.expo x = 0) : F.flush x = ⟨x.neg, 0⟩ := by
  unfold flush; rw [if_pos h]

theorem flush_zero {x : Flt} (h : x.mag = 0) : F.flush x = x := by
  unfold flush
  split
  · rw [← h]
  · rfl

theorem flush_idem (x : Flt) : F.flush (F.flush x) = F.flush x := by
  by_cases h : F.expo x = 0
  · rw [flush_sub h]; exact flush_zero rfl
  · rw [flush_normal h, flush_normal h]

theorem flush_finite [F.OK] {x : Flt} (hx : F.Finite x) : F.Finite (F.flush x) := by
  unfold flush
  split
  · exact zero_finite
  · exact hx

theorem toInt_mag0 [F.OK] {x : Flt} (h : x.mag = 0) : F.toInt x = 0 := by
  unfold toInt
  have : F.val 0 = 0 := val_eq_zero.2 rfl
  rw [h, this]; simp

/-- A finite number that is a multiple of a large power of two is not subnormal. -/
theorem flush_dvd [F.OK] {x : Flt} {u : Nat} (hu : F.p - 1 ≤ u) (h : (2 ^ u : Int) ∣ F.toInt x) : F.flush x = x := by
  by_cases h0 : F.toInt x = 0
  · apply flush_zero
    have := toInt_natAbs (F := F) x
    rw [h0] at this
    exact val_eq_zero.1 this.symm
  · apply flush_normal
    intro hc
    rw [expo_zero_val, ← toInt_natAbs] at hc
    have h1 := Int.le_of_dvd (by omega) (Int.dvd_natAbs.2 h)
    have h2 : 2 ^ (F.p - 1) ≤ 2 ^ u := Nat.pow_le_pow_right (by omega) hu
    have h3 := cast_pow u
    omega

theorem flush_mkPri [F.OK] {j : Nat} {b : Int} (h : F.Win b) : F.flush (F.mkPri j b) = F.mkPri j b :=
  flush_normal (by rw [mkPri_expo h]; omega)

theorem or1_expo [F.OK] {x : Flt} : F.expo (or1 x) = F.expo x := by
  have ⟨hp, _⟩ := F.facts
  unfold expo or1
  dsimp only
  have h1 : x.mag ||| 1 = x.mag ∨ x.mag ||| 1 = x.mag + 1 ∧ x.mag % 2 = 0 := by
    rcases Nat.mod_two_eq_zero_or_one x.mag with h | h
    · right
      refine ⟨?_, h⟩
      have : x.mag = 2 ^ 1 * (x.mag / 2) := by omega
      rw [this, ← Nat.two_pow_add_eq_or_of_lt (by omega)]
    · left
      have e : x.mag = 2 ^ 1 * (x.mag / 2) + 1 := by omega
      have : x.mag = 2 ^ 1 * (x.mag / 2) ||| 1 := by
        rw [← Nat.two_pow_add_eq_or_of_lt (by omega)]; exact e
      rw [this, Nat.or_assoc, Nat.or_self]
  rcases h1 with h1 | ⟨h1, h2⟩
  · rw [h1]
  · rw [h1]
    have e : 2 ^ (F.p - 1) = 2 * 2 ^ (F.p - 2) := two_p1
    rw [e, ← Nat.div_div_eq_div_mul, ← Nat.div_div_eq_div_mul]
    congr 1
    omega

theorem flush_or1 [F.OK] (x : Flt) : F.flush (or1 x) = if F.expo x = 0 then ⟨x.neg, 0⟩ else or1 x := by
  unfold flush; rw [or1_expo]; rfl

/-- adding a zero to a primary -/
theorem add_zero_mkPri [F.OK] {j : Nat} {b : Int} (h : F.Win b) (s : Bool) :
    F.add ⟨s, 0⟩ (F.mkPri j b) = F.mkPri j b ∧ F.add (F.mkPri j b) ⟨s, 0⟩ = F.mkPri j b := by
  have hz : F.Finite ⟨s, 0⟩ := zero_finite
  have w := win_mant h
  have : F.add (F.mkPri j b) ⟨s, 0⟩ = F.mkPri j b := by
    rw [mkPri_eq]
    have := add_mkF (F := F) (u := F.sexp j) (m := 3 * 2 ^ (F.p - 2) + b) (s := 0) (sexp_le j) hz
      (le_of_lt w.1) w.2 (by rw [add_zero]; exact w.1) (by rw [add_zero]; exact w.2)
      (by rw [toInt_mag0 rfl, zero_mul, sub_self, mul_zero]; exact ipow_pos _)
      (by rw [toInt_mag0 rfl, zero_mul, sub_self, mul_zero]; have := ipow_pos (F.sexp j); omega)
    rw [this, add_zero]
  exact ⟨by rw [add_comm' _ _ hz (mkPri_finite h)]; exact this, this⟩

/-- the difference of two primaries of a bin far above the subnormal range -/
theorem subZ_mkPri [F.OK] {j : Nat} {a b : Int} (hu : F.p - 1 ≤ F.sexp j) (ha : F.Win a) (hb : F.Win b) :
    F.subZ (F.mkPri j a) (F.mkPri j b) = F.sub (F.mkPri j a) (F.mkPri j b) := by
  unfold subZ
  rw [flush_mkPri ha, flush_mkPri hb]
  apply flush_dvd hu
  have := (sub_mkF (F := F) (sexp_le j) ha hb).2
  rw [mkPri_eq, mkPri_eq, this]
  exact Dvd.intro_left _ rfl

/-! ### the deposit -/

/-- What the loop carries along in DAZ/FTZ mode: the remainder of the IEEE loop, or, if that has become
smaller than every normal number, something that reads as zero. -/
def Rem (F : Fmt) (r : Int) (k : Nat) (x : Flt) : Prop :=
  F.Finite x ∧ ((F.expo x ≠ 0 ∧ F.toInt x = F.resid r k) ∨ (F.expo x = 0 ∧ (F.resid r k).natAbs < 2 ^ (F.p - 1)))

theorem Rem.of_eq [F.OK] {r : Int} {k : Nat} {x : Flt} (hx : F.Finite x) (h : F.toInt x = F.resid r k) : F.Rem r k x := by
  refine ⟨hx, ?_⟩
  by_cases h0 : F.expo x = 0
  · right; refine ⟨h0, ?_⟩; rw [← h, toInt_natAbs]; exact expo_zero_val.1 h0
  · left; exact ⟨h0, h⟩

theorem Rem.flush [F.OK] {r : Int} {k : Nat} {x : Flt} (h : F.Rem r k x) : F.Rem r k (F.flush x) := by
  refine ⟨flush_finite h.1, ?_⟩
  rcases h.2 with ⟨h1, h2⟩ | ⟨h1, h2⟩
  · rw [flush_normal h1]; exact Or.inl ⟨h1, h2⟩
  · rw [flush_sub h1]; exact Or.inr ⟨expo_zero.2 (pow_pos' _), h2⟩

theorem small_slice [F.OK] {r : Int} {k : Nat} (hu : F.p + 1 ≤ F.uexp k) (h : (F.resid r k).natAbs < 2 ^ (F.p - 1)) :
    F.slice r k = 0 ∧ F.resid r (k + 1) = F.resid r k := by
  have h2 : 2 ^ (F.p + 1) ≤ 2 ^ F.uexp k := Nat.pow_le_pow_right (by omega) hu
  have h3 : 2 ^ (F.p + 1) = 2 * 2 ^ F.p := by rw [Nat.pow_succ]; ring
  have h4 := two_p (F := F)
  have h5 := cast_pow (F.uexp k)
  have hz : rha (F.resid r k) (F.uexp k) = 0 := by apply rha_zero <;> omega
  refine ⟨hz, ?_⟩
  show F.resid r k - rha (F.resid r k) (F.uexp k) * 2 ^ F.uexp k = F.resid r k
  rw [hz]; simp

/-- One step of the loop in DAZ/FTZ mode. -/
theorem stepZ [F.OK] {r : Int} {k : Nat} {x : Flt} {b : Int} (hr : F.Fits r 0) (hk : 1 ≤ k)
    (hu : F.p + 1 ≤ F.uexp k) (hx : F.Rem r k x) (hw : F.Win b) (hw' : F.Win (b + F.slice r k)) :
    F.addZ (or1 x) (F.mkPri k b) = F.mkPri k (b + F.slice r k) ∧
    F.addZ (F.mkPri k b) (or1 x) = F.mkPri k (b + F.slice r k) ∧
    F.Rem r (k + 1) (F.addZ x (F.subZ (F.mkPri k b) (F.mkPri k (b + F.slice r k)))) := by
  have hue : F.uexp k ≤ F.emax - 2 := Nat.le_of_lt (uexp_emax hk)
  have hse := sexp_pos (F := F) hk
  have hpri : ∀ b, F.mkPri k b = F.mkF (F.uexp k) (3 * 2 ^ (F.p - 2) + b) := by
    intro b; rw [mkPri_eq, hse]
  rcases hx.2 with ⟨h1, h2⟩ | ⟨h1, h2⟩
  · have hbd : (F.toInt x).natAbs ≤ 2 ^ (F.uexp k + F.W - 1) := by rw [h2]; exact RB_all hr k
    have hsl : rha (F.toInt x) (F.uexp k) = F.slice r k := by rw [h2]; rfl
    have hge := uexp_ge (F := F) k
    have hst := step_eq (F := F) (u := F.uexp k) (by omega) hue hx.1 hbd hw (by rw [hsl]; exact hw')
    have hrem := step_rem (F := F) (u := F.uexp k) (by omega) hue hx.1 hbd hw (by rw [hsl]; exact hw')
    rw [hsl, ← hpri, ← hpri] at hst hrem
    have hfo : F.flush (or1 x) = or1 x := by rw [flush_or1, if_neg h1]
    refine ⟨?_, ?_, ?_⟩
    · unfold addZ; rw [hfo, flush_mkPri hw, hst.1, flush_mkPri hw']
    · unfold addZ; rw [hfo, flush_mkPri hw, hst.2, flush_mkPri hw']
    · rw [subZ_mkPri (by omega) hw hw']
      unfold addZ
      have : F.flush (F.sub (F.mkPri k b) (F.mkPri k (b + F.slice r k))) = F.sub (F.mkPri k b) (F.mkPri k (b + F.slice r k)) := by
        have := subZ_mkPri (F := F) (j := k) (by omega) hw hw'
        rw [← this]; exact flush_idem _
      rw [this, flush_normal h1]
      apply Rem.flush
      apply Rem.of_eq hrem.1
      rw [hrem.2, h2]; rfl
  · obtain ⟨s1, s2⟩ := small_slice hu h2
    have hfo : F.flush (or1 x) = ⟨x.neg, 0⟩ := by rw [flush_or1, if_pos h1]
    rw [s1, add_zero]
    refine ⟨?_, ?_, ?_⟩
    · unfold addZ; rw [hfo, flush_mkPri hw, (add_zero_mkPri hw _).1, flush_mkPri hw]
    · unfold addZ; rw [hfo, flush_mkPri hw, (add_zero_mkPri hw _).2, flush_mkPri hw]
    · rw [subZ_mkPri (by omega) hw hw]
      have hd := sub_mkF (F := F) (sexp_le k) hw hw
      rw [← mkPri_eq, sub_self, zero_mul] at hd
      unfold addZ
      have hz : F.Finite (⟨x.neg, 0⟩ : Flt) := zero_finite
      have hfl : F.flush (F.sub (F.mkPri k b) (F.mkPri k b)) = F.sub (F.mkPri k b) (F.mkPri k b) :=
        flush_dvd (u := F.p) (by omega) (by rw [hd.2]; exact dvd_zero _)
      rw [hfl, flush_sub h1, add_finite hz hd.1, hd.2, toInt_mag0 rfl, if_pos (by simp)]
      rw [flush_zero rfl]
      exact ⟨zero_finite, Or.inr ⟨expo_zero.2 (pow_pos' _), by rw [s2]; exact h2⟩⟩

theorem depositLoopZ_eq [F.OK] (r : Int) (hr : F.Fits r 0) : ∀ (fold k : Nat) (x : Flt) (B : Nat → Int),
    1 ≤ k → F.Rem r k x → (∀ j, k ≤ j → j < k + fold → F.p + 1 ≤ F.uexp j) →
    (∀ j, k ≤ j → j < k + fold → F.Win (B j) ∧ F.Win (B j + F.slice r j)) →
    F.depositLoopZ x ((List.range' k fold).map (fun j => F.mkPri j (B j))) =
      (List.range' k fold).map (fun j => F.mkPri j (B j + F.slice r j)) := by
  intro fold
  induction fold with
  | zero => intro k x B _ _ _ _; rfl
  | succ n ih =>
    intro k x B hk hx hu hB
    have hw := hB k (by omega) (by omega)
    obtain ⟨t1, t2, t3⟩ := stepZ hr hk (hu k (by omega) (by omega)) hx hw.1 hw.2
    cases n with
    | zero =>
      simp only [List.range'_succ, List.range'_zero, List.map_cons, List.map_nil, depositLoopZ]
      rw [t2]
    | succ n' =>
      have ih' := ih (k + 1) _ B (by omega) t3 (fun j h1 h2 => hu j (by omega) (by omega))
        (fun j h1 h2 => hB j (by omega) (by omega))
      rw [List.range'_succ, List.map_cons, List.map_cons, ← ih', List.range'_succ, List.map_cons]
      simp only [depositLoopZ]
      rw [t1]

/-- The two numbers of the top-bin step that are not results of the deposit: what is added twice to the
remainder, and the remainder after the first addition. -/
theorem step0_mid [F.OK] {x : Flt} (hx : F.Finite x) {b : Int} (hw : F.Win b)
    (hw' : F.Win (b + F.slice (F.toInt x) 0)) :
    (let M := F.mul (F.sub (F.mkPri 0 b) (F.mkPri 0 (b + F.slice (F.toInt x) 0))) F.halfExpansion
     F.Finite M ∧ F.toInt M = - (F.slice (F.toInt x) 0 * 2 ^ (F.uexp 0 - 1)) ∧
     F.Finite (F.add x M) ∧ F.toInt (F.add x M) = F.toInt x - F.slice (F.toInt x) 0 * 2 ^ (F.uexp 0 - 1)) := by
  have ⟨hp, hW, hWp, _, he, he1, hb, het, _⟩ := F.facts
  have ⟨h1, h2, h3, h4, h5, h6, h7, h8, _⟩ := F.bfacts
  have hu0 := uexp_zero (F := F)
  have hpri : ∀ b, F.mkPri 0 b = F.mkF (F.emax - 2) (3 * 2 ^ (F.p - 2) + b) := by
    intro b; rw [mkPri_eq, sexp_zero]
  intro M
  -- the slice is at most 2^(W-1)
  have hsl := slice_le (F := F) (fits0_finite hx) 0
  obtain ⟨s, hs⟩ : ∃ s, s = F.slice (F.toInt x) 0 := ⟨_, rfl⟩
  have hdiff := sub_mkF (F := F) (u := F.emax - 2) (Nat.le_refl _) hw hw'
  rw [← hpri, ← hpri] at hdiff
  obtain ⟨D, hD⟩ : ∃ D, D = F.sub (F.mkPri 0 b) (F.mkPri 0 (b + F.slice (F.toInt x) 0)) := ⟨_, rfl⟩
  have hM : M = F.mul D F.halfExpansion := by rw [hD]
  clear_value M
  rw [← hD, ← hs] at hdiff
  rw [← hs] at hsl
  have hDt : F.toInt D = -s * 2 ^ (F.emax - 2) := by rw [hdiff.2]; ring
  have hDv : F.val D.mag = s.natAbs * 2 ^ (F.emax - 2) := by
    rw [← toInt_natAbs, hDt, Int.natAbs_mul, Int.natAbs_neg]; congr 1
  obtain ⟨cf, cn, cv⟩ := pow2_val (F := F) (e := ((F.p - F.W : Nat) : Int)) (by omega) (by omega)
  rw [← halfExpansion_eq] at cf cn cv
  have hc : (((F.eta : Int) + ((F.p - F.W : Nat) : Int)).toNat) = F.eta + (F.p - F.W) := by omega
  rw [hc] at cv
  have hMM := mul_pow2_up (F := F) (c := F.p - F.W) hdiff.1 cf cn cv (by
    rw [hDv]
    have : s.natAbs * 2 ^ (F.emax - 2) * 2 ^ (F.p - F.W) ≤ 2 ^ (F.W - 1) * 2 ^ (F.emax - 2) * 2 ^ (F.p - F.W) :=
      Nat.mul_le_mul_right _ (Nat.mul_le_mul_right _ hsl)
    refine Nat.lt_of_le_of_lt this ?_
    rw [← Nat.pow_add, ← Nat.pow_add]
    exact Nat.pow_lt_pow_right (by omega) (by omega))
  rw [← hM] at hMM
  have hMt : F.toInt M = - (s * 2 ^ (F.uexp 0 - 1)) := by
    rw [hMM.2, hDt]
    have : F.uexp 0 - 1 = (F.emax - 2) + (F.p - F.W) := by omega
    rw [this, pow_add]; ring
  -- both additions are exact
  have hbv := fits_bound_up (F := F) hx
  rw [toInt_natAbs] at hbv
  obtain ⟨mant, e, d1, d2, d3⟩ := lastplace (F := F) hbv
  have hs' : s = rha (F.toInt x) (F.uexp 0) := by rw [hs]; rfl
  have n1 : F.toInt x + F.toInt M = F.toInt x - s * 2 ^ (F.uexp 0 - 1) := by rw [hMt]; ring
  obtain ⟨m, hm1, hm2, hm3⟩ := repr_of_le (F := F) hx
    (n := F.toInt x - s * 2 ^ (F.uexp 0 - 1)) d1 d2
    (Int.dvd_sub (dvd_toInt d1) (pow_dvd_rha_mul (by omega) _))
    (by rw [← toInt_natAbs, hs']; exact rha_shrink_half (by omega))
  have a1 := add_exact (F := F) hx hMM.1 (m := m) (e := e) (by rw [n1]; exact hm1) hm2 hm3
  rw [n1] at a1
  exact ⟨hMM.1, by rw [hMt, hs], a1.1, by rw [a1.2, hs]⟩

theorem const_normal [h : F.OK] : F.expo F.compression ≠ 0 ∧ F.expo F.halfExpansion ≠ 0 := by
  rcases h.isDoubleOrFloat with rfl | rfl <;> decide +kernel

/-- The top-bin step in DAZ/FTZ mode. -/
theorem step0Z [F.OK] {x : Flt} (hx : F.Finite x) {b : Int} (hw : F.Win b)
    (hw' : F.Win (b + F.slice (F.toInt x) 0)) :
    F.addZ (or1 (F.mulZ x F.compression)) (F.mkPri 0 b) = F.mkPri 0 (b + F.slice (F.toInt x) 0) ∧
    (let M := F.mulZ (F.subZ (F.mkPri 0 b) (F.mkPri 0 (b + F.slice (F.toInt x) 0))) F.halfExpansion
     F.Rem (F.toInt x) 1 (F.addZ (F.addZ x M) M)) := by
  have ⟨hp, hW, hWp, _, he, he1, hb, het, _⟩ := F.facts
  have ⟨h1, h2, h3, h4, h5, h6, h7, h8, _⟩ := F.bfacts
  have hu0 := uexp_zero (F := F)
  have hse := sexp_zero (F := F)
  obtain ⟨yf, yb, ys⟩ := compress_ok (F := F) hx
  obtain ⟨c1, c2⟩ := const_normal (F := F)
  have hs0 := step0 (F := F) hx hw hw'
  have hmid := step0_mid (F := F) hx hw hw'
  dsimp only at hs0 hmid
  have hsub := subZ_mkPri (F := F) (j := 0) (by omega) hw hw'
  have hsubf : F.flush (F.sub (F.mkPri 0 b) (F.mkPri 0 (b + F.slice (F.toInt x) 0))) = F.sub (F.mkPri 0 b) (F.mkPri 0 (b + F.slice (F.toInt x) 0)) := by
    rw [← hsub]; exact flush_idem _
  -- the number added twice
  have hM : F.mulZ (F.subZ (F.mkPri 0 b) (F.mkPri 0 (b + F.slice (F.toInt x) 0))) F.halfExpansion =
      F.mul (F.sub (F.mkPri 0 b) (F.mkPri 0 (b + F.slice (F.toInt x) 0))) F.halfExpansion := by
    rw [hsub]
    unfold mulZ
    rw [hsubf, flush_normal c2]
    apply flush_dvd (u := F.uexp 0 - 1) (by omega)
    rw [hmid.2.1]
    exact Int.dvd_neg.2 (Dvd.intro_left _ rfl)
  dsimp only
  rw [hM]
  obtain ⟨M, hMd⟩ : ∃ M, M = F.mul (F.sub (F.mkPri 0 b) (F.mkPri 0 (b + F.slice (F.toInt x) 0))) F.halfExpansion := ⟨_, rfl⟩
  rw [← hMd] at hs0 hmid hM ⊢
  have hMfl : F.flush M = M := by rw [← hM]; exact flush_idem _
  have small : ∀ {n : Int} {u : Nat}, F.p + 1 ≤ u → n.natAbs < 2 ^ (F.p - 1) → rha n u = 0 := by
    intro n u hu hn
    have h2 : 2 ^ (F.p + 1) ≤ 2 ^ u := Nat.pow_le_pow_right (by omega) hu
    have h3 : 2 ^ (F.p + 1) = 2 * 2 ^ F.p := by rw [Nat.pow_succ]; ring
    have h4 := two_p (F := F)
    have h5 := cast_pow u
    apply rha_zero <;> omega
  by_cases hxe : F.expo x = 0
  · have hxv : (F.toInt x).natAbs < 2 ^ (F.p - 1) := by rw [toInt_natAbs]; exact expo_zero_val.1 hxe
    have hsl : F.slice (F.toInt x) 0 = 0 := small (by omega) hxv
    have hmz : ∀ s, (F.mul ⟨s, 0⟩ F.compression).mag = 0 := by
      intro s
      have hz : F.Finite (⟨s, 0⟩ : Flt) := zero_finite
      have hcf : F.Finite F.compression := (pow2_val (F := F) (e := -((F.p : Int) - F.W + 1)) (by omega) (by omega)).1
      rw [mul_finite hz hcf]
      have : F.val 0 = 0 := val_eq_zero.2 rfl
      dsimp only
      rw [this, Nat.zero_mul]
      unfold roundMag rne; simp
    have hMz : M.mag = 0 := by
      have := hmid.2.1
      rw [hsl, zero_mul, neg_zero] at this
      have h9 := toInt_natAbs (F := F) M
      rw [this] at h9
      exact val_eq_zero.1 h9.symm
    refine ⟨?_, ?_⟩
    · have e : F.mulZ x F.compression = F.mul ⟨x.neg, 0⟩ F.compression := by
        unfold mulZ; rw [flush_sub hxe, flush_normal c1]; exact flush_zero (hmz _)
      have e0 : F.expo (F.mulZ x F.compression) = 0 := by rw [e]; exact expo_zero.2 (by rw [hmz]; exact pow_pos' _)
      unfold addZ
      rw [flush_or1, if_pos e0, flush_mkPri hw, (add_zero_mkPri hw _).1, flush_mkPri hw, hsl, add_zero]
    · have hz : ∀ s, F.addZ ⟨s, 0⟩ M = ⟨s && M.neg, 0⟩ := by
        intro s
        unfold addZ
        rw [hMfl, flush_zero (x := ⟨s, 0⟩) rfl, add_finite (show F.Finite (⟨s, 0⟩ : Flt) from zero_finite) hmid.1, toInt_mag0 hMz, toInt_mag0 rfl, if_pos (by simp)]
        exact flush_zero rfl
      have e1 : F.addZ x M = ⟨x.neg && M.neg, 0⟩ := by
        rw [← hz x.neg]; unfold addZ; rw [flush_sub hxe, flush_zero (x := ⟨x.neg, 0⟩) rfl]
      rw [e1, hz]
      refine ⟨zero_finite, Or.inr ⟨expo_zero.2 (pow_pos' _), ?_⟩⟩
      have : F.resid (F.toInt x) 1 = F.toInt x - F.slice (F.toInt x) 0 * 2 ^ F.uexp 0 := rfl
      rw [this, hsl, zero_mul, sub_zero]; exact hxv
  · refine ⟨?_, ?_⟩
    · have e : F.mulZ x F.compression = F.flush (F.mul x F.compression) := by
        unfold mulZ; rw [flush_normal hxe, flush_normal c1]
      by_cases hy : F.expo (F.mul x F.compression) = 0
      · have e0 : F.expo (F.mulZ x F.compression) = 0 := by
          rw [e, flush_sub hy]; exact expo_zero.2 (pow_pos' _)
        have hsl : F.slice (F.toInt x) 0 = 0 := by
          rw [← ys]; apply small (by omega)
          rw [toInt_natAbs]; exact expo_zero_val.1 hy
        unfold addZ
        rw [flush_or1, if_pos e0, flush_mkPri hw, (add_zero_mkPri hw _).1, flush_mkPri hw, hsl, add_zero]
      · rw [e, flush_normal hy]
        unfold addZ
        rw [flush_or1, if_neg hy, flush_mkPri hw, hs0.1, flush_mkPri hw']
    · have hfirst : F.addZ x M = F.add x M := by
        unfold addZ
        rw [flush_normal hxe, hMfl]
        by_cases hsl : F.slice (F.toInt x) 0 = 0
        · apply flush_normal
          intro hc
          rw [expo_zero_val, ← toInt_natAbs, hmid.2.2.2, hsl, zero_mul, sub_zero, toInt_natAbs, ← expo_zero_val] at hc
          exact hxe hc
        · obtain ⟨mant, e, d1, d2, d3, d4, d5, d6⟩ := val_decomp (F := F) x.mag
          have hbig : F.p + 1 < F.p + e := by
            by_contra hc
            apply hsl
            have hv : F.val x.mag < 2 ^ (F.p + 2) := by
              rw [d1]
              refine Nat.lt_of_lt_of_le (Nat.mul_lt_mul_of_pos_right d2 (pow_pos' e)) ?_
              rw [← Nat.pow_add]; exact Nat.pow_le_pow_right (by omega) (by omega)
            have g2 : 2 ^ (F.p + 4) ≤ 2 ^ F.uexp 0 := Nat.pow_le_pow_right (by omega) (by omega)
            have g3 : 2 ^ (F.p + 4) = 4 * 2 ^ (F.p + 2) := by rw [Nat.pow_add, Nat.pow_add]; ring
            have g5 := cast_pow (F.uexp 0)
            have g6 := toInt_natAbs (F := F) x
            unfold slice resid
            apply rha_zero <;> omega
          have hbig2 : F.uexp 0 ≤ F.p + e + 1 := by
            by_contra hc
            apply hsl
            have hv : F.val x.mag < 2 ^ (F.p + e) := by
              rw [d1, Nat.pow_add]
              exact Nat.mul_lt_mul_of_pos_right d2 (pow_pos' e)
            have g2 : 2 ^ (F.p + e + 1) ≤ 2 ^ F.uexp 0 := Nat.pow_le_pow_right (by omega) (by omega)
            have g3 : 2 ^ (F.p + e + 1) = 2 * 2 ^ (F.p + e) := by rw [Nat.pow_succ]; ring
            have g5 := cast_pow (F.uexp 0)
            have g6 := toInt_natAbs (F := F) x
            unfold slice resid
            apply rha_zero <;> omega
          apply flush_dvd (u := F.p) (by omega)
          rw [hmid.2.2.2]
          apply Int.dvd_sub
          · exact dvd_trans (pow_dvd_pow 2 (by omega)) (dvd_toInt d1)
          · exact pow_dvd_rha_mul (by omega) _
      rw [hfirst]
      have hff : F.flush (F.add x M) = F.add x M := by rw [← hfirst]; exact flush_idem _
      have : F.addZ (F.add x M) M = F.flush (F.add (F.add x M) M) := by
        unfold addZ; rw [hff, hMfl]
      rw [this]
      exact Rem.flush (Rem.of_eq hs0.2.1 hs0.2.2)

/-- **Deposit in DAZ/FTZ mode** into bins far above the subnormal range. -/
theorem dmddepositZ_eq [F.OK] {fold k : Nat} {x : Flt} {B : Nat → Int} (hfold : 2 ≤ fold)
    (hk : k ≤ F.maxIndex) (hx : F.Finite x) (hf : F.Fits (F.toInt x) k)
    (hu : ∀ j, k ≤ j → j < k + fold → F.p + 1 ≤ F.uexp j)
    (hB : ∀ j, k ≤ j → j < k + fold → F.Win (B j) ∧ F.Win (B j + F.slice (F.toInt x) j)) :
    F.dmddepositZ x ((List.range' k fold).map (fun j => F.mkPri j (B j))) =
      F.dmddeposit x ((List.range' k fold).map (fun j => F.mkPri j (B j))) := by
  rw [dmddeposit_eq hfold hk hx hf hB]
  have hB0 := (hB k (by omega) (by omega)).1
  obtain ⟨n, rfl⟩ : ∃ n, fold = n + 1 := ⟨fold - 1, by omega⟩
  have hnth : nth ((List.range' k (n + 1)).map (fun j => F.mkPri j (B j))) 0 = F.mkPri k (B k) := by
    simp [List.range'_succ, nth]
  unfold dmddepositZ
  rw [hnth, isNaNInf_false hx, mkPri_isNaNInf hB0, dmindex0_mkPri hB0]
  simp only [Bool.or_self, Bool.false_eq_true, if_false]
  have hfin0 := fits0_finite (F := F) hx
  by_cases h0 : k = 0
  · subst h0
    simp only [decide_true, if_true]
    rw [List.range'_succ, List.map_cons]
    dsimp only
    have hs := step0Z (F := F) hx hB0 (hB 0 (by omega) (by omega)).2
    rw [hs.1]
    rw [List.map_cons]
    congr 1
    exact depositLoopZ_eq (F.toInt x) hfin0 n 1 _ B (by omega) hs.2
      (fun j h1 h2 => hu j (by omega) (by omega))
      (fun j h1 h2 => hB j (by omega) (by omega))
  · simp only [h0, decide_false, Bool.false_eq_true, if_false]
    exact depositLoopZ_eq (F.toInt x) hfin0 (n + 1) k x B (by omega)
      (Rem.of_eq hx (resid_of_fits hk hf k (Nat.le_refl _)).symm) hu hB

end Fmt
end Repro
