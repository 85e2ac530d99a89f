import Verif.Params
import Mathlib.Tactic.Linarith
import Mathlib.Tactic.Ring
/-!
# C38: parsed tuning values lie within the declared ranges
-/
namespace Repro

/-- Specification: the values a parameter may have. -/
def Legal : Flavor → PyVal → Prop
  | .boolean, v => ∃ b, v = .bool b
  | .integer mn mx step, v => ∃ n, v = .int n ∧ mn ≤ n ∧ n ≤ mx ∧ n % step = 0
  | .poweroftwo mn mx, v => ∃ e : Nat, v = .int (2 ^ e) ∧ mn ≤ 2 ^ e ∧ (2 : Int) ^ e ≤ mx

/-- Specification: the bounds are in order. -/
def Ordered : Flavor → Prop
  | .boolean => True
  | .integer mn mx _ => mn ≤ mx
  | .poweroftwo mn mx => mn ≤ mx

theorem isPow2_iff {v : Int} : isPow2 v = true ↔ ∃ e : Nat, v = 2 ^ e := by
  unfold isPow2
  constructor
  · intro h
    simp only [Bool.and_eq_true, bne_iff_ne, ne_eq, beq_iff_eq] at h
    exact ⟨_, h.2⟩
  · rintro ⟨e, rfl⟩
    have hne : (2 : Int) ^ e ≠ 0 := by positivity
    have hna : ((2 : Int) ^ e).natAbs = 2 ^ e := by
      rw [Int.natAbs_pow]; rfl
    have hb : bitLength ((2 : Int) ^ e) = e + 1 := by
      unfold bitLength
      rw [if_neg hne, hna, Nat.log2_two_pow]
    simp [hb, hne]

theorem clamp_of_mem {mn mx v : Int} (h1 : mn ≤ v) (h2 : v ≤ mx) : clamp mn mx v = v := by
  unfold clamp; simp only; split <;> split <;> omega

theorem clamp_cases {mn mx v : Int} (h : mn ≤ mx) :
    mn ≤ clamp mn mx v ∧ clamp mn mx v ≤ mx ∧ (clamp mn mx v = mn ∨ clamp mn mx v = mx ∨ clamp mn mx v = v) := by
  unfold clamp; simp only; split <;> split <;> omega

variable {rnd : Int → Int → Option Int}

/-- **C38**. Whatever value is supplied, what the parser returns is a legal value of the parameter. -/
theorem C38_range {f : Flavor} (hf : f.valid = true) (ho : Ordered f) {v w : PyVal} (h : f.parse rnd v = some w) : Legal f w := by
  match f, hf, ho, h with
  | .boolean, _, _, h =>
    simp only [Flavor.parse, Option.some.injEq] at h
    exact ⟨_, h.symm⟩
  | .integer mn mx step, hf, ho, h =>
    simp only [Flavor.valid, Bool.and_eq_true, decide_eq_true_eq, beq_iff_eq] at hf
    obtain ⟨⟨⟨hs, hmn⟩, hmx⟩, _⟩ := hf
    simp only [Flavor.parse, Option.bind_eq_some_iff, Option.some.injEq] at h
    obtain ⟨n, -, m, hm, rfl⟩ := h
    obtain ⟨h1, h2, h3⟩ := clamp_cases (v := m) ho
    refine ⟨_, rfl, h1, h2, ?_⟩
    rcases h3 with h3 | h3 | h3 <;> rw [h3]
    · exact hmn
    · exact hmx
    · by_cases hn : n % step = 0
      · rw [if_neg (by simp [hn])] at hm
        rw [Option.some.injEq] at hm; rw [← hm]; exact hn
      · rw [if_pos (by simp [hn])] at hm
        rw [Option.map_eq_some_iff] at hm
        obtain ⟨q, -, rfl⟩ := hm
        exact Int.mul_emod_left _ _
  | .poweroftwo mn mx, hf, ho, h =>
    simp only [Flavor.valid, Bool.and_eq_true] at hf
    obtain ⟨⟨a, ha⟩, ⟨b, hb⟩⟩ := And.intro (isPow2_iff.1 hf.1) (isPow2_iff.1 hf.2)
    simp only [Flavor.parse, Option.bind_eq_bind, Option.bind_eq_some_iff, Option.some.injEq] at h
    obtain ⟨n, -, rfl⟩ := h
    have hp : ∃ e : Nat, (if (!isPow2 n) = true then (2 : Int) ^ bitLength n else n) = 2 ^ e := by
      by_cases hn : isPow2 n = true
      · obtain ⟨e, he⟩ := isPow2_iff.1 hn
        rw [if_neg (by simp [hn])]; exact ⟨e, he⟩
      · rw [if_pos (by simp [hn])]; exact ⟨_, rfl⟩
    obtain ⟨e, he⟩ := hp
    rw [he]
    obtain ⟨h1, h2, h3⟩ := clamp_cases (v := (2 : Int) ^ e) ho
    rcases h3 with h3 | h3 | h3 <;> rw [h3] at h1 h2 ⊢
    · exact ⟨a, by rw [ha], by rw [← ha], by rw [← ha]; exact h2⟩
    · exact ⟨b, by rw [hb], by rw [← hb]; exact h1, by rw [← hb]⟩
    · exact ⟨e, rfl, h1, h2⟩

/-- **C38**. Legal values are kept. -/
theorem C38_keeps {f : Flavor} {v : PyVal} (h : Legal f v) : f.parse rnd v = some v := by
  match f, h with
  | .boolean, ⟨b, hb⟩ => subst hb; rfl
  | .integer mn mx step, ⟨n, hn, h1, h2, h3⟩ =>
    subst hn
    simp [Flavor.parse, PyVal.toInt?, h3, clamp_of_mem h1 h2]
  | .poweroftwo mn mx, ⟨e, hn, h1, h2⟩ =>
    subst hn
    have : isPow2 ((2 : Int) ^ e) = true := isPow2_iff.2 ⟨e, rfl⟩
    simp [Flavor.parse, PyVal.toInt?, this, clamp_of_mem h1 h2]

/-- **C38**. A positive block size that is not a power of two is raised to the next one (and then brought into the range). -/
theorem C38_next_power {mn mx n : Int} (hn : 0 < n) :
    ∃ e : Nat, n ≤ 2 ^ e ∧ (∀ k : Nat, n ≤ 2 ^ k → e ≤ k) ∧
      (Flavor.poweroftwo mn mx).parse rnd (.int n) = some (.int (clamp mn mx (2 ^ e))) := by
  by_cases hp : isPow2 n = true
  · obtain ⟨e, rfl⟩ := isPow2_iff.1 hp
    refine ⟨e, le_refl _, fun k hk => ?_, by simp [Flavor.parse, PyVal.toInt?, hp]⟩
    by_contra hlt
    have : (2 : Int) ^ k < 2 ^ e := by
      exact_mod_cast Nat.pow_lt_pow_right (by omega) (by omega : k < e)
    omega
  · obtain ⟨m, rfl⟩ : ∃ m : Nat, n = m := ⟨n.toNat, by omega⟩
    have hm0 : m ≠ 0 := by omega
    have hb : bitLength (m : Int) = Nat.log2 m + 1 := by
      unfold bitLength; rw [if_neg (by omega), Int.natAbs_natCast]
    have hlow : 2 ^ Nat.log2 m ≤ m := Nat.log2_self_le hm0
    have hhi : m < 2 ^ (Nat.log2 m + 1) := Nat.lt_log2_self
    refine ⟨Nat.log2 m + 1, by exact_mod_cast hhi.le, fun k hk => ?_, ?_⟩
    · have hk' : m ≤ 2 ^ k := by exact_mod_cast hk
      have hne : 2 ^ Nat.log2 m ≠ m := by
        intro h
        exact hp (isPow2_iff.2 ⟨Nat.log2 m, by exact_mod_cast h.symm⟩)
      by_contra hlt
      have : 2 ^ k ≤ 2 ^ Nat.log2 m := Nat.pow_le_pow_right (by omega) (by omega)
      omega
    · simp [Flavor.parse, PyVal.toInt?, hp, hb]

/-- **C38**. The parser fails only when the value is not a number (`int(value)` raises) or the division by the step
overflows. -/
theorem C38_total {f : Flavor} {v : PyVal} (hv : v.toInt?.isSome) (hr : ∀ a b, (rnd a b).isSome) : (f.parse rnd v).isSome := by
  match f with
  | .boolean => rfl
  | .integer mn mx step =>
    obtain ⟨n, hn⟩ := Option.isSome_iff_exists.1 hv
    obtain ⟨q, hq⟩ := Option.isSome_iff_exists.1 (hr n step)
    simp only [Flavor.parse, hn, hq, Option.bind_some, Option.map_some]
    split <;> rfl
  | .poweroftwo mn mx =>
    obtain ⟨n, hn⟩ := Option.isSome_iff_exists.1 hv
    simp [Flavor.parse, hn]

/-- **C38**. Texts, booleans and numbers are interchangeable: for a numeric parameter a boolean counts as 1 or 0 and any
other value as the number `int` reads from it (none: the generator stops); for a boolean parameter a number counts as true
unless it is zero. -/
theorem C38_coerce (f : Flavor) (n : Int) (t : Bool) :
    (f.parse rnd (.bool true) = f.parse rnd (.int 1)) ∧ (f.parse rnd (.bool false) = f.parse rnd (.int 0)) ∧
    (f ≠ .boolean →
      f.parse rnd (.other (some n) t) = f.parse rnd (.int n) ∧ f.parse rnd (.other none t) = none) ∧
    (n ≠ 0 → Flavor.boolean.parse rnd (.int n) = some (.bool true)) ∧
    Flavor.boolean.parse rnd (.int 0) = some (.bool false) := by
  refine ⟨?_, ?_, ?_, ?_, rfl⟩
  · cases f <;> rfl
  · cases f <;> rfl
  · intro h
    cases f with
    | boolean => exact (h rfl).elim
    | integer => exact ⟨rfl, rfl⟩
    | poweroftwo => exact ⟨rfl, rfl⟩
  · intro h
    simp [Flavor.parse, PyVal.toBool, h]

/-- **C38**. With the quotient rounded to a nearest integer, an integer inside the range is moved by at most half a step. -/
theorem C38_nearest {mn mx step n q : Int} (hs : 0 < step) (hq : rnd n step = some q)
    (hnear : 2 * (q * step - n) ≤ step ∧ -step ≤ 2 * (q * step - n)) (h1 : mn ≤ q * step) (h2 : q * step ≤ mx) :
    ∃ w, (Flavor.integer mn mx step).parse rnd (.int n) = some (.int w) ∧ 2 * (w - n) ≤ step ∧ -step ≤ 2 * (w - n) := by
  by_cases hn : n % step = 0
  · refine ⟨n, ?_, by omega, by omega⟩
    have hnq : n = q * step := by
      obtain ⟨c, hc⟩ := Int.dvd_of_emod_eq_zero hn
      have e : q * step - n = (q - c) * step := by rw [hc]; ring
      rw [e] at hnear
      have h1 : q - c < 1 := by
        by_contra h
        have : 1 * step ≤ (q - c) * step := Int.mul_le_mul_of_nonneg_right (by omega) hs.le
        omega
      have h2 : -1 < q - c := by
        by_contra h
        have : (q - c) * step ≤ (-1) * step := Int.mul_le_mul_of_nonneg_right (by omega) hs.le
        omega
      have : q = c := by omega
      rw [hc, this]; ring
    exact C38_keeps ⟨n, rfl, by omega, by omega, hn⟩
  · refine ⟨q * step, ?_, hnear.1, hnear.2⟩
    simp [Flavor.parse, PyVal.toInt?, hn, hq, clamp_of_mem h1 h2]

example : (Flavor.integer 8 64 8).parse (fun _ _ => some 2) (.int 17) = some (.int 16) := by decide
example : (Flavor.integer 8 64 8).parse (fun _ _ => none) (.int 1000) = some (.int 64) := by decide
example : (Flavor.poweroftwo 32 2048).parse rnd (.int 3000) = some (.int 2048) := by rfl
example : (Flavor.poweroftwo 32 2048).parse rnd (.int 600) = some (.int 1024) := by rfl
example : (Flavor.poweroftwo 32 2048).parse rnd (.int (-600)) = some (.int 1024) := by rfl
example : (Flavor.poweroftwo 32 2048).valid = true ∧ Ordered (.poweroftwo 32 2048) := by
  refine ⟨by decide, ?_⟩; show (32 : Int) ≤ 2048; omega

end Repro
