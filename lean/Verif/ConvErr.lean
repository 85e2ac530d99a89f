import Verif.PropsRound
/-!
# Error of the conversion of a binned value

The conversion adds the carries and primaries from the largest to the smallest in 53 bits. The sums are exact until one of
them needs more than 53 bits; from then on the remaining terms are so small that the sum keeps its size.
-/

namespace Repro
open Fmt

/-- Relative error of rounding, against the rounded value. -/
theorem rnd_relF {F : Fmt} [F.OK] (n : Int) : 2 ^ F.p * (rndZ F.p n - n).natAbs ≤ (rndZ F.p n).natAbs := by
  have ⟨hp, _⟩ := F.facts
  by_cases h0 : n = 0
  · subst h0; rw [rndZ_zero]; simp
  have hn : n.natAbs ≠ 0 := by omega
  have hl := Nat.log2_self_le hn
  have hu : n.natAbs < 2 ^ (Nat.log2 n.natAbs + 1) := Nat.lt_log2_self
  by_cases hs : Nat.log2 n.natAbs < F.p
  · have : rndZ F.p n = n := rndZ_exact (by omega) (m := n.natAbs) (e := 0) (by simp)
      (Nat.lt_of_lt_of_le hu (Nat.pow_le_pow_right (by omega) (by omega)))
    rw [this]; simp
  · obtain ⟨e, he⟩ := Nat.exists_eq_add_of_le (show F.p - 1 ≤ Nat.log2 n.natAbs by omega)
    have h1 := rndZ_err (F := F) (n := n) (e := e) (Nat.le_of_lt (Nat.lt_of_lt_of_le hu (Nat.pow_le_pow_right (by omega) (by omega))))
    have h2 : 2 ^ (F.p - 1 + e) ≤ (rndZ F.p n).natAbs := by
      have hb : (rndZ F.p n).natAbs = rne n.natAbs e * 2 ^ e := by
        rw [rndZ_natAbs, show Nat.log2 n.natAbs - (F.p - 1) = e by omega]
      rw [hb, Nat.pow_add]
      exact Nat.mul_le_mul_right _ (rne_ge_pow (by rw [← he]; exact hl))
    refine Nat.le_trans ?_ h2
    rw [two_p (F := F), Nat.pow_add]
    calc 2 * 2 ^ (F.p - 1) * (rndZ F.p n - n).natAbs = 2 ^ (F.p - 1) * (2 * (rndZ F.p n - n).natAbs) := by ring
      _ ≤ _ := Nat.mul_le_mul_left _ h1

theorem rnd_rel (n : Int) : 2 ^ 53 * (rndZ 53 n - n).natAbs ≤ (rndZ 53 n).natAbs := rnd_relF (F := f64) n

/-- Sums of multiples of `2^q` are exact below `2^(p+q)` and stay above it when they are not. -/
theorem rnd_bigF {F : Fmt} [F.OK] {n : Int} {q : Nat} (hd : (2 ^ q : Int) ∣ n) (h : rndZ F.p n ≠ n) : 2 ^ F.p * 2 ^ q ≤ (rndZ F.p n).natAbs := by
  have ⟨hp, _⟩ := F.facts
  have h1 : 2 ^ F.p * 2 ^ q ≤ n.natAbs := by
    by_contra hc
    exact h (rndZ_mult (F := F) hd (by omega)).2
  have hn : n.natAbs ≠ 0 := by have := Nat.mul_pos (pow_pos' F.p) (pow_pos' q); omega
  have hl : F.p + q ≤ Nat.log2 n.natAbs := by rw [Nat.le_log2 hn, Nat.pow_add]; exact h1
  have hb : (rndZ F.p n).natAbs = rne n.natAbs (Nat.log2 n.natAbs - (F.p - 1)) * 2 ^ (Nat.log2 n.natAbs - (F.p - 1)) := rndZ_natAbs F.p n
  have h2 : 2 ^ (F.p - 1) ≤ rne n.natAbs (Nat.log2 n.natAbs - (F.p - 1)) := by
    apply rne_ge_pow
    refine Nat.le_trans (Nat.pow_le_pow_right (by omega) ?_) (Nat.log2_self_le hn)
    omega
  rw [hb]
  have h3 : 2 ^ (q + 1) ≤ 2 ^ (Nat.log2 n.natAbs - (F.p - 1)) := Nat.pow_le_pow_right (by omega) (by omega)
  have h4 := Nat.mul_le_mul h2 h3
  rw [Nat.pow_succ] at h4
  rw [two_p (F := F)]
  calc 2 * 2 ^ (F.p - 1) * 2 ^ q = 2 ^ (F.p - 1) * (2 ^ q * 2) := by ring
    _ ≤ _ := h4

/-- `n` has at most 53 significant bits. -/
def Rep (n : Int) : Prop := rndZ 53 n = n

theorem rep_rnd (n : Int) : Rep (rndZ 53 n) := rndZ_idem (F := f64) n

theorem rep_of_dvd {n : Int} {q : Nat} (hd : (2 ^ q : Int) ∣ n) (h : n.natAbs ≤ 2 ^ 53 * 2 ^ q) : Rep n := by
  by_cases he : n.natAbs = 2 ^ 53 * 2 ^ q
  · exact rndZ_exact (p := 53) (by omega) (m := 1) (e := 53 + q) (by rw [he, Nat.pow_add, Nat.one_mul]) (by decide)
  · exact (rndZ_mult (F := f64) hd (by show _ < 2 ^ 53 * 2 ^ q; omega)).1

theorem rnd_big {n : Int} {q : Nat} (hd : (2 ^ q : Int) ∣ n) (h : ¬ Rep n) : 2 ^ 53 * 2 ^ q ≤ (rndZ 53 n).natAbs := rnd_bigF (F := f64) hd h

/-- Rounding to 53 bits is no worse than dropping the smaller summand. -/
theorem rnd_near {s t : Int} (hs : Rep s) : (rndZ 53 (s + t) - (s + t)).natAbs ≤ t.natAbs := by
  have hp : f64.p = 53 := rfl
  -- `s + t` is between `s` and `s + 2t`... use: nearest is at least as near as `s`
  by_contra hc
  have hc' : t.natAbs < (rndZ 53 (s + t) - (s + t)).natAbs := by omega
  generalize hn : s + t = n at *
  have hne : n ≠ 0 := by
    intro h; rw [h, rndZ_zero] at hc'; simp at hc'
  have hn0 : n.natAbs ≠ 0 := by omega
  have hu : n.natAbs < 2 ^ (Nat.log2 n.natAbs + 1) := Nat.lt_log2_self
  have hl := Nat.log2_self_le hn0
  have hnr : ¬ Rep n := by intro h; unfold Rep at h; rw [h] at hc'; simp at hc'
  have hs53 : 53 ≤ Nat.log2 n.natAbs := by
    by_contra h
    exact hnr (rep_of_dvd (q := 0) (by simp) (Nat.le_trans (Nat.le_of_lt hu) (by
      rw [← Nat.pow_add]; exact Nat.pow_le_pow_right (by omega) (by omega))))
  obtain ⟨e, he⟩ := Nat.exists_eq_add_of_le (show 52 ≤ Nat.log2 n.natAbs by omega)
  have h1 := rndZ_err (F := f64) (n := n) (e := e) (by rw [hp]; exact Nat.le_of_lt (Nat.lt_of_lt_of_le hu (Nat.pow_le_pow_right (by omega) (by omega))))
  rw [hp] at h1
  -- `|t| < 2^(e-1)`, so `s` has the same size: it is a multiple of `2^e` (or of `2^(e-1)` just below the binade)
  have hln : 2 ^ 52 * 2 ^ e ≤ n.natAbs := by rw [← Nat.pow_add, ← he]; exact hl
  have hun : n.natAbs < 2 ^ 53 * 2 ^ e := by rw [← Nat.pow_add]; exact Nat.lt_of_lt_of_le hu (Nat.pow_le_pow_right (by omega) (by omega))
  have hpe := pow_pos' e
  -- the rounded value by its definition
  have hrn : (rndZ 53 n).natAbs = rne n.natAbs e * 2 ^ e := by
    rw [rndZ_natAbs, show Nat.log2 n.natAbs - (53 - 1) = e by omega]
  have hsg := rndZ_sign (F := f64) n
  have hz := rndZ_eq_zero (F := f64) (n := n)
  rw [hp] at hsg hz
  have e2 : (rndZ 53 n - n).natAbs = (((rndZ 53 n).natAbs : Int) - n.natAbs).natAbs := by omega
  -- `s` has at most 53 bits
  have hss : s.natAbs = rne s.natAbs (Nat.log2 s.natAbs - 52) * 2 ^ (Nat.log2 s.natAbs - 52) := by
    have := rndZ_natAbs 53 s
    rw [show rndZ 53 s = s from hs] at this
    exact this
  generalize hx : Nat.log2 s.natAbs - 52 = x at hss
  have htn : t.natAbs * 2 < 2 ^ e := by omega
  have hsl : 2 ^ 51 * 2 ^ e ≤ s.natAbs := by omega
  have hs0 : s.natAbs ≠ 0 := by omega
  by_cases hxe : e ≤ x
  · -- `s` is a multiple of `2^e`: the rounding error cannot exceed `|n - s|`
    obtain ⟨d, hd⟩ := Nat.exists_eq_add_of_le hxe
    rw [hd, Nat.pow_add, Nat.mul_comm (2 ^ e), ← Nat.mul_assoc] at hss
    generalize rne s.natAbs (e + d) * 2 ^ d = c at hss
    have hsn : (n.natAbs : Int) - s.natAbs = t.natAbs ∨ (n.natAbs : Int) - s.natAbs = -t.natAbs ∨ n.natAbs + s.natAbs = t.natAbs := by omega
    have hq : n.natAbs = 2 ^ e * (n.natAbs / 2 ^ e) + n.natAbs % 2 ^ e := (Nat.div_add_mod _ _).symm
    have hm := Nat.mod_lt n.natAbs hpe
    rw [e2, hrn] at hc'
    unfold rne at hc'
    dsimp only at hc'
    generalize n.natAbs / 2 ^ e = a at *
    generalize n.natAbs % 2 ^ e = b at *
    generalize hg : 2 ^ e = g at *
    -- c = a or c = a + 1 by |n - c g| < g/2
    have hca : c = a ∨ c = a + 1 := by
      by_cases h3 : c < a
      · have := Nat.mul_le_mul_right g (show c + 1 ≤ a by omega)
        rw [Nat.add_mul, Nat.one_mul] at this
        rw [Nat.mul_comm g a] at hq
        omega
      · by_cases h4 : a + 1 < c
        · have := Nat.mul_le_mul_right g (show a + 2 ≤ c by omega)
          rw [Nat.add_mul] at this
          rw [Nat.mul_comm g a] at hq
          omega
        · omega
    have hag : g * a = a * g := Nat.mul_comm _ _
    have hag1 : (a + 1) * g = a * g + g := by rw [Nat.add_mul, Nat.one_mul]
    rcases hca with rfl | rfl
    · split at hc' <;> omega
    · split at hc' <;> omega
  · -- `s` is below the binade: `|s| < 2^(52+e)`, then `2^(52+e)` is between
    have hxl : s.natAbs < 2 ^ 52 * 2 ^ e := by
      have hus : s.natAbs < 2 ^ (Nat.log2 s.natAbs + 1) := Nat.lt_log2_self
      rw [← Nat.pow_add]
      exact Nat.lt_of_lt_of_le hus (Nat.pow_le_pow_right (by omega) (by omega))
    -- rounding error is at most the distance to `2^(52+e)`
    have hq : n.natAbs = 2 ^ e * (n.natAbs / 2 ^ e) + n.natAbs % 2 ^ e := (Nat.div_add_mod _ _).symm
    have hm := Nat.mod_lt n.natAbs hpe
    rw [e2, hrn] at hc'
    unfold rne at hc'
    dsimp only at hc'
    have hdiv : n.natAbs / 2 ^ e = 2 ^ 52 := by
      rw [Nat.div_eq_iff hpe]
      omega
    rw [hdiv] at hc' hq
    generalize n.natAbs % 2 ^ e = b at *
    generalize hg : 2 ^ e = g at *
    split at hc' <;> omega

/-! ### Sequences -/

/-- Rounded running sum. -/
def accL : Int → List Int → Int
  | s, [] => s
  | s, t :: ts => accL (rndZ 53 (s + t)) ts

/-- Sum of the magnitudes. -/
def absSum (ts : List Int) : Nat := (ts.map Int.natAbs).sum

theorem absSum_cons (t : Int) (ts : List Int) : absSum (t :: ts) = t.natAbs + absSum ts := by simp [absSum]

theorem absSum_nil : absSum [] = 0 := rfl

/-- Every term moves the sum by at most twice its size, with an error of at most its size. -/
theorem accL_near : ∀ (ts : List Int) {s : Int}, Rep s →
    (accL s ts - (s + ts.sum)).natAbs ≤ absSum ts ∧ (accL s ts - s).natAbs ≤ 2 * absSum ts := by
  intro ts
  induction ts with
  | nil => intro s _; simp [accL, absSum]
  | cons t ts ih =>
    intro s hs
    have h1 := rnd_near (t := t) hs
    have h2 := ih (rep_rnd (s + t))
    rw [absSum_cons, List.sum_cons]
    unfold accL
    generalize accL (rndZ 53 (s + t)) ts = r at *
    generalize rndZ 53 (s + t) = s1 at *
    omega

/-- The error when the terms are small compared to the sum: `d` steps with a relative error, and what is left. -/
theorem accL_tail : ∀ (d : Nat) (ts : List Int) {s : Int} {X : Nat}, Rep s → s.natAbs + 2 * absSum ts ≤ X →
    2 ^ 53 * (accL s ts - (s + ts.sum)).natAbs ≤ d * X + 2 ^ 53 * absSum (ts.drop d) := by
  intro d
  induction d with
  | zero =>
    intro ts s X hs _
    have := (accL_near ts hs).1
    simp only [List.drop_zero, Nat.zero_mul]
    omega
  | succ d ih =>
    intro ts s X hs hX
    cases ts with
    | nil => simp [accL, absSum]
    | cons t ts =>
      have h1 := rnd_near (t := t) hs
      have hr := rnd_rel (s + t)
      rw [absSum_cons] at hX
      have h2 := ih ts (X := X) (rep_rnd (s + t)) (by omega)
      rw [List.sum_cons, List.drop_succ_cons]
      unfold accL
      have h3 : (d + 1) * X = d * X + X := by ring
      rw [h3]
      generalize d * X = dX at *
      generalize accL (rndZ 53 (s + t)) ts = r at *
      generalize absSum (List.drop d ts) = w at *
      generalize absSum ts = v at *
      generalize rndZ 53 (s + t) = s1 at *
      omega

/-- The terms of a sequence, each with the exponent of its unit: units do not increase, and what follows a nonzero term
is small compared to `2^53` units. -/
def Falling : List (Nat × Int) → Prop
  | [] => True
  | (q, t) :: l => (2 ^ q : Int) ∣ t ∧ (∀ x ∈ l, x.1 ≤ q) ∧
      (t ≠ 0 → absSum (l.map Prod.snd) ≤ 2 ^ 42 * 2 ^ q ∧ absSum ((l.map Prod.snd).drop 3) ≤ 2 ^ q) ∧ Falling l

/-- **Error of a falling sum**: exact, or with a relative error of `2^-50` in a sum of at least `2^52` of the last units. -/
theorem accL_err : ∀ (l : List (Nat × Int)) {s : Int} {u : Nat}, Rep s → Falling l → (∀ x ∈ l, (2 ^ x.1 : Int) ∣ s ∧ u ≤ x.1) →
    let ts := l.map Prod.snd
    accL s ts = s + ts.sum ∨
    (2 ^ 50 * (accL s ts - (s + ts.sum)).natAbs ≤ (accL s ts).natAbs ∧ 2 ^ 52 * 2 ^ u ≤ (accL s ts).natAbs) := by
  intro l
  induction l with
  | nil => intro s u _ _ _; left; simp [accL]
  | cons a l ih =>
    obtain ⟨q, t⟩ := a
    intro s u hs hf hd
    have ⟨hds, hqu⟩ := hd (q, t) List.mem_cons_self
    obtain ⟨hdt, hq, hsm, hfl⟩ := hf
    dsimp only at hds hqu
    simp only [List.map_cons, List.sum_cons]
    unfold accL
    have hdst : (2 ^ q : Int) ∣ s + t := Int.dvd_add hds hdt
    by_cases hr : Rep (s + t)
    · rw [show rndZ 53 (s + t) = s + t from hr]
      have := ih (s := s + t) (u := u) hr hfl (fun x hx => ⟨dvd_trans (pow_dvd_pow 2 (hq x hx)) hdst, (hd x (List.mem_cons_of_mem _ hx)).2⟩)
      rw [← add_assoc]; exact this
    · right
      have ht : t ≠ 0 := by rintro rfl; rw [add_zero] at hr; exact hr hs
      obtain ⟨h1, h2⟩ := hsm ht
      have hb := rnd_big hdst hr
      have hrel := rnd_rel (s + t)
      have hrep := rep_rnd (s + t)
      have hn := accL_near (l.map Prod.snd) hrep
      have h3 := accL_tail 3 (l.map Prod.snd) (X := (rndZ 53 (s + t)).natAbs + 2 * absSum (l.map Prod.snd)) hrep (Nat.le_refl _)
      have hu : 2 ^ u ≤ 2 ^ q := Nat.pow_le_pow_right (by omega) hqu
      have hq0 := pow_pos' q
      rw [← add_assoc]
      generalize accL (rndZ 53 (s + t)) (l.map Prod.snd) = r at *
      generalize (l.map Prod.snd).sum = w at *
      generalize absSum (l.map Prod.snd) = v at *
      generalize absSum ((l.map Prod.snd).drop 3) = v3 at *
      generalize rndZ 53 (s + t) = s1 at *
      generalize 2 ^ q = g at *
      generalize 2 ^ u = g' at *
      constructor <;> omega

theorem accL_append : ∀ (a b : List Int) (s : Int), accL s (a ++ b) = accL (accL s a) b := by
  intro a
  induction a with
  | nil => intro b s; rfl
  | cons t a ih => intro b s; exact ih b _

theorem accL_rep : ∀ (a : List Int) {s : Int}, Rep s → Rep (accL s a) := by
  intro a
  induction a with
  | nil => intro s h; exact h
  | cons t a ih => intro s h; exact ih (rep_rnd _)

/-! ### The conversion as a falling sum -/

/-- The terms the conversion adds after the first carry, with the exponents of their units (`qc` for carries). -/
def convList (qc qb : Nat → Nat) (ct bt : Nat → Int) : Nat → Nat → List (Nat × Int)
  | _, 0 => []
  | k, n + 1 => (qc (k + 1), ct (k + 1)) :: (qb k, bt k) :: convList qc qb ct bt (k + 1) n

theorem convList_snoc (qc qb : Nat → Nat) (ct bt : Nat → Int) : ∀ (n k : Nat),
    convList qc qb ct bt k (n + 1) = convList qc qb ct bt k n ++ [(qc (k + n + 1), ct (k + n + 1)), (qb (k + n), bt (k + n))] := by
  intro n
  induction n with
  | zero => intro k; rfl
  | succ n ih =>
    intro k
    rw [convList, ih (k + 1)]
    rw [show k + 1 + n = k + (n + 1) by omega]
    rfl

theorem convAcc_accL (qc qb : Nat → Nat) (ct bt : Nat → Int) (k : Nat) : ∀ i,
    convAcc ct bt k i = accL (rndZ 53 (ct k)) ((convList qc qb ct bt k i).map Prod.snd) := by
  intro i
  induction i with
  | zero => rfl
  | succ i ih => rw [convList_snoc, List.map_append, accL_append, ← ih]; rfl

theorem convList_sum (qc qb : Nat → Nat) (ct bt : Nat → Int) (k : Nat) : ∀ n,
    ct k + ((convList qc qb ct bt k n).map Prod.snd).sum = sumTo (fun i => ct (k + i) + bt (k + i)) n + ct (k + n) := by
  intro n
  induction n with
  | zero => simp [convList, sumTo]
  | succ n ih =>
    rw [convList_snoc, List.map_append, List.sum_append, ← add_assoc, ih]
    simp [sumTo]
    rw [show k + n + 1 = k + (n + 1) by omega]
    ring

theorem convList_mem {qc qb : Nat → Nat} {ct bt : Nat → Int} : ∀ {n k : Nat} {x : Nat × Int}, x ∈ convList qc qb ct bt k n →
    (∃ j, k < j ∧ j ≤ k + n ∧ x = (qc j, ct j)) ∨ (∃ j, k ≤ j ∧ j < k + n ∧ x = (qb j, bt j)) := by
  intro n
  induction n with
  | zero => intro k x h; simp [convList] at h
  | succ n ih =>
    intro k x h
    rw [convList] at h
    rcases List.mem_cons.1 h with rfl | h
    · left; exact ⟨k + 1, by omega, by omega, rfl⟩
    rcases List.mem_cons.1 h with rfl | h
    · right; exact ⟨k, by omega, by omega, rfl⟩
    rcases ih h with ⟨j, h1, h2, h3⟩ | ⟨j, h1, h2, h3⟩
    · left; exact ⟨j, by omega, by omega, h3⟩
    · right; exact ⟨j, by omega, by omega, h3⟩

/-- Abstract form: with falling units `w j` of the bins (`2^qb j`, or 0 where there is nothing), the terms fall. -/
theorem convList_falling {p : Nat} {qc qb w : Nat → Nat} {ct bt : Nat → Int}
    (hct : ∀ j, (2 ^ qc j : Int) ∣ ct j ∧ (ct j).natAbs ≤ 2 ^ (2 * p - 4) * w j)
    (hbt : ∀ j, (2 ^ qb j : Int) ∣ bt j ∧ (bt j).natAbs ≤ 2 ^ (p - 3) * w j)
    (hp : 3 ≤ p) (hw : ∀ j, 2 * w (j + 1) ≤ w j)
    (hq1 : ∀ i j, i ≤ j → qb j ≤ qb i) (hq2 : ∀ i j, i ≤ j → qc j ≤ qc i) (hq3 : ∀ j, qb j ≤ qc (j + 1)) (hq4 : ∀ j, qc (j + 2) ≤ qb j)
    (hc : ∀ j, ct (j + 1) ≠ 0 → 2 ^ (p - 3) * w j + (2 ^ (2 * p - 3) * w (j + 2) + 2 ^ (p - 2) * w (j + 1)) ≤ 2 ^ 42 * 2 ^ qc (j + 1) ∧
      2 ^ (2 * p - 3) * w (j + 3) + 2 ^ (p - 2) * w (j + 2) ≤ 2 ^ qc (j + 1))
    (hb : ∀ j, bt j ≠ 0 → 2 ^ (2 * p - 3) * w (j + 2) + 2 ^ (p - 2) * w (j + 1) ≤ 2 ^ 42 * 2 ^ qb j ∧
      2 ^ (p - 3) * w (j + 2) + (2 ^ (2 * p - 3) * w (j + 4) + 2 ^ (p - 2) * w (j + 3)) ≤ 2 ^ qb j) :
    ∀ n k, Falling (convList qc qb ct bt k n) := by
  have e1 : 2 ^ (2 * p - 3) = 2 * 2 ^ (2 * p - 4) := by rw [← Nat.pow_succ']; congr 1; omega
  have e2 : 2 ^ (p - 2) = 2 * 2 ^ (p - 3) := by rw [← Nat.pow_succ']; congr 1; omega
  have hsum : ∀ n k, absSum ((convList qc qb ct bt k n).map Prod.snd) ≤ 2 ^ (2 * p - 3) * w (k + 1) + 2 ^ (p - 2) * w k := by
    intro n
    induction n with
    | zero => intro k; simp [convList, absSum]
    | succ n ih =>
      intro k
      rw [convList, List.map_cons, List.map_cons, absSum_cons, absSum_cons]
      have h1 := ih (k + 1)
      have h2 := (hct (k + 1)).2
      have h3 := (hbt k).2
      have h4 := Nat.mul_le_mul_left (2 ^ (2 * p - 4)) (hw (k + 1))
      have h5 := Nat.mul_le_mul_left (2 ^ (p - 3)) (hw k)
      rw [e1, e2] at *
      have m1 : 2 ^ (2 * p - 4) * (2 * w (k + 1 + 1)) = 2 * 2 ^ (2 * p - 4) * w (k + 1 + 1) := by ring
      have m2 : 2 ^ (p - 3) * (2 * w (k + 1)) = 2 * 2 ^ (p - 3) * w (k + 1) := by ring
      have m3 : 2 * 2 ^ (2 * p - 4) * w (k + 1) = 2 ^ (2 * p - 4) * w (k + 1) + 2 ^ (2 * p - 4) * w (k + 1) := by ring
      have m4 : 2 * 2 ^ (p - 3) * w k = 2 ^ (p - 3) * w k + 2 ^ (p - 3) * w k := by ring
      dsimp only
      omega
  have hdrop : ∀ n k, absSum (((convList qc qb ct bt k n).map Prod.snd).drop 2) ≤ 2 ^ (2 * p - 3) * w (k + 2) + 2 ^ (p - 2) * w (k + 1) := by
    intro n k
    cases n with
    | zero => simp [convList, absSum]
    | succ n =>
      rw [convList, List.map_cons, List.map_cons, List.drop_succ_cons, List.drop_succ_cons, List.drop_zero]
      exact hsum n (k + 1)
  intro n
  induction n with
  | zero => intro k; trivial
  | succ n ih =>
    intro k
    rw [convList]
    refine ⟨(hct _).1, ?_, fun hne => ⟨?_, ?_⟩, (hbt _).1, ?_, fun hne => ⟨?_, ?_⟩, ih _⟩
    · intro x hx
      rcases List.mem_cons.1 hx with rfl | hx
      · exact hq3 k
      rcases convList_mem hx with ⟨j, h1, h2, rfl⟩ | ⟨j, h1, h2, rfl⟩
      · exact hq2 _ _ (by omega)
      · exact Nat.le_trans (hq1 k j (by omega)) (hq3 k)
    · rw [List.map_cons, absSum_cons]
      have h1 := hsum n (k + 1)
      have h2 := (hbt k).2
      dsimp only
      exact Nat.le_trans (Nat.add_le_add h2 h1) (hc k hne).1
    · rw [List.map_cons, List.drop_succ_cons]
      have h1 := hdrop n (k + 1)
      exact Nat.le_trans h1 (hc k hne).2
    · intro x hx
      rcases convList_mem hx with ⟨j, h1, h2, rfl⟩ | ⟨j, h1, h2, rfl⟩
      · exact Nat.le_trans (hq2 (k + 2) j (by omega)) (hq4 k)
      · exact hq1 _ _ (by omega)
    · have h1 := hsum n (k + 1)
      exact Nat.le_trans h1 (hb k hne).1
    · cases n with
      | zero => simp [convList, absSum]
      | succ n =>
        rw [convList, List.map_cons, List.map_cons, List.drop_succ_cons, List.drop_succ_cons]
        have h0 := hb k hne
        cases n with
        | zero => simp [convList, absSum]
        | succ n =>
          rw [convList, List.map_cons, List.map_cons, List.drop_succ_cons, List.drop_zero, absSum_cons]
          have h1 := hsum n (k + 1 + 1 + 1)
          have h2 := (hbt (k + 1 + 1)).2
          dsimp only
          exact Nat.le_trans (Nat.add_le_add h2 h1) h0.2

namespace Fmt
variable {F : Fmt}

/-- Units of the bins; nothing below the last bin. -/
def unitW (F : Fmt) (j : Nat) : Nat := if j ≤ F.maxIndex then 2 ^ F.uexp j else 0

theorem unitW_step [F.OK] {i d : Nat} (h : i + d ≤ F.maxIndex) : 2 ^ F.uexp i = 2 ^ (F.W * d) * 2 ^ F.uexp (i + d) := by
  have ⟨h1, h2, h3, h4, h5, h6, h7, _⟩ := F.bfacts
  rw [← Nat.pow_add]
  congr 1
  unfold uexp
  rw [Nat.min_eq_left h, Nat.min_eq_left (by omega)]
  have e : F.W * (i + d) = F.W * i + F.W * d := by ring
  have : F.W * (i + d) ≤ F.W * F.maxIndex := Nat.mul_le_mul_left _ h
  omega

theorem arith_c64 {x2 x3 g : Nat} (w2 : 2 ^ 40 * x2 ≤ g) (w3 : 2 ^ 80 * x3 ≤ g) :
    2 ^ 50 * (2 ^ 40 * g) + (2 ^ 103 * x2 + 2 ^ 51 * g) ≤ 2 ^ 42 * (2 ^ 50 * g) ∧ 2 ^ 103 * x3 + 2 ^ 51 * x2 ≤ 2 ^ 50 * g := by
  constructor <;> omega

theorem arith_c32 {x2 x3 g : Nat} (w2 : 2 ^ 13 * x2 ≤ g) (w3 : 2 ^ 26 * x3 ≤ g) :
    2 ^ 21 * (2 ^ 13 * g) + (2 ^ 45 * x2 + 2 ^ 22 * g) ≤ 2 ^ 42 * (2 ^ 21 * g) ∧ 2 ^ 45 * x3 + 2 ^ 22 * x2 ≤ 2 ^ 21 * g := by
  constructor <;> omega

theorem arith_b64 {x1 x2 x3 x4 g : Nat} (w1 : 2 ^ 40 * x1 ≤ g) (w2 : 2 ^ 80 * x2 ≤ g) (w3 : 2 ^ 120 * x3 ≤ g) (w4 : 2 ^ 160 * x4 ≤ g) :
    2 ^ 103 * x2 + 2 ^ 51 * x1 ≤ 2 ^ 42 * g ∧ 2 ^ 50 * x2 + (2 ^ 103 * x4 + 2 ^ 51 * x3) ≤ g := by
  constructor <;> omega

theorem arith_b32 {x1 x2 x3 x4 g : Nat} (w1 : 2 ^ 13 * x1 ≤ g) (w2 : 2 ^ 26 * x2 ≤ g) (w3 : 2 ^ 39 * x3 ≤ g) (w4 : 2 ^ 52 * x4 ≤ g) :
    2 ^ 45 * x2 + 2 ^ 22 * x1 ≤ 2 ^ 42 * g ∧ 2 ^ 21 * x2 + (2 ^ 45 * x4 + 2 ^ 22 * x3) ≤ g := by
  constructor <;> omega

/-- **Error of the conversion** of a canonical value whose totals vanish below the last bin, before the rounding to the
format: exact, or relative error `2^-50` and at least `2^52` units of the last bin. -/
theorem convTotal_err [F.OK] {fold k : Nat} {A : Nat → Int} (hfold : 1 ≤ fold)
    (hA : ∀ j, (A j).natAbs ≤ F.capacity * 2 ^ (F.W - 1)) (hA0 : ∀ j, F.maxIndex < j → j < k + fold → A j = 0) :
    let T := sumTo (fun i => A (k + i) * 2 ^ F.uexp (k + i)) fold
    let R := rndZ 53 (convTotal (F.carTerm (fun j => A j / 2 ^ (F.p - 3))) (F.priTerm (fun j => A j % 2 ^ (F.p - 3))) k fold)
    R = T ∨ (2 ^ 50 * (R - T).natAbs ≤ R.natAbs ∧ 2 ^ 52 * 2 ^ F.uexp (k + fold - 1) ≤ R.natAbs) := by
  intro T R
  have ⟨hp, hW, hWp, _, hem, hem1, hbi, het, hb3, _⟩ := F.facts
  have ⟨b1, b2, b3, b4, b5, b6, b7, _⟩ := F.bfacts
  have hP := ipow_pos (F.p - 3)
  have hp53 : F.p ≤ 53 ∧ 24 ≤ F.p := by
    rcases ‹F.OK›.isDoubleOrFloat with h | h <;> rw [h] <;> decide
  have hcap : F.capacity * 2 ^ (F.W - 1) ≤ 2 ^ (2 * F.p - 4) := by
    rcases ‹F.OK›.isDoubleOrFloat with h | h <;> rw [h] <;> decide +kernel
  -- the totals that matter
  obtain ⟨A', hA'⟩ : ∃ A' : Nat → Int, A' = fun j => if F.maxIndex < j ∨ k + fold ≤ j then 0 else A j := ⟨_, rfl⟩
  have hAA : ∀ j, j < k + fold → A' j = A j := by
    intro j hj
    rw [hA']; dsimp only
    split
    · next h => rcases h with h | h
                · exact (hA0 j h hj).symm
                · omega
    · rfl
  have hA'0 : ∀ j, F.maxIndex < j ∨ k + fold ≤ j → A' j = 0 := by
    intro j hj; rw [hA']; dsimp only; rw [if_pos hj]
  have hA'b : ∀ j, (A' j).natAbs ≤ 2 ^ (2 * F.p - 4) := by
    intro j
    rw [hA']; dsimp only
    split
    · simp
    · exact Nat.le_trans (hA j) hcap
  -- terms
  obtain ⟨ct, hct⟩ : ∃ ct, ct = F.carTerm (fun j => A' j / 2 ^ (F.p - 3)) := ⟨_, rfl⟩
  obtain ⟨bt, hbt⟩ : ∃ bt, bt = F.priTerm (fun j => A' j % 2 ^ (F.p - 3)) := ⟨_, rfl⟩
  have hsum : ∀ j, ct j + bt j = A' j * 2 ^ F.uexp j := by
    intro j
    rw [hct, hbt]; unfold carTerm priTerm
    have := Int.mul_ediv_add_emod (A' j) (2 ^ (F.p - 3))
    rw [mul_comm] at this
    rw [← Int.add_mul, this]
  have hz : ∀ j, A' j = 0 → ct j = 0 ∧ bt j = 0 := by
    intro j h
    rw [hct, hbt]; unfold carTerm priTerm; dsimp only
    rw [h]; simp
  have hR : R = rndZ 53 (convTotal ct bt k fold) := by
    show rndZ 53 _ = _
    have hc : ∀ j, j < k + fold → F.carTerm (fun j => A j / 2 ^ (F.p - 3)) j = ct j ∧ F.priTerm (fun j => A j % 2 ^ (F.p - 3)) j = bt j := by
      intro j hj
      rw [hct, hbt]; unfold carTerm priTerm; dsimp only; rw [hAA j hj]; exact ⟨rfl, rfl⟩
    have hacc : ∀ i, i < fold → convAcc (F.carTerm (fun j => A j / 2 ^ (F.p - 3))) (F.priTerm (fun j => A j % 2 ^ (F.p - 3))) k i = convAcc ct bt k i := by
      intro i
      induction i with
      | zero => intro h; unfold convAcc; rw [(hc k (by omega)).1]
      | succ i ih => intro h; unfold convAcc; rw [ih (by omega), (hc (k + i + 1) (by omega)).1, (hc (k + i) (by omega)).2]
    unfold convTotal
    rw [hacc _ (by omega), (hc (k + (fold - 1)) (by omega)).2]
  have hT : T = sumTo (fun i => ct (k + i) + bt (k + i)) fold := by
    apply sumTo_congr
    intro i hi
    rw [hsum, hAA _ (by omega)]
  -- bounds
  have hctb : ∀ j, (ct j).natAbs ≤ 2 ^ (2 * F.p - 4) * F.unitW j := by
    intro j
    by_cases hj : F.maxIndex < j
    · rw [(hz j (hA'0 j (Or.inl hj))).1]; simp
    · unfold unitW
      rw [if_pos (by omega), hct]
      unfold carTerm
      dsimp only
      rw [natAbs_mul_pow]
      apply Nat.mul_le_mul_right
      rw [natAbs_mul_pow]
      have e4 : 2 ^ (2 * F.p - 4) = 2 ^ (F.p - 1) * 2 ^ (F.p - 3) := by rw [← Nat.pow_add]; congr 1; omega
      rw [e4]
      apply Nat.mul_le_mul_right
      have hb := hA'b j
      rw [e4] at hb
      have h1 : ((2 ^ (F.p - 1) : Nat) : Int) = 2 ^ (F.p - 1) := by push_cast; rfl
      have h3 : ((2 ^ (F.p - 3) : Nat) : Int) = 2 ^ (F.p - 3) := by push_cast; rfl
      have hb' : A' j ≤ 2 ^ (F.p - 1) * 2 ^ (F.p - 3) ∧ -(2 ^ (F.p - 1) * 2 ^ (F.p - 3)) ≤ A' j := by
        have e5 : (((2 ^ (F.p - 1) * 2 ^ (F.p - 3) : Nat)) : Int) = 2 ^ (F.p - 1) * 2 ^ (F.p - 3) := by push_cast; rfl
        rw [← e5]
        generalize 2 ^ (F.p - 1) * 2 ^ (F.p - 3) = M at *
        omega
      have hu : A' j / 2 ^ (F.p - 3) ≤ 2 ^ (F.p - 1) := Int.ediv_le_of_le_mul hP hb'.1
      have hl : -2 ^ (F.p - 1) ≤ A' j / 2 ^ (F.p - 3) := Int.le_ediv_of_mul_le hP (by rw [Int.neg_mul]; exact hb'.2)
      omega
  have hbtb : ∀ j, (bt j).natAbs ≤ 2 ^ (F.p - 3) * F.unitW j := by
    intro j
    by_cases hj : F.maxIndex < j
    · rw [(hz j (hA'0 j (Or.inl hj))).2]; simp
    · unfold unitW
      rw [if_pos (by omega), hbt]
      unfold priTerm
      dsimp only
      rw [natAbs_mul_pow]
      apply Nat.mul_le_mul_right
      have h3 : ((2 ^ (F.p - 3) : Nat) : Int) = 2 ^ (F.p - 3) := by push_cast; rfl
      have h4 := Int.emod_nonneg (A' j) (ne_of_gt hP)
      have h5 := Int.emod_lt_of_pos (A' j) hP
      omega
  obtain ⟨qc, hqc⟩ : ∃ qc : Nat → Nat, qc = fun j => if j ≤ F.maxIndex then F.p - 3 + F.uexp j else F.uexp j := ⟨_, rfl⟩
  have hqcv : ∀ j, j ≤ F.maxIndex → qc j = F.p - 3 + F.uexp j := by intro j h; rw [hqc]; dsimp only; rw [if_pos h]
  have hqcw : ∀ j, ¬ j ≤ F.maxIndex → qc j = F.uexp j := by intro j h; rw [hqc]; dsimp only; rw [if_neg h]
  have hctd : ∀ j, (2 ^ qc j : Int) ∣ ct j := by
    intro j
    by_cases hj : j ≤ F.maxIndex
    · rw [hqcv j hj, hct, pow_add]; unfold carTerm; dsimp only
      rw [mul_assoc]; exact Dvd.intro_left _ rfl
    · rw [(hz j (hA'0 j (Or.inl (by omega)))).1]; exact dvd_zero _
  have hbtd : ∀ j, (2 ^ F.uexp j : Int) ∣ bt j := by
    intro j; rw [hbt]; unfold priTerm; exact Dvd.intro_left _ rfl
  have hux : ∀ i j, i ≤ j → F.uexp j ≤ F.uexp i := fun i j h => uexp_anti h
  have hum : ∀ j, ¬ j ≤ F.maxIndex → F.uexp j = F.uexp F.maxIndex := by
    intro j h; unfold uexp; rw [Nat.min_eq_right (by omega), Nat.min_self]
  have hus : ∀ i d, i + d ≤ F.maxIndex → F.uexp i = F.W * d + F.uexp (i + d) := by
    intro i d h
    have := unitW_step (F := F) h
    rw [← Nat.pow_add] at this
    exact Nat.pow_right_injective (Nat.le_refl 2) this
  have hfall := convList_falling (p := F.p) (qc := qc) (qb := F.uexp) (w := F.unitW) (ct := ct) (bt := bt)
    (fun j => ⟨hctd j, hctb j⟩) (fun j => ⟨hbtd j, hbtb j⟩) (by omega)
    (by
      intro j
      unfold unitW
      by_cases h : j + 1 ≤ F.maxIndex
      · rw [if_pos h, if_pos (by omega), hus j 1 h, Nat.mul_one, Nat.pow_add]
        exact Nat.mul_le_mul_right _ (by
          calc 2 = 2 ^ 1 := rfl
            _ ≤ 2 ^ F.W := Nat.pow_le_pow_right (by omega) (by omega))
      · rw [if_neg h]; omega)
    hux
    (by
      intro i j h
      have := hux i j h
      by_cases hj : j ≤ F.maxIndex
      · rw [hqcv j hj, hqcv i (by omega)]; omega
      · rw [hqcw j hj]
        by_cases hi : i ≤ F.maxIndex
        · rw [hqcv i hi]; omega
        · rw [hqcw i hi]; omega)
    (by
      intro j
      by_cases h : j + 1 ≤ F.maxIndex
      · rw [hqcv _ h, hus j 1 h]; omega
      · rw [hqcw _ h, hum _ h]
        by_cases h2 : j ≤ F.maxIndex
        · have : j = F.maxIndex := by omega
          rw [this]
        · rw [hum _ h2])
    (by
      intro j
      by_cases h : j + 2 ≤ F.maxIndex
      · rw [hqcv _ h, hus j 2 h]
        have : F.p - 3 ≤ F.W * 2 := by
          rcases ‹F.OK›.isDoubleOrFloat with h | h <;> rw [h] <;> decide
        omega
      · rw [hqcw _ h]; exact hux _ _ (by omega))
    (by
      intro j hne
      have hj : j + 1 ≤ F.maxIndex := by
        by_contra h
        exact hne (hz _ (hA'0 _ (Or.inl (by omega)))).1
      rw [hqcv _ hj]
      have w0 : F.unitW j = 2 ^ F.W * 2 ^ F.uexp (j + 1) := by
        unfold unitW; rw [if_pos (by omega), unitW_step hj, Nat.mul_one]
      have w1 : F.unitW (j + 1) = 2 ^ F.uexp (j + 1) := by unfold unitW; rw [if_pos hj]
      have w2 : 2 ^ F.W * F.unitW (j + 2) ≤ 2 ^ F.uexp (j + 1) := by
        unfold unitW
        split
        · next h => rw [unitW_step (F := F) (i := j + 1) (d := 1) (by omega), Nat.mul_one]
        · simp
      have w3 : 2 ^ (F.W * 2) * F.unitW (j + 3) ≤ 2 ^ F.uexp (j + 1) := by
        unfold unitW
        split
        · next h => rw [unitW_step (F := F) (i := j + 1) (d := 2) (by omega)]
        · simp
      rw [w0, w1, Nat.pow_add]
      generalize F.unitW (j + 2) = x2 at *
      generalize F.unitW (j + 3) = x3 at *
      generalize 2 ^ F.uexp (j + 1) = g at *
      clear hfold
      rcases ‹F.OK›.isDoubleOrFloat with h | h <;> rw [h] at w2 w3 ⊢
      · exact arith_c64 w2 w3
      · exact arith_c32 w2 w3)
    (by
      intro j hne
      have hj : j ≤ F.maxIndex := by
        by_contra h
        exact hne (hz _ (hA'0 _ (Or.inl (by omega)))).2
      have wd : ∀ d, 2 ^ (F.W * d) * F.unitW (j + d) ≤ 2 ^ F.uexp j := by
        intro d
        unfold unitW
        split
        · next h => rw [unitW_step (F := F) (i := j) (d := d) h]
        · simp
      have w1 := wd 1
      have w2 := wd 2
      have w3 := wd 3
      have w4 := wd 4
      generalize F.unitW (j + 1) = x1 at *
      generalize F.unitW (j + 2) = x2 at *
      generalize F.unitW (j + 3) = x3 at *
      generalize F.unitW (j + 4) = x4 at *
      generalize 2 ^ F.uexp j = g at *
      clear wd hfold
      rcases ‹F.OK›.isDoubleOrFloat with h | h <;> rw [h] at w1 w2 w3 w4 ⊢
      · exact arith_b64 w1 w2 w3 w4
      · exact arith_b32 w1 w2 w3 w4)
    fold k
  -- the first carry is exact
  have hrep0 : Rep (ct k) := by
    by_cases hk : k ≤ F.maxIndex
    · refine rep_of_dvd (q := F.p - 3 + F.uexp k) (by have := hctd k; rw [hqcv k hk] at this; exact this) ?_
      have := hctb k
      unfold unitW at this
      rw [if_pos hk] at this
      refine Nat.le_trans this ?_
      rw [← Nat.pow_add, ← Nat.pow_add]
      exact Nat.pow_le_pow_right (by omega) (by omega)
    · rw [(hz k (hA'0 k (Or.inl (by omega)))).1]; exact rndZ_zero 53
  have hlast : (hz (k + fold) (hA'0 _ (Or.inr (Nat.le_refl _)))).1 = (hz (k + fold) (hA'0 _ (Or.inr (Nat.le_refl _)))).1 := rfl
  have hl0 := (hz (k + fold) (hA'0 _ (Or.inr (Nat.le_refl _)))).1
  have hRl : R = accL (ct k) ((convList qc F.uexp ct bt k fold).map Prod.snd) := by
    obtain ⟨m, rfl⟩ : ∃ m, fold = m + 1 := ⟨fold - 1, by omega⟩
    rw [hR]
    unfold convTotal
    rw [convList_snoc, List.map_append, accL_append, convAcc_accL qc F.uexp, show rndZ 53 (ct k) = ct k from hrep0]
    simp only [List.map_cons, List.map_nil, accL, Nat.add_sub_cancel]
    have : ct (k + m + 1) = 0 := hl0
    rw [this, add_zero]
    congr 1
    rw [show rndZ 53 (accL (ct k) (List.map Prod.snd (convList qc F.uexp ct bt k m))) = _ from accL_rep _ hrep0]
  have hTl : ct k + ((convList qc F.uexp ct bt k fold).map Prod.snd).sum = T := by
    rw [convList_sum, hT, hl0, add_zero]
  have hfin := accL_err (convList qc F.uexp ct bt k fold) (s := ct k) (u := F.uexp (k + fold - 1)) hrep0 hfall (by
    intro x hx
    rcases convList_mem hx with ⟨j, h1, h2, rfl⟩ | ⟨j, h1, h2, rfl⟩
    · dsimp only
      constructor
      · refine dvd_trans (pow_dvd_pow 2 ?_) (hctd k)
        by_cases hj : j ≤ F.maxIndex
        · rw [hqcv j hj, hqcv k (by omega)]; have := hux k j (by omega); omega
        · rw [hqcw j hj]
          by_cases hk : k ≤ F.maxIndex
          · rw [hqcv k hk]; have := hux k j (by omega); omega
          · rw [hqcw k hk]; exact hux k j (by omega)
      · by_cases hj : j ≤ F.maxIndex
        · rw [hqcv j hj]
          by_cases hjl : j ≤ k + fold - 1
          · by_cases hl : k + fold - 1 ≤ F.maxIndex
            · have := hux j (k + fold - 1) hjl; omega
            · have := hux j (k + fold - 1) hjl; omega
          · have hj1 : j = (k + fold - 1) + 1 := by omega
            rw [hus (k + fold - 1) 1 (by omega), ← hj1]; omega
        · rw [hqcw j hj]
          by_cases hjl : j ≤ k + fold - 1
          · exact hux _ _ hjl
          · have hj1 : k + fold - 1 = j - 1 := by omega
            rw [hum j hj]
            by_cases h3 : k + fold - 1 ≤ F.maxIndex
            · have : k + fold - 1 = F.maxIndex := by omega
              rw [this]
            · rw [hum _ h3]
    · dsimp only
      constructor
      · refine dvd_trans (pow_dvd_pow 2 ?_) (hctd k)
        by_cases hk : k ≤ F.maxIndex
        · rw [hqcv k hk]; have := hux k j (by omega); omega
        · rw [hqcw k hk]; exact hux k j (by omega)
      · exact hux _ _ (by omega))
  dsimp only at hfin
  rw [hTl, ← hRl] at hfin
  exact hfin

end Fmt
end Repro
