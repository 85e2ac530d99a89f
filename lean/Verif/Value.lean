import Verif.Hist
/-!
# The exact number represented by a binned value

`exactVal` is a specification: it reads the bits of a binned value as an exact number (in units of
the least subnormal), with no rounding. `include/binned.h:24-58` describes a binned value as the sum
of the offsets of the primaries from the reference values of their bins and of the carries, which
count quarters of the binade.
-/

namespace Repro
namespace Fmt
variable (F : Fmt)

/-- Bin 0 is stored scaled down by `binned_DMEXPANSION = 2^(p-W+1)`. -/
def expandBy (j : Nat) : Int := if j = 0 then 2 ^ (F.p - F.W + 1) else 1

/-- Sum of `f 0, ..., f (n-1)`. -/
def sumTo (f : Nat → Int) : Nat → Int
  | 0 => 0
  | n + 1 => sumTo f n + f n

/-- Exact value of a binned value, in units of the least subnormal: offset of every primary from the
reference value of its bin, plus carry times a sixth of the reference value (a quarter of the binade
`2^e` when the reference value is `1.5 * 2^e`). -/
def exactVal (fold : Nat) (y : Binned) : Int :=
  if isZero (nth y.pri 0) then 0
  else
    let k := F.dmindex (nth y.pri 0)
    sumTo (fun i =>
      (F.toInt (nth y.pri i) - F.toInt (F.bins (k + i))) * F.expandBy (k + i)
      + F.toInt (nth y.car i) / 2 ^ F.eta * (F.toInt (F.bins (k + i)) / 6 * F.expandBy (k + i))) fold

/-- Exact sum of a list of finite numbers, in units of the least subnormal. -/
def exactSum (xs : List Flt) : Int := (xs.map F.toInt).sum

variable {F}

theorem sumTo_congr {f g : Nat → Int} {n : Nat} (h : ∀ i, i < n → f i = g i) : sumTo f n = sumTo g n := by
  induction n with
  | zero => rfl
  | succ n ih =>
    unfold sumTo
    rw [ih (fun i hi => h i (by omega)), h n (by omega)]

theorem sumTo_add (f g : Nat → Int) (n : Nat) : sumTo (fun i => f i + g i) n = sumTo f n + sumTo g n := by
  induction n with
  | zero => rfl
  | succ n ih => unfold sumTo; rw [ih]; ring

theorem sumTo_neg (f : Nat → Int) (n : Nat) : sumTo (fun i => - f i) n = - sumTo f n := by
  induction n with
  | zero => rfl
  | succ n ih => unfold sumTo; rw [ih]; ring

theorem sumTo_zero (n : Nat) : sumTo (fun _ => 0) n = 0 := by
  induction n with
  | zero => rfl
  | succ n ih => unfold sumTo; rw [ih]; rfl

theorem expandBy_sexp [F.OK] (j : Nat) : (2 : Int) ^ F.sexp j * F.expandBy j = 2 ^ F.uexp j := by
  unfold expandBy
  split
  · next h =>
    subst h
    rw [sexp_zero, uexp_zero, ← pow_add]
  · rw [mul_one, sexp_pos (by omega)]

/-- Exact value of a state given by offsets and carries. -/
theorem exactVal_midZ [F.OK] {fold k : Nat} {B C : Nat → Int} {Z : Nat → Bool} (hfold : 1 ≤ fold)
    (hk : k ≤ F.maxIndex)
    (hB : ∀ j, F.Win (B j)) (hC : ∀ j, (C j).natAbs ≤ 2 ^ F.p) :
    F.exactVal fold (F.midZ fold k B C Z) =
      sumTo (fun i => (B (k + i) + C (k + i) * 2 ^ (F.p - 3)) * 2 ^ F.uexp (k + i)) fold := by
  have w0 : F.Win 0 := by unfold Win; have := ipow_pos (F.p - 2); omega
  unfold exactVal
  rw [nth_pri_midZ hfold, mkPri_isZero (hB _), dmindex_mkPri (hB _) hk]
  simp only [Bool.false_eq_true, if_false]
  apply sumTo_congr
  intro i hi
  unfold midZ
  dsimp only
  rw [nth_map_range' hi, nth_map_range' hi, bins_eq, mkPri_toInt (hB _), mkPri_toInt w0,
    (carF_ok (hC _)).2, ← expandBy_sexp]
  rw [Int.mul_ediv_cancel _ (ne_of_gt (ipow_pos _))]
  have t1 : (2 : Int) ^ (F.p - 2) = 2 * 2 ^ (F.p - 3) := by exact_mod_cast two_p2 (F := F)
  have e : (3 * 2 ^ (F.p - 2) + 0 : Int) * 2 ^ F.sexp (k + i) / 6 = 2 ^ (F.p - 3) * 2 ^ F.sexp (k + i) := by
    rw [t1]
    have : (3 * (2 * 2 ^ (F.p - 3)) + 0 : Int) * 2 ^ F.sexp (k + i) = (2 ^ (F.p - 3) * 2 ^ F.sexp (k + i)) * 6 := by ring
    rw [this]; exact Int.mul_ediv_cancel _ (by omega)
  rw [e]; ring

theorem Mid.exactVal [F.OK] {fold n N k : Nat} {A : Nat → Int} {y : Binned} (hfold : 1 ≤ fold)
    (h : F.Mid fold n N k A y) (hn : n ≤ F.endurance) (hN : N ≤ F.capacity) :
    F.exactVal fold y = sumTo (fun i => A (k + i) * 2 ^ F.uexp (k + i)) fold := by
  obtain ⟨B, C, Z, h1, h2, h3, h4, h5, h6⟩ := h
  rw [h1, exactVal_midZ hfold h5 (fun j => win_of_bound hn (h3 j))
    (fun j => Nat.le_trans (car_of_bound hn hN (h3 j) (h6 j) (h2 j)) pow_p1_le)]
  apply sumTo_congr
  intro i _
  rw [h2]

/-- Slices telescope. -/
theorem slices_sum (r : Int) (k n : Nat) :
    sumTo (fun i => F.slice r (k + i) * 2 ^ F.uexp (k + i)) n = F.resid r k - F.resid r (k + n) := by
  induction n with
  | zero => simp [sumTo]
  | succ n ih =>
    unfold sumTo
    rw [ih]
    have : k + (n + 1) = (k + n) + 1 := by omega
    rw [this]
    show _ = _ - (F.resid r (k + n) - rha (F.resid r (k + n)) (F.uexp (k + n)) * 2 ^ F.uexp (k + n))
    unfold slice; ring

theorem exactSum_cons (x : Flt) (xs : List Flt) : F.exactSum (x :: xs) = F.toInt x + F.exactSum xs := by
  unfold exactSum; rw [List.map_cons, List.sum_cons]

/-- Loss of a list of numbers when everything after bin `k + n - 1` is dropped. -/
theorem totals_loss [F.OK] {k n : Nat} {xs : List Flt} (hx : ∀ x ∈ xs, F.Finite x ∧ k ≤ F.dindex x) :
    F.exactSum xs - sumTo (fun i => F.total xs (k + i) * 2 ^ F.uexp (k + i)) n =
      (xs.map (fun x => F.resid (F.toInt x) (k + n))).sum := by
  induction xs with
  | nil =>
    have : sumTo (fun i => F.total [] (k + i) * 2 ^ F.uexp (k + i)) n = 0 := by
      rw [← sumTo_zero n]; apply sumTo_congr; intro i _; rw [total_nil, zero_mul]
    rw [this]; simp [exactSum]
  | cons x xs ih =>
    have h1 := ih (fun y hy => hx y (List.mem_cons_of_mem _ hy))
    have hx0 := hx x List.mem_cons_self
    have h2 := slices_sum (F := F) (F.toInt x) k n
    rw [resid_of_fits (dindex_le_max x) (fits_dindex hx0.1) k hx0.2] at h2
    have h3 : sumTo (fun i => F.total (x :: xs) (k + i) * 2 ^ F.uexp (k + i)) n =
        sumTo (fun i => F.slice (F.toInt x) (k + i) * 2 ^ F.uexp (k + i)) n +
        sumTo (fun i => F.total xs (k + i) * 2 ^ F.uexp (k + i)) n := by
      rw [← sumTo_add]; apply sumTo_congr; intro i _; rw [total_cons]; ring
    rw [exactSum_cons, h3, h2, List.map_cons, List.sum_cons, ← h1]; ring

theorem sum_natAbs_le {l : List Int} {M : Int} (h : ∀ a ∈ l, 2 * (a.natAbs : Int) ≤ M) :
    2 * ((l.sum).natAbs : Int) ≤ l.length * M := by
  induction l with
  | nil => simp
  | cons a l ih =>
    have h1 := ih (fun b hb => h b (List.mem_cons_of_mem _ hb))
    have h2 := h a List.mem_cons_self
    rw [List.sum_cons, List.length_cons]
    push_cast
    have : ((a + l.sum).natAbs : Int) ≤ a.natAbs + l.sum.natAbs := by omega
    have e : ((l.length : Int) + 1) * M = l.length * M + M := by ring
    rw [e]; push_cast at *; omega

/-- The represented value misses the exact sum by at most half a unit of the last bin per number. -/
theorem totals_err [F.OK] {k n : Nat} (hn : 1 ≤ n) {xs : List Flt} (hx : ∀ x ∈ xs, F.Finite x ∧ k ≤ F.dindex x) :
    2 * ((F.exactSum xs - sumTo (fun i => F.total xs (k + i) * 2 ^ F.uexp (k + i)) n).natAbs : Int) ≤
      xs.length * 2 ^ F.uexp (k + n - 1) := by
  rw [totals_loss hx]
  have := sum_natAbs_le (l := xs.map (fun x => F.resid (F.toInt x) (k + n))) (M := 2 ^ F.uexp (k + n - 1)) ?_
  · rw [List.length_map] at this; exact this
  · intro a ha
    obtain ⟨x, _, rfl⟩ := List.mem_map.1 ha
    have := resid_succ_bound (F := F) (F.toInt x) (k + n - 1)
    have e : k + n - 1 + 1 = k + n := by omega
    rw [e] at this
    omega

/-- Bins that are not negative carry on: if the numbers are multiples of the unit of the last bin
nothing is lost. -/
theorem resid_dvd [F.OK] {r : Int} {u : Nat} (hd : (2 ^ u : Int) ∣ r) (j : Nat) (hj : u ≤ F.uexp j) :
    (2 ^ u : Int) ∣ F.resid r j := by
  induction j with
  | zero => exact hd
  | succ j ih =>
    have h1 := ih (Nat.le_trans hj (uexp_succ_le' j))
    unfold resid
    exact Int.dvd_sub h1 (pow_dvd_rha_mul (Nat.le_trans hj (uexp_succ_le' j)) _)

theorem resid_zero_of_dvd [F.OK] {r : Int} {j : Nat} (hd : (2 ^ F.uexp j : Int) ∣ r) : F.resid r (j + 1) = 0 := by
  have h1 := resid_dvd (F := F) hd j (Nat.le_refl _)
  have h2 := resid_succ_bound (F := F) r j
  have h3 : (2 ^ F.uexp j : Int) ∣ F.resid r (j + 1) := by
    unfold resid; exact Int.dvd_sub h1 (pow_dvd_rha_mul (Nat.le_refl _) _)
  have hU := ipow_pos (F.uexp j)
  obtain ⟨c, hc⟩ := h3
  rw [hc] at h2 ⊢
  have hc1 : c < 1 := by
    by_contra hh
    have : 2 ^ F.uexp j * 1 ≤ 2 ^ F.uexp j * c := mul_le_mul_of_nonneg_left (by omega) (le_of_lt hU)
    omega
  have hc2 : -1 < c := by
    by_contra hh
    have : 2 ^ F.uexp j * c ≤ 2 ^ F.uexp j * (-1) := mul_le_mul_of_nonneg_left (by omega) (le_of_lt hU)
    omega
  have : c = 0 := by omega
  rw [this]; simp

end Fmt
end Repro
