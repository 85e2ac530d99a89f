import Verif.PropsSum
/-!
# C07 (tightness): the endurance cannot be exceeded by even one deposit
-/

namespace Repro
open Fmt
variable {F : Fmt}

theorem total_replicate (n : Nat) (x : Flt) (j : Nat) :
    F.total (List.replicate n x) j = n * F.slice (F.toInt x) j := by
  induction n with
  | zero => simp [total_nil]
  | succ n ih => rw [List.replicate_succ, total_cons, ih]; push_cast; ring

theorem deposits_replicate [F.OK] {fold k : Nat} {x : Flt} {C : Nat → Int} {Z : Nat → Bool} (hfold : 2 ≤ fold)
    (hk : k ≤ F.maxIndex) (hx : F.Finite x) (hf : F.Fits (F.toInt x) k) :
    ∀ (n : Nat) (B : Nat → Int), (∀ m : Nat, m ≤ n → ∀ j, k ≤ j → j < k + fold → F.Win (B j + m * F.slice (F.toInt x) j)) →
    F.deposits (List.replicate n x) (F.midZ fold k B C Z) =
      F.midZ fold k (fun j => B j + n * F.slice (F.toInt x) j) C Z := by
  intro n
  induction n with
  | zero => intro B _; simp [deposits]
  | succ n ih =>
    intro B hB
    have e : F.deposits (List.replicate (n + 1) x) (F.midZ fold k B C Z) =
        F.deposits (List.replicate n x) ⟨F.dmddeposit x (F.midZ fold k B C Z).pri, (F.midZ fold k B C Z).car⟩ := rfl
    have e2 : (⟨F.dmddeposit x (F.midZ fold k B C Z).pri, (F.midZ fold k B C Z).car⟩ : Binned) =
        F.midZ fold k (fun j => B j + F.slice (F.toInt x) j) C Z := by
      unfold midZ
      dsimp only
      rw [dmddeposit_eq hfold hk hx hf]
      intro j h1 h2
      have a := hB 0 (by omega) j h1 h2
      have b := hB 1 (by omega) j h1 h2
      push_cast at a b
      rw [zero_mul, add_zero] at a
      rw [one_mul] at b
      exact ⟨a, b⟩
    rw [e, e2, ih]
    · congr 1; funext j; push_cast; ring
    · intro m hm j h1 h2
      have := hB (m + 1) (by omega) j h1 h2
      have e3 : B j + F.slice (F.toInt x) j + m * F.slice (F.toInt x) j = B j + ((m + 1 : Nat) : Int) * F.slice (F.toInt x) j := by
        push_cast; ring
      rw [e3]; exact this

/-- The largest number below `2^e`. -/
def below (F : Fmt) (e : Int) : Flt := ⟨false, (F.pow2 e).mag - 1⟩

/-- A program after which one may deposit `endurance` more numbers, but not `endurance + 1`: sum
`endurance - 1` copies of the largest number below `2^(MAX_EXP - W*i)`. -/
def tightHist (F : Fmt) (e : Int) : Hist :=
  .batch (below F e) (List.replicate (F.endurance - 1) (below F e)) .zero

theorem tight_core [F.OK] {e : Int} {k : Nat} {C : Nat → Int} (hx : F.Finite (below F e)) (hk : F.dindex (below F e) = k)
    (hkm : k ≤ F.maxIndex) (B : Nat → Int)
    (hB : ∀ j, k ≤ j → j < k + 2 → B j = ((F.endurance - 1 : Nat) : Int) * F.slice (F.toInt (below F e)) j % 2 ^ (F.p - 3))
    (hC : ∀ j, k ≤ j → j < k + 2 → C j = ((F.endurance - 1 : Nat) : Int) * F.slice (F.toInt (below F e)) j / 2 ^ (F.p - 3))
    (hW : ∀ m : Nat, m ≤ F.endurance → ∀ j, k ≤ j → j < k + 2 → F.Win (B j + m * F.slice (F.toInt (below F e)) j))
    (hlast : F.expo (nth (F.dmddeposit (below F e)
      ((List.range' k 2).map (fun j => F.mkPri j (B j + F.endurance * F.slice (F.toInt (below F e)) j)))) 0) ≠ F.expo (F.bins k)) :
    (tightHist F e).Legal F ∧
    F.expo (nth (openVal F 2 (tightHist F e) (below F e) (List.replicate (F.endurance + 1) (below F e))).pri 0) ≠
      F.expo (F.bins (F.minIndex (below F e :: (tightHist F e).seen))) := by
  have hl : (tightHist F e).Legal F := by
    refine ⟨?_, ?_, trivial⟩
    · intro x h; rw [List.mem_replicate] at h; rw [h.2]; exact ⟨hx, Nat.le_refl _⟩
    · rw [List.length_replicate]; omega
  refine ⟨hl, ?_⟩
  have hmi : ∀ n, F.minIndex (List.replicate n (below F e)) ≥ k := by
    intro n; induction n with
    | zero => exact hkm
    | succ n ih => rw [List.replicate_succ, minIndex_cons]; omega
  have hseen : F.minIndex (tightHist F e).seen = k := by
    show F.minIndex (below F e :: List.replicate _ _ ++ []) = k
    rw [List.append_nil, minIndex_cons]
    have := hmi (F.endurance - 1); omega
  have hcap : F.endurance - 1 ≤ F.capacity := by
    unfold capacity
    have : 2 ^ 1 ≤ 2 ^ (F.p - 1) := Nat.pow_le_pow_right (by omega) (by have := F.facts; omega)
    calc F.endurance - 1 ≤ F.endurance * 1 := by omega
      _ ≤ _ := Nat.mul_le_mul_left _ (by omega)
  have h1 := hist_spec (F := F) (fold := 2) (Nat.le_refl _) hl
    (by show (List.replicate _ _ ++ []).length ≤ _; simpa using hcap) trivial
  have h2 : (tightHist F e).eval F 2 = F.midZ 2 k B C (fun _ => false) := by
    rw [h1]
    unfold Hist.spec
    rw [if_neg (by simp [tightHist, Hist.seen]), hseen]
    unfold canon
    rw [mid_eq_midZ]
    unfold midZ
    congr 1
    · apply map_range'_congr
      intro j a b
      dsimp only
      rw [hB j a b]
      show F.mkPri j (F.total (List.replicate _ _ ++ []) j % _) = _
      rw [List.append_nil, total_replicate]
    · apply map_range'_congr
      intro j a b
      dsimp only
      rw [hC j a b]
      show F.carF _ (F.total (List.replicate _ _ ++ []) j / _) = _
      rw [List.append_nil, total_replicate]
  have hfits : F.Fits (F.toInt (below F e)) k := by rw [← hk]; exact fits_dindex hx
  have h3 : F.dmdupdate 2 (below F e) (F.midZ 2 k B C (fun _ => false)) = F.midZ 2 k B C (fun _ => false) := by
    have w := hW 0 (by omega) k (Nat.le_refl _) (by omega)
    push_cast at w; rw [zero_mul, add_zero] at w
    unfold dmdupdate
    rw [nth_pri_midZ (by omega), mkPri_isNaNInf w, mkPri_isZero w, dmindex_mkPri w hkm, hk]
    simp
  unfold openVal
  rw [h2, h3, minIndex_cons, hseen, hk, Nat.min_self, List.replicate_succ', deposits, List.foldl_append]
  have h4 := deposits_replicate (F := F) (Z := fun _ => false) (C := C) (Nat.le_refl 2) hkm hx hfits F.endurance B hW
  unfold deposits at h4
  rw [h4]
  exact hlast

/-- **C07** (tightness, double). After the legal program `tightHist`, `ENDURANCE + 1 = 2049` deposits
within the bound make a primary leave its binade. -/
theorem C07_endurance_tight_double :
    (tightHist f64 24).Legal f64 ∧
    f64.expo (nth (openVal f64 2 (tightHist f64 24) (below f64 24) (List.replicate (f64.endurance + 1) (below f64 24))).pri 0) ≠
      f64.expo (f64.bins (f64.minIndex (below f64 24 :: (tightHist f64 24).seen))) := by
  have s25 : f64.slice (f64.toInt (below f64 24)) 25 = 2 ^ 39 := by decide +kernel
  have s26 : f64.slice (f64.toInt (below f64 24)) 26 = - 2 ^ 26 := by decide +kernel
  have e1 : f64.endurance = 2048 := by decide +kernel
  refine tight_core (k := 25) (C := fun j => if j = 25 then 0 else -1) (by decide +kernel) (by decide +kernel) (by decide +kernel)
    (fun j => if j = 25 then 2047 * 2 ^ 39 else 2 ^ 50 - 2047 * 2 ^ 26) ?_ ?_ ?_ (by decide +kernel)
  · intro j h1 h2
    have : j = 25 ∨ j = 26 := by omega
    rcases this with rfl | rfl
    · rw [s25, e1]; decide
    · rw [s26, e1]; decide
  · intro j h1 h2
    have : j = 25 ∨ j = 26 := by omega
    rcases this with rfl | rfl
    · rw [s25, e1]; decide
    · rw [s26, e1]; decide
  · intro m hm j h1 h2
    have hp : f64.p = 53 := rfl
    have : j = 25 ∨ j = 26 := by omega
    rcases this with rfl | rfl
    · rw [s25]; unfold Win; rw [hp]; norm_num; omega
    · rw [s26]; unfold Win; rw [hp]; norm_num; omega

/-- **C07** (tightness, float): `ENDURANCE + 1 = 513` deposits. -/
theorem C07_endurance_tight_float :
    (tightHist f32 11).Legal f32 ∧
    f32.expo (nth (openVal f32 2 (tightHist f32 11) (below f32 11) (List.replicate (f32.endurance + 1) (below f32 11))).pri 0) ≠
      f32.expo (f32.bins (f32.minIndex (below f32 11 :: (tightHist f32 11).seen))) := by
  have s25 : f32.slice (f32.toInt (below f32 11)) 9 = 2 ^ 12 := by decide +kernel
  have s26 : f32.slice (f32.toInt (below f32 11)) 10 = - 2 ^ 1 := by decide +kernel
  have e1 : f32.endurance = 512 := by decide +kernel
  refine tight_core (k := 9) (C := fun j => if j = 9 then 0 else -1) (by decide +kernel) (by decide +kernel) (by decide +kernel)
    (fun j => if j = 9 then 511 * 2 ^ 12 else 2 ^ 21 - 511 * 2) ?_ ?_ ?_ (by decide +kernel)
  · intro j h1 h2
    have : j = 9 ∨ j = 10 := by omega
    rcases this with rfl | rfl
    · rw [s25, e1]; decide
    · rw [s26, e1]; decide
  · intro j h1 h2
    have : j = 9 ∨ j = 10 := by omega
    rcases this with rfl | rfl
    · rw [s25, e1]; decide
    · rw [s26, e1]; decide
  · intro m hm j h1 h2
    have hp : f32.p = 24 := rfl
    have : j = 9 ∨ j = 10 := by omega
    rcases this with rfl | rfl
    · rw [s25]; unfold Win; rw [hp]; norm_num; omega
    · rw [s26]; unfold Win; rw [hp]; norm_num; omega

end Repro
