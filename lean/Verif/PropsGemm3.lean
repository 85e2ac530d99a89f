import Verif.PropsGemm2
/-!
# C46: the matrix products stay inside their work buffers; examples for C24, C25, C26
-/

namespace Repro
open Fmt
variable {α : Type}

theorem tile_bound {u v xt yt : Nat} (hu : u < yt) (hv : v < xt) : u * xt + v < xt * yt := by
  calc u * xt + v < u * xt + xt := by omega
    _ = (u + 1) * xt := by ring
    _ ≤ yt * xt := Nat.mul_le_mul_right _ hu
    _ = xt * yt := Nat.mul_comm _ _

/-- **C46** (transposed tiles of the matrix-vector product). The packing loop writes only inside the `XT_BLOCK * YT_BLOCK` elements
allocated for it. -/
theorem C46_packT {b : GemvB} (hb : b.OK) (M N i j : Nat) (A : Int → α) (lda : Int) (g : Int → α) {l : Int}
    (hl : l < 0 ∨ ((b.xt * b.yt : Nat) : Int) ≤ l) : packT b M N i j A lda g l = g l := by
  rw [packT_fold]
  refine setAll_ne (fun p : Nat × Nat => ((p.2 - i : Nat) : Int) * b.xt + (p.1 - j : Nat)) (fun p : Nat × Nat => A (p.1 * lda + p.2)) _ _ ?_
  rintro ⟨a, c⟩ hac
  have hm := (mem_packTList hb).1 hac
  have := tile_bound hm.2.2.2 hm.1.2.2
  dsimp only
  have e : (((c - i : Nat) : Int) * b.xt + (a - j : Nat)) = (((c - i) * b.xt + (a - j) : Nat) : Int) := by push_cast; rfl
  rw [e]; omega

/-- **C46** (packed tiles of the matrix-matrix product). -/
theorem C46_pack {xt yt : Nat} (f : α → α) (K M k i : Nat) (A : Int → α) (lda : Int) (g : Int → α) {l : Int}
    (hl : l < 0 ∨ ((xt * yt : Nat) : Int) ≤ l) : pack xt yt f K M k i A lda g l = g l := by
  unfold pack
  rw [forS_flat2 (fun kk ii buf => store buf ((ii - i : Nat) * (xt : Int) + (kk - k : Nat)) (f (A (kk * lda + ii))))]
  refine setAll_ne (fun p : Nat × Nat => ((p.2 - i : Nat) : Int) * xt + (p.1 - k : Nat)) (fun p : Nat × Nat => f (A (p.1 * lda + p.2))) _ _ ?_
  rintro ⟨a, c⟩ hab
  simp only [List.mem_flatMap, List.mem_map, Prod.mk.injEq] at hab
  obtain ⟨kk, hkk, ii, hii, rfl, rfl⟩ := hab
  rw [mem_steps1] at hkk hii
  have := tile_bound (u := ii - i) (v := kk - k) (xt := xt) (yt := yt) (by omega) (by omega)
  dsimp only
  have e : (((ii - i : Nat) : Int) * xt + (kk - k : Nat)) = (((ii - i) * xt + (kk - k) : Nat) : Int) := by push_cast; rfl
  rw [e]; omega

/-- **C46** (copies scaled by alpha). The copy of `X` has `n` elements, the copy of `A` has `M * K`. -/
theorem C46_scale (scl : α → α) (n M K : Nat) (X A : Int → α) (incX lda : Int) (g : Int → α) (l : Int) :
    (l < 0 ∨ (n : Int) ≤ l → (scaleX false scl n X incX g).1 l = g l) ∧
    (l < 0 ∨ ((M * K : Nat) : Int) ≤ l → (scaleA false scl M K A lda g).1 l = g l) := by
  constructor
  · intro hl
    unfold scaleX forS
    refine setAll_ne (fun j : Nat => (j : Int)) (fun j : Nat => scl (X (j * incX))) _ _ ?_
    intro k hk
    have := mem_steps1.1 hk
    omega
  · intro hl
    unfold scaleA
    simp only [Bool.false_eq_true, if_false]
    rw [forS_flat2 (fun i k buf => store buf (i * (K : Int) + k) (scl (A (i * lda + k))))]
    refine setAll_ne (fun p : Nat × Nat => (p.1 : Int) * K + p.2) (fun p : Nat × Nat => scl (A (p.1 * lda + p.2))) _ _ ?_
    rintro ⟨a, c⟩ hab
    simp only [List.mem_flatMap, List.mem_map, Prod.mk.injEq] at hab
    obtain ⟨i, hi, k, hk, rfl, rfl⟩ := hab
    rw [mem_steps1] at hi hk
    have := tile_bound (u := i) (v := k) (xt := K) (yt := M) (by omega) (by omega)
    rw [Nat.mul_comm K M] at this
    dsimp only
    have e : ((i : Int) * K + k) = ((i * K + k : Nat) : Int) := by push_cast; rfl
    rw [e]; omega

/-- The power-of-two requirement on the block sizes is needed: with `T_BLOCK = 3` and a 4 by 4 tile the transposition overwrites
elements it has already placed. -/
theorem C46_needs_powers_of_two : ∃ (b : GemvB) (A g : Int → Nat), b.t = 3 ∧ b.xt = 4 ∧ b.yt = 4 ∧
    packT b 8 8 0 0 A 8 g (1 * 4 + 0) ≠ A (0 * 8 + 1) :=
  ⟨⟨4, 16, 4, 16, 3⟩, fun l => l.toNat, fun _ => 0, rfl, rfl, rfl, by decide +kernel⟩

/-! ### Concrete cases -/

/-- Block sizes like those of the default tuning. -/
theorem exB_ok : GemvB.OK ⟨8, 64, 16, 256, 4⟩ :=
  ⟨⟨3, rfl⟩, ⟨6, rfl⟩, ⟨4, rfl⟩, ⟨8, rfl⟩, ⟨2, rfl⟩, by decide, by decide⟩

theorem exB2_ok : GemvB.OK ⟨1, 2, 2, 4, 1⟩ :=
  ⟨⟨0, rfl⟩, ⟨1, rfl⟩, ⟨1, rfl⟩, ⟨2, rfl⟩, ⟨0, rfl⟩, by decide, by decide⟩

theorem exC_ok : GemmB.OK ⟨2, 4, 2, 6⟩ := ⟨by decide, by decide, by decide, by decide⟩

/-- A 3 by 2 row-major matrix with leading dimension 4 (large and small entries), and a vector. -/
def exA : Int → Flt := fun l => if l % 4 = 0 then f64.pow2 (l + 60) else if l % 4 = 1 then fneg (f64.pow2 (l - 60)) else f64.nan
def exX : Int → Flt := fun l => if l % 3 = 0 then f64.pow2 (l - 5) else f64.inf false

/-- The hypotheses of `C24_gemv` are met: a 3 by 2 matrix, NaN in the padding, infinities between the strided elements of `x`. -/
example : isZero (f64.pow2 1) = false ∧ (∀ c : Nat, c < 2 → f64.Finite (exX (c * 3))) ∧
    (∀ r : Nat, r < 3 → ∀ x ∈ gemvTerms f64 true true 2 (f64.pow2 1) exA 4 exX 3 r, f64.Finite x) := by decide +kernel

/-- and the conclusion can be checked on this case, for two layouts of the product. -/
example : ∀ r : Nat, r < 3 →
    f64.dgemv ⟨2, 1, 2, 1, 1, false⟩ 3 ⟨1, 2, 2, 4, 1⟩ (fun _ => f64.nan) (fun _ _ _ => f64.inf true) 'r' 'n' 3 2 (f64.pow2 1) exA 4 exX 3
      (fun _ => dmsetzero 3) 2 (r * 2) = f64.specSum 3 (gemvTerms f64 true true 2 (f64.pow2 1) exA 4 exX 3 r) ∧
    f64.dgemv ⟨2, 1, 2, 1, 1, false⟩ 3 ⟨1, 2, 2, 4, 1⟩ (fun _ => f64.nan) (fun _ _ _ => f64.inf true) 'c' 't' 2 3 (f64.pow2 1) exA 4 exX 3
      (fun _ => dmsetzero 3) 2 (r * 2) = f64.specSum 3 (gemvTerms f64 true true 2 (f64.pow2 1) exA 4 exX 3 r) := by decide +kernel

/-- The hypotheses of `C25_gemm` and `C26_gemm` are met by a 3 by 3 product with inner dimension 2. -/
example : (∀ r : Nat, r < 3 → ∀ c : Nat, c < 3 → ∀ x ∈ gemmTerms f64 true true false 2 (f64.pow2 1) exA 4 exA 4 r c, f64.Finite x) ∧
    (∀ r : Nat, r < 3 → ∀ t : Nat, t < 2 → f64.Finite (opEl true true exA 4 r t)) := by decide +kernel

/-- `beta = 0` ignores NaN in the previous contents; checked on the same case. -/
example : ∀ r : Nat, r < 3 → ∀ c : Nat, c < 3 →
    f64.rdgemm ⟨2, 1, 2, 1, 1, false⟩ 3 ⟨2, 4, 2, 6⟩ (fun _ => f64.nan) (fun _ _ _ _ => f64.inf false) (fun _ _ _ _ => f64.inf false) (fun _ => dmsetzero 3)
      'R' 'N' 'T' 3 3 2 (f64.pow2 1) exA 4 exA 4 zero (fun _ => f64.nan) 5 (entryAt true 5 r c) =
    convert f64 3 (f64.specSum 3 (gemmTerms f64 true true false 2 (f64.pow2 1) exA 4 exA 4 r c)) := by decide +kernel

end Repro
