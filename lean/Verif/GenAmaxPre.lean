import Verif.GenAmax
import Verif.GenBody
import Verif.GenCons
/-!
# The numbers in the load registers of a maximum kernel
-/

namespace Repro
open Fmt
variable {F : Fmt}

/-- The number `h` of part `k` a maximum kernel computes from the elements `a = (x, z)`. -/
def opA (F : Fmt) (prod : Bool) (k : Nat) (a : (Flt × Flt) × (Flt × Flt)) (h : Nat) : Flt :=
  if prod then
    (if h = 0 then fabs (F.mul (if k = 0 then a.1.1 else a.1.2) a.2.1) else fabs (F.mul (if k = 0 then a.1.2 else a.1.1) a.2.2))
  else fabs (if k = 0 then a.1.1 else a.1.2)

namespace GenA
variable {A : GenA}

/-- The assignments of a complex product. -/
theorem cdot_spec {R : Nat} (hp : A.gen.Pairs R) (hc : A.cplx = true) (hX : R * 2 ≤ A.gen.regWidth A.T.aunroll)
    {mem : Nat → Int → Flt} {σ : Regs} {L0 L1 : List Ex} {g0 g1 : Nat → Flt} (hl0 : L0.length = R) (hl1 : L1.length = R)
    (hs0 : Sem F A.gen.base mem σ L0 R g0 (fun _ _ => False)) (hs1 : ∀ τ, Sem F A.gen.base mem τ L1 R g1 (fun _ _ => False)) (ρ : Regs)
    (hρ : ρ = F.run mem (setEqual A.xv L0 ++ setEqual A.zv L1
      ++ (setEqual ((A.xv.take (R * 2)).drop (R * 2 / 2)) ((vmul (A.gen.swapP (ev A.xv)) (A.gen.repO (ev A.zv))).map .abs)
      ++ setEqual (A.xv.take (R * 2 / 2)) ((vmul (ev A.xv) (A.gen.repE (ev A.zv))).map .abs))) σ) :
    (∀ i, i < R → ∀ t, t < A.gen.base → ρ (.x (R + i)) t =
        fabs (F.mul (g0 (2 * ((i * A.gen.base + t) / 2) + (1 - (i * A.gen.base + t) % 2))) (g1 (2 * ((i * A.gen.base + t) / 2) + 1))))
      ∧ (∀ i, i < R → ∀ t, t < A.gen.base → ρ (.x i) t = fabs (F.mul (g0 (i * A.gen.base + t)) (g1 (2 * ((i * A.gen.base + t) / 2)))))
      ∧ (∀ v, (∀ k, v ≠ .x k) → (∀ k, v ≠ .z k) → ρ v = σ v) := by
  have e2 : R * 2 / 2 = R := by omega
  rw [e2, run_append, run_append, run_append] at hρ
  rw [show A.xv = (List.range (A.gen.regWidth A.T.aunroll)).map (fun i => Var.x i) from rfl,
    show A.zv = (List.range (A.gen.regWidth A.T.aunroll / 2)).map (fun i => Var.z i) from by unfold GenA.zv; rw [hc]; rfl] at hρ
  generalize A.gen.regWidth A.T.aunroll = W at *
  have ⟨h1, h2⟩ := hs0.set (fun i => .x i) (m := W) (by rw [hl0]; omega) (by intro i i' h _ he; simp at he; omega) (by simp)
  generalize F.run mem (setEqual ((List.range W).map (fun i => Var.x i)) L0) σ = σ1 at *
  have ⟨h3, h4⟩ := (hs1 σ1).set (fun i => .z i) (m := W / 2) (by rw [hl1]; omega) (by intro i i' h _ he; simp at he; omega) (by simp)
  generalize F.run mem (setEqual ((List.range (W / 2)).map (fun i => Var.z i)) L1) σ1 = σ2 at *
  have hx2 : ∀ i, i < R → ∀ t, t < A.gen.base → σ2 (.x i) t = g0 (i * A.gen.base + t) := by
    intro i hi t ht
    rw [h4 _ (by intro k _; simp)]; exact h1 i hi t ht
  rw [take_rm, take_rm, drop_rm] at hρ
  have hevx : Sem F A.gen.base mem σ2 (ev ((List.range W).map (fun i => Var.x i))) R g0 (fun i v => v = .x i) := Sem.ev (by omega) hx2
  have hevz : Sem F A.gen.base mem σ2 (ev ((List.range (W / 2)).map (fun i => Var.z i))) R g1 (fun i v => v = .z i) := Sem.ev (by omega) h3
  have hm3 := ((hevx.swapP hp).mul (hevz.repO hp)).abs
  have ⟨h5, h6⟩ := hm3.set (fun i => .x (R + i)) (m := min (R * 2) W - R)
    (by have := hm3.len; omega) (by intro i i' h _ he; simp at he; omega)
    (by rintro i i' h _ (⟨k, hk, he⟩ | ⟨k, hk, he⟩) <;> simp at he; omega)
  generalize F.run mem (setEqual ((List.range (min (R * 2) W - R)).map (fun i => Var.x (R + i)))
    ((vmul (A.gen.swapP (ev ((List.range W).map (fun i => Var.x i)))) (A.gen.repO (ev ((List.range (W / 2)).map (fun i => Var.z i))))).map .abs)) σ2 = σ3 at *
  have hx3 : ∀ i, i < R → ∀ t, t < A.gen.base → σ3 (.x i) t = g0 (i * A.gen.base + t) := by
    intro i hi t ht
    rw [h6 _ (by intro k _ he; simp at he; omega)]; exact hx2 i hi t ht
  have hz3 : ∀ i, i < R → ∀ t, t < A.gen.base → σ3 (.z i) t = g1 (i * A.gen.base + t) := by
    intro i hi t ht
    rw [h6 _ (by intro k _; simp)]; exact h3 i hi t ht
  have hevx : Sem F A.gen.base mem σ3 (ev ((List.range W).map (fun i => Var.x i))) R g0 (fun i v => v = .x i) := Sem.ev (by omega) hx3
  have hevz : Sem F A.gen.base mem σ3 (ev ((List.range (W / 2)).map (fun i => Var.z i))) R g1 (fun i v => v = .z i) := Sem.ev (by omega) hz3
  have hm4 := (hevx.mul (hevz.repE hp)).abs
  have ⟨h7, h8⟩ := hm4.set (fun i => .x i) (m := min R W)
    (by have := hm4.len; omega) (by intro i i' h _ he; simp at he; omega)
    (by rintro i i' h _ (he | ⟨k, hk, he⟩) <;> simp at he; omega)
  rw [← hρ] at h7 h8
  refine ⟨?_, h7, ?_⟩
  · intro i hi t ht
    rw [h8 _ (by intro k _ he; simp at he; omega)]
    exact h5 i hi t ht
  · intro v hx hz
    rw [h8 v (fun i _ => hx i), h6 v (fun i _ => hx _), h4 v (fun i _ => hz i), h2 v (fun i _ => hx i)]

/-- What the load registers hold after `preprocess`. -/
theorem pre_spec (hT : A.T.OK F) (M : Nat → Int → Flt) (incX incZ : Int) (c : Chunk) (σ : Regs)
    (hpart : c.part = true → A.T.simd = true ∧ 1 ≤ c.count ∧ c.count < A.T.ts)
    (hdvd : c.part = false → A.T.simd = true → A.T.ts ∣ c.count)
    (hX : A.gen.R0 (A.gen.cnt c) * A.gen.e ≤ A.gen.regWidth A.T.aunroll) :
    (∀ R, R < A.gen.R0 (A.gen.cnt c) * A.gen.e → ∀ t, t < A.gen.base →
      F.run (A.gen.memAt M incX incZ c.off) (A.preprocess incX incZ c) σ (.x R) t
        = opA F A.prod ((R * A.gen.base + t) % A.gen.pw) (A.gen.celt M incX incZ c ((R * A.gen.base + t) / A.gen.pw % A.gen.cnt c))
            ((R * A.gen.base + t) / A.gen.pw / A.gen.cnt c))
      ∧ (∀ v, (∀ k, v ≠ .x k) → (∀ k, v ≠ .z k) → F.run (A.gen.memAt M incX incZ c.off) (A.preprocess incX incZ c) σ v = σ v) := by
  have hT' : A.gen.T.OK F := hT
  have hrw : A.gen.regWidth (if c.part then A.gen.tsz else c.count) = A.gen.R0 (A.gen.cnt c) * A.gen.e := by
    unfold Gen.regWidth Gen.R0 Gen.cnt
    by_cases hp : c.part = true
    · rw [if_pos hp, if_pos hp, Gen.tsz_simd (hpart hp).1]
    · rw [if_neg hp, if_neg hp]
  have hRb : A.gen.R0 (A.gen.cnt c) * A.gen.base = A.gen.cnt c * A.gen.pw := by
    apply Gen.R0_mul hT'
    intro hs
    unfold Gen.cnt
    by_cases hp : c.part = true
    · rw [if_pos hp]
    · rw [if_neg hp]; exact hdvd (by simpa using hp) hs
  have hbp := Gen.base_pos hT'
  obtain ⟨hl0, hs0⟩ := Gen.load_sem hT' (M := M) (incX := incX) (incZ := incZ) σ 0 hpart hdvd
  simp only [↓reduceIte] at hl0 hs0
  have hlt : ∀ R t, R < A.gen.R0 (A.gen.cnt c) → t < A.gen.base → (R * A.gen.base + t) / A.gen.pw < A.gen.cnt c := by
    intro R t hR ht
    rw [Nat.div_lt_iff_lt_mul A.gen.pw_pos, ← hRb]
    have : (R + 1) * A.gen.base ≤ A.gen.R0 (A.gen.cnt c) * A.gen.base := Nat.mul_le_mul_right _ hR
    rw [Nat.succ_mul] at this
    omega
  unfold GenA.preprocess
  simp only [hrw]
  have hld1 := fun τ => Gen.load_sem hT' (M := M) (incX := incX) (incZ := incZ) (c := c) τ 1 hpart hdvd
  simp only [Nat.one_ne_zero, ↓reduceIte] at hld1
  generalize A.gen.memAt M incX incZ c.off = mem at *
  cases hprod : A.prod with
  | false =>
    have he : A.gen.e = 1 := by unfold Gen.e GenA.gen; rw [hprod]; rfl
    rw [he, Nat.mul_one] at hX ⊢
    simp only [Bool.false_eq_true, ↓reduceIte]
    have ⟨h1, h2⟩ := hs0.abs.set (fun i => .x i) (m := A.gen.regWidth A.T.aunroll) (by rw [List.length_map, hl0]; omega) (by intro i i' h _ he; simp at he; omega) (by simp)
    refine ⟨?_, ?_⟩
    · intro R hR t ht
      have := h1 R hR t ht
      unfold GenA.xv
      rw [this, Gen.word_part, Nat.mod_eq_of_lt (hlt R t hR ht)]
      rfl
    · intro v hx _
      exact h2 v (fun i _ => hx i)
  | true =>
    cases hc : A.cplx with
    | false =>
      have hpw : A.gen.pw = 1 := by unfold Gen.pw GenA.gen; rw [hc]; rfl
      have he : A.gen.e = 1 := by unfold Gen.e GenA.gen; rw [hprod, hc]; rfl
      rw [he, Nat.mul_one] at hX ⊢
      simp only [Bool.false_eq_true, ↓reduceIte]
      rw [run_append, run_append]
      have ⟨h1, h2⟩ := hs0.set (fun i => .x i) (m := A.gen.regWidth A.T.aunroll) (by rw [hl0]; omega) (by intro i i' h _ he; simp at he; omega) (by simp)
      rw [show A.xv = (List.range (A.gen.regWidth A.T.aunroll)).map (fun i => Var.x i) from rfl,
        show A.zv = (List.range (A.gen.regWidth A.T.aunroll)).map (fun i => Var.z i) from by unfold GenA.zv; rw [hc]; rfl]
      generalize A.gen.regWidth A.T.aunroll = W at *
      generalize F.run mem (setEqual ((List.range W).map (fun i => Var.x i)) (A.gen.loadC 0 incX c)) σ = τ at *
      obtain ⟨hl1, hs1⟩ := hld1 τ
      have ⟨h3, h4⟩ := hs1.set (fun i => .z i) (m := W) (by rw [hl1]; omega) (by intro i i' h _ he; simp at he; omega) (by simp)
      generalize F.run mem (setEqual ((List.range W).map (fun i => Var.z i)) (A.gen.loadC 1 incZ c)) τ = ρ at *
      have h1' : ∀ i, i < A.gen.R0 (A.gen.cnt c) → ∀ t, t < A.gen.base → ρ (.x i) t = A.gen.word M incX incZ c 0 (i * A.gen.base + t) := by
        intro i hi t ht
        rw [h4 _ (by intro k _; simp)]; exact h1 i hi t ht
      have hev1 : Sem F A.gen.base mem ρ (ev ((List.range W).map (fun i => Var.x i))) (A.gen.R0 (A.gen.cnt c)) (A.gen.word M incX incZ c 0) (fun i v => v = .x i) := Sem.ev (by omega) h1'
      have hev2 : Sem F A.gen.base mem ρ (ev (((List.range W).map (fun i => Var.z i)).take (A.gen.R0 (A.gen.cnt c)))) (A.gen.R0 (A.gen.cnt c)) (A.gen.word M incX incZ c 1) (fun i v => v = .z i) := by
        rw [take_rm]; exact Sem.ev (by omega) h3
      have ⟨h5, h6⟩ := (hev1.mul hev2).abs.set (fun i => .x i) (m := W)
        (by unfold vmul ev; simp; omega) (by intro i i' h _ he; simp at he; omega) (by intro i i' h _ hS; simp at hS; omega)
      refine ⟨?_, ?_⟩
      · intro R hR t ht
        have := h5 R hR t ht
        rw [this, Nat.mod_eq_of_lt (hlt R t hR ht), Nat.div_eq_of_lt (hlt R t hR ht)]
        rw [hpw, Nat.div_one, Nat.mod_one]
        simp only [opA, ↓reduceIte]
        unfold Gen.celt
        rw [hpw, Nat.mul_one]
      · intro v hx hz
        rw [h6 v (fun i _ => hx i), h4 v (fun i _ => hz i)]
        exact h2 v (fun i _ => hx i)
    | true =>
      have hpw : A.gen.pw = 2 := by unfold Gen.pw GenA.gen; rw [hc]; rfl
      have he : A.gen.e = 2 := by unfold Gen.e GenA.gen; rw [hprod, hc]; rfl
      rw [he] at hX ⊢
      simp only [↓reduceIte]
      have hP := Gen.pairs_R0 hpw (n := A.gen.cnt c)
      have hc' : A.gen.cplx = true := hc
      obtain ⟨h1, h2, h3⟩ := cdot_spec (F := F) hP hc hX hl0 (hld1 σ).1 hs0 (fun τ => (hld1 τ).2) _ rfl
      refine ⟨?_, h3⟩
      intro R hR t ht
      by_cases hRR : R < A.gen.R0 (A.gen.cnt c)
      · have := h2 R hRR t ht
        rw [this, Nat.mod_eq_of_lt (hlt R t hRR ht), Nat.div_eq_of_lt (hlt R t hRR ht), hpw]
        generalize R * A.gen.base + t = B
        unfold Gen.celt
        rw [hpw, hc']
        have hB := Nat.div_add_mod B 2
        rcases Nat.mod_two_eq_zero_or_one B with h0 | h0
        · have e1 : B / 2 * 2 = B := by omega
          have e2 : 2 * (B / 2) = B := by omega
          simp only [opA, h0, e1, e2, ↓reduceIte]
        · have e1 : B / 2 * 2 + 1 = B := by omega
          have e2 : 2 * (B / 2) = B / 2 * 2 := by omega
          simp only [opA, h0, e1, e2, ↓reduceIte, Nat.one_ne_zero]
      · obtain ⟨i, rfl⟩ : ∃ i, R = A.gen.R0 (A.gen.cnt c) + i := ⟨R - A.gen.R0 (A.gen.cnt c), by omega⟩
        have hi : i < A.gen.R0 (A.gen.cnt c) := by omega
        have := h1 i hi t ht
        have hB2 : (A.gen.R0 (A.gen.cnt c) + i) * A.gen.base + t = (i * A.gen.base + t) + A.gen.cnt c * 2 := by
          rw [Nat.add_mul, hRb, hpw]; omega
        have hlt' := hlt i t hi ht
        rw [this, hB2, hpw, Nat.add_mul_div_right _ _ (by omega), Nat.add_mul_mod_self_right]
        rw [hpw] at hlt'
        generalize i * A.gen.base + t = B at *
        have hcp : 0 < A.gen.cnt c := by omega
        rw [Nat.add_mod_right, Nat.mod_eq_of_lt hlt', Nat.add_div_right _ hcp, Nat.div_eq_of_lt hlt']
        unfold Gen.celt
        rw [hpw, hc']
        have hB := Nat.div_add_mod B 2
        have e2 : 2 * (B / 2) = B / 2 * 2 := by omega
        rcases Nat.mod_two_eq_zero_or_one B with h0 | h0
        · simp only [opA, h0, e2, ↓reduceIte, Nat.succ_ne_zero, Nat.sub_zero]
        · simp only [opA, h0, e2, ↓reduceIte, Nat.one_ne_zero, Nat.succ_ne_zero, Nat.sub_self, Nat.add_zero]

end GenA
end Repro
