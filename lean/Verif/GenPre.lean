import Verif.GenLoad
/-!
# The numbers in the load registers
-/

namespace Repro
open Fmt
variable {F : Fmt}

section
variable {G : Gen} {n : Nat} {M : Nat → Int → Flt} {σ : Regs} {L : List Ex} {g : Nat → Flt} {S : Nat → Var → Prop}

/-- The registers hold pairs: vector registers of even size, or an even number of scalars. -/
def Gen.Pairs (G : Gen) (n : Nat) : Prop := (G.T.simd = true ∧ ∃ c, G.base = 2 * c) ∨ (G.T.simd = false ∧ G.base = 1 ∧ ∃ m, n = 2 * m)

theorem Sem.swapP (h : Sem F G.base M σ L n g S) (hp : G.Pairs n) :
    Sem F G.base M σ (G.swapP L) n (fun b => g (2 * (b / 2) + (1 - b % 2))) (fun _ v => ∃ k, k < n ∧ S k v) := by
  have hl := h.len
  unfold Gen.swapP
  rcases hp with ⟨hs, c, hc⟩ | ⟨hs, hb, m, hm⟩
  · rw [if_pos hs]
    refine ⟨by rw [List.length_map]; omega, ?_, ?_⟩
    · intro i hi t ht
      rw [map_getD _ _ (by omega)]
      show F.evalEx M σ (L.getD i default) ((t + 1) % 2 + 2 * (t / 2)) = _
      rw [h.val i hi _ (by omega)]
      congr 1
      have : i * G.base = 2 * (i * c) := by rw [hc]; ring
      omega
    · intro i hi v hv
      rw [map_getD _ _ (by omega)] at hv
      exact ⟨i, hi, h.vars i hi v hv⟩
  · rw [if_neg (by simp [hs])]
    refine ⟨by simpa using hl, ?_, ?_⟩
    · intro i hi t ht
      rw [getD_rm _ _ (by omega), h.val _ (by omega) t ht]
      congr 1
      rw [hb]
      omega
    · intro i hi v hv
      rw [getD_rm _ _ (by omega)] at hv
      exact ⟨_, by omega, h.vars _ (by omega) v hv⟩

theorem Sem.repE (h : Sem F G.base M σ L n g S) (hp : G.Pairs n) :
    Sem F G.base M σ (G.repE L) n (fun b => g (2 * (b / 2))) (fun _ v => ∃ k, k < n ∧ S k v) := by
  have hl := h.len
  unfold Gen.repE
  rcases hp with ⟨hs, c, hc⟩ | ⟨hs, hb, m, hm⟩
  · rw [if_pos hs]
    refine ⟨by rw [List.length_map]; omega, ?_, ?_⟩
    · intro i hi t ht
      rw [map_getD _ _ (by omega)]
      show F.evalEx M σ (L.getD i default) (2 * (t / 2)) = _
      rw [h.val i hi _ (by omega)]
      congr 1
      have : i * G.base = 2 * (i * c) := by rw [hc]; ring
      omega
    · intro i hi v hv
      rw [map_getD _ _ (by omega)] at hv
      exact ⟨i, hi, h.vars i hi v hv⟩
  · rw [if_neg (by simp [hs])]
    have e : (stride2 L).flatMap (fun a => [a, a]) = (List.range (2 * ((L.length + 1) / 2))).map (fun i => L.getD (2 * (i / 2)) default) := by
      conv => lhs; rw [← list_rm L]
      rw [stride2_rm, dbl_rm]
    rw [e]
    refine ⟨by simp; omega, ?_, ?_⟩
    · intro i hi t ht
      rw [getD_rm _ _ (by omega), h.val _ (by omega) t ht]
      congr 1
      rw [hb]
      omega
    · intro i hi v hv
      rw [getD_rm _ _ (by omega)] at hv
      exact ⟨_, by omega, h.vars _ (by omega) v hv⟩

theorem Sem.repO (h : Sem F G.base M σ L n g S) (hp : G.Pairs n) :
    Sem F G.base M σ (G.repO L) n (fun b => g (2 * (b / 2) + 1)) (fun _ v => ∃ k, k < n ∧ S k v) := by
  have hl := h.len
  unfold Gen.repO
  rcases hp with ⟨hs, c, hc⟩ | ⟨hs, hb, m, hm⟩
  · rw [if_pos hs]
    refine ⟨by rw [List.length_map]; omega, ?_, ?_⟩
    · intro i hi t ht
      rw [map_getD _ _ (by omega)]
      show F.evalEx M σ (L.getD i default) (2 * (t / 2) + 1) = _
      rw [h.val i hi _ (by omega)]
      congr 1
      have : i * G.base = 2 * (i * c) := by rw [hc]; ring
      omega
    · intro i hi v hv
      rw [map_getD _ _ (by omega)] at hv
      exact ⟨i, hi, h.vars i hi v hv⟩
  · rw [if_neg (by simp [hs])]
    have e : (stride2 (L.drop 1)).flatMap (fun a => [a, a])
        = (List.range (2 * ((L.length - 1 + 1) / 2))).map (fun i => L.getD (1 + 2 * (i / 2)) default) := by
      conv => lhs; rw [← list_rm L]
      rw [drop_rm, stride2_rm, dbl_rm]
    rw [e]
    refine ⟨by simp; omega, ?_, ?_⟩
    · intro i hi t ht
      rw [getD_rm _ _ (by omega), h.val _ (by omega) t ht]
      congr 1
      rw [hb]
      omega
    · intro i hi v hv
      rw [getD_rm _ _ (by omega)] at hv
      exact ⟨_, by omega, h.vars _ (by omega) v hv⟩

theorem Sem.nconj (h : Sem F G.base M σ L n g S) (hp : G.Pairs n) :
    Sem F G.base M σ (G.nconj F L) n (fun b => if b % 2 = 0 then F.flip G.T (g b) else g b) S := by
  have hl := h.len
  unfold Gen.nconj Fmt.flip
  rcases hp with ⟨hs, c, hc⟩ | ⟨hs, hb, m, hm⟩
  · rw [if_pos hs]
    refine ⟨by rw [List.length_map]; omega, ?_, ?_⟩
    · intro i hi t ht
      rw [map_getD _ _ (by omega)]
      show (if t % 2 = 0 then _ else _) = _
      rw [h.val i hi _ (by omega)]
      have e : i * G.base = 2 * (i * c) := by rw [hc]; ring
      have e2 : (i * G.base + t) % 2 = t % 2 := by omega
      simp only [e2, hs, ↓reduceIte]
    · intro i hi v hv
      rw [map_getD _ _ (by omega)] at hv
      exact h.vars i hi v hv
  · rw [if_neg (by simp [hs])]
    refine ⟨by simpa using hl, ?_, ?_⟩
    · intro i hi t ht
      rw [getD_rm _ _ (by omega)]
      have e2 : (i * G.base + t) % 2 = i % 2 := by rw [hb]; omega
      simp only [e2, hs, Bool.false_eq_true, ↓reduceIte]
      rw [← h.val i hi t ht]
      by_cases hi2 : i % 2 = 1
      · rw [if_pos hi2, if_neg (by omega)]
      · rw [if_neg hi2, if_pos (by omega)]
        rfl
    · intro i hi v hv
      rw [getD_rm _ _ (by omega)] at hv
      by_cases hi2 : i % 2 = 1
      · rw [if_pos hi2] at hv; exact h.vars i hi v hv
      · rw [if_neg hi2] at hv
        simp only [Ex.vars, List.append_nil] at hv
        exact h.vars i hi v hv

theorem Sem.conj (h : Sem F G.base M σ L n g S) (hp : G.Pairs n) :
    Sem F G.base M σ (G.conj F L) n (fun b => if b % 2 = 0 then g b else F.flip G.T (g b)) S := by
  have hl := h.len
  unfold Gen.conj Fmt.flip
  rcases hp with ⟨hs, c, hc⟩ | ⟨hs, hb, m, hm⟩
  · rw [if_pos hs]
    refine ⟨by rw [List.length_map]; omega, ?_, ?_⟩
    · intro i hi t ht
      rw [map_getD _ _ (by omega)]
      show (if t % 2 = 0 then _ else _) = _
      rw [h.val i hi _ (by omega)]
      have e : i * G.base = 2 * (i * c) := by rw [hc]; ring
      have e2 : (i * G.base + t) % 2 = t % 2 := by omega
      simp only [e2, hs, ↓reduceIte]
    · intro i hi v hv
      rw [map_getD _ _ (by omega)] at hv
      exact h.vars i hi v hv
  · rw [if_neg (by simp [hs])]
    refine ⟨by simpa using hl, ?_, ?_⟩
    · intro i hi t ht
      rw [getD_rm _ _ (by omega)]
      have e2 : (i * G.base + t) % 2 = i % 2 := by rw [hb]; omega
      simp only [e2, hs, Bool.false_eq_true, ↓reduceIte]
      rw [← h.val i hi t ht]
      by_cases hi2 : i % 2 = 0
      · rw [if_pos hi2, if_pos hi2]
      · rw [if_neg hi2, if_neg hi2]
        rfl
    · intro i hi v hv
      rw [getD_rm _ _ (by omega)] at hv
      by_cases hi2 : i % 2 = 0
      · rw [if_pos hi2] at hv; exact h.vars i hi v hv
      · rw [if_neg hi2] at hv
        simp only [Ex.vars, List.append_nil] at hv
        exact h.vars i hi v hv

end

/-- The load registers a chunk needs per operand. -/
def Gen.R0 (G : Gen) (n : Nat) : Nat := n * G.pw / G.base

theorem Gen.R0_mul {G : Gen} (hT : G.T.OK F) {n : Nat} (hn : G.T.simd = true → G.T.ts ∣ n) : G.R0 n * G.base = n * G.pw := by
  unfold Gen.R0 Gen.base
  by_cases hs : G.T.simd = true
  · rw [if_pos hs]
    obtain ⟨c, hc⟩ := hn hs
    exact Nat.div_mul_cancel (Nat.mul_dvd_mul_right (hn hs) _)
  · rw [if_neg hs]; simp

theorem evalEx_ld (M : Nat → Int → Flt) (σ : Regs) (p b : Nat) (f : Nat → Option Int) {t : Nat} (ht : t < b) :
    F.evalEx M σ (.ld p ((List.range b).map f)) t = (f t).elim zero (M p) := by
  simp only [evalEx]
  rw [getD_rm _ _ ht]
  cases f t <;> rfl

/-- `load`, `load_partial`. -/
theorem Gen.load_sem {G : Gen} (hT : G.T.OK F) {M : Nat → Int → Flt} {incX incZ : Int} {c : Chunk} (σ : Regs) (p : Nat)
    (hpart : c.part = true → G.T.simd = true ∧ 1 ≤ c.count ∧ c.count < G.T.ts)
    (hdvd : c.part = false → G.T.simd = true → G.T.ts ∣ c.count) :
    (G.loadC p (if p = 0 then incX else incZ) c).length = G.R0 (G.cnt c) ∧
    Sem F G.base (G.memAt M incX incZ c.off) σ (G.loadC p (if p = 0 then incX else incZ) c) (G.R0 (G.cnt c))
      (G.word M incX incZ c p) (fun _ _ => False) := by
  obtain ⟨inc, hinc⟩ : ∃ inc, inc = (if p = 0 then incX else incZ) := ⟨_, rfl⟩
  rw [← hinc]
  have hbp := Gen.base_pos hT
  have hmem : ∀ (B : Nat), B / G.pw < c.count ∨ c.part = false → G.memAt M incX incZ c.off p (G.index inc B) = G.word M incX incZ c p B := by
    intro B hB
    unfold Gen.memAt Gen.word
    have hn : ¬ (c.part = true ∧ ¬ B / G.pw < c.count) := by
      rintro ⟨h1, h2⟩
      rcases hB with h | h
      · exact h2 h
      · rw [h] at h1; cases h1
    rw [← hinc, if_neg hn, Gen.index_eq]
    congr 1
    push_cast
    ring
  unfold Gen.loadC Gen.cnt
  by_cases hp : c.part = true
  · obtain ⟨hs, hc1, hc2⟩ := hpart hp
    rw [if_pos hp, if_pos hp]
    have hR : G.R0 G.T.ts = 1 := by
      unfold Gen.R0 Gen.base
      rw [if_pos hs]
      apply Nat.div_self
      unfold Gen.base at hbp; rwa [if_pos hs] at hbp
    have hbase : G.base = G.T.ts * G.pw := by unfold Gen.base; rw [if_pos hs]
    rw [hR]
    refine ⟨rfl, ?_⟩
    refine ⟨by simp [Gen.loadPartial], ?_, ?_⟩
    · intro i hi t ht
      obtain rfl : i = 0 := by omega
      show F.evalEx _ σ (.ld p _) t = _
      rw [evalEx_ld _ _ _ _ _ ht, Nat.zero_mul, Nat.zero_add]
      have htts : t / G.pw < G.T.ts := by rw [Nat.div_lt_iff_lt_mul G.pw_pos]; omega
      by_cases h0 : t / G.pw = 0
      · rw [if_pos h0]; exact hmem t (Or.inl (by omega))
      · rw [if_neg h0, Gen.tsz_simd hs]
        by_cases h1 : t / G.pw < c.count
        · rw [if_pos ⟨by omega, h1⟩]; exact hmem t (Or.inl h1)
        · rw [if_neg (by omega)]
          unfold Gen.word
          rw [if_pos ⟨hp, h1⟩]
          rfl
    · intro i hi v hv
      obtain rfl : i = 0 := by omega
      simp [Gen.loadPartial, Ex.vars] at hv
  · have hp : c.part = false := by simpa using hp
    rw [if_neg (by simp [hp]), if_neg (by simp [hp])]
    by_cases hs : G.T.simd = true
    · have hbase : G.base = G.T.ts * G.pw := by unfold Gen.base; rw [if_pos hs]
      have hR : G.R0 c.count = c.count / G.tsz := by
        rw [Gen.tsz_simd hs]
        unfold Gen.R0
        rw [hbase, Nat.mul_div_mul_right _ _ G.pw_pos]
      have hb2 : G.pw = 2 → ∃ k, G.base = 2 * k := fun h => ⟨G.T.ts, by rw [hbase, h, Nat.mul_comm]⟩
      unfold Gen.load
      rw [if_pos hs, hR]
      refine ⟨by simp, by simp, ?_, ?_⟩
      · intro i hi t ht
        rw [getD_rm _ _ hi, ← hmem _ (Or.inr hp)]
        split
        · rename_i hc
          rw [evalEx_ld _ _ _ _ _ ht]
          show G.memAt M incX incZ c.off p _ = _
          congr 1
          rw [Gen.index_eq, Gen.index_eq]
          rcases hc with hc | hc
          · subst hc
            rcases G.pw_cases with ⟨_, hpw⟩ | ⟨_, hpw⟩
            · simp only [hpw, Nat.div_one, Nat.mod_one]; push_cast; ring
            · obtain ⟨k, hk⟩ := hb2 hpw
              have e : i * G.base = 2 * (i * k) := by rw [hk]; ring
              simp only [hpw, e]
              omega
          · rw [Gen.tsz_simd hs] at hc
            rw [hc, Nat.one_mul] at hbase
            rw [hbase] at ht ⊢
            have e1 : i * G.pw / G.pw = i := Nat.mul_div_cancel _ G.pw_pos
            have e2 : i * G.pw % G.pw = 0 := Nat.mul_mod_left _ _
            have e3 : (i * G.pw + t) / G.pw = i := by
              rw [Nat.add_comm, Nat.add_mul_div_right _ _ G.pw_pos, Nat.div_eq_of_lt ht, Nat.zero_add]
            have e4 : (i * G.pw + t) % G.pw = t := by
              rw [Nat.add_comm, Nat.add_mul_mod_self_right, Nat.mod_eq_of_lt ht]
            rw [e1, e2, e3, e4]; simp
        · rw [evalEx_ld _ _ _ _ _ ht]
          rfl
      · intro i hi v hv
        rw [getD_rm _ _ hi] at hv
        split at hv <;> simp [Ex.vars] at hv
    · have hb : G.base = 1 := by unfold Gen.base; rw [if_neg hs]
      unfold Gen.load
      rw [if_neg hs]
      have hR : G.R0 c.count = c.count * G.pw := by unfold Gen.R0; rw [hb, Nat.div_one]
      rw [hR]
      refine ⟨by simp, by simp, ?_, ?_⟩
      · intro i hi t ht
        rw [getD_rm _ _ hi]
        rw [hb] at ht
        obtain rfl : t = 0 := by omega
        show G.memAt M incX incZ c.off p _ = _
        rw [hb, Nat.mul_one, Nat.add_zero]
        exact hmem i (Or.inr hp)
      · intro i hi v hv
        rw [getD_rm _ _ hi] at hv
        simp [Ex.vars] at hv

/-- The elements (of `X`, of `Z`) at position `i` of a chunk. -/
def Gen.celt (G : Gen) (M : Nat → Int → Flt) (incX incZ : Int) (c : Chunk) (i : Nat) : (Flt × Flt) × (Flt × Flt) :=
  ((G.word M incX incZ c 0 (i * G.pw), if G.cplx then G.word M incX incZ c 0 (i * G.pw + 1) else zero),
   (G.word M incX incZ c 1 (i * G.pw), if G.cplx then G.word M incX incZ c 1 (i * G.pw + 1) else zero))

theorem Gen.word_part (G : Gen) (M : Nat → Int → Flt) (incX incZ : Int) (c : Chunk) (B : Nat) :
    G.word M incX incZ c 0 B = if B % G.pw = 0 then (G.celt M incX incZ c (B / G.pw)).1.1 else (G.celt M incX incZ c (B / G.pw)).1.2 := by
  unfold Gen.celt
  have h := Nat.div_add_mod B G.pw
  rw [Nat.mul_comm] at h
  split
  · rename_i h0; rw [h0, Nat.add_zero] at h; rw [h]
  · rename_i h0
    have : B % G.pw = 1 := by
      have := Nat.mod_lt B G.pw_pos
      rcases G.pw_cases with ⟨_, h2⟩ | ⟨_, h2⟩ <;> omega
    rw [this] at h
    have hc : G.cplx = true := by
      rcases G.pw_cases with ⟨_, h2⟩ | ⟨h1, _⟩
      · rw [h2, Nat.mod_one] at h0; exact absurd rfl h0
      · exact h1
    simp only [h, hc, ↓reduceIte]

theorem Gen.pairs_R0 {G : Gen} (hpw : G.pw = 2) {n : Nat} : G.Pairs (G.R0 n) := by
  unfold Gen.Pairs Gen.R0 Gen.base
  rw [hpw]
  cases G.T.simd
  · exact Or.inr ⟨rfl, rfl, n, by simp; omega⟩
  · exact Or.inl ⟨rfl, G.T.ts, by simp; omega⟩

/-- The four assignments of a complex product. -/
theorem Gen.cdot_spec {G : Gen} (n3 n4 : Bool) {R : Nat} (hp : G.Pairs R) (hc : G.cplx = true) (hX : R * 2 ≤ G.maxRW * G.T.unroll)
    {mem : Nat → Int → Flt} {σ : Regs} {L0 L1 : List Ex} {g0 g1 : Nat → Flt} (hl0 : L0.length = R) (hl1 : L1.length = R)
    (hs0 : Sem F G.base mem σ L0 R g0 (fun _ _ => False)) (hs1 : ∀ τ, Sem F G.base mem τ L1 R g1 (fun _ _ => False)) (ρ : Regs)
    (hρ : ρ = F.run mem (setEqual G.xv L0 ++ setEqual G.zv L1
      ++ setEqual ((G.xv.take (R * 2)).drop (R * 2 / 2)) (if n3 then G.nconj F (vmul (G.swapP (ev G.xv)) (G.repO (ev G.zv))) else vmul (G.swapP (ev G.xv)) (G.repO (ev G.zv)))
      ++ setEqual (G.xv.take (R * 2 / 2)) (if n4 then G.conj F (vmul (ev G.xv) (G.repE (ev G.zv))) else vmul (ev G.xv) (G.repE (ev G.zv)))) σ) :
    (∀ i, i < R → ∀ t, t < G.base → ρ (.x (R + i)) t =
        (if n3 = true ∧ (i * G.base + t) % 2 = 0 then F.flip G.T else id)
          (F.mul (g0 (2 * ((i * G.base + t) / 2) + (1 - (i * G.base + t) % 2))) (g1 (2 * ((i * G.base + t) / 2) + 1))))
      ∧ (∀ i, i < R → ∀ t, t < G.base → ρ (.x i) t =
        (if n4 = true ∧ (i * G.base + t) % 2 = 1 then F.flip G.T else id) (F.mul (g0 (i * G.base + t)) (g1 (2 * ((i * G.base + t) / 2)))))
      ∧ (∀ v, (∀ k, v ≠ .x k) → (∀ k, v ≠ .z k) → ρ v = σ v) := by
  have e2 : R * 2 / 2 = R := by omega
  rw [e2, run_append, run_append, run_append] at hρ
  rw [show G.xv = (List.range (G.maxRW * G.T.unroll)).map (fun i => Var.x i) from rfl,
    show G.zv = (List.range (G.maxRW * G.T.unroll / 2)).map (fun i => Var.z i) from by unfold Gen.zv; rw [hc]; rfl] at hρ
  have ⟨h1, h2⟩ := hs0.set (fun i => .x i) (m := G.maxRW * G.T.unroll) (by rw [hl0]; omega) (by intro i i' h _ he; simp at he; omega) (by simp)
  generalize F.run mem (setEqual ((List.range (G.maxRW * G.T.unroll)).map (fun i => Var.x i)) L0) σ = σ1 at *
  have ⟨h3, h4⟩ := (hs1 σ1).set (fun i => .z i) (m := G.maxRW * G.T.unroll / 2) (by rw [hl1]; omega) (by intro i i' h _ he; simp at he; omega) (by simp)
  generalize F.run mem (setEqual ((List.range (G.maxRW * G.T.unroll / 2)).map (fun i => Var.z i)) L1) σ1 = σ2 at *
  have hx2 : ∀ i, i < R → ∀ t, t < G.base → σ2 (.x i) t = g0 (i * G.base + t) := by
    intro i hi t ht
    rw [h4 _ (by intro k _; simp)]; exact h1 i hi t ht
  rw [take_rm, take_rm, drop_rm] at hρ
  have hevx : Sem F G.base mem σ2 (ev ((List.range (G.maxRW * G.T.unroll)).map (fun i => Var.x i))) R g0 (fun i v => v = .x i) := Sem.ev (by omega) hx2
  have hevz : Sem F G.base mem σ2 (ev ((List.range (G.maxRW * G.T.unroll / 2)).map (fun i => Var.z i))) R g1 (fun i v => v = .z i) := Sem.ev (by omega) h3
  have hm3 := (hevx.swapP hp).mul (hevz.repO hp)
  have hm3' : Sem F G.base mem σ2 (if n3 then G.nconj F (vmul (G.swapP (ev ((List.range (G.maxRW * G.T.unroll)).map (fun i => Var.x i)))) (G.repO (ev ((List.range (G.maxRW * G.T.unroll / 2)).map (fun i => Var.z i))))) else vmul (G.swapP (ev ((List.range (G.maxRW * G.T.unroll)).map (fun i => Var.x i)))) (G.repO (ev ((List.range (G.maxRW * G.T.unroll / 2)).map (fun i => Var.z i))))) R
      (fun b => (if n3 = true ∧ b % 2 = 0 then F.flip G.T else id) (F.mul (g0 (2 * (b / 2) + (1 - b % 2))) (g1 (2 * (b / 2) + 1))))
      (fun _ v => (∃ k, k < R ∧ v = .x k) ∨ ∃ k, k < R ∧ v = .z k) := by
    cases n3
    · simpa using hm3
    · have := hm3.nconj hp
      simp only [↓reduceIte, true_and]
      refine ⟨this.len, ?_, this.vars⟩
      intro i hi t ht
      rw [this.val i hi t ht]
      split <;> rfl
  have hd3 : ∀ i, (fun i => Var.x i) (R + i) = (fun i => Var.x (R + i)) i := fun _ => rfl
  have ⟨h5, h6⟩ := hm3'.set (fun i => .x (R + i)) (m := min (R * 2) (G.maxRW * G.T.unroll) - R)
    (by have := hm3'.len; omega) (by intro i i' h _ he; simp at he; omega)
    (by rintro i i' h _ (⟨k, hk, he⟩ | ⟨k, hk, he⟩) <;> simp at he; omega)
  generalize F.run mem (setEqual ((List.range (min (R * 2) (G.maxRW * G.T.unroll) - R)).map (fun i => Var.x (R + i)))
    (if n3 then G.nconj F (vmul (G.swapP (ev ((List.range (G.maxRW * G.T.unroll)).map (fun i => Var.x i)))) (G.repO (ev ((List.range (G.maxRW * G.T.unroll / 2)).map (fun i => Var.z i))))) else vmul (G.swapP (ev ((List.range (G.maxRW * G.T.unroll)).map (fun i => Var.x i)))) (G.repO (ev ((List.range (G.maxRW * G.T.unroll / 2)).map (fun i => Var.z i)))))) σ2 = σ3 at *
  have hx3 : ∀ i, i < R → ∀ t, t < G.base → σ3 (.x i) t = g0 (i * G.base + t) := by
    intro i hi t ht
    rw [h6 _ (by intro k _ he; simp at he; omega)]; exact hx2 i hi t ht
  have hz3 : ∀ i, i < R → ∀ t, t < G.base → σ3 (.z i) t = g1 (i * G.base + t) := by
    intro i hi t ht
    rw [h6 _ (by intro k _; simp)]; exact h3 i hi t ht
  have hevx : Sem F G.base mem σ3 (ev ((List.range (G.maxRW * G.T.unroll)).map (fun i => Var.x i))) R g0 (fun i v => v = .x i) := Sem.ev (by omega) hx3
  have hevz : Sem F G.base mem σ3 (ev ((List.range (G.maxRW * G.T.unroll / 2)).map (fun i => Var.z i))) R g1 (fun i v => v = .z i) := Sem.ev (by omega) hz3
  have hm4 := hevx.mul (hevz.repE hp)
  have hm4' : Sem F G.base mem σ3 (if n4 then G.conj F (vmul (ev ((List.range (G.maxRW * G.T.unroll)).map (fun i => Var.x i))) (G.repE (ev ((List.range (G.maxRW * G.T.unroll / 2)).map (fun i => Var.z i))))) else vmul (ev ((List.range (G.maxRW * G.T.unroll)).map (fun i => Var.x i))) (G.repE (ev ((List.range (G.maxRW * G.T.unroll / 2)).map (fun i => Var.z i))))) R
      (fun b => (if n4 = true ∧ b % 2 = 1 then F.flip G.T else id) (F.mul (g0 b) (g1 (2 * (b / 2)))))
      (fun i v => v = .x i ∨ ∃ k, k < R ∧ v = .z k) := by
    cases n4
    · simpa using hm4
    · have := hm4.conj hp
      simp only [↓reduceIte, true_and]
      refine ⟨this.len, ?_, this.vars⟩
      intro i hi t ht
      rw [this.val i hi t ht]
      by_cases h0 : (i * G.base + t) % 2 = 0
      · rw [if_pos h0, if_neg (by omega)]; rfl
      · rw [if_neg h0, if_pos (by omega)]
  have ⟨h7, h8⟩ := hm4'.set (fun i => .x i) (m := min R (G.maxRW * G.T.unroll))
    (by have := hm4'.len; omega) (by intro i i' h _ he; simp at he; omega)
    (by rintro i i' h _ (he | ⟨k, hk, he⟩) <;> simp at he; omega)
  rw [← hρ] at h7 h8
  refine ⟨?_, h7, ?_⟩
  · intro i hi t ht
    rw [h8 _ (by intro k _ he; simp at he; omega)]
    exact h5 i hi t ht
  · intro v hx hz
    rw [h8 v (fun i _ => hx i), h6 v (fun i _ => hx _), h4 v (fun i _ => hz i), h2 v (fun i _ => hx i)]

/-- What the load registers hold after `preprocess`. -/
theorem Gen.pre_spec {G : Gen} (hT : G.T.OK F) (hfit : G.Fits) (M : Nat → Int → Flt) (incX incZ : Int) (c : Chunk) (σ : Regs)
    (hpart : c.part = true → G.T.simd = true ∧ 1 ≤ c.count ∧ c.count < G.T.ts)
    (hdvd : c.part = false → G.T.simd = true → G.T.ts ∣ c.count)
    (hX : G.R0 (G.cnt c) * G.e ≤ G.maxRW * G.T.unroll) :
    (∀ R, R < G.R0 (G.cnt c) * G.e → ∀ t, t < G.base →
      F.run (G.memAt M incX incZ c.off) (G.preprocess F incX incZ c) σ (.x R) t
        = opF F G.T G.op ((R * G.base + t) % G.pw) (G.celt M incX incZ c ((R * G.base + t) / G.pw % G.cnt c)) ((R * G.base + t) / G.pw / G.cnt c))
      ∧ (∀ v, (∀ k, v ≠ .x k) → (∀ k, v ≠ .z k) → F.run (G.memAt M incX incZ c.off) (G.preprocess F incX incZ c) σ v = σ v) := by
  have hrw : G.regWidth (if c.part then G.tsz else c.count) = G.R0 (G.cnt c) * G.e := by
    unfold Gen.regWidth Gen.R0 Gen.cnt
    by_cases hp : c.part = true
    · rw [if_pos hp, if_pos hp, Gen.tsz_simd (hpart hp).1]
    · rw [if_neg hp, if_neg hp]
  have hRb : G.R0 (G.cnt c) * G.base = G.cnt c * G.pw := by
    apply Gen.R0_mul hT
    intro hs
    unfold Gen.cnt
    by_cases hp : c.part = true
    · rw [if_pos hp]
    · rw [if_neg hp]; exact hdvd (by simpa using hp) hs
  have hbp := Gen.base_pos hT
  obtain ⟨hl0, hs0⟩ := Gen.load_sem hT (M := M) (incX := incX) (incZ := incZ) σ 0 hpart hdvd
  simp only [↓reduceIte] at hl0 hs0
  -- positions of the numbers of the first operand
  have hlt : ∀ R t, R < G.R0 (G.cnt c) → t < G.base → (R * G.base + t) / G.pw < G.cnt c := by
    intro R t hR ht
    rw [Nat.div_lt_iff_lt_mul G.pw_pos, ← hRb]
    have : (R + 1) * G.base ≤ G.R0 (G.cnt c) * G.base := Nat.mul_le_mul_right _ hR
    rw [Nat.succ_mul] at this
    omega
  unfold Gen.preprocess
  simp only [hrw]
  have hld1 := fun τ => Gen.load_sem hT (M := M) (incX := incX) (incZ := incZ) (c := c) τ 1 hpart hdvd
  simp only [Nat.one_ne_zero, ↓reduceIte] at hld1
  generalize G.memAt M incX incZ c.off = mem at *
  cases hop : G.op with
  | sum =>
    have he : G.e = 1 := by unfold Gen.e; rw [hop]
    rw [he, Nat.mul_one] at hX ⊢
    have ⟨h1, h2⟩ := hs0.set (fun i => .x i) (m := G.maxRW * G.T.unroll) (by rw [hl0]; omega) (by intro i i' h _ he; simp at he; omega) (by simp)
    refine ⟨?_, ?_⟩
    · intro R hR t ht
      dsimp only
      have := h1 R hR t ht
      unfold Gen.xv
      rw [this, Gen.word_part]
      rw [Nat.mod_eq_of_lt (hlt R t hR ht)]
      rfl
    · intro v hx _
      exact h2 v (fun i _ => hx i)
  | asum =>
    have he : G.e = 1 := by unfold Gen.e; rw [hop]
    rw [he, Nat.mul_one] at hX ⊢
    have ⟨h1, h2⟩ := hs0.abs.set (fun i => .x i) (m := G.maxRW * G.T.unroll) (by rw [List.length_map, hl0]; omega) (by intro i i' h _ he; simp at he; omega) (by simp)
    refine ⟨?_, ?_⟩
    · intro R hR t ht
      dsimp only
      have := h1 R hR t ht
      unfold Gen.xv
      rw [this, Gen.word_part]
      rw [Nat.mod_eq_of_lt (hlt R t hR ht)]
      rfl
    · intro v hx _
      exact h2 v (fun i _ => hx i)
  | ssq inv =>
    have he : G.e = 1 := by unfold Gen.e; rw [hop]
    rw [he, Nat.mul_one] at hX ⊢
    dsimp only
    rw [run_append]
    have ⟨h1, h2⟩ := (hs0.mul (Sem.cst inv)).set (fun i => .x i) (m := G.maxRW * G.T.unroll)
      (by unfold vmul; rw [List.length_zipWith, hl0, List.length_replicate]; omega) (by intro i i' h _ he; simp at he; omega) (by simp)
    rw [show G.xv = (List.range (G.maxRW * G.T.unroll)).map (fun i => Var.x i) from rfl]
    generalize F.run mem (setEqual ((List.range (G.maxRW * G.T.unroll)).map (fun i => Var.x i)) (vmul (G.loadC 0 incX c) (List.replicate (G.R0 (G.cnt c)) (.cst inv)))) σ = τ at *
    have hev1 : Sem F G.base mem τ (ev ((List.range (G.maxRW * G.T.unroll)).map (fun i => Var.x i))) (G.R0 (G.cnt c)) (fun b => F.mul (G.word M incX incZ c 0 b) inv) (fun i v => v = .x i) := Sem.ev (by omega) h1
    have hev2 : Sem F G.base mem τ (ev (((List.range (G.maxRW * G.T.unroll)).map (fun i => Var.x i)).take (G.R0 (G.cnt c)))) (G.R0 (G.cnt c)) (fun b => F.mul (G.word M incX incZ c 0 b) inv) (fun i v => v = .x i) := by
      rw [take_rm]; exact Sem.ev (by omega) h1
    have ⟨h3, h4⟩ := (hev1.mul hev2).set (fun i => .x i) (m := G.maxRW * G.T.unroll)
      (by unfold vmul ev; simp; omega) (by intro i i' h _ he; simp at he; omega) (by intro i i' h _ hS; simp at hS; omega)
    refine ⟨?_, ?_⟩
    · intro R hR t ht
      have := h3 R hR t ht
      rw [this, Gen.word_part]
      rw [Nat.mod_eq_of_lt (hlt R t hR ht)]
      rfl
    · intro v hx _
      rw [h4 v (fun i _ => hx i)]
      exact h2 v (fun i _ => hx i)
  | dot =>
    have hc : G.cplx = false := by unfold Gen.Fits at hfit; rw [hop] at hfit; exact hfit
    have hpw : G.pw = 1 := by unfold Gen.pw; rw [hc]; rfl
    have he : G.e = 1 := by unfold Gen.e; rw [hop]; exact hpw
    rw [he, Nat.mul_one] at hX ⊢
    dsimp only
    rw [run_append, run_append]
    have ⟨h1, h2⟩ := hs0.set (fun i => .x i) (m := G.maxRW * G.T.unroll) (by rw [hl0]; omega) (by intro i i' h _ he; simp at he; omega) (by simp)
    rw [show G.xv = (List.range (G.maxRW * G.T.unroll)).map (fun i => Var.x i) from rfl,
      show G.zv = (List.range (G.maxRW * G.T.unroll)).map (fun i => Var.z i) from by unfold Gen.zv; rw [hc]; rfl]
    generalize F.run mem (setEqual ((List.range (G.maxRW * G.T.unroll)).map (fun i => Var.x i)) (G.loadC 0 incX c)) σ = τ at *
    obtain ⟨hl1, hs1⟩ := hld1 τ
    have ⟨h3, h4⟩ := hs1.set (fun i => .z i) (m := G.maxRW * G.T.unroll) (by rw [hl1]; omega) (by intro i i' h _ he; simp at he; omega) (by simp)
    generalize F.run mem (setEqual ((List.range (G.maxRW * G.T.unroll)).map (fun i => Var.z i)) (G.loadC 1 incZ c)) τ = ρ at *
    have h1' : ∀ i, i < G.R0 (G.cnt c) → ∀ t, t < G.base → ρ (.x i) t = G.word M incX incZ c 0 (i * G.base + t) := by
      intro i hi t ht
      rw [h4 _ (by intro k _; simp)]; exact h1 i hi t ht
    have hev1 : Sem F G.base mem ρ (ev ((List.range (G.maxRW * G.T.unroll)).map (fun i => Var.x i))) (G.R0 (G.cnt c)) (G.word M incX incZ c 0) (fun i v => v = .x i) := Sem.ev (by omega) h1'
    have hev2 : Sem F G.base mem ρ (ev (((List.range (G.maxRW * G.T.unroll)).map (fun i => Var.z i)).take (G.R0 (G.cnt c)))) (G.R0 (G.cnt c)) (G.word M incX incZ c 1) (fun i v => v = .z i) := by
      rw [take_rm]; exact Sem.ev (by omega) h3
    have ⟨h5, h6⟩ := (hev1.mul hev2).set (fun i => .x i) (m := G.maxRW * G.T.unroll)
      (by unfold vmul ev; simp; omega) (by intro i i' h _ he; simp at he; omega) (by intro i i' h _ hS; simp at hS; omega)
    refine ⟨?_, ?_⟩
    · intro R hR t ht
      have := h5 R hR t ht
      rw [this, Nat.mod_eq_of_lt (hlt R t hR ht)]
      show F.mul _ _ = F.mul (G.word M incX incZ c 0 _) (G.word M incX incZ c 1 _)
      rw [hpw, Nat.div_one, Nat.mul_one]
    · intro v hx hz
      rw [h6 v (fun i _ => hx i), h4 v (fun i _ => hz i)]
      exact h2 v (fun i _ => hx i)
  | dotu =>
    have hc : G.cplx = true := by unfold Gen.Fits at hfit; rw [hop] at hfit; exact hfit
    have hpw : G.pw = 2 := by unfold Gen.pw; rw [hc]; rfl
    have he : G.e = 2 := by unfold Gen.e; rw [hop]; exact hpw
    rw [he] at hX ⊢
    dsimp only
    have hP := Gen.pairs_R0 hpw (n := G.cnt c)
    obtain ⟨h1, h2, h3⟩ := Gen.cdot_spec (F := F) true false hP hc hX hl0 (hld1 σ).1 hs0 (fun τ => (hld1 τ).2) _ rfl
    refine ⟨?_, h3⟩
    intro R hR t ht
    by_cases hRR : R < G.R0 (G.cnt c)
    · have := h2 R hRR t ht
      simp only [Bool.false_eq_true, ↓reduceIte, false_and, true_and, id] at this ⊢
      rw [this, Nat.mod_eq_of_lt (hlt R t hRR ht), Nat.div_eq_of_lt (hlt R t hRR ht), hpw]
      generalize R * G.base + t = B
      unfold Gen.celt
      rw [hpw, hc]
      have hB := Nat.div_add_mod B 2
      rcases Nat.mod_two_eq_zero_or_one B with h0 | h0
      · have e1 : B / 2 * 2 = B := by omega
        have e2 : 2 * (B / 2) = B := by omega
        simp only [opF, h0, Fmt.dotuOp, Fmt.dotcOp, e1, e2, ↓reduceIte, if_true, Nat.zero_ne_one, id]
      · have e1 : B / 2 * 2 + 1 = B := by omega
        have e2 : 2 * (B / 2) = B / 2 * 2 := by omega
        simp only [opF, h0, Fmt.dotuOp, Fmt.dotcOp, e1, e2, ↓reduceIte, if_true, Nat.one_ne_zero, id]
    · obtain ⟨i, rfl⟩ : ∃ i, R = G.R0 (G.cnt c) + i := ⟨R - G.R0 (G.cnt c), by omega⟩
      have hi : i < G.R0 (G.cnt c) := by omega
      have := h1 i hi t ht
      simp only [Bool.false_eq_true, ↓reduceIte, false_and, true_and, id] at this ⊢
      have hB2 : (G.R0 (G.cnt c) + i) * G.base + t = (i * G.base + t) + G.cnt c * 2 := by
        rw [Nat.add_mul, hRb, hpw]; omega
      have hlt' := hlt i t hi ht
      rw [this, hB2, hpw, Nat.add_mul_div_right _ _ (by omega), Nat.add_mul_mod_self_right]
      rw [hpw] at hlt'
      generalize i * G.base + t = B at *
      have hcp : 0 < G.cnt c := by omega
      rw [Nat.add_mod_right, Nat.mod_eq_of_lt hlt', Nat.add_div_right _ hcp, Nat.div_eq_of_lt hlt']
      unfold Gen.celt
      rw [hpw, hc]
      have hB := Nat.div_add_mod B 2
      have e2 : 2 * (B / 2) = B / 2 * 2 := by omega
      rcases Nat.mod_two_eq_zero_or_one B with h0 | h0
      · simp only [opF, h0, Fmt.dotuOp, Fmt.dotcOp, e2, ↓reduceIte, if_true, Nat.zero_ne_one, id, Nat.succ_ne_zero, Nat.sub_zero]
      · simp only [opF, h0, Fmt.dotuOp, Fmt.dotcOp, e2, ↓reduceIte, if_true, Nat.one_ne_zero, id, Nat.succ_ne_zero, Nat.sub_self, Nat.add_zero]
  | dotc =>
    have hc : G.cplx = true := by unfold Gen.Fits at hfit; rw [hop] at hfit; exact hfit
    have hpw : G.pw = 2 := by unfold Gen.pw; rw [hc]; rfl
    have he : G.e = 2 := by unfold Gen.e; rw [hop]; exact hpw
    rw [he] at hX ⊢
    dsimp only
    have hP := Gen.pairs_R0 hpw (n := G.cnt c)
    obtain ⟨h1, h2, h3⟩ := Gen.cdot_spec (F := F) false true hP hc hX hl0 (hld1 σ).1 hs0 (fun τ => (hld1 τ).2) _ rfl
    refine ⟨?_, h3⟩
    intro R hR t ht
    by_cases hRR : R < G.R0 (G.cnt c)
    · have := h2 R hRR t ht
      simp only [Bool.false_eq_true, ↓reduceIte, false_and, true_and, id] at this ⊢
      rw [this, Nat.mod_eq_of_lt (hlt R t hRR ht), Nat.div_eq_of_lt (hlt R t hRR ht), hpw]
      generalize R * G.base + t = B
      unfold Gen.celt
      rw [hpw, hc]
      have hB := Nat.div_add_mod B 2
      rcases Nat.mod_two_eq_zero_or_one B with h0 | h0
      · have e1 : B / 2 * 2 = B := by omega
        have e2 : 2 * (B / 2) = B := by omega
        simp only [opF, h0, Fmt.dotuOp, Fmt.dotcOp, e1, e2, ↓reduceIte, if_true, Nat.zero_ne_one, id]
      · have e1 : B / 2 * 2 + 1 = B := by omega
        have e2 : 2 * (B / 2) = B / 2 * 2 := by omega
        simp only [opF, h0, Fmt.dotuOp, Fmt.dotcOp, e1, e2, ↓reduceIte, if_true, Nat.one_ne_zero, id]
    · obtain ⟨i, rfl⟩ : ∃ i, R = G.R0 (G.cnt c) + i := ⟨R - G.R0 (G.cnt c), by omega⟩
      have hi : i < G.R0 (G.cnt c) := by omega
      have := h1 i hi t ht
      simp only [Bool.false_eq_true, ↓reduceIte, false_and, true_and, id] at this ⊢
      have hB2 : (G.R0 (G.cnt c) + i) * G.base + t = (i * G.base + t) + G.cnt c * 2 := by
        rw [Nat.add_mul, hRb, hpw]; omega
      have hlt' := hlt i t hi ht
      rw [this, hB2, hpw, Nat.add_mul_div_right _ _ (by omega), Nat.add_mul_mod_self_right]
      rw [hpw] at hlt'
      generalize i * G.base + t = B at *
      have hcp : 0 < G.cnt c := by omega
      rw [Nat.add_mod_right, Nat.mod_eq_of_lt hlt', Nat.add_div_right _ hcp, Nat.div_eq_of_lt hlt']
      unfold Gen.celt
      rw [hpw, hc]
      have hB := Nat.div_add_mod B 2
      have e2 : 2 * (B / 2) = B / 2 * 2 := by omega
      rcases Nat.mod_two_eq_zero_or_one B with h0 | h0
      · simp only [opF, h0, Fmt.dotuOp, Fmt.dotcOp, e2, ↓reduceIte, if_true, Nat.zero_ne_one, id, Nat.succ_ne_zero, Nat.sub_zero]
      · simp only [opF, h0, Fmt.dotuOp, Fmt.dotcOp, e2, ↓reduceIte, if_true, Nat.one_ne_zero, id, Nat.succ_ne_zero, Nat.sub_self, Nat.add_zero]

end Repro
