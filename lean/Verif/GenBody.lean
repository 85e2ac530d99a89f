import Verif.GenPre
import Verif.PropsUnroll
/-!
# One body of the unrolled loop: lanes and registers
-/

namespace Repro
open Fmt
variable {F : Fmt}

theorem emitTail_zero : ∀ (fuel u : Nat), emitTail 0 fuel u = emitTail 1 fuel u
  | 0, _ => rfl
  | fuel + 1, u => by
    unfold emitTail
    rw [emitTail_zero fuel]
    by_cases h : u = 0
    · rw [if_pos h, if_pos h]
    · rw [if_neg h, if_neg h, if_neg (by omega), if_neg (by omega)]

theorem runUnrolled_zero (m n : Nat) : runUnrolled 0 m n = runUnrolled 1 m n := by
  unfold runUnrolled emit
  simp only [emitTail_zero]
  rfl

namespace Gen
variable {G : Gen}

/-- `type_size` is 0 for complex scalar code; the loops are the same. -/
theorem done_eq (hT : G.T.OK F) (m n : Nat) : runUnrolled G.tsz m n = runUnrolled G.T.ts m n := by
  by_cases hs : G.T.simd = true
  · rw [Gen.tsz_simd hs]
  · have hs : G.T.simd = false := by simpa using hs
    have h1 := hT.sisd hs
    have h2 := Gen.tsz_sisd hT hs
    rw [h1]
    rcases Nat.le_one_iff_eq_zero_or_eq_one.mp h2 with h | h
    · rw [h]; exact runUnrolled_zero m n
    · rw [h]

/-- The elements of the vectors: element `i` of `X` and of `Z`. -/
def elt (G : Gen) (M : Nat → Int → Flt) (incX incZ : Int) (i : Nat) : (Flt × Flt) × (Flt × Flt) :=
  ((M 0 (incX * (G.pw : Int) * (i : Int)), if G.cplx then M 0 (incX * (G.pw : Int) * (i : Int) + 1) else zero),
   (M 1 (incZ * (G.pw : Int) * (i : Int)), if G.cplx then M 1 (incZ * (G.pw : Int) * (i : Int) + 1) else zero))

/-- What is loaded behind the data. -/
def zfill : (Flt × Flt) × (Flt × Flt) := ((zero, zero), (zero, zero))

theorem celt_eq (G : Gen) (M : Nat → Int → Flt) (incX incZ : Int) (c : Chunk) (i : Nat) :
    G.celt M incX incZ c i = if c.part = true ∧ ¬ i < c.count then zfill else G.elt M incX incZ (c.off + i) := by
  unfold Gen.celt Gen.word Gen.elt Gen.zfill
  have hp := G.pw_pos
  rw [Nat.mul_div_cancel _ hp, Nat.mul_mod_left]
  by_cases hc : G.cplx = true
  · have h2 : G.pw = 2 := by unfold Gen.pw; rw [hc]; rfl
    have e1 : (i * G.pw + 1) / G.pw = i := by rw [h2]; omega
    have e2 : (i * G.pw + 1) % G.pw = 1 := by rw [h2]; omega
    rw [e1, e2, hc]
    by_cases h : c.part = true ∧ ¬ i < c.count
    · simp only [h, not_false_eq_true, and_self, ↓reduceIte]
    · simp only [if_neg h, ↓reduceIte, Nat.one_ne_zero]
      simp
  · have hc : G.cplx = false := by simpa using hc
    rw [hc]
    by_cases h : c.part = true ∧ ¬ i < c.count
    · simp only [h, not_false_eq_true, and_self, ↓reduceIte, Bool.false_eq_true]
    · simp only [if_neg h, ↓reduceIte, Nat.one_ne_zero, Bool.false_eq_true]
      simp

/-- All elements. -/
def elts (G : Gen) (M : Nat → Int → Flt) (incX incZ : Int) (n : Nat) : List ((Flt × Flt) × (Flt × Flt)) :=
  (List.range n).map (G.elt M incX incZ)

theorem loadE_celt (G : Gen) (M : Nat → Int → Flt) (incX incZ : Int) (n : Nat) {c : Chunk} (hc : c.off + c.count ≤ n)
    (hp : c.part = true → c.count ≤ G.T.ts) :
    loadE G.T.ts zfill (G.elts M incX incZ n) c = (List.range (G.cnt c)).map (G.celt M incX incZ c) := by
  unfold loadE Gen.cnt Gen.elts
  by_cases hpt : c.part = true
  · rw [if_pos hpt, if_pos hpt]
    apply List.map_congr_left
    intro l _
    rw [Gen.celt_eq]
    by_cases h : l < c.count
    · rw [if_pos h, if_neg (by rintro ⟨_, h'⟩; exact h' h), getD_rm _ _ (by omega)]
    · rw [if_neg h, if_pos ⟨hpt, h⟩]
  · rw [if_neg hpt, if_neg hpt]
    apply List.map_congr_left
    intro l hl
    have := List.mem_range.mp hl
    rw [Gen.celt_eq, if_neg (by rintro ⟨h', _⟩; exact hpt h'), getD_rm _ _ (by omega)]

end Gen

theorem nest_rm {α : Type} (f : Nat → Nat → α) (e n : Nat) :
    (List.range e).flatMap (fun h => (List.range n).map (fun i => f i h)) = (List.range (e * n)).map (fun q => f (q % n) (q / n)) := by
  rw [← range_groups (fun q => f (q % n) (q / n)) n e]
  congr 1
  funext h
  apply List.map_congr_left
  intro i hi
  have hi := List.mem_range.mp hi
  rw [Nat.add_comm, Nat.add_mul_mod_self_right, Nat.mod_eq_of_lt hi, Nat.add_mul_div_right _ _ (by omega), Nat.div_eq_of_lt hi, Nat.zero_add]

theorem laneVals_flatMap {α : Type} (L : List α) (f : α → List (Nat × Flt)) (l : Nat) :
    laneVals (L.flatMap f) l = L.flatMap (fun a => laneVals (f a) l) := by
  induction L with
  | nil => rfl
  | cons a L ih =>
    rw [List.flatMap_cons, List.flatMap_cons, ← ih]
    unfold laneVals
    rw [List.filter_append, List.map_append]

theorem laneVals_rm (v : Nat → Flt) (l : Nat) : ∀ w, laneVals ((List.range w).map (fun l => (l, v l))) l = if l < w then [v l] else [] := by
  intro w
  induction w with
  | zero => rfl
  | succ w ih =>
    have : laneVals ((List.range (w + 1)).map (fun l => (l, v l))) l
        = laneVals ((List.range w).map (fun l => (l, v l))) l ++ laneVals [(w, v w)] l := by
      unfold laneVals
      rw [List.range_succ, List.map_append, List.filter_append, List.map_append]
      rfl
    rw [this, ih]
    by_cases h1 : l < w
    · rw [if_pos h1, if_pos (by omega)]
      have : laneVals [(w, v w)] l = [] := by
        unfold laneVals; rw [List.filter_cons_of_neg (by simp; omega)]; rfl
      rw [this, List.append_nil]
    · rw [if_neg h1]
      by_cases h2 : l = w
      · subst h2
        rw [if_pos (by omega)]
        simp [laneVals]
      · rw [if_neg (by omega)]
        unfold laneVals; rw [List.filter_cons_of_neg (by simp; omega)]; rfl

/-- The numbers one body deals to one lane. -/
theorem laneVals_dealZ {α : Type} (T : Tune) (e : Nat) (f : α → Nat → Flt) (z : α) (es : List α) (c : Chunk) (l : Nat) :
    laneVals (T.dealZ e f z es c) l =
      if l < e * (if c.part then T.ts else min c.count T.pipe) then
        (List.range (if c.part then 1 else max (c.count / T.pipe) 1)).map
          (fun g => nth (loadZ T.ts e f z es c) (g * (e * (if c.part then T.ts else min c.count T.pipe)) + l))
      else [] := by
  unfold Tune.dealZ
  dsimp only
  rw [laneVals_flatMap]
  generalize (e * (if c.part then T.ts else min c.count T.pipe)) = w
  simp only [laneVals_rm (fun l => nth (loadZ T.ts e f z es c) (_ * w + l))]
  split
  · generalize (if c.part then 1 else max (c.count / T.pipe) 1) = q
    induction q with
    | zero => rfl
    | succ q ih => rw [List.range_succ, List.flatMap_append, List.map_append, ih]; rfl
  · simp

namespace Gen
variable {G : Gen}

/-- The process statements are those of the groups. -/
theorem process_eq (expand idx0 : Bool) (fold w u : Nat) :
    (if idx0 then G.process0 expand fold w u else G.process expand fold w u)
      = (List.range (max u 1)).flatMap (G.group expand idx0 fold w) := by
  unfold Gen.process0 Gen.process Gen.group
  cases idx0 <;> simp

/-- What one body does: every lane takes the numbers dealt to it. -/
theorem body_spec (hT : G.T.OK F) (hfit : G.Fits) (M : Nat → Int → Flt) (incX incZ : Int) {expand : Bool} (idx0 : Bool) {fold n : Nat}
    (hf : 1 ≤ fold) (he : expand = true → 2 ≤ fold) {c : Chunk} (hc : c ∈ (runUnrolled G.T.ts (G.T.pipe * G.T.unroll) n).done) (σ : Regs) :
    (∀ r, r < G.maxRW → ∀ t, t < G.base →
      colOf expand fold (F.run (G.memAt M incX incZ c.off) (G.body F incX incZ idx0 expand fold c) σ) r t
        = (laneVals (G.T.dealZ G.e (opF F G.T G.op ((r * G.base + t) % G.pw)) zfill (G.elts M incX incZ n) c) ((r * G.base + t) / G.pw)).foldl
            (fun L x => gstep F G.cplx idx0 (σ (.comp (r % G.suf)) t) (σ (.expn (r % G.suf)) t) (σ (.mask (r % G.suf)) t) x L)
            (colOf expand fold σ r t))
      ∧ (∀ k, F.run (G.memAt M incX incZ c.off) (G.body F incX incZ idx0 expand fold c) σ (.comp k) = σ (.comp k))
      ∧ (∀ k, F.run (G.memAt M incX incZ c.off) (G.body F incX incZ idx0 expand fold c) σ (.expn k) = σ (.expn k))
      ∧ (∀ k, F.run (G.memAt M incX incZ c.off) (G.body F incX incZ idx0 expand fold c) σ (.mask k) = σ (.mask k))
      ∧ (∀ k j, F.run (G.memAt M incX incZ c.off) (G.body F incX incZ idx0 expand fold c) σ (.y k j) = σ (.y k j)) := by
  obtain ⟨a, ha⟩ := hT.ts
  obtain ⟨b, hb⟩ := hT.pipe
  have hab : G.T.ts ∣ G.T.pipe := by
    rw [ha, hb]; apply Nat.pow_dvd_pow
    have := hT.tp; rw [ha, hb] at this
    exact (Nat.pow_le_pow_iff_right (by omega : 1 < 2)).1 this
  have hpp : 0 < G.T.pipe := by rw [hb]; exact Nat.two_pow_pos b
  have hsh := (tune_done hT n).shape c hc
  have ⟨hin, hc1, hcp, hcd⟩ := C37_loads_in_bounds (Or.inr ⟨a, ha⟩) (Nat.mul_pos hpp hT.unroll) (Or.inl (Nat.dvd_mul_right_of_dvd hab _)) hc
  have hts0 : 0 < G.T.ts := by rw [ha]; exact Nat.two_pow_pos a
  have hpart : c.part = true → G.T.simd = true ∧ 1 ≤ c.count ∧ c.count < G.T.ts := by
    intro hp
    refine ⟨?_, hc1, hcp hp⟩
    cases hs : G.T.simd with
    | true => rfl
    | false => have := hT.sisd hs; have := hcp hp; omega
  have hdvd : c.part = false → G.T.ts ∣ c.count := fun hp => (hcd hp).resolve_right (by omega)
  have hbp := Gen.base_pos hT
  -- elements per group, groups
  obtain ⟨wn, hwn⟩ : ∃ wn, wn = (if c.part then G.T.ts else min c.count G.T.pipe) := ⟨_, rfl⟩
  obtain ⟨u, hu⟩ : ∃ u, u = (if c.part then 1 else max (c.count / G.T.pipe) 1) := ⟨_, rfl⟩
  have hgc : u * wn = G.cnt c := by
    rw [hu, hwn]; unfold Gen.cnt
    by_cases hp : c.part = true
    · rw [if_pos hp, if_pos hp, if_pos hp, Nat.one_mul]
    · rw [if_neg hp, if_neg hp, if_neg hp]; exact groups_count hT hsh (by simpa using hp)
  have hdw : G.T.ts ∣ wn := by
    rw [hwn]; split
    · exact Nat.dvd_refl _
    · rename_i hp
      rcases Nat.le_total c.count G.T.pipe with h | h
      · rw [Nat.min_eq_left h]; exact hdvd (by simpa using hp)
      · rw [Nat.min_eq_right h]; exact hab
  have hwp : wn ≤ G.T.pipe := by
    rw [hwn]; split
    · exact hT.tp
    · omega
  have hu1 : u ≤ 1 ∨ wn = G.T.pipe := by
    rw [hu, hwn]
    by_cases hp : c.part = true
    · rw [if_pos hp]; left; omega
    · rw [if_neg hp, if_neg hp]
      by_cases h : c.count < G.T.pipe
      · left; rw [Nat.div_eq_of_lt h]; omega
      · right; omega
  have huu : u ≤ G.T.unroll := by
    have h1 := hT.unroll
    rw [hu]
    by_cases hp : c.part = true
    · rw [if_pos hp]; exact h1
    · rw [if_neg hp]
      unfold Chunk.Shaped at hsh
      rw [if_neg hp] at hsh
      have : c.count ≤ G.T.pipe * G.T.unroll := by rcases hsh.1 with e | e <;> omega
      have := Nat.div_le_div_right (c := G.T.pipe) this
      rw [Nat.mul_div_cancel_left _ hpp] at this
      omega
  have hcu : G.cnt c ≤ G.T.pipe * G.T.unroll := by
    rw [← hgc]
    calc u * wn ≤ G.T.unroll * G.T.pipe := Nat.mul_le_mul huu hwp
      _ = _ := Nat.mul_comm _ _
  -- registers
  have hR0p := Gen.R0_mul hT (n := G.T.pipe) (fun _ => hab)
  have hR0w := Gen.R0_mul hT (n := wn) (fun _ => hdw)
  have hR0c := Gen.R0_mul hT (n := G.cnt c) (fun _ => by rw [← hgc]; exact Nat.dvd_mul_left_of_dvd hdw _)
  have hM : G.maxRW = G.R0 G.T.pipe * G.e := rfl
  have hw : G.regWidth (if c.part then G.tsz else min c.count G.T.pipe) = G.R0 wn * G.e := by
    unfold Gen.regWidth Gen.R0
    rw [hwn]
    by_cases hp : c.part = true
    · rw [if_pos hp, if_pos hp, Gen.tsz_simd (hpart hp).1]
    · rw [if_neg hp, if_neg hp]
  have hRuw : G.R0 (G.cnt c) = u * G.R0 wn := by
    apply Nat.eq_of_mul_eq_mul_right hbp
    rw [hR0c, Nat.mul_assoc, hR0w, ← hgc, Nat.mul_assoc]
  have hRwp : G.R0 wn ≤ G.R0 G.T.pipe := by
    unfold Gen.R0; exact Nat.div_le_div_right (Nat.mul_le_mul_right _ hwp)
  have hwM : G.R0 wn * G.e ≤ G.maxRW := by rw [hM]; exact Nat.mul_le_mul_right _ hRwp
  have huw : u * (G.R0 wn * G.e) ≤ G.maxRW * G.T.unroll := by
    calc u * (G.R0 wn * G.e) ≤ G.T.unroll * G.maxRW := Nat.mul_le_mul huu hwM
      _ = _ := Nat.mul_comm _ _
  have hX : G.R0 (G.cnt c) * G.e ≤ G.maxRW * G.T.unroll := by rw [hRuw, Nat.mul_assoc]; exact huw
  have ⟨hpx, hpf⟩ := Gen.pre_spec hT hfit M incX incZ c σ hpart (fun h _ => hdvd h) hX
  unfold Gen.body
  dsimp only
  rw [hw, run_append, Gen.process_eq]
  have hmu : max (if c.part then 1 else c.count / G.T.pipe) 1 = u := by rw [hu]; split <;> simp
  rw [hmu]
  generalize G.memAt M incX incZ c.off = mem at *
  generalize F.run mem (G.preprocess F incX incZ c) σ = τ at *
  have ⟨g1, g2, g3, g4, g5, g6, g7⟩ := Gen.groups_spec (F := F) (G := G) (expand := expand) (fold := fold) mem τ idx0 hf he hwM u huw
    (hu1.imp id (fun h => by rw [hM, h]))
  have hcomp : ∀ k, τ (.comp k) = σ (.comp k) := fun k => hpf _ (by simp) (by simp)
  have hexpn : ∀ k, τ (.expn k) = σ (.expn k) := fun k => hpf _ (by simp) (by simp)
  have hmask : ∀ k, τ (.mask k) = σ (.mask k) := fun k => hpf _ (by simp) (by simp)
  have hcol : ∀ r t, colOf expand fold τ r t = colOf expand fold σ r t := by
    intro r t; unfold colOf
    apply List.map_congr_left
    intro j _
    rw [hpf _ (fun k => acc_not_x _ _ _ _) (by intro k; unfold accVar; cases expand <;> simp)]
  refine ⟨?_, fun k => by rw [g4, hcomp], fun k => by rw [g5, hexpn], fun k => by rw [g6, hmask], fun k j => by rw [g7, hpf _ (by simp) (by simp)]⟩
  intro r hr t ht
  have hWb : G.R0 wn * G.e * G.base = G.e * wn * G.pw := by
    calc G.R0 wn * G.e * G.base = G.e * (G.R0 wn * G.base) := by ring
      _ = _ := by rw [hR0w]; ring
  rw [laneVals_dealZ, ← hwn, ← hu]
  by_cases hrw : r < G.R0 wn * G.e
  · have hL : (r * G.base + t) / G.pw < G.e * wn := by
      rw [Nat.div_lt_iff_lt_mul G.pw_pos, ← hWb]
      have : (r + 1) * G.base ≤ G.R0 wn * G.e * G.base := Nat.mul_le_mul_right _ hrw
      rw [Nat.succ_mul] at this
      omega
    rw [if_pos hL, g1 r hrw t, List.foldl_map, hcol, hcomp, hexpn, hmask]
    refine List.foldl_ext _ _ _ (fun C i hi => ?_)
    have hi := List.mem_range.mp hi
    congr 1
    have hiw : i * (G.R0 wn * G.e) + r < u * (G.R0 wn * G.e) := by
      have : (i + 1) * (G.R0 wn * G.e) ≤ u * (G.R0 wn * G.e) := Nat.mul_le_mul_right _ hi
      rw [Nat.succ_mul] at this; omega
    rw [hpx _ (by rw [hRuw, Nat.mul_assoc]; exact hiw) t ht]
    have hB : (i * (G.R0 wn * G.e) + r) * G.base + t = (r * G.base + t) + i * (G.e * wn) * G.pw := by
      rw [Nat.add_mul, Nat.mul_assoc i, hWb]; ring
    rw [hB, Nat.add_mul_mod_self_right, Nat.add_mul_div_right _ _ G.pw_pos]
    rw [loadZ_eq, Gen.loadE_celt G M incX incZ n hin (fun h => Nat.le_of_lt (hcp h))]
    simp only [List.map_map, Function.comp_def]
    rw [nest_rm (fun i h => opF F G.T G.op ((r * G.base + t) % G.pw) (G.celt M incX incZ c i) h)]
    unfold nth
    have hq : i * (G.e * wn) + (r * G.base + t) / G.pw < G.e * G.cnt c := by
      have : (i + 1) * (G.e * wn) ≤ u * (G.e * wn) := Nat.mul_le_mul_right _ hi
      rw [Nat.succ_mul] at this
      have e : G.e * G.cnt c = u * (G.e * wn) := by rw [← hgc]; ring
      omega
    rw [getD_rm _ _ hq, Nat.add_comm (i * (G.e * wn))]
  · have hL : ¬ (r * G.base + t) / G.pw < G.e * wn := by
      rw [Nat.div_lt_iff_lt_mul G.pw_pos, ← hWb]
      have : G.R0 wn * G.e * G.base ≤ r * G.base := Nat.mul_le_mul_right _ (by omega)
      omega
    rw [if_neg hL, g2 r (by omega) t, hcol]
    rfl

/-- All bodies. -/
theorem bodies_spec (hT : G.T.OK F) (hfit : G.Fits) (M : Nat → Int → Flt) (incX incZ : Int) {expand : Bool} (idx0 : Bool) {fold n : Nat}
    (hf : 1 ≤ fold) (he : expand = true → 2 ≤ fold) (σ : Regs) (ρ : Regs)
    (hρ : ρ = (runUnrolled G.tsz (G.T.pipe * G.T.unroll) n).done.foldl
      (fun σ c => F.run (G.memAt M incX incZ c.off) (G.body F incX incZ idx0 expand fold c) σ) σ) :
    (∀ r, r < G.maxRW → ∀ t, t < G.base → colOf expand fold ρ r t
        = (laneVals (G.T.traceZ G.e (opF F G.T G.op ((r * G.base + t) % G.pw)) zfill (G.elts M incX incZ n)) ((r * G.base + t) / G.pw)).foldl
            (fun L x => gstep F G.cplx idx0 (σ (.comp (r % G.suf)) t) (σ (.expn (r % G.suf)) t) (σ (.mask (r % G.suf)) t) x L)
            (colOf expand fold σ r t))
      ∧ (∀ k j, ρ (.y k j) = σ (.y k j)) := by
  rw [Gen.done_eq hT] at hρ
  have hlen : (G.elts M incX incZ n).length = n := by unfold Gen.elts; simp
  unfold Tune.traceZ
  rw [hlen]
  have key : ∀ cs : List Chunk, (∀ c ∈ cs, c ∈ (runUnrolled G.T.ts (G.T.pipe * G.T.unroll) n).done) → ∀ σ ρ : Regs,
      ρ = cs.foldl (fun σ c => F.run (G.memAt M incX incZ c.off) (G.body F incX incZ idx0 expand fold c) σ) σ →
      (∀ r, r < G.maxRW → ∀ t, t < G.base → colOf expand fold ρ r t
        = (laneVals (cs.flatMap (G.T.dealZ G.e (opF F G.T G.op ((r * G.base + t) % G.pw)) zfill (G.elts M incX incZ n))) ((r * G.base + t) / G.pw)).foldl
            (fun L x => gstep F G.cplx idx0 (σ (.comp (r % G.suf)) t) (σ (.expn (r % G.suf)) t) (σ (.mask (r % G.suf)) t) x L)
            (colOf expand fold σ r t))
      ∧ (∀ k j, ρ (.y k j) = σ (.y k j)) := by
    intro cs
    induction cs with
    | nil => intro _ σ ρ h; subst h; exact ⟨fun _ _ _ _ => rfl, fun _ _ => rfl⟩
    | cons c cs ih =>
      intro hcs σ ρ h
      rw [List.foldl_cons] at h
      have ⟨b1, b2, b3, b4, b5⟩ := body_spec hT hfit M incX incZ (expand := expand) idx0 hf he (hcs c (List.mem_cons_self)) σ
      generalize F.run (G.memAt M incX incZ c.off) (G.body F incX incZ idx0 expand fold c) σ = τ at *
      have ⟨i1, i2⟩ := ih (fun c hc => hcs c (List.mem_cons_of_mem _ hc)) τ ρ h
      refine ⟨?_, fun k j => by rw [i2, b5]⟩
      intro r hr t ht
      rw [i1 r hr t ht, b1 r hr t ht, b2, b3, b4, List.flatMap_cons]
      unfold laneVals
      rw [List.filter_append, List.map_append, List.foldl_append]
  exact key _ (fun c hc => hc) σ ρ hρ

end Gen
end Repro
