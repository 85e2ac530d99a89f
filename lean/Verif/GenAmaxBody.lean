import Verif.GenAmaxPre
import Verif.PropsAmax
/-!
# The running maxima of a maximum kernel
-/

namespace Repro
open Fmt
variable {F : Fmt}

/-- The numbers below `n * P` with the remainder `r`. -/
theorem filter_mod {P r : Nat} (hr : r < P) : ∀ n, (List.range (n * P)).filter (fun i => i % P == r) = (List.range n).map (fun i => i * P + r) := by
  intro n
  induction n with
  | zero => simp
  | succ n ih =>
    have h1 : List.range ((n + 1) * P) = List.range (n * P) ++ (List.range P).map (fun i => n * P + i) := by
      rw [Nat.succ_mul, List.range_add]
    have h2 : ((List.range P).map (fun i => n * P + i)).filter (fun i => i % P == r) = [n * P + r] := by
      rw [List.filter_map]
      have : ((fun i => i % P == r) ∘ fun i => n * P + i) = (fun i => i % P == r) := by
        funext i; simp only [Function.comp_apply]; rw [Nat.mul_comm, Nat.mul_add_mod]
      rw [this]
      have : (List.range P).filter (fun i => i % P == r) = [r] := by
        have e : (List.range P).filter (fun i => i % P == r) = (List.range P).filter (fun i => i == r) := by
          apply List.filter_congr
          intro i hi
          rw [Nat.mod_eq_of_lt (List.mem_range.mp hi)]
        rw [e]
        clear e this h1 ih
        induction P with
        | zero => omega
        | succ P ihP =>
          rw [List.range_succ, List.filter_append]
          by_cases h : r < P
          · rw [ihP h, List.filter_cons_of_neg (by simp; omega)]; rfl
          · obtain rfl : r = P := by omega
            have : (List.range r).filter (fun i => i == r) = [] := by
              rw [List.filter_eq_nil_iff]; intro a ha; have := List.mem_range.mp ha; simp; omega
            rw [this, List.filter_cons_of_pos (by simp)]; rfl
      rw [this]; rfl
    rw [h1, List.filter_append, ih, h2, List.range_succ, List.map_append]; rfl

/-- A running maximum (or any other operation) over variables `d i`, each combined with a variable that is not written. -/
theorem run_acc (M : Nat → Int → Flt) (σ : Regs) (P : Nat) (d s : Nat → Var) (e : Nat → Ex)
    (he : ∀ i, ∀ (τ : Regs) t, F.evalEx M τ (e i) t = F.fmax (τ (d (i % P)) t) (τ (s i) t))
    (hs : ∀ i k, s i ≠ d k) (hd : ∀ i k, d i = d k → i = k) : ∀ w,
    (∀ r, ∀ t, F.run M ((List.range w).map (fun i => (d (i % P), e i))) σ (d r) t
        = ((List.range w).filter (fun i => i % P == r)).foldl (fun a i => F.fmax a (σ (s i) t)) (σ (d r) t))
      ∧ (∀ v, (∀ r, v ≠ d r) → F.run M ((List.range w).map (fun i => (d (i % P), e i))) σ v = σ v) := by
  intro w
  induction w with
  | zero => exact ⟨fun _ _ => rfl, fun _ _ => rfl⟩
  | succ w ih =>
    obtain ⟨i1, i2⟩ := ih
    rw [List.range_succ, List.map_append, run_append]
    generalize F.run M ((List.range w).map (fun i => (d (i % P), e i))) σ = τ at *
    refine ⟨?_, ?_⟩
    · intro r t
      rw [List.filter_append, List.foldl_append]
      show F.exec M τ (d (w % P), e w) (d r) t = _
      unfold Fmt.exec
      by_cases h : w % P = r
      · subst h
        rw [if_pos rfl, List.filter_cons_of_pos (by simp)]
        show F.evalEx M τ (e w) t = _
        rw [he, i1, i2 _ (hs w)]; rfl
      · rw [if_neg (by intro h'; exact h (hd _ _ h'.symm)), List.filter_cons_of_neg (by simpa using h), i1]; rfl
    · intro v hv
      show F.exec M τ (d (w % P), e w) v = _
      unfold Fmt.exec
      rw [if_neg (hv _), i2 v hv]

namespace GenA
variable {A : GenA}

theorem suf_base (hT : A.T.OK F) : A.gen.suf * A.gen.base = A.T.ts * A.gen.pw := by
  unfold Gen.suf Gen.base
  have e : A.gen.T = A.T := rfl
  rw [e]
  by_cases hs : A.T.simd = true
  · rw [if_pos hs, if_pos hs, Nat.one_mul]
  · rw [if_neg hs, if_neg hs, hT.sisd (by simpa using hs), Nat.mul_comm]

theorem suf_pos : 0 < A.gen.suf := by
  unfold Gen.suf; split
  · omega
  · exact A.gen.pw_pos

/-- `process` in closed form. -/
theorem process_spec (M : Nat → Int → Flt) (σ : Regs) {w : Nat} (hw : w ≤ A.gen.regWidth A.T.aunroll) :
    (∀ r, ∀ t, F.run M (A.process w) σ (.m r) t
        = ((List.range w).filter (fun i => i % A.gen.suf == r)).foldl (fun a i => F.fmax a (σ (.x i) t)) (σ (.m r) t))
      ∧ (∀ v, (∀ r, v ≠ .m r) → F.run M (A.process w) σ v = σ v) := by
  have e : A.process w = (List.range w).map (fun i => (Var.m (i % A.gen.suf), Ex.max (.var (.m (i % A.gen.suf))) (.var (.x i)))) := by
    unfold GenA.process GenA.xv GenA.mv vmax
    rw [take_rm, Nat.min_eq_left hw]
    dsimp only
    rw [List.length_map, List.length_range, ev_rm, ev_rm, cycleTo_rm _ A.suf_pos, cycleTo_rm _ A.suf_pos, zip_rm, setEqual_rm]
    simp
  rw [e]
  exact run_acc M σ A.gen.suf .m .x _ (fun _ _ _ => rfl) (by simp) (by intro i k h; simpa using h) w

/-- The value of the maximum number `b` (in the order of registers and lanes). -/
def mval (A : GenA) (σ : Regs) (b : Nat) : Flt := σ (.m (b / A.gen.base)) (b % A.gen.base)

/-- The numbers a body deals to the lanes of part `k`. -/
def dealA (T : Tune) (L : List Flt) : List (Nat × Flt) := L.zipIdx.map (fun d => (d.2 % T.ts, d.1))

theorem zipIdx_rm (v : Nat → Flt) (n : Nat) : ((List.range n).map v).zipIdx = (List.range n).map (fun i => (v i, i)) := by
  apply List.ext_getElem
  · simp
  · intro i h1 h2; simp

theorem laneVals_dealA (T : Tune) (v : Nat → Flt) {l : Nat} (hl : l < T.ts) (n : Nat) :
    laneVals (dealA T ((List.range (n * T.ts)).map v)) l = (List.range n).map (fun i => v (i * T.ts + l)) := by
  unfold dealA laneVals
  rw [zipIdx_rm, List.map_map, List.filter_map, List.map_map]
  have : ((fun d : Nat × Flt => d.1 == l) ∘ ((fun d : Flt × Nat => (d.2 % T.ts, d.1)) ∘ fun i => (v i, i))) = (fun i => i % T.ts == l) := by
    funext i; rfl
  rw [this, filter_mod hl, List.map_map]
  rfl

/-- One body: every running maximum takes the numbers dealt to it. -/
theorem body_spec (hT : A.T.OK F) (M : Nat → Int → Flt) (incX incZ : Int) {n : Nat} {c : Chunk}
    (hc : c ∈ (runUnrolled A.T.ts A.T.aunroll n).done) (σ : Regs) :
    (∀ k, k < A.gen.pw → ∀ l, l < A.T.ts →
      A.mval (F.run (A.gen.memAt M incX incZ c.off) (A.body incX incZ c) σ) (l * A.gen.pw + k)
        = (laneVals (dealA A.T (loadZ A.T.ts A.gen.e (opA F A.prod k) Gen.zfill (A.gen.elts M incX incZ n) c)) l).foldl F.fmax (A.mval σ (l * A.gen.pw + k)))
      ∧ (∀ v, (∀ i, v ≠ .x i) → (∀ i, v ≠ .z i) → (∀ i, v ≠ .m i) → F.run (A.gen.memAt M incX incZ c.off) (A.body incX incZ c) σ v = σ v) := by
  have hT' : A.gen.T.OK F := hT
  obtain ⟨a, ha⟩ := hT.ts
  have hts0 : 0 < A.T.ts := by rw [ha]; exact Nat.two_pow_pos a
  have hsh := (amax_done hT n).shape c hc
  have ⟨hin, hc1, hcp, hcd⟩ := C37_loads_in_bounds (Or.inr ⟨a, ha⟩) hT.au1 (Or.inl hT.au) hc
  have hpart : c.part = true → A.T.simd = true ∧ 1 ≤ c.count ∧ c.count < A.T.ts := by
    intro hp
    refine ⟨?_, hc1, hcp hp⟩
    cases hs : A.T.simd with
    | true => rfl
    | false => have := hT.sisd hs; have := hcp hp; omega
  have hdvd : c.part = false → A.T.ts ∣ c.count := fun hp => (hcd hp).resolve_right (by omega)
  have hbp := Gen.base_pos hT'
  have hcd' : A.T.ts ∣ A.gen.cnt c := by
    unfold Gen.cnt; split
    · exact Nat.dvd_refl _
    · rename_i hp; exact hdvd (by simpa using hp)
  have hcu : A.gen.cnt c ≤ A.T.aunroll := by
    unfold Gen.cnt; split
    · exact Nat.le_of_dvd hT.au1 hT.au
    · rename_i hp
      unfold Chunk.Shaped at hsh
      rw [if_neg hp] at hsh
      rcases hsh.1 with e | e <;> omega
  have hR0 := Gen.R0_mul hT' (n := A.gen.cnt c) (fun _ => hcd')
  have hX : A.gen.R0 (A.gen.cnt c) * A.gen.e ≤ A.gen.regWidth A.T.aunroll := by
    unfold Gen.regWidth Gen.R0
    exact Nat.mul_le_mul_right _ (Nat.div_le_div_right (Nat.mul_le_mul_right _ hcu))
  have hw : A.gen.regWidth (if c.part then A.gen.tsz else c.count) = A.gen.R0 (A.gen.cnt c) * A.gen.e := by
    unfold Gen.regWidth Gen.R0 Gen.cnt
    by_cases hp : c.part = true
    · rw [if_pos hp, if_pos hp, Gen.tsz_simd (hpart hp).1]
    · rw [if_neg hp, if_neg hp]
  have ⟨p1, p2⟩ := pre_spec hT M incX incZ c σ hpart (fun h _ => hdvd h) hX
  unfold GenA.body
  rw [hw, run_append]
  generalize A.gen.memAt M incX incZ c.off = mem at *
  generalize F.run mem (A.preprocess incX incZ c) σ = τ at *
  have ⟨q1, q2⟩ := process_spec (F := F) (A := A) mem τ hX
  generalize F.run mem (A.process (A.gen.R0 (A.gen.cnt c) * A.gen.e)) τ = ρ at *
  refine ⟨?_, ?_⟩
  · intro k hk l hl
    obtain ⟨q, hq⟩ := hcd'
    have hsb := suf_base hT
    have hsp := A.suf_pos
    -- registers are a multiple of `suf`
    have hW : A.gen.R0 (A.gen.cnt c) * A.gen.e = q * A.gen.e * A.gen.suf := by
      apply Nat.eq_of_mul_eq_mul_right hbp
      calc A.gen.R0 (A.gen.cnt c) * A.gen.e * A.gen.base = A.gen.e * (A.gen.R0 (A.gen.cnt c) * A.gen.base) := by ring
        _ = A.gen.e * q * (A.T.ts * A.gen.pw) := by rw [hR0, hq]; ring
        _ = _ := by rw [← hsb]; ring
    obtain ⟨b, hb⟩ : ∃ b, b = l * A.gen.pw + k := ⟨_, rfl⟩
    rw [← hb]
    have hbl : b < A.gen.suf * A.gen.base := by
      rw [hsb, hb]
      have : (l + 1) * A.gen.pw ≤ A.T.ts * A.gen.pw := Nat.mul_le_mul_right _ hl
      rw [Nat.succ_mul] at this; omega
    have hr : b / A.gen.base < A.gen.suf := by rwa [Nat.div_lt_iff_lt_mul hbp]
    have ht : b % A.gen.base < A.gen.base := Nat.mod_lt _ hbp
    have hdm : b / A.gen.base * A.gen.base + b % A.gen.base = b := by rw [Nat.mul_comm]; exact Nat.div_add_mod b A.gen.base
    unfold mval
    rw [q1, hW, filter_mod hr, List.foldl_map]
    rw [p2 _ (by simp) (by simp)]
    have hlen : A.gen.e * A.gen.cnt c = q * A.gen.e * A.T.ts := by rw [hq]; ring
    rw [loadZ_eq, show A.T.ts = A.gen.T.ts from rfl, Gen.loadE_celt A.gen M incX incZ n hin (fun h => Nat.le_of_lt (hcp h))]
    simp only [List.map_map, Function.comp_def]
    rw [nest_rm (fun i h => opA F A.prod k (A.gen.celt M incX incZ c i) h), hlen,
      laneVals_dealA A.T _ hl, List.foldl_map]
    refine List.foldl_ext _ _ _ (fun C i hi => ?_)
    have hi := List.mem_range.mp hi
    congr 1
    have hlt : i * A.gen.suf + b / A.gen.base < A.gen.R0 (A.gen.cnt c) * A.gen.e := by
      rw [hW]
      have : (i + 1) * A.gen.suf ≤ q * A.gen.e * A.gen.suf := Nat.mul_le_mul_right _ hi
      rw [Nat.succ_mul] at this; omega
    rw [p1 _ hlt _ ht]
    have hB : (i * A.gen.suf + b / A.gen.base) * A.gen.base + b % A.gen.base = k + (i * A.T.ts + l) * A.gen.pw := by
      calc (i * A.gen.suf + b / A.gen.base) * A.gen.base + b % A.gen.base
          = i * (A.gen.suf * A.gen.base) + (b / A.gen.base * A.gen.base + b % A.gen.base) := by ring
        _ = _ := by rw [hsb, hdm, hb]; ring
    rw [hB, Nat.add_mul_mod_self_right, Nat.add_mul_div_right _ _ A.gen.pw_pos, Nat.mod_eq_of_lt hk, Nat.div_eq_of_lt hk, Nat.zero_add]
  · intro v hx hz hm
    rw [q2 v hm, p2 v hx hz]

/-- All bodies. -/
theorem bodies_spec (hT : A.T.OK F) (M : Nat → Int → Flt) (incX incZ : Int) (n : Nat) (σ ρ : Regs)
    (hρ : ρ = (runUnrolled A.gen.tsz A.T.aunroll n).done.foldl (fun σ c => F.run (A.gen.memAt M incX incZ c.off) (A.body incX incZ c) σ) σ) :
    (∀ k, k < A.gen.pw → ∀ l, l < A.T.ts → A.mval ρ (l * A.gen.pw + k)
        = (laneVals ((runUnrolled A.T.ts A.T.aunroll n).done.flatMap (fun c =>
            dealA A.T (loadZ A.T.ts A.gen.e (opA F A.prod k) Gen.zfill (A.gen.elts M incX incZ n) c))) l).foldl F.fmax (A.mval σ (l * A.gen.pw + k)))
      ∧ (∀ v, (∀ i, v ≠ .x i) → (∀ i, v ≠ .z i) → (∀ i, v ≠ .m i) → ρ v = σ v) := by
  rw [Gen.done_eq (show A.gen.T.OK F from hT), show A.gen.T = A.T from rfl] at hρ
  have key : ∀ cs : List Chunk, (∀ c ∈ cs, c ∈ (runUnrolled A.T.ts A.T.aunroll n).done) → ∀ σ ρ : Regs,
      ρ = cs.foldl (fun σ c => F.run (A.gen.memAt M incX incZ c.off) (A.body incX incZ c) σ) σ →
      (∀ k, k < A.gen.pw → ∀ l, l < A.T.ts → A.mval ρ (l * A.gen.pw + k)
        = (laneVals (cs.flatMap (fun c =>
            dealA A.T (loadZ A.T.ts A.gen.e (opA F A.prod k) Gen.zfill (A.gen.elts M incX incZ n) c))) l).foldl F.fmax (A.mval σ (l * A.gen.pw + k)))
      ∧ (∀ v, (∀ i, v ≠ .x i) → (∀ i, v ≠ .z i) → (∀ i, v ≠ .m i) → ρ v = σ v) := by
    intro cs
    induction cs with
    | nil => intro _ σ ρ h; subst h; exact ⟨fun _ _ _ _ => rfl, fun _ _ _ _ => rfl⟩
    | cons c cs ih =>
      intro hcs σ ρ h
      rw [List.foldl_cons] at h
      have ⟨b1, b2⟩ := body_spec hT M incX incZ (hcs c (List.mem_cons_self)) σ
      generalize F.run (A.gen.memAt M incX incZ c.off) (A.body incX incZ c) σ = τ at *
      have ⟨i1, i2⟩ := ih (fun c hc => hcs c (List.mem_cons_of_mem _ hc)) τ ρ h
      refine ⟨?_, fun v hx hz hm => by rw [i2 v hx hz hm, b2 v hx hz hm]⟩
      intro k hk l hl
      rw [i1 k hk l hl, b1 k hk l hl, List.flatMap_cons]
      unfold laneVals
      rw [List.filter_append, List.map_append, List.foldl_append]
  exact key _ (fun c hc => hc) σ ρ hρ

/-- `max_into`. -/
theorem maxInto_spec (hT : A.T.OK F) (M : Nat → Int → Flt) (σ : Regs) :
    (∀ k, k < A.gen.pw → ∀ t, F.run M A.maxInto σ (.am k) t
        = (List.range' 1 (A.T.ts - 1)).foldl (fun a i => F.fmax a (A.mval σ (i * A.gen.pw + k))) (A.mval σ k))
      ∧ (∀ v, (∀ i, v ≠ .mb i) → (∀ i, v ≠ .am i) → F.run M A.maxInto σ v = σ v) := by
  obtain ⟨a, ha⟩ := hT.ts
  have hts0 : 0 < A.T.ts := by rw [ha]; exact Nat.two_pow_pos a
  have hpp := A.gen.pw_pos
  have hamd : ∀ (e : Nat → Ex) (he : ∀ i k, Var.am k ∉ (e i).vars) (τ : Regs),
      (∀ k, k < A.gen.pw → F.run M ((List.range A.gen.pw).map (fun k => (Var.am k, e k))) τ (.am k) = F.evalEx M τ (e k))
      ∧ (∀ v, (∀ i, v ≠ .am i) → F.run M ((List.range A.gen.pw).map (fun k => (Var.am k, e k))) τ v = τ v) := by
    intro e he τ
    have ⟨h1, h2⟩ := run_rm (F := F) M τ .am e A.gen.pw (by intro i i' h _ h'; simp at h'; omega) (fun i i' _ _ => he i' i)
    exact ⟨h1, fun v hv => h2 v (fun i _ => hv i)⟩
  unfold GenA.maxInto
  by_cases hs : A.T.simd = true
  · rw [if_pos hs, run_append, run_append]
    have hbase : A.gen.base = A.T.ts * A.gen.pw := by unfold Gen.base; rw [show A.gen.T = A.T from rfl, if_pos hs]
    have hpb : A.gen.pw ≤ A.gen.base := by rw [hbase]; exact Nat.le_mul_of_pos_left _ hts0
    have ⟨s1, s2⟩ := run_rm (F := F) M σ .mb (fun i => .lane (.m 0) i) A.gen.base (by intro i i' h _ h'; simp at h'; omega) (by simp [Ex.vars])
    generalize F.run M ((List.range A.gen.base).map (fun i => (Var.mb i, Ex.lane (.m 0) i))) σ = τ at *
    have hmv : ∀ b, b < A.gen.base → A.mval σ b = σ (.m 0) b := by
      intro b hb
      unfold mval; rw [Nat.div_eq_of_lt hb, Nat.mod_eq_of_lt hb]
    have hτ : ∀ b, b < A.gen.base → ∀ t, τ (.mb b) t = A.mval σ b := by
      intro b hb t; rw [s1 b hb, hmv b hb]; rfl
    have mid : ∀ d, d ≤ A.gen.base - A.gen.pw →
        (∀ k, k < A.gen.pw → ∀ t, F.run M ((List.range d).map (fun i => (Var.mb ((A.gen.pw + i) % A.gen.pw),
            Ex.max (.lane (.mb ((A.gen.pw + i) % A.gen.pw)) 0) (.lane (.mb (A.gen.pw + i)) 0)))) τ (.mb k) t
          = ((List.range d).filter (fun i => i % A.gen.pw == k)).foldl (fun a i => F.fmax a (A.mval σ (A.gen.pw + i))) (A.mval σ k))
        ∧ (∀ i, A.gen.pw ≤ i → F.run M ((List.range d).map (fun i => (Var.mb ((A.gen.pw + i) % A.gen.pw),
            Ex.max (.lane (.mb ((A.gen.pw + i) % A.gen.pw)) 0) (.lane (.mb (A.gen.pw + i)) 0)))) τ (.mb i) = τ (.mb i))
        ∧ (∀ v, (∀ i, v ≠ .mb i) → F.run M ((List.range d).map (fun i => (Var.mb ((A.gen.pw + i) % A.gen.pw),
            Ex.max (.lane (.mb ((A.gen.pw + i) % A.gen.pw)) 0) (.lane (.mb (A.gen.pw + i)) 0)))) τ v = τ v) := by
      intro d
      induction d with
      | zero => intro _; exact ⟨fun k hk t => hτ k (by omega) t, fun _ _ => rfl, fun _ _ => rfl⟩
      | succ d ih =>
        intro hd
        obtain ⟨j1, j2, j3⟩ := ih (by omega)
        rw [List.range_succ, List.map_append, run_append]
        generalize F.run M ((List.range d).map (fun i => (Var.mb ((A.gen.pw + i) % A.gen.pw),
            Ex.max (.lane (.mb ((A.gen.pw + i) % A.gen.pw)) 0) (.lane (.mb (A.gen.pw + i)) 0)))) τ = ρ at *
        have hmod : (A.gen.pw + d) % A.gen.pw = d % A.gen.pw := Nat.add_mod_left _ _
        have hml : d % A.gen.pw < A.gen.pw := Nat.mod_lt _ hpp
        simp only [List.map_cons, List.map_nil, run_cons, run_nil]
        unfold Fmt.exec
        simp only [hmod]
        refine ⟨?_, ?_, ?_⟩
        · intro k hk t
          rw [List.filter_append, List.foldl_append]
          by_cases h : d % A.gen.pw = k
          · subst h
            rw [if_pos rfl, List.filter_cons_of_pos (by simp)]
            simp only [evalEx, List.filter_nil, List.foldl_cons, List.foldl_nil]
            rw [j1 _ hk, j2 _ (by omega), hτ _ (by omega)]
          · rw [if_neg (by intro h'; injection h' with h'; exact h h'.symm), List.filter_cons_of_neg (by simpa using h), j1 k hk t]
            rfl
        · intro i hi
          rw [if_neg (by intro h'; injection h' with h'; omega), j2 i hi]
        · intro v hv
          rw [if_neg (hv _), j3 v hv]
    have ⟨m1, m2, m3⟩ := mid _ (Nat.le_refl _)
    generalize F.run M ((List.range (A.gen.base - A.gen.pw)).map (fun i => (Var.mb ((A.gen.pw + i) % A.gen.pw),
            Ex.max (.lane (.mb ((A.gen.pw + i) % A.gen.pw)) 0) (.lane (.mb (A.gen.pw + i)) 0)))) τ = ρ at *
    have ⟨o1, o2⟩ := hamd (fun k => .lane (.mb k) 0) (by simp [Ex.vars]) ρ
    refine ⟨?_, ?_⟩
    · intro k hk t
      rw [o1 k hk]
      show ρ (.mb k) 0 = _
      rw [m1 k hk 0]
      have e : A.gen.base - A.gen.pw = (A.T.ts - 1) * A.gen.pw := by rw [hbase, Nat.sub_mul, Nat.one_mul]
      rw [e, filter_mod hk, List.foldl_map, List.range'_eq_map_range, List.foldl_map]
      refine List.foldl_ext _ _ _ (fun C i _ => ?_)
      congr 2
      ring
    · intro v hb hm
      rw [o2 v hm, m3 v hb, s2 v (fun i _ => hb i)]
  · rw [if_neg hs]
    have hb : A.gen.base = 1 := by unfold Gen.base; rw [show A.gen.T = A.T from rfl, if_neg hs]
    have ⟨o1, o2⟩ := hamd (fun k => .lane (.m k) 0) (by simp [Ex.vars]) σ
    refine ⟨?_, fun v _ hm => o2 v hm⟩
    intro k hk t
    rw [o1 k hk, hT.sisd (by simpa using hs)]
    show σ (.m k) 0 = A.mval σ k
    unfold mval; rw [hb, Nat.div_one, Nat.mod_one]

end GenA
end Repro
