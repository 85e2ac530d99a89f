import Verif.GenAmaxBody
import Verif.PropsGen
import Verif.PropsZDot
/-!
# C63: executing the statements of a generated maximum kernel has the effect of the lane model
-/

namespace Repro
open Fmt
variable {F : Fmt}

/-- The absolute value does not see the sign change of `conj`, `nconj`. -/
theorem fabs_flip [F.OK] (T : Tune) (a b : Flt) : fabs (F.flip T (F.mul a b)) = fabs (F.mul a b) := by
  by_cases hf : F.Finite (F.mul a b)
  · rw [flip_eq hf]; rfl
  · unfold Fmt.flip
    cases T.simd
    · simp only [Bool.false_eq_true, ↓reduceIte]
      have hc : F.mul a b = F.nan ∨ (F.mul a b).mag = F.infMag := by
        unfold Fmt.Finite at hf
        revert hf
        unfold Fmt.mul
        split
        · intro _; left; rfl
        · split
          · split
            · intro _; left; rfl
            · intro _; right; rfl
          · intro hf; right
            show F.roundMag _ _ = _
            have : F.roundMag (F.val a.mag * F.val b.mag) F.eta ≤ F.infMag := by rw [roundMag_def]; exact Nat.min_le_right _ _
            simp only at hf; omega
      rcases hc with h | h
      · rw [h]
        have : F.isNaN F.nan = true := by
          unfold Fmt.isNaN Fmt.nan; simp
        conv => lhs; unfold Fmt.mul
        simp [this]
      · generalize F.mul a b = x at *
        have h1 : F.isNaN x = false := by unfold Fmt.isNaN; simp [h]
        have h2 : F.isInf x = true := by unfold Fmt.isInf; simp [h]
        have ho : F.Finite F.one := (one_ok (F := F)).1
        have h3 : F.isNaN (fneg F.one) = false := by
          exact finite_not_nan ho
        have h4 : (fneg F.one).mag ≠ 0 := by
          intro h0
          have h6 := (one_ok (F := F)).2.1
          have h5 : F.one.mag = 0 := h0
          rw [h5] at h6
          have := Nat.two_pow_pos F.eta
          have h8 : F.val 0 = 0 := by simp [Fmt.val]
          omega
        have h7 : x.mag ≠ 0 := by
          intro h0; apply hf; unfold Fmt.Finite
          rw [h0]; rw [h] at h0; have := zero_finite (F := F); unfold Fmt.Finite at this; exact this
        unfold Fmt.mul
        simp only [h1, h3, h2, Bool.or_false, Bool.true_or, Bool.false_eq_true, ↓reduceIte, h7, h4, or_self]
        unfold fabs; rw [h]
    · rfl

theorem loadZ_map {α : Type} (ts e : Nat) (f : α → Nat → Flt) (g : Flt → Flt) (z : α) (es : List α) (c : Chunk) :
    (loadZ ts e f z es c).map g = loadZ ts e (fun a h => g (f a h)) z es c := by
  rw [loadZ_eq, loadZ_eq, List.map_flatMap]
  simp only [List.map_map, Function.comp_def]

theorem loadZ_comp {α β : Type} (ts e : Nat) (f : β → Nat → Flt) (g : α → β) (z : α) (es : List α) (c : Chunk) :
    loadZ ts e f (g z) (es.map g) c = loadZ ts e (fun a => f (g a)) z es c := by
  have hg : ∀ i, (es.map g).getD i (g z) = g (es.getD i z) := by
    intro i
    rw [List.getD_eq_getElem?_getD, List.getD_eq_getElem?_getD, List.getElem?_map]
    cases es[i]? <;> rfl
  unfold loadZ
  dsimp only
  congr 1
  funext h
  split
  · rw [List.map_map, List.map_map]
    apply List.map_congr_left
    intro l _
    simp only [Function.comp_apply]
    split
    · rw [hg]
    · rfl
  · rw [List.map_map, List.map_map]
    apply List.map_congr_left
    intro l _
    simp only [Function.comp_apply, hg]

theorem amaxZ_comp {α β : Type} (T : Tune) (e : Nat) (f : β → Nat → Flt) (g : α → β) (z : α) (es : List α) :
    F.amaxZ T e f (g z) (es.map g) = F.amaxZ T e (fun a => f (g a)) z es := by
  unfold amaxZ
  simp only [loadZ_comp, List.length_map]

theorem nth_maxLanes (ts : Nat) (tr : List (Nat × Flt)) {l : Nat} (hl : l < ts) :
    nth (tr.foldl (fun m d => m.set d.1 (F.fmax (nth m d.1) d.2)) (List.replicate ts zero)) l = (laneVals tr l).foldl F.fmax zero := by
  have key : ∀ (tr : List (Nat × Flt)) (m : List Flt), l < m.length →
      nth (tr.foldl (fun m d => m.set d.1 (F.fmax (nth m d.1) d.2)) m) l = (laneVals tr l).foldl F.fmax (nth m l) := by
    intro tr
    induction tr with
    | nil => intro m _; rfl
    | cons d tr ih =>
      intro m hm
      rw [List.foldl_cons, ih _ (by rw [List.length_set]; exact hm)]
      unfold laneVals
      by_cases hd : d.1 = l
      · rw [List.filter_cons_of_pos (by simp [hd]), List.map_cons, List.foldl_cons, hd, nth_set_self hm]
      · rw [List.filter_cons_of_neg (by simp [hd]), nth_set_ne hd]
  rw [key tr _ (by simpa using hl)]
  congr 1
  unfold nth
  rw [List.getD_eq_getElem?_getD, List.getElem?_replicate_of_lt hl]; rfl

/-- The real maximum is the case of one number per element. -/
theorem amaxK_amaxZ {T : Tune} (hT : T.OK F) {α : Type} (f : α → Flt) (z : α) (hz : f z = zero) (es : List α) :
    F.amaxK T (es.map (fun a => fabs (f a))) = F.amaxZ T 1 (fun a _ => f a) z es := by
  have htr : (runUnrolled T.ts T.aunroll (es.map (fun a => fabs (f a))).length).done.flatMap (fun c =>
      if c.part then
        (List.range T.ts).map (fun l => (l, if l < c.count then nth (es.map (fun a => fabs (f a))) (c.off + l) else zero))
      else (List.range c.count).map (fun e => (e % T.ts, nth (es.map (fun a => fabs (f a))) (c.off + e))))
    = (runUnrolled T.ts T.aunroll es.length).done.flatMap (fun c =>
      ((loadZ T.ts 1 (fun a _ => f a) z es c).map fabs).zipIdx.map (fun d => (d.2 % T.ts, d.1))) := by
    rw [List.length_map]
    apply List.flatMap_congr
    intro c hc
    obtain ⟨a, ha⟩ := hT.ts
    have ⟨hin, _, hcp, _⟩ := C37_loads_in_bounds (Or.inr ⟨a, ha⟩) hT.au1 (Or.inl hT.au) hc
    have hn : ∀ i, i < es.length → nth (es.map (fun a => fabs (f a))) i = fabs (f (es.getD i z)) := by
      intro i hi
      unfold nth
      rw [List.getD_eq_getElem?_getD, List.getD_eq_getElem?_getD, List.getElem?_map, List.getElem?_eq_getElem hi]; rfl
    have hld : (loadZ T.ts 1 (fun a _ => f a) z es c).map fabs = (loadE T.ts z es c).map (fun a => fabs (f a)) := by
      rw [loadZ_eq]; simp
    rw [hld]
    unfold loadE
    by_cases hp : c.part = true
    · rw [if_pos hp, if_pos hp, List.map_map, GenA.zipIdx_rm, List.map_map]
      apply List.map_congr_left
      intro l hl
      have hl := List.mem_range.mp hl
      simp only [Function.comp_apply]
      rw [Nat.mod_eq_of_lt hl]
      by_cases h : l < c.count
      · rw [if_pos h, if_pos h, hn _ (by omega)]
      · rw [if_neg h, if_neg h, hz]; rfl
    · rw [if_neg hp, if_neg hp, List.map_map, GenA.zipIdx_rm, List.map_map]
      apply List.map_congr_left
      intro l hl
      have hl := List.mem_range.mp hl
      simp only [Function.comp_apply]
      rw [hn _ (by omega)]
  unfold amaxK amaxZ
  dsimp only
  rw [htr]

namespace GenA
variable {A : GenA}

/-- The effect of a generated maximum kernel. -/
theorem code_spec (hT : A.T.OK F) (M : Nat → Int → Flt) (incX incZ : Int) (n : Nat) (σ : Regs) :
    (∀ k, k < A.gen.pw → ∀ (f : (Flt × Flt) × (Flt × Flt) → Nat → Flt), (∀ a h, fabs (f a h) = opA F A.prod k a h) → ∀ t,
      A.code F M incX incZ n σ (.am k) t = F.amaxZ A.T A.gen.e f Gen.zfill (A.gen.elts M incX incZ n))
    ∧ (∀ v, (∀ i, v ≠ .x i) → (∀ i, v ≠ .z i) → (∀ i, v ≠ .m i) → (∀ i, v ≠ .mb i) → (∀ i, v ≠ .am i) → A.code F M incX incZ n σ v = σ v) := by
  have hbp := Gen.base_pos (show A.gen.T.OK F from hT)
  obtain ⟨a, ha⟩ := hT.ts
  have hts0 : 0 < A.T.ts := by rw [ha]; exact Nat.two_pow_pos a
  have hinit : setEqual A.mv (List.replicate A.gen.suf (.cst Fmt.zero)) = (List.range A.gen.suf).map (fun i => (Var.m i, Ex.cst Fmt.zero)) := by
    unfold GenA.mv
    have : List.replicate A.gen.suf (Ex.cst Fmt.zero) = (List.range A.gen.suf).map (fun _ => Ex.cst Fmt.zero) := by
      rw [List.map_const', List.length_range]
    rw [this, setEqual_rm, Nat.min_self]
  unfold GenA.code
  rw [hinit]
  have ⟨h1, h2⟩ := run_rm (F := F) (fun _ _ => Fmt.zero) σ .m (fun _ => .cst Fmt.zero) A.gen.suf (by intro i i' h _ h'; simp at h'; omega) (by simp [Ex.vars])
  generalize F.run (fun _ _ => Fmt.zero) ((List.range A.gen.suf).map (fun i => (Var.m i, Ex.cst Fmt.zero))) σ = σ1 at *
  have ⟨b1, b2⟩ := bodies_spec hT M incX incZ n σ1 _ rfl
  generalize (runUnrolled A.gen.tsz A.T.aunroll n).done.foldl (fun σ c => F.run (A.gen.memAt M incX incZ c.off) (A.body incX incZ c) σ) σ1 = σ2 at *
  have ⟨m1, m2⟩ := maxInto_spec hT (fun _ _ => Fmt.zero) σ2
  refine ⟨?_, ?_⟩
  · intro k hk f hf t
    rw [m1 k hk t]
    have hlen : (A.gen.elts M incX incZ n).length = n := by unfold Gen.elts; simp
    have hlane : ∀ l, l < A.T.ts → A.mval σ2 (l * A.gen.pw + k)
        = nth (((runUnrolled A.T.ts A.T.aunroll (A.gen.elts M incX incZ n).length).done.flatMap (fun c =>
            ((loadZ A.T.ts A.gen.e f Gen.zfill (A.gen.elts M incX incZ n) c).map fabs).zipIdx.map (fun d => (d.2 % A.T.ts, d.1)))).foldl
              (fun m d => m.set d.1 (F.fmax (nth m d.1) d.2)) (List.replicate A.T.ts zero)) l := by
      intro l hl
      rw [nth_maxLanes _ _ hl, b1 k hk l hl, hlen]
      have hz : A.mval σ1 (l * A.gen.pw + k) = zero := by
        unfold mval
        rw [h1 _ ?_]; · rfl
        rw [Nat.div_lt_iff_lt_mul hbp, suf_base hT]
        have : (l + 1) * A.gen.pw ≤ A.T.ts * A.gen.pw := Nat.mul_le_mul_right _ hl
        rw [Nat.succ_mul] at this; omega
      have hof : opA F A.prod k = fun a h => fabs (f a h) := by funext a h; exact (hf a h).symm
      rw [hz, hof]
      simp only [loadZ_map]
      rfl
    unfold amaxZ
    dsimp only
    have h0 := hlane 0 hts0
    rw [Nat.zero_mul, Nat.zero_add] at h0
    rw [h0]
    refine List.foldl_ext _ _ _ (fun C i hi => ?_)
    have := List.mem_range'_1.mp hi
    rw [hlane i (by omega)]
  · intro v hx hz hm hb ha
    rw [m2 v hb ha, b2 v hx hz hm, h2 v (fun i _ => hm i)]

end GenA

section
variable {T : Tune} (hT : T.OK F) (M : Nat → Int → Flt) (incX incZ : Int) (n : Nat) (σ : Regs)
include hT

/-- **C63.** The generated `damax`: whatever the variables contain before, the result is that of the lane model. -/
theorem C63_amax (t : Nat) : (GenA.mk T false false).code F M incX incZ n σ (.am 0) t = F.damax T (gather (M 0) incX n) := by
  have h := ((GenA.mk T false false).code_spec hT M incX incZ n σ).1 0 (by show 0 < 1; omega) (fun a _ => a.1.1) (fun _ _ => rfl) t
  rw [h]
  have e := amaxK_amaxZ hT (fun a : (Flt × Flt) × (Flt × Flt) => a.1.1) Gen.zfill rfl ((GenA.mk T false false).gen.elts M incX incZ n)
  unfold damax
  refine e.symm.trans (congrArg _ ?_)
  rw [show (GenA.mk T false false).gen = Gen.mk T false .asum from rfl, elts_real]
  unfold gather
  simp only [List.map_map]
  rfl

/-- **C63.** The generated `damaxm`. -/
theorem C63_amaxm [F.OK] (t : Nat) : (GenA.mk T false true).code F M incX incZ n σ (.am 0) t = F.damaxm T (gather (M 0) incX n) (gather (M 1) incZ n) := by
  have h := ((GenA.mk T false true).code_spec hT M incX incZ n σ).1 0 (by show 0 < 1; omega) (fun a h => if h = 0 then F.mul a.1.1 a.2.1 else F.mul a.1.2 a.2.2)
    (fun a h => by unfold opA; by_cases h0 : h = 0 <;> simp [h0]) t
  rw [h]
  have hz : F.mul zero zero = zero := mul_self_zero (show F.Finite zero from zero_finite) rfl
  have e := amaxK_amaxZ hT (fun a : (Flt × Flt) × (Flt × Flt) => F.mul a.1.1 a.2.1) Gen.zfill hz ((GenA.mk T false true).gen.elts M incX incZ n)
  have e2 : F.amaxZ T 1 (fun a h => if h = 0 then F.mul a.1.1 a.2.1 else F.mul a.1.2 a.2.2) Gen.zfill ((GenA.mk T false true).gen.elts M incX incZ n)
      = F.amaxZ T 1 (fun a _ => F.mul a.1.1 a.2.1) Gen.zfill ((GenA.mk T false true).gen.elts M incX incZ n) := by
    unfold amaxZ loadZ; simp
  unfold damaxm
  refine e2.trans (e.symm.trans (congrArg _ ?_))
  rw [show (GenA.mk T false true).gen = Gen.mk T false .dot from rfl, elts_real]
  unfold gather
  rw [zip_rm, Nat.min_self]
  simp only [List.map_map]
  rfl

/-- **C63.** The generated `zamax_sub`: the maxima of the parts. -/
theorem C63_zamax (t : Nat) :
    (GenA.mk T true false).code F M incX incZ n σ (.am 0) t = F.amaxZ T 1 zsumOp.fR zsumOp.zfill (gatherZ (cwords M 0) incX n)
    ∧ (GenA.mk T true false).code F M incX incZ n σ (.am 1) t = F.amaxZ T 1 zsumOp.fI zsumOp.zfill (gatherZ (cwords M 0) incX n) := by
  have h := ((GenA.mk T true false).code_spec hT M incX incZ n σ).1
  have hf := elts_fst T .asum M incX incZ n
  constructor
  · rw [h 0 (by show 0 < 2; omega) (fun a _ => a.1.1) (fun _ _ => rfl) t, ← hf]
    exact (amaxZ_comp T 1 zsumOp.fR Prod.fst Gen.zfill _).symm
  · rw [h 1 (by show 1 < 2; omega) (fun a _ => a.1.2) (fun _ _ => rfl) t, ← hf]
    exact (amaxZ_comp T 1 zsumOp.fI Prod.fst Gen.zfill _).symm

/-- **C63.** The generated `zamaxm_sub`: the maxima over the four products, which serve both dot products. -/
theorem C63_zamaxm [F.OK] (t : Nat) :
    (GenA.mk T true true).code F M incX incZ n σ (.am 0) t
      = F.amaxZ T 2 (F.dotuOp T).fR (F.dotuOp T).zfill ((gatherZ (cwords M 0) incX n).zip (gatherZ (cwords M 1) incZ n))
    ∧ (GenA.mk T true true).code F M incX incZ n σ (.am 0) t
      = F.amaxZ T 2 (F.dotcOp T).fR (F.dotcOp T).zfill ((gatherZ (cwords M 0) incX n).zip (gatherZ (cwords M 1) incZ n))
    ∧ (GenA.mk T true true).code F M incX incZ n σ (.am 1) t
      = F.amaxZ T 2 (F.dotuOp T).fI (F.dotuOp T).zfill ((gatherZ (cwords M 0) incX n).zip (gatherZ (cwords M 1) incZ n))
    ∧ (GenA.mk T true true).code F M incX incZ n σ (.am 1) t
      = F.amaxZ T 2 (F.dotcOp T).fI (F.dotcOp T).zfill ((gatherZ (cwords M 0) incX n).zip (gatherZ (cwords M 1) incZ n)) := by
  have h := ((GenA.mk T true true).code_spec hT M incX incZ n σ).1
  rw [← elts_cplx T .dotu]
  have key : ∀ k, k < 2 → ∀ f : (Flt × Flt) × (Flt × Flt) → Nat → Flt, (∀ a h, fabs (f a h) = opA F true k a h) →
      (GenA.mk T true true).code F M incX incZ n σ (.am k) t = F.amaxZ T 2 f Gen.zfill ((Gen.mk T true .dotu).elts M incX incZ n) := by
    intro k hk f hf
    exact h k hk f hf t
  refine ⟨key 0 (by omega) _ ?_, key 0 (by omega) _ ?_, key 1 (by omega) _ ?_, key 1 (by omega) _ ?_⟩
  · intro a h; unfold opA dotuOp; by_cases h0 : h = 0 <;> simp [h0, fabs_flip]
  · intro a h; unfold opA dotcOp; by_cases h0 : h = 0 <;> simp [h0]
  · intro a h; unfold opA dotuOp; by_cases h0 : h = 0 <;> simp [h0]
  · intro a h; unfold opA dotcOp; by_cases h0 : h = 0 <;> simp [h0, fabs_flip]

/-- **C63.** A maximum kernel does not write the accumulator or the variables of the deposit kernel. -/
theorem C63_frame (cplx prod : Bool) (k j : Nat) : (GenA.mk T cplx prod).code F M incX incZ n σ (.y k j) = σ (.y k j) :=
  ((GenA.mk T cplx prod).code_spec hT M incX incZ n σ).2 _ (by simp) (by simp) (by simp) (by simp) (by simp)

/-- **C63.** If no element is a NaN, the generated maximum is the largest absolute value. -/
theorem C63_is_max [F.OK] (hx : ∀ x ∈ gather (M 0) incX n, F.isNaN x = false) (t : Nat) :
    ((GenA.mk T false false).code F M incX incZ n σ (.am 0) t).neg = false
    ∧ (∀ x ∈ gather (M 0) incX n, x.mag ≤ ((GenA.mk T false false).code F M incX incZ n σ (.am 0) t).mag)
    ∧ (0 < n → ∃ x ∈ gather (M 0) incX n, x.mag = ((GenA.mk T false false).code F M incX incZ n σ (.am 0) t).mag) := by
  rw [C63_amax hT M incX incZ n σ t, damax_eq hT hx]
  refine ⟨rfl, fun x hx => le_maxMag hx, fun hn => maxMag_mem ?_⟩
  intro h
  have : (gather (M 0) incX n).length = 0 := by rw [h]; rfl
  unfold gather at this; simp at this; omega

end

/-! Concrete cases: all variables hold NaN before the kernel. -/
example : (GenA.mk gT false false).code f32 gM 1 1 3 gσ (.am 0) 0 = f32.pow2 2 := by decide +kernel
example : (GenA.mk gT true true).code f32 gM 1 1 2 gσ (.am 1) 0 ≠ f32.nan := by decide +kernel
example (M : Nat → Int → Flt) (σ : Regs) (n : Nat) : (GenA.mk exAVX false true).code f64 M (-2) 3 n σ (.am 0) 0
    = f64.damaxm exAVX (gather (M 0) (-2) n) (gather (M 1) 3 n) := C63_amaxm exAVX_ok M (-2) 3 n σ 0

end Repro
