import Verif.FmaConv
import Verif.PropsVec
import Verif.PropsZDot
import Verif.PropsGenRunSq
import Verif.PropsNorm
import Verif.ZGemm
/-!
# C72: contraction into fused multiply-add does not change the results
-/

namespace Repro
namespace Fmt
variable {F : Fmt}

theorem mul_finite_args [F.OK] {x y : Flt} (h : F.Finite (F.mul x y)) : F.Finite x ∧ F.Finite y := by
  by_contra hc
  have hs : F.isNaN x = true ∨ F.isInf x = true ∨ F.isNaN y = true ∨ F.isInf y = true := by
    by_cases hx : F.Finite x
    · have hy : ¬ F.Finite y := fun hy => hc ⟨hx, hy⟩
      rcases special_of hy with h | h
      · exact Or.inr (Or.inr (Or.inl h))
      · exact Or.inr (Or.inr (Or.inr h))
    · rcases special_of hx with h | h
      · exact Or.inl h
      · exact Or.inr (Or.inl h)
  have hp := pow_pos' (F.p - 2)
  unfold mul at h
  by_cases h1 : (F.isNaN x || F.isNaN y) = true
  · rw [if_pos h1] at h
    unfold Finite nan at h; dsimp only at h; omega
  · have h2 : (F.isInf x || F.isInf y) = true := by
      simp only [Bool.or_eq_true, not_or] at h1 ⊢
      rcases hs with h | h | h | h
      · exact absurd h h1.1
      · exact Or.inl h
      · exact absurd h h1.2
      · exact Or.inr h
    rw [if_neg h1, if_pos h2] at h
    unfold Finite at h
    split at h
    · unfold nan at h; dsimp only at h; omega
    · dsimp only at h; omega

/-- No overflow in a fused operation on a product and an addend well below the overflow threshold. -/
theorem fma_finite [F.OK] {x y z : Flt} (h : F.Finite (F.mul x y)) (hm : F.val (F.mul x y).mag < 2 ^ (F.p + F.emax - 4)) (hz : F.Finite z)
    (hzm : F.val z.mag < 2 ^ (F.p + F.emax - 4)) : F.Finite (F.fma x y z) := by
  have ⟨hp, hW, hWp, hpW, he, he1, hb, het, _⟩ := F.facts
  obtain ⟨hx, hy⟩ := mul_finite_args h
  have ⟨x1, x2⟩ := finite_iff.1 hx
  have ⟨y1, y2⟩ := finite_iff.1 hy
  have ⟨z1, z2⟩ := finite_iff.1 hz
  have hk := roundMag_exact (F := F) (m := 1) (e := F.p + F.emax - 4) (Nat.one_lt_two_pow (by omega)) (mul_pow_lt (x := 1) (by decide) (by omega))
  have hk2 := roundMag_exact (F := F) (m := 1) (e := F.p + F.emax - 3) (Nat.one_lt_two_pow (by omega)) (mul_pow_lt (x := 1) (by decide) (by omega))
  have hprod : F.val x.mag * F.val y.mag < 2 ^ (F.p + F.emax - 4) * 2 ^ F.eta := by
    by_contra hc
    rw [mul_fin hx hy] at hm
    dsimp only at hm
    have := val_mono (F := F) (roundMag_mono (F := F) (s := F.eta) (Nat.le_of_not_lt hc))
    rw [roundMag_shift] at this
    rw [Nat.one_mul] at hk
    rw [hk.2] at this
    omega
  unfold fma
  rw [x1, x2, y1, y2, z1, z2]
  simp only [Bool.or_self, Bool.false_eq_true, if_false]
  split
  · exact Nat.lt_of_le_of_lt (Nat.zero_le _) emax_big
  · unfold Finite
    dsimp only
    have hs : (F.toInt x * F.toInt y + F.toInt z * 2 ^ F.eta).natAbs ≤ 1 * 2 ^ (F.p + F.emax - 3) * 2 ^ F.eta := by
      have h1 := Int.natAbs_add_le (F.toInt x * F.toInt y) (F.toInt z * 2 ^ F.eta)
      rw [Int.natAbs_mul, toInt_natAbs, toInt_natAbs, natAbs_mul_pow, toInt_natAbs] at h1
      have h2 : F.val z.mag * 2 ^ F.eta ≤ 2 ^ (F.p + F.emax - 4) * 2 ^ F.eta := Nat.mul_le_mul_right _ (Nat.le_of_lt hzm)
      have e : 1 * 2 ^ (F.p + F.emax - 3) * 2 ^ F.eta = 2 * (2 ^ (F.p + F.emax - 4) * 2 ^ F.eta) := by
        rw [show F.p + F.emax - 3 = F.p + F.emax - 4 + 1 by omega, Nat.pow_succ]; ring
      omega
    have := roundMag_mono (F := F) (s := F.eta) hs
    rw [roundMag_shift] at this
    omega

theorem add_fin_small [F.OK] {x z : Flt} (h : F.Finite x) (hm : F.val x.mag < 2 ^ (F.p + F.emax - 4)) (hz : F.Finite z)
    (hzm : F.val z.mag < 2 ^ (F.p + F.emax - 4)) : F.Finite (F.add x z) := by
  have ⟨hp, hW, hWp, hpW, he, he1, hb, het, _⟩ := F.facts
  refine (add_le h hz (m := 1) (e := F.p + F.emax - 3) (Nat.one_lt_two_pow (by omega)) (mul_pow_lt (x := 1) (by decide) (by omega)) ?_).1
  have h1 := Int.natAbs_add_le (F.toInt x) (F.toInt z)
  rw [toInt_natAbs, toInt_natAbs] at h1
  have e : 1 * 2 ^ (F.p + F.emax - 3) = 2 * 2 ^ (F.p + F.emax - 4) := by
    rw [show F.p + F.emax - 3 = F.p + F.emax - 4 + 1 by omega, Nat.pow_succ]; ring
  omega

/-! ### real dot product -/

theorem foldl_mac_nonfin [F.OK] (c : Nat → Bool) : ∀ (l : List (Flt × Flt)) (k : Nat) {m : Flt}, ¬ F.Finite m → (∀ p ∈ l, F.Finite (F.mul p.1 p.2)) →
    (l.zipIdx k).foldl (fun a p => F.mac (c p.2) p.1.1 p.1.2 a) m = (l.map (fun p => F.mul p.1 p.2)).foldl F.add m
  | [], _, _, _, _ => rfl
  | p :: l, k, m, hm, h => by
    have hp := h p List.mem_cons_self
    have hf := mul_finite_args hp
    rw [List.zipIdx_cons, List.foldl_cons, List.map_cons, List.foldl_cons]
    dsimp only
    rw [mac_eq (fma_acc hf.1 hf.2 hp hm)]
    exact foldl_mac_nonfin c l (k + 1) (fun hc => hm (add_finite_args hc).1) (fun q hq => h q (List.mem_cons_of_mem _ hq))

theorem accum0C_eq [F.OK] (c : Nat → Bool) {l : List (Flt × Flt)} {y : Binned} (hy : F.isInf (nth y.pri 0) = true) (h : ∀ p ∈ l, F.Finite (F.mul p.1 p.2)) :
    F.accum0C c l y = F.accum0 (l.map (fun p => F.mul p.1 p.2)) y := by
  unfold accum0C accum0
  cases hp : y.pri with
  | nil => rfl
  | cons m ms =>
    have hm : ¬ F.Finite m := by
      rw [hp] at hy
      intro hc
      have := (finite_iff.1 hc).2
      have e : nth (m :: ms) 0 = m := rfl
      rw [e, this] at hy; cases hy
    dsimp only
    rw [foldl_mac_nonfin c l 0 hm h]

theorem dotLoopC_eq [F.OK] (ch : Nat → Picks) (cx : Nat → Nat → Bool) (T : Tune) (fold : Nat) : ∀ (fuel : Nat) (ps : List (Flt × Flt)) (d : Nat) (y : Binned),
    (∀ p ∈ ps, F.Finite (F.mul p.1 p.2)) → F.dotLoopC ch cx T fold fuel ps d y = F.vecLoop T fold fuel (ps.map (fun p => F.mul p.1 p.2)) d y
  | 0, _, _, _, _ => rfl
  | fuel + 1, ps, d, y, h => by
    unfold dotLoopC vecLoop
    by_cases h0 : ps = []
    · rw [if_pos h0, if_pos (by rw [h0]; rfl)]
    · have h0' : ¬ ps.map (fun p => F.mul p.1 p.2) = [] := by simpa using h0
      rw [if_neg h0, if_neg h0']
      have ih := fun d y => dotLoopC_eq ch cx T fold fuel (ps.drop T.nb) d y (fun p hp => h p (List.mem_of_mem_drop hp))
      have hb : ∀ p ∈ ps.take T.nb, F.Finite (F.mul p.1 p.2) := fun p hp => h p (List.mem_of_mem_take hp)
      simp only [← List.map_take, ← List.map_drop, List.length_map, kernelC_eq, ih]
      have ha : F.isInf (F.amaxK T (((ps.take T.nb).map (fun p => F.mul p.1 p.2)).map fabs)) = false := by
        refine (finite_iff.1 (amaxK_of F.Finite zero_finite T ?_)).2
        intro x hx
        rw [List.map_map, List.mem_map] at hx
        obtain ⟨p, hp, rfl⟩ := hx
        exact hb p hp
      rw [ha, Bool.false_or]
      have hacc : (if F.isInf (nth y.pri 0) = true then F.accum0C (cx fuel) (ps.take T.nb) y else y)
          = (if F.isInf (nth y.pri 0) = true then F.accum0 ((ps.take T.nb).map (fun p => F.mul p.1 p.2)) y else y) := by
        by_cases hi : F.isInf (nth y.pri 0) = true
        · rw [if_pos hi, if_pos hi, accum0C_eq _ hi hb]
        · rw [if_neg hi, if_neg hi]
      rw [hacc]

/-! ### complex sums and dot products -/

theorem zvecLoopC_eq [F.OK] {α : Type} (chR chI : Nat → Picks) (tR tI : Nat → Nat → α → Flt) (T : Tune) (fold : Nat) (O : ZOp α) : ∀ (fuel : Nat) (es : List α) (d : Nat) (y : Binned × Binned),
    (∀ (r : Nat) (b : List α) (z : Binned), (∀ a ∈ b, a ∈ es) → (F.isInf (F.amaxZ T O.e O.fR O.zfill b) || F.isInf (nth z.pri 0)) = true →
      F.accum0 (b.zipIdx.map (fun a => tR r a.2 a.1)) z = F.accum0 (b.map O.tR) z) →
    (∀ (r : Nat) (b : List α) (z : Binned), (∀ a ∈ b, a ∈ es) → (F.isInf (F.amaxZ T O.e O.fI O.zfill b) || F.isInf (nth z.pri 0)) = true →
      F.accum0 (b.zipIdx.map (fun a => tI r a.2 a.1)) z = F.accum0 (b.map O.tI) z) →
    F.zvecLoopC chR chI tR tI T fold O fuel es d y = F.zvecLoop T fold O fuel es d y
  | 0, _, _, _, _, _ => rfl
  | fuel + 1, es, d, y, hR, hI => by
    have hdrop : ∀ {b : List α}, (∀ a ∈ b, a ∈ es.drop T.nb) → ∀ a ∈ b, a ∈ es := fun h a ha => List.mem_of_mem_drop (h a ha)
    have ih := fun d y => zvecLoopC_eq chR chI tR tI T fold O fuel (es.drop T.nb) d y (fun r b z hb hc => hR r b z (hdrop hb) hc)
      (fun r b z hb hc => hI r b z (hdrop hb) hc)
    unfold zvecLoopC zvecLoop
    simp only [kernelZC_eq, ih]
    have e0 : (if (F.isInf (F.amaxZ T O.e O.fR O.zfill (es.take T.nb)) || F.isInf (nth y.1.pri 0)) = true then
          F.accum0 ((es.take T.nb).zipIdx.map (fun a => tR fuel a.2 a.1)) y.1 else y.1)
        = (if (F.isInf (F.amaxZ T O.e O.fR O.zfill (es.take T.nb)) || F.isInf (nth y.1.pri 0)) = true then F.accum0 ((es.take T.nb).map O.tR) y.1 else y.1) := by
      split
      · next h => exact hR fuel _ _ (fun a ha => List.mem_of_mem_take ha) h
      · rfl
    have e1 : (if (F.isInf (F.amaxZ T O.e O.fI O.zfill (es.take T.nb)) || F.isInf (nth y.2.pri 0)) = true then
          F.accum0 ((es.take T.nb).zipIdx.map (fun a => tI fuel a.2 a.1)) y.2 else y.2)
        = (if (F.isInf (F.amaxZ T O.e O.fI O.zfill (es.take T.nb)) || F.isInf (nth y.2.pri 0)) = true then F.accum0 ((es.take T.nb).map O.tI) y.2 else y.2) := by
      split
      · next h => exact hI fuel _ _ (fun a ha => List.mem_of_mem_take ha) h
      · rfl
    rw [e0, e1]

theorem accum0_nonfin [F.OK] {α : Type} {t : Nat → α → Flt} {u : α → Flt} {b : List α} {z : Binned} (hz : F.isInf (nth z.pri 0) = true)
    (h : ∀ i, ∀ a ∈ b, TermsOk F (t i a) (u a)) : F.accum0 (b.zipIdx.map (fun a => t a.2 a.1)) z = F.accum0 (b.map u) z := by
  unfold accum0
  cases hp : z.pri with
  | nil => rfl
  | cons m ms =>
    have hm : ¬ F.Finite m := by
      rw [hp] at hz
      intro hc
      have := (finite_iff.1 hc).2
      have e : nth (m :: ms) 0 = m := rfl
      rw [e, this] at hz; cases hz
    dsimp only
    have h1 := foldl_nonfin (F := F) (t := fun a : α × Nat => t a.2 a.1) (u := fun a : α × Nat => u a.1) b.zipIdx hm
      (fun a ha => h a.2 a.1 (List.fst_mem_of_mem_zipIdx ha))
    rw [h1, map_zipIdx_ignore (g := u) b 0 (fun _ _ _ => rfl)]

/-- The four products of a pair of complex numbers are at least a factor of four below the overflow threshold. -/
def DotSmall (F : Fmt) (x y : Flt × Flt) : Prop :=
  ∀ p ∈ [F.mul x.1 y.1, F.mul x.2 y.2, F.mul x.2 y.1, F.mul x.1 y.2], F.Finite p ∧ F.val p.mag < 2 ^ (F.p + F.emax - 4)

theorem mul_fneg_fin [F.OK] {x y : Flt} (h : F.Finite (F.mul x y)) : F.mul (fneg x) y = fneg (F.mul x y) := by
  have ⟨hx, hy⟩ := mul_finite_args h
  rw [mul_fin hx hy, mul_fin (x := fneg x) hx hy]
  unfold fneg
  dsimp only
  cases x.neg <;> cases y.neg <;> rfl

theorem mul2C_finite [F.OK] {a b d e : Flt} (h1 : F.Finite (F.mul a b) ∧ F.val (F.mul a b).mag < 2 ^ (F.p + F.emax - 4))
    (h2 : F.Finite (F.mul d e) ∧ F.val (F.mul d e).mag < 2 ^ (F.p + F.emax - 4)) (c : Option Bool) : F.Finite (F.mul2C c a b d e) := by
  unfold mul2C
  rcases c with _ | c
  · exact add_fin_small h1.1 h1.2 h2.1 h2.2
  · cases c
    · exact fma_finite h1.1 h1.2 h2.1 h2.2
    · exact fma_finite h2.1 h2.2 h1.1 h1.2

theorem mul_neg_small [F.OK] {x y : Flt} (h : F.Finite (F.mul x y) ∧ F.val (F.mul x y).mag < 2 ^ (F.p + F.emax - 4)) :
    F.Finite (F.mul (fneg x) y) ∧ F.val (F.mul (fneg x) y).mag < 2 ^ (F.p + F.emax - 4) := by
  rw [mul_fneg_fin h.1]; exact h

theorem dotTermC_finite [F.OK] {conj im : Bool} {c : Option Bool} {a : (Flt × Flt) × (Flt × Flt)} (h : DotSmall F a.1 a.2) : F.Finite (F.dotTermC conj im c a) := by
  have h1 := h _ (List.mem_cons_self)
  have h2 := h _ (List.mem_cons_of_mem _ List.mem_cons_self)
  have h3 := h _ (List.mem_cons_of_mem _ (List.mem_cons_of_mem _ List.mem_cons_self))
  have h4 := h _ (List.mem_cons_of_mem _ (List.mem_cons_of_mem _ (List.mem_cons_of_mem _ List.mem_cons_self)))
  unfold dotTermC
  cases im <;> cases conj <;> simp only [Bool.false_eq_true, if_false, if_true] <;> apply mul2C_finite <;> first | assumption | exact mul_neg_small (by assumption)

theorem dotTerm_finite [F.OK] {x y : Flt × Flt} (h : DotSmall F x y) :
    F.Finite (F.sub (F.mul x.1 y.1) (F.mul x.2 y.2)) ∧ F.Finite (F.add (F.mul x.1 y.2) (F.mul x.2 y.1))
    ∧ F.Finite (F.add (F.mul x.1 y.1) (F.mul x.2 y.2)) ∧ F.Finite (F.sub (F.mul x.1 y.2) (F.mul x.2 y.1)) := by
  have h1 := h _ (List.mem_cons_self)
  have h2 := h _ (List.mem_cons_of_mem _ List.mem_cons_self)
  have h3 := h _ (List.mem_cons_of_mem _ (List.mem_cons_of_mem _ List.mem_cons_self))
  have h4 := h _ (List.mem_cons_of_mem _ (List.mem_cons_of_mem _ (List.mem_cons_of_mem _ List.mem_cons_self)))
  exact ⟨add_fin_small h1.1 h1.2 (z := fneg (F.mul x.2 y.2)) h2.1 h2.2, add_fin_small h4.1 h4.2 h3.1 h3.2, add_fin_small h1.1 h1.2 h2.1 h2.2,
    add_fin_small h4.1 h4.2 (z := fneg (F.mul x.2 y.1)) h3.1 h3.2⟩

theorem amaxZ_notinf [F.OK] {T : Tune} (hT : T.OK F) {α : Type} {e : Nat} {f : α → Nat → Flt} {z : α} (hz : ∀ q, (f z q).mag = 0) {es : List α}
    (h : ∀ a ∈ es, ∀ q, F.Finite (f a q)) : F.isInf (F.amaxZ T e f z es) = false := by
  have hf : ∀ x ∈ partNums e f es, F.Finite x := by
    intro x hx
    obtain ⟨a, ha, q, _, rfl⟩ := mem_partNums.1 hx
    exact h a ha q
  rw [amaxZ_eq hT hz (fun x hx => (finite_iff.1 (hf x hx)).1)]
  have hp := emax_big (F := F)
  have : maxMag (partNums e f es) ≤ F.infMag - 1 := maxMag_le (fun x hx => by have := hf x hx; unfold Finite at this; omega)
  unfold isInf
  simp only [beq_eq_false_iff_ne, ne_eq]
  have := pow_pos' F.p
  omega

end Fmt

open Fmt
variable {F : Fmt}

/-! ## The property -/

/-- **C72** (histories). A program of additions, updates, batches of deposits, merges, negations and renormalisations computes the
same bits, for every input and every state (overflowing or not), whichever of its multiplications and additions the compiler
contracts. -/
theorem C72_hist [F.OK] (fold : Nat) (ch : List Bool → Picks) (h : Hist) : h.evalC F fold ch = h.eval F fold := by
  induction h generalizing ch with
  | zero => rfl
  | add x h ih =>
    show F.dmrenorm _ = F.dmrenorm _
    rw [ih, dmddepositC_eq]
  | update x h ih => show F.dmdupdate _ _ _ = _; rw [ih]; rfl
  | batch b xs h ih =>
    show F.dmrenorm _ = F.dmrenorm _
    rw [ih]
    unfold depositsC deposits
    rw [foldl_zipIdx_ignore _ _ _ (g := fun (y : Binned) x => ⟨F.dmddeposit x y.pri, y.car⟩)]
    intro s a i _
    dsimp only
    rw [dmddepositC_eq]
  | merge h g ih ig => show F.dmdmadd _ _ _ = _; rw [ih, ig]; rfl
  | negate h ih => show F.dmnegate _ _ = _; rw [ih]; rfl
  | renorm h ih => show F.dmrenorm _ = _; rw [ih]; rfl

/-- **C72** (sums). `binnedBLAS_dmdsum` and `binnedBLAS_dmdasum` compute the same bits with contraction, for every input, accumulator and
tuning. -/
theorem C72_sum [F.OK] (ch : Nat → Picks) (T : Tune) (fold n : Nat) (X : Int → Flt) (incX : Int) (y : Binned) :
    F.dmdsumC ch T fold n X incX y = F.dmdsum T fold n X incX y ∧ F.dmdasumC ch T fold n X incX y = F.dmdasum T fold n X incX y := by
  constructor
  · unfold dmdsumC dmdsum vecSum
    rw [vecLoopC_eq, gather_length]
  · unfold dmdasumC dmdasum vecSum
    rw [vecLoopC_eq, List.length_map, gather_length]

/-- **C72** (sums of squares). Likewise `binnedBLAS_dmdssq`. -/
theorem C72_ssq [F.OK] (ch : Nat → Picks) (T : Tune) (fold n : Nat) (X : Int → Flt) (incX : Int) (scl : Flt) (y : Binned) :
    F.dmdssqC ch T fold n X incX scl y = F.dmdssq T fold n X incX scl y := by
  unfold dmdssqC dmdssq ssqList
  rw [ssqLoopC_eq, gather_length]

/-- **C72** (complex sums). Likewise `binnedBLAS_zmzsum`, `binnedBLAS_dmzasum`, `binnedBLAS_dmzssq`. -/
theorem C72_zsum [F.OK] (chR chI : Nat → Picks) (T : Tune) (fold n : Nat) (X : Int → Flt × Flt) (incX : Int) (z : Binned × Binned) (scl : Flt) (y : Binned) :
    F.zmzsumC chR chI T fold n X incX z = F.zmzsum T fold n X incX z
    ∧ F.dmzasumC chR chI T fold n X incX y = F.dmzasum T fold n X incX y
    ∧ F.dmzssqC chR chI T fold n X incX scl y = F.dmzssq T fold n X incX scl y := by
  have hl : (gatherZ X incX n).length = n := by simp [gatherZ]
  refine ⟨?_, ?_, ?_⟩
  · unfold zmzsumC zmzsum zvecSum
    rw [zvecLoopC_eq, hl]
    · intro r b w _ _
      rw [map_zipIdx_ignore (g := zsumOp.tR) b 0 (fun _ _ _ => rfl)]
    · intro r b w _ _
      rw [map_zipIdx_ignore (g := zsumOp.tI) b 0 (fun _ _ _ => rfl)]
  · unfold dmzasumC dmzasum
    rw [zasumLoopC_eq]
    try rw [hl]
  · unfold dmzssqC dmzssq zssqList
    rw [zssqLoopC_eq, hl]

/-- **C72** (dot product). `binnedBLAS_dmddot` computes the same bits with contraction for every accumulator, if no product is infinite or
NaN. (With an overflowing product it need not: `C72_dot_violated`.) -/
theorem C72_dot [F.OK] (ch : Nat → Picks) (cx : Nat → Nat → Bool) (T : Tune) (fold n : Nat) (X : Int → Flt) (incX : Int) (Y : Int → Flt) (incY : Int) (z : Binned)
    (hx : ∀ i : Nat, i < n → F.Finite (F.mul (X (i * incX)) (Y (i * incY)))) :
    F.dmddotC ch cx T fold n X incX Y incY z = F.dmddot T fold n X incX Y incY z := by
  unfold dmddotC dmddot vecSum
  rw [dotLoopC_eq]
  · rw [List.length_zipWith, gather_length, gather_length, Nat.min_self]
    congr 1
    rw [List.zip, List.map_zipWith]
  · intro p hp
    unfold gather at hp
    rw [List.zip_map', List.mem_map] at hp
    obtain ⟨i, hi, rfl⟩ := hp
    exact hx i (List.mem_range.1 hi)

/-- **C72** (complex dot products). Likewise `binnedBLAS_zmzdotu` and `binnedBLAS_zmzdotc`, if the products are at least a factor of four below
the overflow threshold. -/
theorem C72_zdot [F.OK] {T : Tune} (hT : T.OK F) (conj : Bool) (chR chI : Nat → Picks) (cR cI : Nat → Nat → Option Bool) (fold n : Nat) (X : Int → Flt × Flt) (incX : Int)
    (Y : Int → Flt × Flt) (incY : Int) (z : Binned × Binned) (hx : ∀ i : Nat, i < n → DotSmall F (X (i * incX)) (Y (i * incY))) :
    F.zdotC conj chR chI cR cI T fold n X incX Y incY z = zdot F conj T fold n X incX Y incY z := by
  have hl : ((gatherZ X incX n).zip (gatherZ Y incY n)).length = n := by simp [gatherZ]
  have hmem : ∀ a ∈ (gatherZ X incX n).zip (gatherZ Y incY n), DotSmall F a.1 a.2 := by
    intro p hp
    unfold gatherZ at hp
    rw [List.zip_map', List.mem_map] at hp
    obtain ⟨i, hi, rfl⟩ := hp
    exact hx i (List.mem_range.1 hi)
  have hzd : zdot F conj T fold n X incX Y incY z = F.zvecSum T fold (if conj then F.dotcOp T else F.dotuOp T) ((gatherZ X incX n).zip (gatherZ Y incY n)) z := by
    unfold zdot zmzdotc zmzdotu; cases conj <;> rfl
  rw [hzd]
  unfold zdotC zvecSum
  rw [hl]
  have hfin : ∀ {a : (Flt × Flt) × (Flt × Flt)}, DotSmall F a.1 a.2 → F.Finite (F.mul a.1.1 a.2.1) ∧ F.Finite (F.mul a.1.2 a.2.2) ∧ F.Finite (F.mul a.1.2 a.2.1) ∧ F.Finite (F.mul a.1.1 a.2.2) := by
    intro a h
    exact ⟨(h _ (by simp)).1, (h _ (by simp)).1, (h _ (by simp)).1, (h _ (by simp)).1⟩
  have hflip : ∀ {x : Flt}, F.Finite x → F.Finite (F.flip T x) := by
    intro x hx; rw [flip_eq hx]; exact hx
  apply zvecLoopC_eq
  · intro r b w hb hc
    have ha : F.isInf (F.amaxZ T (if conj then F.dotcOp T else F.dotuOp T).e (if conj then F.dotcOp T else F.dotuOp T).fR (if conj then F.dotcOp T else F.dotuOp T).zfill b) = false := by
      cases conj
      · refine amaxZ_notinf hT (dotuOp_ok T).zR (fun a ha q => ?_)
        have h := hfin (hmem a (hb a ha))
        show F.Finite (if q = 0 then _ else _)
        split
        · exact h.1
        · exact hflip h.2.1
      · refine amaxZ_notinf hT (dotcOp_ok T).zR (fun a ha q => ?_)
        have h := hfin (hmem a (hb a ha))
        show F.Finite (if q = 0 then _ else _)
        split
        · exact h.1
        · exact h.2.1
    rw [ha, Bool.false_or] at hc
    refine accum0_nonfin (t := fun i => F.dotTermC conj false (cR r i)) hc (fun i a ha' => Or.inr ⟨dotTermC_finite (hmem a (hb a ha')), ?_⟩)
    have h := dotTerm_finite (hmem a (hb a ha'))
    cases conj
    · exact h.1
    · exact h.2.2.1
  · intro r b w hb hc
    have ha : F.isInf (F.amaxZ T (if conj then F.dotcOp T else F.dotuOp T).e (if conj then F.dotcOp T else F.dotuOp T).fI (if conj then F.dotcOp T else F.dotuOp T).zfill b) = false := by
      cases conj
      · refine amaxZ_notinf hT (dotuOp_ok T).zI (fun a ha q => ?_)
        have h := hfin (hmem a (hb a ha))
        show F.Finite (if q = 0 then _ else _)
        split
        · exact h.2.2.1
        · exact h.2.2.2
      · refine amaxZ_notinf hT (dotcOp_ok T).zI (fun a ha q => ?_)
        have h := hfin (hmem a (hb a ha))
        show F.Finite (if q = 0 then _ else _)
        split
        · exact hflip h.2.2.1
        · exact h.2.2.2
    rw [ha, Bool.false_or] at hc
    refine accum0_nonfin (t := fun i => F.dotTermC conj true (cI r i)) hc (fun i a ha' => Or.inr ⟨dotTermC_finite (hmem a (hb a ha')), ?_⟩)
    have h := dotTerm_finite (hmem a (hb a ha'))
    cases conj
    · exact h.2.1
    · exact h.2.2.2

theorem ofList_legalX' (xs : List Flt) {h : Hist} (hl : h.LegalX F) : (Hist.ofList xs h).LegalX F := by
  unfold Hist.ofList
  induction xs generalizing h with
  | nil => exact hl
  | cons x xs ih => exact ih (h := .add x h) hl

/-- **C72** (conversion). Converting the value of any program over finite numbers, infinities and NaN gives the same bits with contraction. -/
theorem C72_convert [F.OK] {fold : Nat} (hfold : 2 ≤ fold) (v : Nat → Bool × Bool) {h : Hist} (hl : h.LegalX F) (hN : h.nums.length ≤ F.capacity) :
    convertC v F fold (h.eval F fold) = convert F fold (h.eval F fold) := by
  have hk := hist_kind (F := F) hfold h hl hN
  by_cases hf : F.kinds h.nums = .fin
  · have hm := hist_mid (F := F) hfold h (legal_of_finite hl hf) hN
    by_cases hs : h.seen = []
    · rw [(hm.1 hs).1]
      unfold convertC convert ssmconvC ssmconv ddmconvC ddmconv
      have hz : isZero (nth (dmsetzero fold).pri 0) = true := by unfold dmsetzero; dsimp only; rw [nth_setzero]; rfl
      simp only [hz, if_true]
    · obtain ⟨B, C, Z, h1, h2, h3, h4, h5, h6⟩ := hm.2.1 hs
      have hw := fun j => win_of_bound (F := F) (Nat.zero_le _) (h3 j)
      have hc := fun j => car_of_bound (F := F) (Nat.zero_le _) hN (h3 j) (h6 j) (h2 j)
      rw [h1, convertC_eq v hfold h5 hw hc]
  · have hsp : F.kind (nth (h.eval F fold).pri 0) ≠ .fin := by rw [hk]; exact hf
    rw [convert_special hsp]
    have hb := isNaNInf_kind.2 hsp
    unfold convertC
    split
    · next hF => subst hF; unfold ssmconvC; rw [hb]; rfl
    · unfold ddmconvC; rw [hb]; rfl

/-- **C72**, end to end. `reproBLAS_rdsum`, `rdasum` and `rddot` return the same number with contraction anywhere. -/
theorem C72_native [F.OK] {T : Tune} (hT : T.OK F) {fold : Nat} (hfold : 2 ≤ fold) (ch : Nat → Picks) (cx : Nat → Nat → Bool) (v : Nat → Bool × Bool) {n : Nat} (hn : n ≤ F.capacity)
    (X : Int → Flt) (incX : Int) (Y : Int → Flt) (incY : Int) :
    ((∀ i : Nat, i < n → F.Finite (X (i * incX))) →
      convertC v F fold (F.dmdsumC ch T fold n X incX (dmsetzero fold)) = F.rdsum T fold n X incX
      ∧ convertC v F fold (F.dmdasumC ch T fold n X incX (dmsetzero fold)) = F.rdasum T fold n X incX)
    ∧ ((∀ i : Nat, i < n → F.Finite (F.mul (X (i * incX)) (Y (i * incY)))) →
      convertC v F fold (F.dmddotC ch cx T fold n X incX Y incY (dmsetzero fold)) = F.rddot T fold n X incX Y incY) := by
  have key : ∀ (vs : List Flt), vs.length ≤ F.capacity → (∀ x ∈ vs, F.Finite x) →
      convertC v F fold (F.vecSum T fold vs (dmsetzero fold)) = convert F fold (F.vecSum T fold vs (dmsetzero fold)) := by
    intro vs hl hv
    have h1 := vecSum_eq (F := F) hT hfold (h := .zero) trivial (vs := vs) (fun _ => trivial) hv (by simpa [Hist.nums] using hl)
    have h2 := ofList_eval (F := F) fold vs .zero
    have e : Hist.eval F fold .zero = dmsetzero fold := rfl
    rw [e] at h1 h2
    rw [h1]
    unfold sumSeq
    rw [← e]
    have h3 : (Hist.ofList vs .zero).eval F fold = vs.foldl (fun y x => F.dmdadd fold x y) (Hist.eval F fold .zero) := by rw [e]; exact h2
    rw [← h3]
    refine C72_convert hfold v (ofList_legalX' vs trivial) ?_
    rw [ofList_nums]; simpa [Hist.nums] using hl
  refine ⟨fun hx => ⟨?_, ?_⟩, fun hx => ?_⟩
  · rw [(C72_sum ch T fold n X incX _).1]
    unfold rdsum dmdsum
    refine key _ (by rw [gather_length]; exact hn) (fun x hx' => ?_)
    obtain ⟨i, hi, rfl⟩ := mem_gather hx'
    exact hx i hi
  · rw [(C72_sum ch T fold n X incX _).2]
    unfold rdasum dmdasum
    refine key _ (by rw [List.length_map, gather_length]; exact hn) (fun x hx' => ?_)
    rw [List.mem_map] at hx'
    obtain ⟨x', hx', rfl⟩ := hx'
    obtain ⟨i, hi, rfl⟩ := mem_gather hx'
    exact hx i hi
  · rw [C72_dot ch cx T fold n X incX Y incY _ hx]
    unfold rddot dmddot
    refine key _ (by rw [List.length_zipWith, gather_length, gather_length]; omega) (fun x hx' => ?_)
    unfold gather at hx'
    rw [List.zipWith_map, List.zipWith_self, List.mem_map] at hx'
    obtain ⟨i, hi, rfl⟩ := hx'
    exact hx i (List.mem_range.1 hi)

/-- The two roots and products of `reproBLAS_rdnrm2` and `rsnrm2` (`normOf`) after a conversion with contraction. -/
def normOfC (v : Nat → Bool × Bool) (F : Fmt) (fold : Nat) (s : Flt × Binned) : Flt :=
  if F = f32 then narrow (f64.mul (widen s.1) (f64.sqrt (widen (convertC v f32 fold s.2))))
  else f64.mul s.1 (f64.sqrt (convertC v f64 fold s.2))

theorem spec_convertC [F.OK] {fold : Nat} (hfold : 2 ≤ fold) (v : Nat → Bool × Bool) {xs : List Flt} (hx : ∀ x ∈ xs, F.Finite x) (hN : xs.length ≤ F.capacity) :
    convertC v F fold (F.specSum fold xs) = convert F fold (F.specSum fold xs) := by
  rw [← C01_sum_is_spec hfold hx hN]
  have h2 := ofList_eval (F := F) fold xs .zero
  have e : Hist.eval F fold .zero = dmsetzero fold := rfl
  rw [e] at h2
  have h3 : (Hist.ofList xs .zero).eval F fold = F.sumSeq fold xs (dmsetzero fold) := h2
  rw [← h3]
  refine C72_convert hfold v (ofList_legalX' xs trivial) ?_
  rw [ofList_nums]; simpa [Hist.nums] using hN

theorem spec_normC (hF : F = f64 ∨ F = f32) {fold : Nat} (hfold : 2 ≤ fold) (v : Nat → Bool × Bool) {xs : List Flt} (hx : ∀ x ∈ xs, F.Finite x) (hN : xs.length ≤ F.capacity) :
    normOfC v F fold (ssqSpec F fold xs) = normOf F fold (ssqSpec F fold xs) := by
  have key : ∀ [F.OK], convertC v F fold (ssqSpec F fold xs).2 = convert F fold (ssqSpec F fold xs).2 := by
    intro _
    by_cases h0 : xs = []
    · subst h0
      exact spec_convertC hfold v (by simp) hN
    · have hm := maxMag_finite h0 hx
      obtain ⟨n, m, _, hs, hb, _⟩ := scale_of hm
      unfold ssqSpec
      rw [scaleOf_ne h0]
      exact spec_convertC hfold v (sq_fin_all hs hx hb) (by rw [List.length_map]; exact hN)
  unfold normOfC normOf
  rcases hF with rfl | rfl
  · rw [if_neg (by decide), if_neg (by decide), key]
  · rw [if_pos rfl, if_pos rfl, key]

/-- **C72**, norms. `reproBLAS_rdnrm2` and `rdznrm2` (and the single precision versions) return the same number with contraction anywhere. -/
theorem C72_norm (hF : F = f64 ∨ F = f32) {T : Tune} (hT : T.OK F) {fold : Nat} (hfold : 2 ≤ fold) (hJ : F.ssqHi + fold ≤ F.ssqJ + 1)
    (ch chR chI : Nat → Picks) (v : Nat → Bool × Bool) (n : Nat) (incX : Int) :
    (∀ X : Int → Flt, n ≤ F.capacity → (∀ i : Nat, i < n → F.Finite (X (i * incX))) →
      normOfC v F fold (F.dmdssqC ch T fold n X incX zero (dmsetzero fold)) = rdnrm2 F T fold n X incX)
    ∧ (∀ X : Int → Flt × Flt, 2 * n ≤ F.capacity → (∀ i : Nat, i < n → F.Finite (X (i * incX)).1 ∧ F.Finite (X (i * incX)).2) →
      normOfC v F fold (F.dmzssqC chR chI T fold n X incX zero (dmsetzero fold)) = rdznrm2 F T fold n X incX) := by
  have ok : F.OK := by rcases hF with rfl | rfl <;> infer_instance
  constructor
  · intro X hN hx
    have a := C29_ssq_is_spec hT hfold hJ (ps := []) (by simp) hx (by simpa using hN)
    rw [C29_start, List.nil_append] at a
    unfold rdnrm2
    rw [C72_ssq, a]
    refine spec_normC hF hfold v (fun x hm => ?_) (by rw [gather_length]; exact hN)
    obtain ⟨i, hi, rfl⟩ := mem_gather hm
    exact hx i hi
  · intro X hN hx
    have a := C51_ssq_is_spec hT hfold hJ (qs := []) (by simp) hx (by simpa using hN)
    rw [C29_start, List.nil_append] at a
    unfold rdznrm2
    rw [(C72_zsum chR chI T fold n X incX (dmsetzero fold, dmsetzero fold) zero (dmsetzero fold)).2.2, a]
    refine spec_normC hF hfold v (fun x hm => ?_) (by rw [parts_length]; simp only [gatherZ, List.length_map, List.length_range]; exact hN)
    obtain ⟨e, he, h⟩ := mem_parts.1 hm
    unfold gatherZ at he
    obtain ⟨i, hi, rfl⟩ := List.mem_map.1 he
    have := hx i (List.mem_range.1 hi)
    rcases h with rfl | rfl
    · exact this.1
    · exact this.2

/-- The product of an element with `alpha` in the complex matrix products (`zscl`; `src/binnedBLAS/zbzgemv.ccog:92-93`, `zbzgemm.ccog:99-100`) or with `beta`
(`src/reproBLAS/rzgemv.c:60-61`), contracted. -/
def zsclFma (F : Fmt) (cR cI : Option Bool) (alpha x : Flt × Flt) : Flt × Flt :=
  (F.mul2C cR x.1 alpha.1 (fneg x.2) alpha.2, F.mul2C cI x.1 alpha.2 x.2 alpha.1)

/-- The complex products with `alpha` and `beta` are rounded twice without contraction and once with it, for ordinary numbers too: the matrix-vector product of a
matrix of one element `1` with `x = (1 + 2^-12) + i` and `alpha = x` has the real part `2^-11` or `2^-11 + 2^-24`. -/
theorem C72_scale_violated :
    let x : Flt × Flt := (f32.add f32.one (f32.pow2 (-12)), f32.one)
    let one : Int → Flt × Flt := fun _ => (f32.one, zero)
    let T : Tune := ⟨2, 1, 2, 1, 1, false⟩
    zsclFma f32 none none x x = f32.zscl x x
    ∧ convert f32 3 (f32.zmzdotu T 3 1 one 1 (fun _ => f32.zscl x x) 1 (dmsetzero 3, dmsetzero 3)).1 = f32.pow2 (-11)
    ∧ convert f32 3 (f32.zmzdotu T 3 1 one 1 (fun _ => zsclFma f32 (some false) none x x) 1 (dmsetzero 3, dmsetzero 3)).1 = f32.add (f32.pow2 (-11)) (f32.pow2 (-24)) := by
  decide +kernel

/-- Without the hypothesis on the products, C72 is false of the dot product: the exceptional loop adds the products to the accumulator, and a
fused operation does not overflow where the product does. The products are `2^128` and `-2^128` in single precision: `reproBLAS_rsdot` returns NaN without
contraction and plus infinity with it. With an accumulator of `2^127` and the product `-2^128` the results are minus infinity and NaN. -/
theorem C72_dot_violated :
    let T : Tune := ⟨2, 1, 2, 1, 1, false⟩
    let X : Int → Flt := fun _ => f32.pow2 64
    let Y : Int → Flt := fun i => if i = 0 then f32.pow2 64 else fneg (f32.pow2 64)
    let all : Nat → Picks := fun _ _ => (true, true)
    f32.isNaN (f32.rddot T 2 2 X 1 Y 1) = true
    ∧ convertC (fun _ => (true, true)) f32 2 (f32.dmddotC all (fun _ _ => true) T 2 2 X 1 Y 1 (dmsetzero 2)) = f32.inf false
    ∧ convert f32 2 (f32.dmddot T 2 1 X 1 (fun i => Y (i + 1)) 1 (f32.dmdconv 2 (f32.pow2 127))) = f32.inf true
    ∧ f32.isNaN (convertC (fun _ => (true, true)) f32 2 (f32.dmddotC all (fun _ _ => true) T 2 1 X 1 (fun i => Y (i + 1)) 1 (f32.dmdconv 2 (f32.pow2 127)))) = true := by
  decide +kernel

/-- Fusing the product of a dot product with the addition of the remainder of its own deposit, across statements, is not covered by C72 and changes the
result: the dot product of `(1 + 2^-12, 1)` and `(1 + 2^-12, -(1 + 2^-11))` is `0` without it and `2^-24` with it. -/
theorem C72_fast_violated :
    let a := f32.add f32.one (f32.pow2 (-12))
    let b := fneg (f32.add f32.one (f32.pow2 (-11)))
    let y := f32.dmdupdate 3 (f32.mul a a) (dmsetzero 3)
    let rest : List Flt → Flt := fun pri => convert f32 3 (f32.dmrenorm ⟨f32.kstep false b pri, y.car⟩)
    f32.dmindex0 (nth y.pri 0) = false ∧ rest (f32.kstep false (f32.mul a a) y.pri) = zero ∧ rest (f32.kstepFast a a y.pri) = f32.pow2 (-24) := by
  decide +kernel

/-- Fused and separate operations differ in general: `(1 + 2^-12)^2 - 1` in single precision. -/
example : f32.fma (f32.add f32.one (f32.pow2 (-12))) (f32.add f32.one (f32.pow2 (-12))) (fneg f32.one)
    ≠ f32.add (fneg f32.one) (f32.mul (f32.add f32.one (f32.pow2 (-12))) (f32.add f32.one (f32.pow2 (-12)))) := by decide +kernel

/-- The hypotheses are met, with deposits into bin 0 (where the products are) and a mixed choice of contractions. -/
example :
    let ch : Nat → Picks := fun i j => (i % 2 == 0, (i + j) % 3 == 0)
    f32.dmddotC ch (fun _ _ => true) ⟨2, 1, 2, 1, 1, false⟩ 2 3 (fun _ => f32.pow2 63) 1 (fun i => f32.mul (f32.pow2 63) (f32.ofInt (i + 1))) 1 (dmsetzero 2)
      = f32.dmddot ⟨2, 1, 2, 1, 1, false⟩ 2 3 (fun _ => f32.pow2 63) 1 (fun i => f32.mul (f32.pow2 63) (f32.ofInt (i + 1))) 1 (dmsetzero 2)
    ∧ ¬ f32.dmindex (nth (f32.dmddot ⟨2, 1, 2, 1, 1, false⟩ 2 1 (fun _ => f32.pow2 63) 1 (fun i => f32.mul (f32.pow2 63) (f32.ofInt (i + 1))) 1 (dmsetzero 2)).pri 0) ≠ 0 := by
  decide +kernel

/-- The hypothesis of the complex theorem is met by numbers of any ordinary size. -/
example : DotSmall f64 (f64.pow2 500, fneg (f64.ofInt 7)) (f64.ofInt (-3), f64.pow2 400) := by
  unfold DotSmall; decide +kernel

end Repro
