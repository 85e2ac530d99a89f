import Verif.Int32Lemmas
/-!
# The checked vector routines do what the unchecked ones do, if the spans of the vectors are representable
-/

namespace Repro

/-- The unroll widths of the generator are moderate (they are at most 512, `src/gen/vectorizations.py`, `src/binned/deposit.py`). -/
structure Tune.Small (T : Tune) : Prop where
  dep : T.pipe * T.unroll ≤ 1000000
  amax : T.aunroll ≤ 1000000

variable {F : Fmt}

theorem Gen.chunk_le {G : Gen} (hT : G.T.OK F) {u n : Nat} (h1 : 1 ≤ u) (hd : G.T.ts ∣ u) {c : Chunk} (hc : c ∈ (runUnrolled G.tsz u n).done) : c.count ≤ n ∧ 1 ≤ c.count := by
  obtain ⟨a, ha⟩ := hT.ts
  rw [Gen.done_eq hT] at hc
  have := C37_loads_in_bounds (n := n) (Or.inr ⟨a, ha⟩) h1 (Or.inl hd) hc
  omega

theorem Gen.pw1 (G : Gen) : 1 ≤ G.pw := by unfold Gen.pw; split <;> omega

theorem Gen.kernelC_eq {G : Gen} (hT : G.T.OK F) (hs : G.T.Small) {M : Nat → Int → Flt} {incX incZ : Int} {expand : Bool} {fold n : Nat} {σ : Regs}
    (hn : (n : Int) ≤ 2000000000) (hX : Reach G.pw incX n) (hZ : G.op.prod = true → Reach G.pw incZ n) :
    G.kernelC F M incX incZ expand fold n σ = some (G.kernelCode F M incX incZ expand fold n σ) := by
  unfold Gen.kernelC
  have hsp : ∀ inc ∈ (incX :: if G.op.prod then [incZ] else []), Reach G.pw inc n := by
    intro inc hi
    rcases List.mem_cons.1 hi with rfl | hi
    · exact hX
    · split at hi
      · rw [List.mem_singleton] at hi; subst hi; exact hZ (by assumption)
      · simp at hi
  obtain ⟨a, ha⟩ := hT.ts
  obtain ⟨b, hb⟩ := hT.pipe
  have hN0 : 0 < G.T.pipe := by rw [hb]; exact Nat.two_pow_pos b
  have hdv : G.T.ts ∣ G.T.pipe := by
    rw [ha, hb]; apply Nat.pow_dvd_pow
    have := hT.tp; rw [ha, hb] at this
    exact (Nat.pow_le_pow_iff_right (by omega : 1 < 2)).1 this
  have hU : ((G.T.pipe * G.T.unroll : Nat) : Int) ≤ 1000000 := by exact_mod_cast hs.dep
  rw [chk_pos (stmtInts_fit G.pw1 hsp (U := G.T.pipe * G.T.unroll) (by omega) _ _ (emit_le _ _) (Nat.zero_le _)), chk_pos]
  intro z hz
  rw [List.mem_flatMap] at hz
  obtain ⟨c, hc, hz⟩ := hz
  have hc' := Gen.chunk_le hT (Nat.mul_pos hN0 hT.unroll) (Dvd.dvd.mul_right hdv _) hc
  exact CSubs.body (loadC_fit hX hc'.1 hc'.2) (fun h => loadC_fit (hZ h) hc'.1 hc'.2) _ _ _ z hz

theorem GenA.codeC_eq {A : GenA} (hT : A.T.OK F) (hs : A.T.Small) {M : Nat → Int → Flt} {incX incZ : Int} {n : Nat} {σ : Regs}
    (hn : (n : Int) ≤ 2000000000) (hX : Reach A.gen.pw incX n) (hZ : A.prod = true → Reach A.gen.pw incZ n) :
    A.codeC F M incX incZ n σ = some (A.code F M incX incZ n σ) := by
  unfold GenA.codeC
  have hsp : ∀ inc ∈ (incX :: if A.prod then [incZ] else []), Reach A.gen.pw inc n := by
    intro inc hi
    rcases List.mem_cons.1 hi with rfl | hi
    · exact hX
    · split at hi
      · rw [List.mem_singleton] at hi; subst hi; exact hZ (by assumption)
      · simp at hi
  rw [chk_pos (stmtInts_fit A.gen.pw1 hsp (U := A.T.aunroll) (by have := hs.amax; omega) _ _ (emit_le _ _) (Nat.zero_le _)), chk_pos]
  intro z hz
  rw [List.mem_flatMap] at hz
  obtain ⟨c, hc, hz⟩ := hz
  have hc' := Gen.chunk_le (G := A.gen) hT hT.au1 hT.au hc
  exact CSubs.abody (loadC_fit hX hc'.1 hc'.2) (fun h => loadC_fit (hZ h) hc'.1 hc'.2) z hz

theorem Reach.mul_fit {inc : Int} {n j : Nat} (h : Reach 1 inc n) (hj : j ≤ n) : InInt ((j : Int) * inc) := by
  have h := h.mono hj
  unfold Reach at h
  rw [Nat.cast_one, one_mul] at h
  apply inInt_of_abs
  rw [abs_mul, Nat.abs_cast, mul_comm]
  exact h

theorem endurance_le (hF : F = f64 ∨ F = f32) : F.endurance ≤ 2048 := by
  rcases hF with rfl | rfl <;> decide

namespace Fmt

theorem accum0K_eq {n : Nat} {es : Nat → List Int} {t : Nat → Mem → Flt} {a : Int} {m : Mem} (hn : n ≤ 2147483647) (h : ∀ j, j < n → ∀ z ∈ es j, InInt z) :
    F.accum0K n es t a m = some (F.accum0M n t a m) := by
  unfold accum0K accum0M
  rw [for1_eq (g := fun j m => m.set a (F.add (m a) (t j m))) (by omega) (by omega) (fun j m hj => chk_pos (h j hj)), forS01]

theorem ite_some {α : Type} (c : Prop) [Decidable c] (a b : α) : (if c then some a else some b) = some (if c then a else b) := by split <;> rfl

theorem rloopC_eq (hF : F = f64 ∨ F = f32) {T : Tune} (hT : T.OK F) (hs : T.Small) (op : DepOp) (expand : Bool) (fold : Nat) (l : Loc) {incX incZ : Int} (jA jD : Nat → Regs) {N : Nat}
    (hN : N ≤ 2147483647) (hX : Reach 1 incX N) (hZ : op.prod = true → Reach 1 incZ N) :
    ∀ (fuel i : Nat) (X Z : Int) (dep : Nat) (m : Mem), N ≤ fuel + i → dep ≤ F.endurance →
      F.rloopC T op expand fold l incX incZ jA jD N (fuel + 1) i X Z dep m = some (F.rloopM T op expand fold l incX incZ jA jD fuel (N - i) X Z dep m) := by
  have hE := endurance_le hF
  have hnb1 := hT.nb1
  have hnb2 := hT.nb2
  intro fuel
  induction fuel with
  | zero => intro i X Z dep m hf hd; unfold rloopC rloopM; rw [if_pos (by omega)]
  | succ fuel ih =>
    intro i X Z dep m hf hd
    rw [rloopC, rloopM]
    by_cases h0 : N ≤ i
    · rw [if_pos h0, if_pos (by omega)]
    rw [if_neg h0, if_neg (show ¬ N - i = 0 by omega)]
    dsimp only
    have hle : min (N - i) T.nb ≤ N := by omega
    have hb : min (N - i) T.nb ≤ 2048 := by omega
    have hrem : N - i - min (N - i) T.nb = N - (i + min (N - i) T.nb) := by omega
    rw [hrem]
    have hf' : N ≤ fuel + (i + min (N - i) T.nb) := by omega
    have hci : ∀ z ∈ [(N : Int) - i, (i : Int) + (min (N - i) T.nb : Nat)], InInt z := by
      intro z hz
      simp only [List.mem_cons, List.not_mem_nil, or_false] at hz
      unfold InInt
      rcases hz with rfl | rfl <;> omega
    generalize hnb : min (N - i) T.nb = nb at *
    rw [chk_pos hci, GenA.codeC_eq (A := GenA.mk T false op.prod) hT hs (by omega) (hX.mono hle) (fun h => (hZ h).mono hle), Option.bind_some]
    generalize (GenA.mk T false op.prod).code F (behind m X Z) incX incZ nb (jA (N - i)) (.am 0) 0 = amax
    rw [accum0K_eq (by omega) (fun j hj => by
      intro z hz
      unfold rsubs at hz
      rcases List.mem_append.1 hz with hz | hz
      · rw [List.mem_singleton] at hz; subst hz; exact hX.mul_fit (by omega)
      · split at hz
        · rw [List.mem_singleton] at hz; subst hz; exact (hZ (by assumption)).mul_fit (by omega)
        · simp at hz), ite_some, Option.bind_some]
    generalize (if (F.isInf amax || F.isInf (m l.pri)) = true then _ else m) = m1
    by_cases hn : F.isNaN (m1 l.pri) = true
    · rw [if_pos hn, if_pos hn]
    rw [if_neg hn, if_neg hn]
    by_cases hi : F.isInf (m1 l.pri) = true
    · rw [if_pos hi, if_pos hi, chk_pos, ih _ _ _ _ _ hf' hd]
      intro z hz
      rcases List.mem_append.1 hz with hz | hz
      · rw [List.mem_singleton] at hz; subst hz; exact hX.mul_fit hle
      · split at hz
        · rw [List.mem_singleton] at hz; subst hz; exact (hZ (by assumption)).mul_fit hle
        · simp at hz
    rw [if_neg hi, if_neg hi, chk_pos (by intro z hz; rw [List.mem_singleton] at hz; subst hz; unfold InInt; omega),
      Gen.kernelC_eq (G := Gen.mk T false op) hT hs (by omega) (hX.mono hle) (fun h => (hZ h).mono hle), Option.bind_some, ih _ _ _ _ _ hf' (by split <;> omega)]

/-- `binnedBLAS_dmdsum`, `binnedBLAS_dmdasum`, `binnedBLAS_dmddot`. -/
theorem rvecC_eq (hF : F = f64 ∨ F = f32) {T : Tune} (hT : T.OK F) (hs : T.Small) (op : DepOp) (expand : Bool) (fold : Nat) (l : Loc) {X incX Z incZ : Int} (jA jD : Nat → Regs) {n : Nat}
    (hN : n ≤ 2147483647) (hX : Reach 1 incX n) (hZ : op.prod = true → Reach 1 incZ n) (m : Mem) :
    F.rvecC T op expand fold l n X incX Z incZ jA jD m = some (F.rvecM T op expand fold l n X incX Z incZ jA jD m) :=
  rloopC_eq hF hT hs op expand fold l jA jD hN hX hZ n 0 X Z 0 m (by omega) (by omega)

theorem zsubs1_fit {inc : Int} {n j : Nat} (h : Reach 2 inc n) (hj : j < n) (hb : n ≤ 2048) : ∀ z ∈ zsubs1 inc j, InInt z := by
  have h := h.mono (show j + 1 ≤ n by omega)
  unfold Reach at h
  have e : |(j : Int) * 2 * inc| = 2 * |inc| * j := by rw [abs_mul, abs_mul, Nat.abs_cast]; rw [show |(2 : Int)| = 2 from rfl]; ring
  intro z hz
  simp only [zsubs1, List.mem_cons, List.not_mem_nil, or_false] at hz
  rcases hz with rfl | rfl | rfl
  · unfold InInt; omega
  all_goals
    by_cases h0 : inc = 0
    · subst h0; rw [mul_zero]; decide
    have : 1 ≤ |inc| := Int.one_le_abs h0
    have h4 : (2 : Int) * |inc| * (j : Int) + 2 ≤ 2147483647 := by push_cast at h ⊢; nlinarith
    rw [← e] at h4
    have := abs_le.1 (show |(j : Int) * 2 * inc| ≤ 2147483645 by omega)
    unfold InInt
    omega

theorem _root_.Repro.Reach.mul2_fit {inc : Int} {n j : Nat} (h : Reach 2 inc n) (hj : j ≤ n) : InInt ((j : Int) * 2 * inc) := by
  have h := h.mono hj
  unfold Reach at h
  apply inInt_of_abs
  have e : |(j : Int) * 2 * inc| = 2 * |inc| * j := by rw [abs_mul, abs_mul, Nat.abs_cast]; rw [show |(2 : Int)| = 2 from rfl]; ring
  rw [e]
  exact_mod_cast h

theorem blk_fit {N i nb : Nat} (hN : N ≤ 2147483647) (hi : i + nb ≤ N) : ∀ z ∈ [(N : Int) - i, (i : Int) + (nb : Nat)], InInt z := by
  intro z hz
  simp only [List.mem_cons, List.not_mem_nil, or_false] at hz
  unfold InInt
  rcases hz with rfl | rfl <;> omega

theorem one_fit {z : Int} (h : InInt z) : ∀ y ∈ [z], InInt y := by
  intro y hy; rw [List.mem_singleton] at hy; subst hy; exact h

theorem zloopC_eq (hF : F = f64 ∨ F = f32) {T : Tune} (hT : T.OK F) (hs : T.Small) (op : DepOp) (expand : Bool) (fold : Nat) (l : Loc) {incX incZ : Int} (jA jD : Nat → Regs) {N : Nat}
    (hN : N ≤ 2147483647) (hX : Reach 2 incX N) (hZ : op.prod = true → Reach 2 incZ N) :
    ∀ (fuel i : Nat) (X Z : Int) (dep : Nat) (m : Mem), N ≤ fuel + i → dep ≤ F.endurance →
      F.zloopC T op expand fold l incX incZ jA jD N (fuel + 1) i X Z dep m = some (F.zloopM T op expand fold l incX incZ jA jD fuel (N - i) X Z dep m) := by
  have hE := endurance_le hF
  have hnb1 := hT.nb1
  have hnb2 := hT.nb2
  intro fuel
  induction fuel with
  | zero => intro i X Z dep m hf hd; unfold zloopC zloopM; rw [if_pos (by omega)]
  | succ fuel ih =>
    intro i X Z dep m hf hd
    rw [zloopC, zloopM]
    by_cases h0 : N ≤ i
    · rw [if_pos h0, if_pos (by omega)]
    rw [if_neg h0, if_neg (show ¬ N - i = 0 by omega)]
    dsimp only
    have hle : min (N - i) T.nb ≤ N := by omega
    have hb : min (N - i) T.nb ≤ 2048 := by omega
    have hbE : min (N - i) T.nb ≤ F.endurance := by omega
    have hrem : N - i - min (N - i) T.nb = N - (i + min (N - i) T.nb) := by omega
    rw [hrem]
    have hf' : N ≤ fuel + (i + min (N - i) T.nb) := by omega
    have hci := blk_fit (i := i) (nb := min (N - i) T.nb) hN (by omega)
    generalize hnb : min (N - i) T.nb = nb at *
    have hsub : ∀ j, j < nb → ∀ z ∈ zsubs op incX incZ j, InInt z := by
      intro j hj z hz
      unfold zsubs at hz
      rcases List.mem_append.1 hz with hz | hz
      · exact zsubs1_fit (hX.mono hle) hj hb z hz
      · split at hz
        · exact zsubs1_fit ((hZ (by assumption)).mono hle) hj hb z hz
        · simp at hz
    rw [chk_pos hci, GenA.codeC_eq (A := GenA.mk T true op.prod) hT hs (by omega) (hX.mono hle) (fun h => (hZ h).mono hle), Option.bind_some]
    generalize (GenA.mk T true op.prod).code F (behind m X Z) incX incZ nb (jA (N - i)) = σA
    rw [accum0K_eq (by omega) hsub, ite_some, Option.bind_some]
    generalize (if (F.isInf (σA (.am 0) 0) || F.isInf (m l.pri)) = true then _ else m) = m1
    rw [accum0K_eq (by omega) hsub, ite_some, Option.bind_some]
    generalize (if (F.isInf (σA (.am 1) 0) || F.isInf (m1 (l.pri + 1))) = true then _ else m1) = m2
    by_cases hn : (F.isNaN (m2 l.pri) && F.isNaN (m2 (l.pri + 1))) = true
    · rw [if_pos hn, if_pos hn]
    rw [if_neg hn, if_neg hn]
    by_cases hi : (F.isInf (m2 l.pri) && F.isInf (m2 (l.pri + 1))) = true
    · rw [if_pos hi, if_pos hi, chk_pos, ih _ _ _ _ _ hf' hd]
      intro z hz
      rcases List.mem_append.1 hz with hz | hz
      · simp only [List.mem_cons, List.not_mem_nil, or_false] at hz
        rcases hz with rfl | rfl
        · unfold InInt; omega
        · exact hX.mul2_fit hle
      · split at hz
        · rw [List.mem_singleton] at hz; subst hz; exact (hZ (by assumption)).mul2_fit hle
        · simp at hz
    have hdep : (if dep + nb > F.endurance / (if op.prod = true then 2 else 1) then 0 else dep) + nb ≤ F.endurance := by
      have hdv : F.endurance / (if op.prod = true then 2 else 1) ≤ F.endurance := Nat.div_le_self _ _
      generalize F.endurance / (if op.prod = true then 2 else 1) = d at hdv
      split <;> omega
    rw [if_neg hi, if_neg hi, chk_pos (one_fit (by unfold InInt; omega)),
      Gen.kernelC_eq (G := Gen.mk T true op) hT hs (by omega) (hX.mono hle) (fun h => (hZ h).mono hle), Option.bind_some, ih _ _ _ _ _ hf' hdep]

/-- `binnedBLAS_zmzsum`, `binnedBLAS_zmzdotu`, `binnedBLAS_zmzdotc`. -/
theorem zvecC_eq (hF : F = f64 ∨ F = f32) {T : Tune} (hT : T.OK F) (hs : T.Small) (op : DepOp) (expand : Bool) (fold : Nat) (l : Loc) {X incX Z incZ : Int} (jA jD : Nat → Regs) {n : Nat}
    (hN : n ≤ 2147483647) (hX : Reach 2 incX n) (hZ : op.prod = true → Reach 2 incZ n) (m : Mem) :
    F.zvecC T op expand fold l n X incX Z incZ jA jD m = some (F.zvecM T op expand fold l n X incX Z incZ jA jD m) :=
  zloopC_eq hF hT hs op expand fold l jA jD hN hX hZ n 0 X Z 0 m (by omega) (by omega)

theorem ssqLoopK_eq (hF : F = f64 ∨ F = f32) {T : Tune} (hT : T.OK F) (hs : T.Small) (expand : Bool) (fold : Nat) (l : Loc) {incX : Int} (jA jD : Nat → Regs) {N : Nat}
    (hN : N ≤ 2147483647) (hX : Reach 1 incX N) :
    ∀ (fuel i : Nat) (X : Int) (dep : Nat) (scl : Flt) (m : Mem), N ≤ fuel + i → dep ≤ F.endurance →
      F.ssqLoopK T expand fold l incX jA jD N (fuel + 1) i X dep scl m = some (F.ssqLoopM T expand fold l incX jA jD fuel (N - i) X dep scl m) := by
  have hE := endurance_le hF
  have hnb1 := hT.nb1
  have hnb2 := hT.nb2
  intro fuel
  induction fuel with
  | zero => intro i X dep scl m hf hd; unfold ssqLoopK ssqLoopM; rw [if_pos (by omega)]
  | succ fuel ih =>
    intro i X dep scl m hf hd
    rw [ssqLoopK, ssqLoopM]
    by_cases h0 : N ≤ i
    · rw [if_pos h0, if_pos (by omega)]
    rw [if_neg h0, if_neg (show ¬ N - i = 0 by omega)]
    dsimp only
    have hle : min (N - i) T.nb ≤ N := by omega
    have hb : min (N - i) T.nb ≤ 2048 := by omega
    have hbE : min (N - i) T.nb ≤ F.endurance := by omega
    have hrem : N - i - min (N - i) T.nb = N - (i + min (N - i) T.nb) := by omega
    rw [hrem]
    have hf' : N ≤ fuel + (i + min (N - i) T.nb) := by omega
    have hci := blk_fit (i := i) (nb := min (N - i) T.nb) hN (by omega)
    generalize hnb : min (N - i) T.nb = nb at *
    rw [chk_pos hci, GenA.codeC_eq (A := GenA.mk T false false) hT hs (by omega) (hX.mono hle) (fun h => hX.mono hle), Option.bind_some]
    generalize (GenA.mk T false false).code F (behind m X X) incX incX nb (jA (N - i)) (.am 0) 0 = amax
    rw [accum0K_eq (by omega) (fun j hj => one_fit (hX.mul_fit (by omega))), ite_some, Option.bind_some]
    generalize (if (F.isInf amax || F.isInf (m l.pri)) = true then _ else m) = m1
    by_cases hn : F.isNaN (m1 l.pri) = true
    · rw [if_pos hn, if_pos hn]
    rw [if_neg hn, if_neg hn]
    by_cases hi : F.isInf (m1 l.pri) = true
    · rw [if_pos hi, if_pos hi, chk_pos (one_fit (hX.mul_fit hle)), ih _ _ _ _ _ hf' hd]
    rw [if_neg hi, if_neg hi, chk_pos (one_fit (by unfold InInt; omega)),
      Gen.kernelC_eq (G := Gen.mk T false _) hT hs (by omega) (hX.mono hle) (fun h => hX.mono hle), Option.bind_some, ih _ _ _ _ _ hf' (by split <;> omega)]

/-- `binnedBLAS_dmdssq`. -/
theorem ssqVecC_eq (hF : F = f64 ∨ F = f32) {T : Tune} (hT : T.OK F) (hs : T.Small) (expand : Bool) (fold : Nat) (l : Loc) {X incX : Int} (scl : Flt) (jA jD : Nat → Regs) {n : Nat}
    (hN : n ≤ 2147483647) (hX : Reach 1 incX n) (m : Mem) :
    F.ssqVecC T expand fold l n X incX scl jA jD m = some (F.ssqVecM T expand fold l n X incX scl jA jD m) :=
  ssqLoopK_eq hF hT hs expand fold l jA jD hN hX n 0 X 0 scl m (by omega) (by omega)

theorem accumAbsC_eq {n : Nat} {x inc a : Int} {m : Mem} (hn : n ≤ 2048) (h : Reach 2 inc n) : F.accumAbsC n x inc a m = some (F.accumAbsM n x inc a m) := by
  unfold accumAbsC accumAbsM
  rw [for1_eq (g := fun (j : Nat) m => (m.set a (F.add (m a) (fabs (m (x + j * 2 * inc))))).set a (F.add ((m.set a (F.add (m a) (fabs (m (x + j * 2 * inc))))) a)
    (fabs ((m.set a (F.add (m a) (fabs (m (x + j * 2 * inc))))) (x + j * 2 * inc + 1))))) (by omega) (by omega) (fun j m hj => chk_pos (zsubs1_fit h hj hn)), forS01]

theorem zasumLoopK_eq (hF : F = f64 ∨ F = f32) {T : Tune} (hT : T.OK F) (hs : T.Small) (expand : Bool) (fold : Nat) (s l : Loc) {incX : Int} (jA jD : Nat → Regs) {N : Nat}
    (hN : N ≤ 2147483647) (hX : Reach 2 incX N) :
    ∀ (fuel i : Nat) (X : Int) (dep : Nat) (m : Mem), N ≤ fuel + i → dep ≤ F.endurance →
      F.zasumLoopK T expand fold s l incX jA jD N (fuel + 1) i X dep m = some (F.zasumLoopM T expand fold s l incX jA jD fuel (N - i) X dep m) := by
  have hE := endurance_le hF
  have hnb1 := hT.nb1
  have hnb2 := hT.nb2
  intro fuel
  induction fuel with
  | zero => intro i X dep m hf hd; unfold zasumLoopK zasumLoopM; rw [if_pos (by omega)]
  | succ fuel ih =>
    intro i X dep m hf hd
    rw [zasumLoopK, zasumLoopM]
    by_cases h0 : N ≤ i
    · rw [if_pos h0, if_pos (by omega)]
    rw [if_neg h0, if_neg (show ¬ N - i = 0 by omega)]
    dsimp only
    have hle : min (N - i) T.nb ≤ N := by omega
    have hb : min (N - i) T.nb ≤ 2048 := by omega
    have hbE : min (N - i) T.nb ≤ F.endurance := by omega
    have hrem : N - i - min (N - i) T.nb = N - (i + min (N - i) T.nb) := by omega
    rw [hrem]
    have hf' : N ≤ fuel + (i + min (N - i) T.nb) := by omega
    have hci := blk_fit (i := i) (nb := min (N - i) T.nb) hN (by omega)
    generalize hnb : min (N - i) T.nb = nb at *
    rw [chk_pos hci, GenA.codeC_eq (A := GenA.mk T true false) hT hs (by omega) (hX.mono hle) (fun h => hX.mono hle), Option.bind_some]
    generalize (GenA.mk T true false).code F (behind m X X) incX incX nb (jA (N - i)) = σA
    generalize F.fmax (σA (.am 0) 0) (σA (.am 1) 0) = amax
    rw [accumAbsC_eq hb (hX.mono hle), ite_some, Option.bind_some]
    generalize (if (F.isInf amax || F.isInf (m l.pri)) = true then _ else m) = m1
    by_cases hn : (F.isNaN (m1 l.pri) || F.isNaN (m1 s.pri) || F.isNaN (m1 (s.pri + 1))) = true
    · rw [if_pos hn, if_pos hn]
    rw [if_neg hn, if_neg hn]
    by_cases hi : F.isInf (m1 l.pri) = true
    · rw [if_pos hi, if_pos hi, chk_pos, ih _ _ _ _ hf' hd]
      intro z hz
      simp only [List.mem_cons, List.not_mem_nil, or_false] at hz
      rcases hz with rfl | rfl
      · unfold InInt; omega
      · exact hX.mul2_fit hle
    rw [if_neg hi, if_neg hi, chk_pos (one_fit (by unfold InInt; omega)),
      Gen.kernelC_eq (G := Gen.mk T true _) hT hs (by omega) (hX.mono hle) (fun h => hX.mono hle), Option.bind_some, ih _ _ _ _ hf' (by split <;> omega)]

/-- `binnedBLAS_dmzasum`. -/
theorem zasumVecC_eq (hF : F = f64 ∨ F = f32) {T : Tune} (hT : T.OK F) (hs : T.Small) (expand : Bool) (fold : Nat) (tmp : Int) (l : Loc) {X incX : Int} (jA jD : Nat → Regs) {n : Nat}
    (hN : n ≤ 2147483647) (hX : Reach 2 incX n) (m : Mem) :
    F.zasumVecC T expand fold tmp l n X incX jA jD m = some (F.zasumVecM T expand fold tmp l n X incX jA jD m) :=
  zasumLoopK_eq hF hT hs expand fold _ l jA jD hN hX n 0 X 0 _ (by omega) (by omega)

theorem zssqLoopK_eq (hF : F = f64 ∨ F = f32) {T : Tune} (hT : T.OK F) (hs : T.Small) (expand : Bool) (fold : Nat) (t0 t1 : Int) (s l : Loc) {incX : Int} (scaleY : Flt) (jA jD : Nat → Regs) {N : Nat}
    (hN : N ≤ 2147483647) (hX : Reach 2 incX N) :
    ∀ (fuel i : Nat) (X : Int) (dep : Nat) (scl : Flt) (m : Mem), N ≤ fuel + i → dep ≤ F.endurance →
      F.zssqLoopK T expand fold t0 t1 s l incX scaleY jA jD N (fuel + 1) i X dep scl m = some (F.zssqLoopM T expand fold t0 t1 s l incX scaleY jA jD fuel (N - i) X dep scl m) := by
  have hE := endurance_le hF
  have hnb1 := hT.nb1
  have hnb2 := hT.nb2
  intro fuel
  induction fuel with
  | zero => intro i X dep scl m hf hd; unfold zssqLoopK zssqLoopM; rw [if_pos (by omega)]
  | succ fuel ih =>
    intro i X dep scl m hf hd
    rw [zssqLoopK, zssqLoopM]
    by_cases h0 : N ≤ i
    · rw [if_pos h0, if_pos (by omega)]
    rw [if_neg h0, if_neg (show ¬ N - i = 0 by omega)]
    dsimp only
    have hle : min (N - i) T.nb ≤ N := by omega
    have hb : min (N - i) T.nb ≤ 2048 := by omega
    have hbE : min (N - i) T.nb ≤ F.endurance := by omega
    have hrem : N - i - min (N - i) T.nb = N - (i + min (N - i) T.nb) := by omega
    rw [hrem]
    have hf' : N ≤ fuel + (i + min (N - i) T.nb) := by omega
    have hci := blk_fit (i := i) (nb := min (N - i) T.nb) hN (by omega)
    generalize hnb : min (N - i) T.nb = nb at *
    rw [chk_pos hci, GenA.codeC_eq (A := GenA.mk T true false) hT hs (by omega) (hX.mono hle) (fun h => hX.mono hle), Option.bind_some]
    generalize (GenA.mk T true false).code F (behind m X X) incX incX nb (jA (N - i)) = σA
    generalize F.fmax (σA (.am 0) 0) (σA (.am 1) 0) = amax
    rw [accumAbsC_eq hb (hX.mono hle), ite_some, Option.bind_some]
    generalize (if (F.isInf amax || F.isInf (m l.pri)) = true then _ else m) = m1
    by_cases hn : (F.isNaN (m1 l.pri) || F.isNaN (m1 s.pri) || F.isNaN (m1 (s.pri + 1))) = true
    · rw [if_pos hn, if_pos hn]
    rw [if_neg hn, if_neg hn]
    by_cases hi : F.isInf (m1 l.pri) = true
    · rw [if_pos hi, if_pos hi, chk_pos, ih _ _ _ _ _ hf' hd]
      intro z hz
      simp only [List.mem_cons, List.not_mem_nil, or_false] at hz
      rcases hz with rfl | rfl
      · unfold InInt; omega
      · exact hX.mul2_fit hle
    rw [if_neg hi, if_neg hi, chk_pos (one_fit (by unfold InInt; omega)),
      Gen.kernelC_eq (G := Gen.mk T true _) hT hs (by omega) (hX.mono hle) (fun h => hX.mono hle), Option.bind_some, ih _ _ _ _ _ hf' (by split <;> omega)]

/-- `binnedBLAS_dmzssq`. -/
theorem zssqVecC_eq (hF : F = f64 ∨ F = f32) {T : Tune} (hT : T.OK F) (hs : T.Small) (expand : Bool) (fold : Nat) (tmp t0 t1 : Int) (l : Loc) {X incX : Int} (scaleY : Flt) (jA jD : Nat → Regs) {n : Nat}
    (hN : n ≤ 2147483647) (hX : Reach 2 incX n) (m : Mem) :
    F.zssqVecC T expand fold tmp t0 t1 l n X incX scaleY jA jD m = some (F.zssqVecM T expand fold tmp t0 t1 l n X incX scaleY jA jD m) :=
  zssqLoopK_eq hF hT hs expand fold t0 t1 _ l scaleY jA jD hN hX n 0 X 0 _ _ (by omega) (by omega)

end Fmt
end Repro
