import Verif.GenRunSq
import Verif.PropsGenRunZ
import Verif.PropsScale
import Verif.SsqState
/-!
# C64: `binnedBLAS_dmdssq` in memory
-/

namespace Repro
open Fmt
variable {F : Fmt}

/-- A bit pattern of the format: the exponent field is not longer than it is. -/
def Fmt.Word (F : Fmt) (x : Flt) : Prop := F.expo x ≤ F.emax

theorem zero_word : F.Word zero := by
  unfold Fmt.Word Fmt.expo; simp [zero]

theorem fabs_word {x : Flt} (h : F.Word x) : F.Word (fabs x) := h

theorem fmax_of (P : Flt → Prop) {a b : Flt} (ha : P a) (hb : P b) : P (F.fmax a b) := by
  unfold Fmt.fmax; split
  · exact ha
  · exact hb

theorem nth_of (P : Flt → Prop) (h0 : P zero) {vs : List Flt} (hv : ∀ x ∈ vs, P x) (i : Nat) : P (nth vs i) := by
  unfold nth
  rw [List.getD_eq_getElem?_getD]
  by_cases h : i < vs.length
  · rw [List.getElem?_eq_getElem h]; exact hv _ (List.getElem_mem h)
  · rw [List.getElem?_eq_none (by omega)]; exact h0

theorem maxfold_of (P : Flt → Prop) (h0 : P zero) (tr : List (Nat × Flt)) : ∀ (m : List Flt), (∀ d ∈ tr, P d.2) → (∀ x ∈ m, P x) →
    ∀ x ∈ tr.foldl (fun m d => m.set d.1 (F.fmax (nth m d.1) d.2)) m, P x := by
  induction tr with
  | nil => intro m _ hm; exact hm
  | cons d tr ih =>
    intro m hd hm
    refine ih _ (fun d' h => hd d' (List.mem_cons_of_mem _ h)) (fun x hx => ?_)
    rcases List.mem_or_eq_of_mem_set hx with h | h
    · exact hm x h
    · rw [h]; exact fmax_of P (nth_of P h0 hm _) (hd d (by simp))

theorem maxrun_of (P : Flt → Prop) (g : Nat → Flt) (hg : ∀ i, P (g i)) (is : List Nat) : ∀ a, P a → P (is.foldl (fun a i => F.fmax a (g i)) a) := by
  induction is with
  | nil => intro a ha; exact ha
  | cons i is ih => intro a ha; exact ih _ (fmax_of P ha (hg i))

/-- The maximum kernel returns one of the values or zero. -/
theorem amaxK_of (P : Flt → Prop) (h0 : P zero) (T : Tune) {vs : List Flt} (hv : ∀ x ∈ vs, P x) : P (F.amaxK T vs) := by
  unfold amaxK
  dsimp only
  have hm := maxfold_of (F := F) P h0 ((runUnrolled T.ts T.aunroll vs.length).done.flatMap (fun c =>
    if c.part then
      (List.range T.ts).map (fun l => (l, if l < c.count then nth vs (c.off + l) else zero))
    else (List.range c.count).map (fun e => (e % T.ts, nth vs (c.off + e))))) (List.replicate T.ts zero) (by
      intro d hd
      obtain ⟨c, _, hd⟩ := List.mem_flatMap.mp hd
      split at hd
      · obtain ⟨l, _, rfl⟩ := List.mem_map.mp hd
        dsimp only
        split
        · exact nth_of P h0 hv _
        · exact h0
      · obtain ⟨e, _, rfl⟩ := List.mem_map.mp hd
        exact nth_of P h0 hv _) (by
      intro x hx; rw [(List.mem_replicate.mp hx).2]; exact h0)
  exact maxrun_of P _ (fun i => nth_of P h0 hm i) _ _ (nth_of P h0 hm 0)

/-! ### The block loop -/

/-- The scale of an accumulator: zero, or a number with a finite reciprocal (all values of `binned_dscale` have one). -/
def ScaleOK (F : Fmt) (scl : Flt) : Prop := scl = zero ∨ F.Finite (F.div F.one scl)

theorem scale_recip [F.OK] {x : Flt} (h : F.Word x) : F.Finite (F.div F.one (F.dscale x)) := by
  obtain ⟨z, n, m, h1, h2, h3, h4, h5, h6, h7, h8, h9, h10, h11⟩ := C30_scale (F := F) x h
  exact h9

theorem scale_gt_zero [F.OK] {x : Flt} (h : F.Word x) : F.lt zero (F.dscale x) = true := by
  obtain ⟨z, n, m, h1, h2, h3, h4, h5, h6, h7, h8, h9, h10, h11⟩ := C30_scale (F := F) x h
  rw [lt_scale rfl h5 zero_finite h6]
  have := mag_ne_of_val h7
  simp only [decide_eq_true_eq]
  show 0 < _; omega

/-- The scale a block is deposited with has a finite reciprocal. -/
theorem scale_next [F.OK] {scl amax : Flt} (hs : ScaleOK F scl) (h : F.Word amax) :
    F.Finite (F.div F.one (if F.lt scl (F.dscale amax) then F.dscale amax else scl)) := by
  split
  · exact scale_recip h
  · next hn =>
    rcases hs with rfl | hs
    · exact absurd (scale_gt_zero h) hn
    · exact hs

theorem ssqEndM_spec {fold : Nat} (hf : 1 ≤ fold) {l : Loc} (hs : Sep fold l) (scl : Flt) (m : Mem) :
    ((F.ssqEndM fold l scl m).1, view fold l (F.ssqEndM fold l scl m).2) = F.ssqEnd scl (view fold l m)
    ∧ ∀ a, ¬ l.In fold a → (F.ssqEndM fold l scl m).2 a = m a := by
  have hren := dmrenormM_refines (F := F) hf hs m
  unfold ssqEndM ssqEnd
  dsimp only
  rw [← hren.1, nth_view0 hf]
  exact ⟨rfl, hren.2⟩

/-- A block of squares deposited in memory. -/
theorem ssq_block_view [F.OK] {T : Tune} (hT : T.OK F) {scl : Flt} (hS : F.Finite (F.div F.one scl)) (m : Mem) (X incX : Int) {expand : Bool} {fold : Nat}
    (hf : 1 ≤ fold) (he : expand = true → 2 ≤ fold) (n : Nat) {l : Loc} (hs : Sep fold l) (σ : Regs) :
    view fold l (storeY fold 0 l ((Gen.mk T false (.ssq (F.div F.one scl))).kernelCode F (behind m X X) incX incX expand fold n (bindY l l m σ)) m)
      = ⟨F.kernel T ((rvals F .sum m X X incX incX n).map (F.sq scl)) (view fold l m).pri, (view fold l m).car⟩ := by
  rw [(storeY_spec hs 0 _ m).1]
  congr 1
  have hl : (F.kernel T ((rvals F .sum m X X incX incX n).map (F.sq scl)) (view fold l m).pri).length = fold := by
    unfold Fmt.kernel Fmt.consolidate view; simp
  have hk : ∀ j, j < fold → (Gen.mk T false (.ssq (F.div F.one scl))).kernelCode F (behind m X X) incX incX expand fold n (bindY l l m σ) (.y 0 j) 0
      = nth (F.kernel T ((rvals F .sum m X X incX incX n).map (F.sq scl)) (view fold l m).pri) j := fun j hj =>
    C62_ssq hT (behind m X X) incX incX hf he (bindY l l m σ) hS hj 0
  generalize F.kernel T ((rvals F .sum m X X incX incX n).map (F.sq scl)) (view fold l m).pri = ks at *
  apply List.ext_getElem
  · simp [hl]
  · intro j h1 h2
    rw [List.getElem_map, List.getElem_range, hk j (by omega)]
    unfold nth
    rw [List.getD_eq_getElem?_getD, List.getElem?_eq_getElem h2]; rfl

theorem ssqLoopM_spec [F.OK] {T : Tune} (hT : T.OK F) {expand : Bool} {fold : Nat}
    (hf : 1 ≤ fold) (he : expand = true → 2 ≤ fold) {l : Loc} (hs : Sep fold l) (incX : Int) (jA jD : Nat → Regs) (fuel : Nat) :
    ∀ (rem : Nat) (X : Int) (dep : Nat) (scl : Flt) (m : Mem), ScaleOK F scl → (∀ i : Nat, i < rem → ¬ l.In fold (X + i * incX)) →
      (∀ i : Nat, i < rem → F.Word (m (X + i * incX))) →
      ((F.ssqLoopM T expand fold l incX jA jD fuel rem X dep scl m).1, view fold l (F.ssqLoopM T expand fold l incX jA jD fuel rem X dep scl m).2)
        = F.ssqLoop T fold fuel (rvals F .sum m X X incX incX rem) dep scl (view fold l m)
      ∧ ∀ a, ¬ l.In fold a → (F.ssqLoopM T expand fold l incX jA jD fuel rem X dep scl m).2 a = m a := by
  have hren := dmrenormM_refines (F := F) hf hs
  induction fuel with
  | zero => intro rem X dep scl m _ _ _; exact ssqEndM_spec hf hs scl m
  | succ fuel ih =>
    intro rem X dep scl m hS hr hw
    unfold ssqLoopM ssqLoop
    by_cases h0 : rem = 0
    · have : rvals F .sum m X X incX incX rem = [] := by rw [h0]; rfl
      rw [if_pos h0, if_pos this]; exact ssqEndM_spec hf hs scl m
    · have hne : rvals F .sum m X X incX incX rem ≠ [] := by
        intro h; apply h0; rw [← rvals_length (F := F) .sum m X X incX incX rem, h]; rfl
      rw [if_neg h0, if_neg hne]
      have hamx : ∀ n σ, (GenA.mk T false false).code F (behind m X X) incX incX n σ (.am 0) 0 = F.amaxK T ((rvals F .sum m X X incX incX n).map fabs) :=
        fun n σ => amax_rvals hT (Or.inl rfl) m X X incX incX n σ
      simp only [rvals_take, hamx]
      have hmin : min rem T.nb ≤ rem := Nat.min_le_left _ _
      set nb := min rem T.nb with hnbd
      have hword : F.Word (F.amaxK T ((rvals F .sum m X X incX incX nb).map fabs)) := by
        refine amaxK_of _ zero_word T (fun x hx => ?_)
        obtain ⟨y, hy, rfl⟩ := List.mem_map.mp hx
        unfold rvals at hy
        obtain ⟨i, hi, rfl⟩ := List.mem_map.mp hy
        exact fabs_word (hw i (by have := List.mem_range.mp hi; omega))
      set amax := F.amaxK T ((rvals F .sum m X X incX incX nb).map fabs) with hamax
      have hpri : ∀ m : Mem, nth (view fold l m).pri 0 = m l.pri := fun m => nth_view0 hf l m
      have hIn : l.In fold l.pri := by rw [← Loc.P0]; exact l.inP (by omega)
      obtain ⟨m1, hm1, hv1, hf1⟩ : ∃ m1, (if (F.isInf amax || F.isInf (m l.pri)) = true then
          F.accum0M nb (fun j m => fabs (m (X + j * incX))) l.pri m else m) = m1
          ∧ view fold l m1 = (if (F.isInf amax || F.isInf (nth (view fold l m).pri 0)) = true then F.accum0 ((rvals F .sum m X X incX incX nb).map fabs) (view fold l m) else view fold l m)
          ∧ ∀ a, ¬ l.In fold a → m1 a = m a := by
        refine ⟨_, rfl, ?_⟩
        rw [hpri]
        by_cases hi : (F.isInf amax || F.isInf (m l.pri)) = true
        · rw [if_pos hi, if_pos hi]
          have hacc := accum0M_view (F := F) (N := nb) hf hs (fun j m => fabs (m (X + j * incX)))
            ((rvals F .sum m X X incX incX nb).map fabs) (by rw [List.length_map, rvals_length]) m (by
              intro j hj m' hm'
              have e1 : m' (X + j * incX) = m (X + j * incX) := hm' _ (fun e => hr j (by omega) (e ▸ hIn))
              unfold rvals
              rw [nth_map' _ _ hj, e1]; rfl)
          exact ⟨hacc.1, fun a ha => hacc.2 a (fun e => ha (e ▸ hIn))⟩
        · rw [if_neg hi, if_neg hi]; exact ⟨rfl, fun a _ => rfl⟩
      rw [hm1, ← hv1, hpri]
      have hr1 : ∀ m' : Mem, (∀ a, ¬ l.In fold a → m' a = m a) → ∀ k, k ≤ rem → rvals F .sum m' X X incX incX k = rvals F .sum m X X incX incX k := by
        intro m' hm' k hk
        exact rvals_congr (Or.inl rfl) (fun i hi => ⟨hm' _ (hr i (by omega)), fun hp => by cases hp⟩)
      have hdrop : ∀ m' : Mem, (∀ a, ¬ l.In fold a → m' a = m a) →
          (rvals F .sum m X X incX incX rem).drop T.nb = rvals F .sum m' (X + nb * incX) (X + nb * incX) incX incX (rem - nb) := by
        intro m' hm'
        rw [← hr1 m' hm' rem (Nat.le_refl _), rvals_drop]
      have haddr : ∀ i : Nat, X + (nb : Int) * incX + (i : Int) * incX = X + ((nb + i : Nat) : Int) * incX := by
        intro i; push_cast; ring
      have hrd : ∀ i : Nat, i < rem - nb → ¬ l.In fold (X + nb * incX + i * incX) := by
        intro i hi; rw [haddr]; exact hr (nb + i) (by omega)
      have hwd : ∀ m' : Mem, (∀ a, ¬ l.In fold a → m' a = m a) → ∀ i : Nat, i < rem - nb → F.Word (m' (X + nb * incX + i * incX)) := by
        intro m' hm' i hi
        rw [hm' _ (hrd i hi), haddr]; exact hw (nb + i) (by omega)
      split
      · exact ⟨rfl, hf1⟩
      · split
        · have := ih (rem - nb) (X + nb * incX) dep scl m1 hS hrd (hwd m1 hf1)
          rw [this.1, hdrop m1 hf1]
          exact ⟨rfl, fun a ha => (this.2 a ha).trans (hf1 a ha)⟩
        · rw [rvals_length]
          obtain ⟨m2, hm2, hv2, hf2⟩ : ∃ m2, (if dep + nb > F.endurance then F.dmrenormM fold l m1 else m1) = m2
              ∧ view fold l m2 = (if dep + nb > F.endurance then F.dmrenorm (view fold l m1) else view fold l m1)
              ∧ ∀ a, ¬ l.In fold a → m2 a = m a := by
            refine ⟨_, rfl, ?_⟩
            split
            · exact ⟨(hren m1).1, fun a ha => ((hren m1).2 a ha).trans (hf1 a ha)⟩
            · exact ⟨rfl, hf1⟩
          rw [hm2, ← hv2]
          obtain ⟨m3, hm3, hv3, hf3⟩ : ∃ m3, (if (F.lt scl (F.dscale amax) && F.lt zero scl) = true then F.dmdrescaleM fold (F.dscale amax) scl l m2 else m2) = m3
              ∧ view fold l m3 = (if (F.lt scl (F.dscale amax) && F.lt zero scl) = true then F.dmdrescale (F.dscale amax) scl (view fold l m2) else view fold l m2)
              ∧ ∀ a, ¬ l.In fold a → m3 a = m a := by
            refine ⟨_, rfl, ?_⟩
            have hrs := dmdrescaleM_refines (F := F) hs (F.dscale amax) scl m2
            split
            · exact ⟨hrs.1, fun a ha => (hrs.2 a ha).trans (hf2 a ha)⟩
            · exact ⟨rfl, hf2⟩
          rw [hm3, ← hv3]
          have hnew := scale_next hS hword
          generalize (if F.lt scl (F.dscale amax) = true then F.dscale amax else scl) = scl' at *
          have hup := dmdupdateM_refines (F := F) hf hs (F.mul (F.div amax scl') (F.div amax scl')) m3
          rw [← hup.1]
          generalize F.dmdupdateM fold (F.mul (F.div amax scl') (F.div amax scl')) l m3 = m4 at *
          have hf4 : ∀ a, ¬ l.In fold a → m4 a = m a := fun a ha => (hup.2 a ha).trans (hf3 a ha)
          have hk := ssq_block_view hT hnew m4 X incX hf he nb hs (jD rem)
          have hst := (storeY_spec hs 0 ((Gen.mk T false (.ssq (F.div F.one scl'))).kernelCode F (behind m4 X X) incX incX expand fold nb (bindY l l m4 (jD rem))) m4).2
          rw [hr1 m4 hf4 nb hmin] at hk
          rw [← hk]
          have hadv : (runUnrolled (Gen.mk T false (.ssq (F.div F.one scl'))).tsz (T.pipe * T.unroll) nb).off = nb := by
            exact adv_eq (G := Gen.mk T false (.ssq (F.div F.one scl'))) hT nb
          rw [hadv, mul_comm incX]
          generalize storeY fold 0 l ((Gen.mk T false (.ssq (F.div F.one scl'))).kernelCode F (behind m4 X X) incX incX expand fold nb (bindY l l m4 (jD rem))) m4 = m5 at *
          have hf5 : ∀ a, ¬ l.In fold a → m5 a = m a := fun a ha => (hst a (fun i hi e => ha ⟨i, hi, Or.inl e⟩)).trans (hf4 a ha)
          have := ih (rem - nb) (X + nb * incX) ((if dep + nb > F.endurance then 0 else dep) + nb) scl' m5 (Or.inr hnew) hrd (hwd m5 hf5)
          rw [this.1, hdrop m5 hf5]
          exact ⟨rfl, fun a ha => (this.2 a ha).trans (hf5 a ha)⟩

end Repro
