import Verif.PropsGenRunAz
import Verif.ZRescaleMem
/-!
# C64: `binnedBLAS_dmzssq` in memory
-/

namespace Repro
open Fmt
variable {F : Fmt}

/-- The places of `binnedBLAS_dmzssq`: result, temporary, and the temporary values of the two merges. -/
structure SqTmpOK (fold : Nat) (t0 t1 : Int) (s l : Loc) : Prop extends TmpOK fold s l where
  one : s.incpri = 1
  r0 : Apart fold s.re (packed fold t0)
  i0 : Apart fold s.im (packed fold t0)
  i1 : Apart fold s.im (packed fold t1)
  l0 : Apart fold (packed fold t0) l
  l1 : Apart fold (packed fold t1) l

theorem zssqEndM_spec {fold : Nat} (hf : 1 ≤ fold) {t0 t1 : Int} {s l : Loc} (ht : SqTmpOK fold t0 t1 s l) (scl scaleY : Flt) (m : Mem) :
    ((F.zssqEndM fold t0 t1 s l scl scaleY m).1, view fold l (F.zssqEndM fold t0 t1 s l scl scaleY m).2)
      = F.zssqEnd fold scl (cview fold s m) scaleY (view fold l m)
    ∧ ∀ a, ¬ l.In fold a → ¬ s.CIn fold a → ¬ (packed fold t0).In fold a → ¬ (packed fold t1).In fold a →
      (F.zssqEndM fold t0 t1 s l scl scaleY m).2 a = m a := by
  have ⟨r1, r2⟩ := zmrenormM_spec (F := F) hf ht.cs m
  unfold zssqEndM zssqEnd
  dsimp only
  generalize F.zmrenormM fold s m = m1 at *
  have e1 : view fold s.re m1 = F.dmrenorm (cview fold s m).1 := congrArg Prod.fst r1
  have e2 : view fold s.im m1 = F.dmrenorm (cview fold s m).2 := congrArg Prod.snd r1
  have h1 := dmdmaddsqM_refines (F := F) hf ht.sl ht.re ht.r0 ht.l0 scl scaleY m1
  dsimp only at h1
  generalize F.dmdmaddsqM fold t0 scl s.re scaleY l m1 = u at *
  have h2 := dmdmaddsqM_refines (F := F) hf ht.sl ht.im ht.i1 ht.l1 scl u.1 u.2
  dsimp only at h2
  generalize F.dmdmaddsqM fold t1 scl s.im u.1 l u.2 = v at *
  have e3 : view fold s.im u.2 = view fold s.im m1 := view_congr (fun a ha => h1.2 a (ht.im a ha) (ht.i0 a ha))
  rw [e1, ht.viewL r2] at h1
  rw [e3, e2] at h2
  rw [← h1.1]
  dsimp only
  rw [← h2.1]
  dsimp only
  rw [nth_view0 hf]
  exact ⟨rfl, fun a a1 a2 a3 a4 => (h2.2 a a1 a4).trans ((h1.2 a a1 a3).trans (r2 a a2))⟩

theorem zssqLoopM_spec [F.OK] {T : Tune} (hT : T.OK F) {expand : Bool} {fold : Nat}
    (hf : 1 ≤ fold) (he : expand = true → 2 ≤ fold) {t0 t1 : Int} {s l : Loc} (ht : SqTmpOK fold t0 t1 s l) (incX : Int) (scaleY : Flt) (jA jD : Nat → Regs) (fuel : Nat) :
    ∀ (rem : Nat) (X : Int) (dep : Nat) (scl : Flt) (m : Mem), AzReads fold s l X incX rem →
      ((F.zssqLoopM T expand fold t0 t1 s l incX scaleY jA jD fuel rem X dep scl m).1, view fold l (F.zssqLoopM T expand fold t0 t1 s l incX scaleY jA jD fuel rem X dep scl m).2)
        = F.zssqLoop T fold scaleY fuel (zvals (fun x _ => x) m X X incX incX rem) dep scl (cview fold s m) (view fold l m)
      ∧ ∀ a, ¬ l.In fold a → ¬ s.CIn fold a → ¬ (packed fold t0).In fold a → ¬ (packed fold t1).In fold a →
        (F.zssqLoopM T expand fold t0 t1 s l incX scaleY jA jD fuel rem X dep scl m).2 a = m a := by
  induction fuel with
  | zero => intro rem X dep scl m _; exact zssqEndM_spec hf ht scl scaleY m
  | succ fuel ih =>
    intro rem X dep scl m hr
    unfold zssqLoopM zssqLoop
    by_cases h0 : rem = 0
    · have : zvals (fun x _ => x) m X X incX incX rem = [] := by rw [h0]; rfl
      rw [if_pos h0, if_pos this]; exact zssqEndM_spec hf ht scl scaleY m
    · have hne : zvals (fun x _ => x) m X X incX incX rem ≠ [] := by
        intro h; apply h0; rw [← zvals_length (fun x _ => x) m X X incX incX rem, h]; rfl
      rw [if_neg h0, if_neg hne]
      simp only [zvals_take, (zamax_code hT _ _ _ _ _).1, (zamax_code hT _ _ _ _ _).2]
      have hmin : min rem T.nb ≤ rem := Nat.min_le_left _ _
      set nb := min rem T.nb with hnbd
      set amax := F.fmax (F.amaxZ T 1 zasumOp.fR zasumOp.zfill (zvals (fun x _ => x) m X X incX incX nb))
        (F.amaxZ T 1 zasumOp.fI zasumOp.zfill (zvals (fun x _ => x) m X X incX incX nb)) with hamax
      have hpL : ∀ m : Mem, nth (view fold l m).pri 0 = m l.pri := fun m => nth_view0 hf l m
      have hpR : ∀ m : Mem, nth (cview fold s m).1.pri 0 = m s.pri := fun m => nth_view0 hf s.re m
      have hpI : ∀ m : Mem, nth (cview fold s m).2.pri 0 = m (s.pri + 1) := fun m => nth_view0 hf s.im m
      obtain ⟨m1, hm1, hv1, hc1, hf1⟩ := absHead (F := F) hf ht.toTmpOK (F.isInf amax || F.isInf (m l.pri)) nb X incX m (fun i hi => hr i (by omega))
      rw [hm1, hpL, ← hv1, ← hc1, hpL, hpR, hpI]
      have hf1' : ∀ a, ¬ l.In fold a → ¬ s.CIn fold a → m1 a = m a := fun a h _ => hf1 a h
      have hrd := hr.shift hmin
      have hdrop : ∀ m' : Mem, (∀ a, ¬ l.In fold a → ¬ s.CIn fold a → m' a = m a) →
          (zvals (fun x _ => x) m X X incX incX rem).drop T.nb = zvals (fun x _ => x) m' (X + nb * 2 * incX) (X + nb * 2 * incX) incX incX (rem - nb) := by
        intro m' hm'
        rw [← hr.vals (Nat.le_refl _) hm', zvals_drop]
      split
      · refine ⟨?_, fun a ha _ _ _ => ?_⟩
        · dsimp only
          rw [(set0_refines hf ht.sl m1 _).1]
          unfold accum0
          rw [view_pri_cons hf]
          rfl
        · dsimp only
          rw [(set0_refines hf ht.sl m1 _).2 a (fun e => ha (by rw [e, ← Loc.P0]; exact l.inP (by omega)))]
          exact hf1 a ha
      · split
        · have := ih (rem - nb) (X + nb * 2 * incX) dep scl m1 hrd
          rw [this.1, hdrop m1 hf1']
          exact ⟨rfl, fun a h1 h2 h3 h4 => (this.2 a h1 h2 h3 h4).trans (hf1 a h1)⟩
        · rw [zvals_length]
          obtain ⟨m2, hm2, hv2, hf2⟩ : ∃ m2, (if dep + nb > F.endurance then F.zmrenormM fold s m1 else m1) = m2
              ∧ cview fold s m2 = (if dep + nb > F.endurance then (F.dmrenorm (cview fold s m1).1, F.dmrenorm (cview fold s m1).2) else cview fold s m1)
              ∧ ∀ a, ¬ s.CIn fold a → m2 a = m1 a := by
            refine ⟨_, rfl, ?_⟩
            split
            · exact zmrenormM_spec (F := F) hf ht.cs m1
            · exact ⟨rfl, fun _ _ => rfl⟩
          rw [hm2, ← hv2]
          obtain ⟨m3, hm3, hv3, hf3⟩ : ∃ m3, (if (F.lt scl (F.dscale amax) && F.lt zero scl) = true then F.zmdrescaleM fold (F.dscale amax) scl s m2 else m2) = m3
              ∧ cview fold s m3 = (if (F.lt scl (F.dscale amax) && F.lt zero scl) = true then F.zmdrescale fold (F.dscale amax) scl (cview fold s m2) else cview fold s m2)
              ∧ ∀ a, ¬ s.CIn fold a → m3 a = m1 a := by
            refine ⟨_, rfl, ?_⟩
            have hrs := zmdrescaleM_spec (F := F) ht.cs ht.one (F.dscale amax) scl m2
            split
            · exact ⟨hrs.1, fun a ha => (hrs.2 a ha).trans (hf2 a ha)⟩
            · exact ⟨rfl, hf2⟩
          rw [hm3, ← hv3]
          generalize (if F.lt scl (F.dscale amax) = true then F.dscale amax else scl) = scl' at *
          have hup := zmdupdateM_spec (F := F) hf ht.cs (F.mul (F.div amax scl') (F.div amax scl')) m3
          have hu1 := (congrArg Prod.fst hup.1).symm
          have hu2 := (congrArg Prod.snd hup.1).symm
          dsimp only at hu1 hu2
          rw [hu1, hu2]
          have hf4 : ∀ a, ¬ s.CIn fold a → F.zmdupdateM fold (F.mul (F.div amax scl') (F.div amax scl')) s m3 a = m1 a := fun a ha => (hup.2 a ha).trans (hf3 a ha)
          clear hup hu1 hu2
          generalize F.zmdupdateM fold (F.mul (F.div amax scl') (F.div amax scl')) s m3 = m4 at *
          have hf4' : ∀ a, ¬ l.In fold a → ¬ s.CIn fold a → m4 a = m a := fun a h1 h2 => (hf4 a h2).trans (hf1 a h1)
          have hk := zblock_view (zkern_ssq hT scl') m4 X X incX incX hf he nb ht.cs (jD rem) _ rfl
          rw [hr.vals hmin hf4'] at hk
          rw [hpR, hpI]
          have hadv : (runUnrolled (Gen.mk T true (.ssq (F.div F.one scl'))).tsz (T.pipe * T.unroll) nb).off = nb := adv_eq (G := Gen.mk T true (.ssq (F.div F.one scl'))) hT nb
          rw [hadv, show incX * 2 * (nb : Int) = nb * 2 * incX by ring]
          generalize (Gen.mk T true (.ssq (F.div F.one scl'))).kernelCode F (behind m4 X X) incX incX expand fold nb (bindY s.re s.im m4 (jD rem)) = σ' at *
          generalize storeY fold 1 s.im σ' (storeY fold 0 s.re σ' m4) = m5 at *
          have hf5 : ∀ a, ¬ s.CIn fold a → m5 a = m1 a := fun a ha => (hk.2 a ha).trans (hf4 a ha)
          have hf5' : ∀ a, ¬ l.In fold a → ¬ s.CIn fold a → m5 a = m a := fun a h1 h2 => (hf5 a h2).trans (hf1 a h1)
          have := ih (rem - nb) (X + nb * 2 * incX) ((if dep + nb > F.endurance then 0 else dep) + nb) scl' m5 hrd
          rw [this.1, hdrop m5 hf5', hk.1, ht.viewL hf5]
          exact ⟨rfl, fun a h1 h2 h3 h4 => (this.2 a h1 h2 h3 h4).trans (hf5' a h1 h2)⟩

end Repro
