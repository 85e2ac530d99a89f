import Verif.PropsGenRunSq
/-!
# C64: `binnedBLAS_dmzasum` and `binnedBLAS_dmzssq` in memory
-/

namespace Repro
open Fmt
variable {F : Fmt}

/-! ### The kernels and the maximum -/

theorem amaxZ_abs (T : Tune) {α : Type} (e : Nat) (f : α → Nat → Flt) (z : α) (es : List α) :
    F.amaxZ T e (fun a h => fabs (f a h)) z es = F.amaxZ T e f z es := by
  have h : ∀ c, (loadZ T.ts e (fun a h => fabs (f a h)) z es c).map fabs = (loadZ T.ts e f z es c).map fabs := by
    intro c
    unfold loadZ
    dsimp only
    rw [List.map_flatMap, List.map_flatMap]
    refine List.flatMap_congr (fun i _ => ?_)
    rw [List.map_map, List.map_map]
    rfl
  unfold amaxZ
  simp only [h]

/-- The two maxima a block of a routine on complex vectors begins with. -/
theorem zamax_code [F.OK] {T : Tune} (hT : T.OK F) (m : Mem) (X incX : Int) (n : Nat) (σ : Regs) :
    (GenA.mk T true false).code F (behind m X X) incX incX n σ (.am 0) 0 = F.amaxZ T 1 zasumOp.fR zasumOp.zfill (zvals (fun x _ => x) m X X incX incX n)
    ∧ (GenA.mk T true false).code F (behind m X X) incX incX n σ (.am 1) 0 = F.amaxZ T 1 zasumOp.fI zasumOp.zfill (zvals (fun x _ => x) m X X incX incX n) := by
  have h := C63_zamax hT (behind m X X) incX incX n σ 0
  rw [gatherZ_behind0] at h
  refine ⟨h.1.trans ?_, h.2.trans ?_⟩
  · exact (amaxZ_abs T 1 zsumOp.fR zsumOp.zfill _).symm
  · exact (amaxZ_abs T 1 zsumOp.fI zsumOp.zfill _).symm

theorem zkern_asum [F.OK] {T : Tune} (hT : T.OK F) : ZKern F T .asum zasumOp (fun x _ => x) := by
  intro m X Z incX incZ expand fold n l σ j hf he hj
  have := C62_zasum hT (behind m X Z) incX incZ (expand := expand) (fold := fold) (n := n) hf he (bindY l.re l.im m σ) hj 0
  rw [gatherZ_behind0, priAt_bind0, priAt_bind1, nth_view0 hf, nth_view0 hf] at this
  exact this

theorem zkern_ssq [F.OK] {T : Tune} (hT : T.OK F) (scl : Flt) : ZKern F T (.ssq (F.div F.one scl)) (F.zssqOp scl) (fun x _ => x) := by
  intro m X Z incX incZ expand fold n l σ j hf he hj
  have := C62_zssq hT (behind m X Z) incX incZ (expand := expand) (fold := fold) (n := n) hf he (bindY l.re l.im m σ) scl hj 0
  rw [gatherZ_behind0, priAt_bind0, priAt_bind1, nth_view0 hf, nth_view0 hf] at this
  exact this

/-! ### The exceptional loop -/

theorem accumAbsM_spec (n : Nat) (X incX a : Int) (m : Mem) (hX : ∀ i : Nat, i < n → X + i * 2 * incX ≠ a ∧ X + i * 2 * incX + 1 ≠ a) :
    F.accumAbsM n X incX a m a = ((zvals (fun x _ => x) m X X incX incX n).flatMap (fun x => [fabs x.1, fabs x.2])).foldl F.add (m a)
    ∧ (∀ b, b ≠ a → F.accumAbsM n X incX a m b = m b) := by
  unfold accumAbsM zvals
  induction n with
  | zero => exact ⟨rfl, fun b _ => rfl⟩
  | succ n ih =>
    have ⟨i1, i2⟩ := ih (fun i hi => hX i (by omega))
    have ⟨x1, x2⟩ := hX n (by omega)
    rw [List.range_succ, List.foldl_append, List.map_append, List.flatMap_append, List.foldl_append]
    generalize List.foldl _ m (List.range n) = m' at *
    simp only [List.foldl_cons, List.foldl_nil, List.map_cons, List.map_nil, List.flatMap_cons, List.flatMap_nil, List.append_nil]
    refine ⟨?_, fun b hb => ?_⟩
    · rw [Mem.set_same, Mem.set_same, Mem.set_ne _ _ x2, i1, i2 _ x1, i2 _ x2]
      rfl
    · rw [Mem.set_ne _ _ hb, Mem.set_ne _ _ hb, i2 b hb]

theorem accumAbsM_view {fold : Nat} (hf : 1 ≤ fold) {l : Loc} (hs : Sep fold l) (n : Nat) (X incX : Int) (m : Mem)
    (hX : ∀ i : Nat, i < n → ¬ l.In fold (X + i * 2 * incX) ∧ ¬ l.In fold (X + i * 2 * incX + 1)) :
    view fold l (F.accumAbsM n X incX l.pri m) = F.accum0 ((zvals (fun x _ => x) m X X incX incX n).flatMap (fun x => [fabs x.1, fabs x.2])) (view fold l m)
    ∧ ∀ a, ¬ l.In fold a → F.accumAbsM n X incX l.pri m a = m a := by
  have hIn : l.In fold l.pri := by rw [← Loc.P0]; exact l.inP (by omega)
  have ⟨h1, h2⟩ := accumAbsM_spec (F := F) n X incX l.pri m (fun i hi => ⟨fun e => (hX i hi).1 (e ▸ hIn), fun e => (hX i hi).2 (e ▸ hIn)⟩)
  refine ⟨?_, fun a ha => h2 a (fun e => ha (e ▸ hIn))⟩
  have e : F.accumAbsM n X incX l.pri m = m.set l.pri (((zvals (fun x _ => x) m X X incX incX n).flatMap (fun x => [fabs x.1, fabs x.2])).foldl F.add (m l.pri)) := by
    funext b
    by_cases hb : b = l.pri
    · subst hb; rw [h1, Mem.set_same]
    · rw [h2 b hb, Mem.set_ne _ _ hb]
  rw [e, (set0_refines hf hs m _).1]
  unfold accum0
  rw [view_pri_cons hf]

/-! ### Frames -/

/-- No word of the temporary is a word of the result. -/
structure TmpOK (fold : Nat) (s l : Loc) : Prop where
  cs : CSep fold s
  sl : Sep fold l
  re : Apart fold s.re l
  im : Apart fold s.im l

theorem TmpOK.out {fold : Nat} {s l : Loc} (h : TmpOK fold s l) {a : Int} (ha : l.In fold a) : ¬ s.CIn fold a := by
  rintro (hr | hi)
  · exact h.re a hr ha
  · exact h.im a hi ha

theorem TmpOK.viewL {fold : Nat} {s l : Loc} (h : TmpOK fold s l) {m m' : Mem} (hm : ∀ a, ¬ s.CIn fold a → m' a = m a) :
    view fold l m' = view fold l m := view_congr (fun a ha => hm a (h.out ha))

theorem TmpOK.viewS {fold : Nat} {s l : Loc} (h : TmpOK fold s l) {m m' : Mem} (hm : ∀ a, ¬ l.In fold a → m' a = m a) :
    cview fold s m' = cview fold s m := by
  unfold cview
  rw [view_congr (l := s.re) (fun a ha => hm a (h.re a ha)), view_congr (l := s.im) (fun a ha => hm a (h.im a ha))]

theorem zmrenormM_spec {fold : Nat} (hf : 1 ≤ fold) {s : Loc} (hs : CSep fold s) (m : Mem) :
    cview fold s (F.zmrenormM fold s m) = (F.dmrenorm (cview fold s m).1, F.dmrenorm (cview fold s m).2) ∧ ∀ a, ¬ s.CIn fold a → F.zmrenormM fold s m a = m a :=
  both_parts hs (dmrenormM_refines (F := F) hf hs.re) (dmrenormM_refines (F := F) hf hs.im) m

theorem zmdupdateM_spec {fold : Nat} (hf : 1 ≤ fold) {s : Loc} (hs : CSep fold s) (x : Flt) (m : Mem) :
    cview fold s (F.zmdupdateM fold x s m) = (F.dmdupdate fold x (cview fold s m).1, F.dmdupdate fold x (cview fold s m).2) ∧ ∀ a, ¬ s.CIn fold a → F.zmdupdateM fold x s m a = m a :=
  both_parts hs (dmdupdateM_refines (F := F) hf hs.re x) (dmdupdateM_refines (F := F) hf hs.im x) m

/-! ### Sums of absolute values -/

theorem zasumEndM_spec {fold : Nat} (hf : 1 ≤ fold) {s l : Loc} (ht : TmpOK fold s l) (m : Mem) :
    view fold l (F.zasumEndM fold s l m) = F.dmdmadd fold (F.dmrenorm (cview fold s m).2) (F.dmdmadd fold (F.dmrenorm (cview fold s m).1) (view fold l m))
    ∧ ∀ a, ¬ l.In fold a → ¬ s.CIn fold a → F.zasumEndM fold s l m a = m a := by
  have ⟨r1, r2⟩ := zmrenormM_spec (F := F) hf ht.cs m
  unfold zasumEndM
  dsimp only
  generalize F.zmrenormM fold s m = m1 at *
  have h1 := dmdmaddM_refines (F := F) hf ht.sl ht.re m1
  have h2 := dmdmaddM_refines (F := F) hf ht.sl ht.im (F.dmdmaddM fold s.re l m1)
  refine ⟨?_, fun a hl hs => by rw [h2.2 a hl, h1.2 a hl, r2 a hs]⟩
  rw [h2.1, h1.1, view_frame ht.im h1.2, ht.viewL r2]
  have e1 := congrArg Prod.fst r1
  have e2 := congrArg Prod.snd r1
  dsimp only [cview] at e1 e2
  rw [e1, e2]; rfl

/-- The words a routine on complex vectors reads do not belong to the accumulators. -/
def AzReads (fold : Nat) (s l : Loc) (X incX : Int) (n : Nat) : Prop :=
  ∀ i : Nat, i < n → (¬ l.In fold (X + i * 2 * incX) ∧ ¬ l.In fold (X + i * 2 * incX + 1))
    ∧ (¬ s.CIn fold (X + i * 2 * incX) ∧ ¬ s.CIn fold (X + i * 2 * incX + 1))

theorem AzReads.shift {fold : Nat} {s l : Loc} {X incX : Int} {n k : Nat} (h : AzReads fold s l X incX n) (hk : k ≤ n) :
    AzReads fold s l (X + k * 2 * incX) incX (n - k) := by
  intro i hi
  rw [show X + (k : Int) * 2 * incX + (i : Int) * 2 * incX = X + ((k + i : Nat) : Int) * 2 * incX by push_cast; ring]
  exact h (k + i) (by omega)

theorem AzReads.vals {fold : Nat} {s l : Loc} {X incX : Int} {n k : Nat} (h : AzReads fold s l X incX n) (hk : k ≤ n) {m m' : Mem}
    (hm : ∀ a, ¬ l.In fold a → ¬ s.CIn fold a → m' a = m a) :
    zvals (fun x _ => x) m' X X incX incX k = zvals (fun x _ => x) m X X incX incX k := by
  apply zvals_congr (op := .sum) (fun _ _ _ _ => rfl)
  intro i hi
  have ⟨⟨a1, a2⟩, b1, b2⟩ := h i (by omega)
  exact ⟨⟨hm _ a1 b1, hm _ a2 b2⟩, fun hp => by cases hp⟩

/-- The first half of a block: the exceptional loop. -/
theorem absHead {fold : Nat} (hf : 1 ≤ fold) {s l : Loc} (ht : TmpOK fold s l) (c : Bool) (n : Nat) (X incX : Int) (m : Mem) (hr : AzReads fold s l X incX n) :
    ∃ m1, (if c = true then F.accumAbsM n X incX l.pri m else m) = m1
      ∧ view fold l m1 = (if c = true then F.accum0 ((zvals (fun x _ => x) m X X incX incX n).flatMap (fun x => [fabs x.1, fabs x.2])) (view fold l m) else view fold l m)
      ∧ cview fold s m1 = cview fold s m
      ∧ ∀ a, ¬ l.In fold a → m1 a = m a := by
  refine ⟨_, rfl, ?_⟩
  cases c
  · exact ⟨rfl, rfl, fun a _ => rfl⟩
  · have h := accumAbsM_view (F := F) hf ht.sl n X incX m (fun i hi => (hr i hi).1)
    exact ⟨h.1, ht.viewS h.2, h.2⟩

theorem zasumLoopM_spec [F.OK] {T : Tune} (hT : T.OK F) {expand : Bool} {fold : Nat}
    (hf : 1 ≤ fold) (he : expand = true → 2 ≤ fold) {s l : Loc} (ht : TmpOK fold s l) (incX : Int) (jA jD : Nat → Regs) (fuel : Nat) :
    ∀ (rem : Nat) (X : Int) (dep : Nat) (m : Mem), AzReads fold s l X incX rem →
      view fold l (F.zasumLoopM T expand fold s l incX jA jD fuel rem X dep m)
        = F.zasumLoop T fold fuel (zvals (fun x _ => x) m X X incX incX rem) dep (cview fold s m) (view fold l m)
      ∧ ∀ a, ¬ l.In fold a → ¬ s.CIn fold a → F.zasumLoopM T expand fold s l incX jA jD fuel rem X dep m a = m a := by
  induction fuel with
  | zero => intro rem X dep m _; exact zasumEndM_spec hf ht m
  | succ fuel ih =>
    intro rem X dep m hr
    unfold zasumLoopM zasumLoop
    by_cases h0 : rem = 0
    · have : (zvals (fun x _ => x) m X X incX incX rem).isEmpty = true := by rw [h0]; rfl
      rw [if_pos h0, if_pos this]; exact zasumEndM_spec hf ht m
    · have hne : ¬ (zvals (fun x _ => x) m X X incX incX rem).isEmpty = true := by
        intro h; apply h0; rw [← zvals_length (fun x _ => x) m X X incX incX rem, List.isEmpty_iff.mp h]; rfl
      rw [if_neg h0, if_neg hne]
      simp only [zvals_take, (zamax_code hT _ _ _ _ _).1, (zamax_code hT _ _ _ _ _).2]
      have hmin : min rem T.nb ≤ rem := Nat.min_le_left _ _
      set nb := min rem T.nb with hnbd
      set amax := F.fmax (F.amaxZ T 1 zasumOp.fR zasumOp.zfill (zvals (fun x _ => x) m X X incX incX nb))
        (F.amaxZ T 1 zasumOp.fI zasumOp.zfill (zvals (fun x _ => x) m X X incX incX nb)) with hamax
      have hpL : ∀ m : Mem, nth (view fold l m).pri 0 = m l.pri := fun m => nth_view0 hf l m
      have hpR : ∀ m : Mem, nth (cview fold s m).1.pri 0 = m s.pri := fun m => nth_view0 hf s.re m
      have hpI : ∀ m : Mem, nth (cview fold s m).2.pri 0 = m (s.pri + 1) := fun m => nth_view0 hf s.im m
      obtain ⟨m1, hm1, hv1, hc1, hf1⟩ := absHead (F := F) hf ht (F.isInf amax || F.isInf (m l.pri)) nb X incX m (fun i hi => hr i (by omega))
      rw [hm1, hpL, ← hv1, ← hc1, hpL, hpR, hpI]
      have hf1' : ∀ a, ¬ l.In fold a → ¬ s.CIn fold a → m1 a = m a := fun a h _ => hf1 a h
      have hrd := hr.shift hmin
      have hdrop : ∀ m' : Mem, (∀ a, ¬ l.In fold a → ¬ s.CIn fold a → m' a = m a) →
          (zvals (fun x _ => x) m X X incX incX rem).drop T.nb = zvals (fun x _ => x) m' (X + nb * 2 * incX) (X + nb * 2 * incX) incX incX (rem - nb) := by
        intro m' hm'
        rw [← hr.vals (Nat.le_refl _) hm', zvals_drop]
      split
      · refine ⟨?_, fun a ha _ => ?_⟩
        · rw [(set0_refines hf ht.sl m1 _).1]
          unfold accum0
          rw [view_pri_cons hf]
          rfl
        · rw [(set0_refines hf ht.sl m1 _).2 a (fun e => ha (by rw [e, ← Loc.P0]; exact l.inP (by omega)))]
          exact hf1 a ha
      · split
        · have := ih (rem - nb) (X + nb * 2 * incX) dep m1 hrd
          rw [this.1, hdrop m1 hf1']
          exact ⟨rfl, fun a h1 h2 => (this.2 a h1 h2).trans (hf1 a h1)⟩
        · rw [zvals_length]
          obtain ⟨m2, hm2, hv2, hi2, hf2⟩ : ∃ m2, (if dep + nb > F.endurance then F.zmrenormM fold s m1 else m1) = m2
              ∧ (cview fold s m2).1 = (if dep + nb > F.endurance then F.dmrenorm (cview fold s m1).1 else (cview fold s m1).1)
              ∧ (cview fold s m2).2 = (if dep + nb > F.endurance then F.dmrenorm (cview fold s m1).2 else (cview fold s m1).2)
              ∧ ∀ a, ¬ s.CIn fold a → m2 a = m1 a := by
            refine ⟨_, rfl, ?_⟩
            split
            · have h := zmrenormM_spec (F := F) hf ht.cs m1
              exact ⟨congrArg Prod.fst h.1, congrArg Prod.snd h.1, h.2⟩
            · exact ⟨rfl, rfl, fun _ _ => rfl⟩
          rw [hm2, ← hv2, ← hi2]
          have hup := zmdupdateM_spec (F := F) hf ht.cs amax m2
          have hu1 := (congrArg Prod.fst hup.1).symm
          have hu2 := (congrArg Prod.snd hup.1).symm
          dsimp only at hu1 hu2
          rw [hu1, hu2]
          have hf3 : ∀ a, ¬ s.CIn fold a → F.zmdupdateM fold amax s m2 a = m1 a := fun a ha => (hup.2 a ha).trans (hf2 a ha)
          clear hup hu1 hu2
          generalize F.zmdupdateM fold amax s m2 = m3 at *
          have hf3' : ∀ a, ¬ l.In fold a → ¬ s.CIn fold a → m3 a = m a := fun a h1 h2 => (hf3 a h2).trans (hf1 a h1)
          have hk := zblock_view (zkern_asum hT) m3 X X incX incX hf he nb ht.cs (jD rem) _ rfl
          rw [hr.vals hmin hf3'] at hk
          rw [hpR, hpI]
          generalize (Gen.mk T true .asum).kernelCode F (behind m3 X X) incX incX expand fold nb (bindY s.re s.im m3 (jD rem)) = σ' at *
          generalize storeY fold 1 s.im σ' (storeY fold 0 s.re σ' m3) = m4 at *
          have hf4 : ∀ a, ¬ s.CIn fold a → m4 a = m1 a := fun a ha => (hk.2 a ha).trans (hf3 a ha)
          have hf4' : ∀ a, ¬ l.In fold a → ¬ s.CIn fold a → m4 a = m a := fun a h1 h2 => (hf4 a h2).trans (hf1 a h1)
          have hadv : (runUnrolled (Gen.mk T true .asum).tsz (T.pipe * T.unroll) nb).off = nb := adv_eq (G := Gen.mk T true .asum) hT nb
          rw [hadv, show incX * 2 * (nb : Int) = nb * 2 * incX by ring]
          have := ih (rem - nb) (X + nb * 2 * incX) ((if dep + nb > F.endurance then 0 else dep) + nb) m4 hrd
          rw [this.1, hdrop m4 hf4', hk.1, ht.viewL hf4]
          exact ⟨rfl, fun a h1 h2 => (this.2 a h1 h2).trans (hf4' a h1 h2)⟩

end Repro
