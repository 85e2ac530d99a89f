import Verif.PropsGenRun
/-!
# C64 for the complex vector routines
-/

namespace Repro
open Fmt
variable {F : Fmt}

theorem storeY_refines {n : Nat} {l : Loc} (hs : Sep n l) (k : Nat) (σ : Regs) :
    Refines n l (fun y => ⟨(List.range n).map (fun j => σ (.y k j) 0), y.car⟩) (storeY n k l σ) := by
  intro m
  have ⟨h1, h2⟩ := storeY_spec hs k σ m
  exact ⟨h1, fun a ha => h2 a (fun i hi e => ha ⟨i, hi, Or.inl e⟩)⟩

theorem setHead_refines {n : Nat} (hn : 1 ≤ n) {l : Loc} (hs : Sep n l) (v : Flt) (c : Bool) :
    Refines n l (fun y => if c then setHead v y else y) (fun m => if c then m.set l.pri v else m) := by
  intro m
  have hIn : l.In n l.pri := by rw [← Loc.P0]; exact l.inP (by omega)
  cases c
  · exact ⟨rfl, fun a _ => rfl⟩
  · have ⟨h1, h2⟩ := set0_refines hn hs m v
    refine ⟨?_, fun a ha => h2 a (fun e => ha (e ▸ hIn))⟩
    simp only [↓reduceIte]
    rw [h1]
    unfold setHead
    rw [view_pri_cons hn]

section
variable {α : Type}

/-- The elements a complex routine meets. -/
def zvals (el : Flt × Flt → Flt × Flt → α) (m : Mem) (X Z incX incZ : Int) (n : Nat) : List α :=
  (List.range n).map (fun (i : Nat) => el (m.pair (X + i * 2 * incX)) (m.pair (Z + i * 2 * incZ)))

theorem zvals_length (el : Flt × Flt → Flt × Flt → α) (m : Mem) (X Z incX incZ : Int) (n : Nat) : (zvals el m X Z incX incZ n).length = n := by
  unfold zvals; simp

theorem zvals_take (el : Flt × Flt → Flt × Flt → α) (m : Mem) (X Z incX incZ : Int) (n k : Nat) :
    (zvals el m X Z incX incZ n).take k = zvals el m X Z incX incZ (min n k) := by
  unfold zvals
  rw [← List.map_take, List.take_range, Nat.min_comm]

theorem zvals_drop (el : Flt × Flt → Flt × Flt → α) (m : Mem) (X Z incX incZ : Int) (n k : Nat) :
    (zvals el m X Z incX incZ n).drop k
      = zvals el m (X + (min n k : Nat) * 2 * incX) (Z + (min n k : Nat) * 2 * incZ) incX incZ (n - min n k) := by
  unfold zvals
  rw [← List.map_drop]
  by_cases h : k ≤ n
  · rw [Nat.min_eq_right h, List.range_eq_range', List.drop_range', List.range'_eq_map_range, List.map_map]
    simp only [Nat.zero_add, Nat.mul_one, Nat.one_mul]
    apply List.map_congr_left
    intro i _
    simp only [Function.comp_apply]
    push_cast
    rw [show X + (k : Int) * 2 * incX + (i : Int) * 2 * incX = X + ((k : Int) + i) * 2 * incX by ring,
      show Z + (k : Int) * 2 * incZ + (i : Int) * 2 * incZ = Z + ((k : Int) + i) * 2 * incZ by ring]
  · rw [Nat.min_eq_left (by omega), Nat.sub_self, List.drop_eq_nil_of_le (by simp; omega)]
    rfl

/-- The words the routine reads. -/
def ZReads (op : DepOp) (X Z incX incZ : Int) (n : Nat) (P : Int → Prop) : Prop :=
  ∀ i : Nat, i < n → (P (X + i * 2 * incX) ∧ P (X + i * 2 * incX + 1))
    ∧ (op.prod = true → P (Z + i * 2 * incZ) ∧ P (Z + i * 2 * incZ + 1))

/-- The statements of a deposit kernel on complex data, on an accumulator in memory. -/
def ZKern (F : Fmt) (T : Tune) (op : DepOp) (O : ZOp α) (el : Flt × Flt → Flt × Flt → α) : Prop :=
  ∀ (m : Mem) (X Z incX incZ : Int) (expand : Bool) (fold n : Nat) (l : Loc) (σ : Regs) (j : Nat), 1 ≤ fold → (expand = true → 2 ≤ fold) → j < fold →
    (Gen.mk T true op).kernelCode F (behind m X Z) incX incZ expand fold n (bindY l.re l.im m σ) (.y 0 j) 0
      = nth (F.kernelZ T (zmode (F.dmindex0 (m l.pri)) (F.dmindex0 (m (l.pri + 1)))) O.e O.fR O.zfill (zvals el m X Z incX incZ n) (view fold l.re m).pri) j
    ∧ (Gen.mk T true op).kernelCode F (behind m X Z) incX incZ expand fold n (bindY l.re l.im m σ) (.y 1 j) 0
      = nth (F.kernelZ T (zmode (F.dmindex0 (m (l.pri + 1))) (F.dmindex0 (m l.pri))) O.e O.fI O.zfill (zvals el m X Z incX incZ n) (view fold l.im m).pri) j

/-- What the block loop needs to know about an operation. -/
structure ZLink (F : Fmt) (T : Tune) (op : DepOp) (O : ZOp α) (el : Flt × Flt → Flt × Flt → α) : Prop where
  e : O.e = if op.prod then 2 else 1
  tR : ∀ x z, O.tR (el x z) = F.zterm op 0 x z
  tI : ∀ x z, O.tI (el x z) = F.zterm op 1 x z
  fst : op.prod = false → ∀ x z z', el x z = el x z'
  amax : ∀ (m : Mem) (X Z incX incZ : Int) (n : Nat) (σ : Regs),
    (GenA.mk T true op.prod).code F (behind m X Z) incX incZ n σ (.am 0) 0 = F.amaxZ T O.e O.fR O.zfill (zvals el m X Z incX incZ n)
    ∧ (GenA.mk T true op.prod).code F (behind m X Z) incX incZ n σ (.am 1) 0 = F.amaxZ T O.e O.fI O.zfill (zvals el m X Z incX incZ n)
  kern : ZKern F T op O el

theorem gatherZ_behind0 (m : Mem) (X Z incX : Int) (n : Nat) :
    gatherZ (cwords (behind m X Z) 0) incX n = (List.range n).map (fun (i : Nat) => m.pair (X + i * 2 * incX)) := by
  unfold gatherZ
  apply List.map_congr_left
  intro i _
  unfold cwords behind Mem.pair
  simp only [↓reduceIte]
  rw [show X + 2 * ((i : Int) * incX) = X + i * 2 * incX by ring, show X + (2 * ((i : Int) * incX) + 1) = X + i * 2 * incX + 1 by ring]

theorem gatherZ_behind1 (m : Mem) (X Z incZ : Int) (n : Nat) :
    gatherZ (cwords (behind m X Z) 1) incZ n = (List.range n).map (fun (i : Nat) => m.pair (Z + i * 2 * incZ)) := by
  unfold gatherZ
  apply List.map_congr_left
  intro i _
  unfold cwords behind Mem.pair
  simp only [Nat.one_ne_zero, ↓reduceIte]
  rw [show Z + 2 * ((i : Int) * incZ) = Z + i * 2 * incZ by ring, show Z + (2 * ((i : Int) * incZ) + 1) = Z + i * 2 * incZ + 1 by ring]

theorem gatherZ_zip (m : Mem) (X Z incX incZ : Int) (n : Nat) :
    (gatherZ (cwords (behind m X Z) 0) incX n).zip (gatherZ (cwords (behind m X Z) 1) incZ n) = zvals Prod.mk m X Z incX incZ n := by
  rw [gatherZ_behind0, gatherZ_behind1, List.zip, zip_rm, Nat.min_self]
  rfl

theorem priAt_bind0 (fold : Nat) (l0 l1 : Loc) (m : Mem) (σ : Regs) : priAt fold (bindY l0 l1 m σ) 0 = (view fold l0 m).pri := rfl
theorem priAt_bind1 (fold : Nat) (l0 l1 : Loc) (m : Mem) (σ : Regs) : priAt fold (bindY l0 l1 m σ) 1 = (view fold l1 m).pri := rfl

theorem nth_view0 {fold : Nat} (hf : 1 ≤ fold) (l : Loc) (m : Mem) : nth (view fold l m).pri 0 = m l.pri := by
  rw [nth_view_pri l m (by omega), Loc.P0]

theorem zlink_sum [F.OK] {T : Tune} (hT : T.OK F) : ZLink F T .sum zsumOp (fun x _ => x) where
  e := rfl
  tR _ _ := rfl
  tI _ _ := rfl
  fst _ _ _ _ := rfl
  amax m X Z incX incZ n σ := by
    have := C63_zamax hT (behind m X Z) incX incZ n σ 0
    rwa [gatherZ_behind0] at this
  kern m X Z incX incZ expand fold n l σ j hf he hj := by
    have := C62_zsum hT (behind m X Z) incX incZ (expand := expand) (fold := fold) (n := n) hf he (bindY l.re l.im m σ) hj 0
    rw [gatherZ_behind0, priAt_bind0, priAt_bind1, nth_view0 hf, nth_view0 hf] at this
    exact this

theorem zlink_dotu [F.OK] {T : Tune} (hT : T.OK F) : ZLink F T .dotu (F.dotuOp T) Prod.mk where
  e := rfl
  tR _ _ := rfl
  tI _ _ := rfl
  fst h := by cases h
  amax m X Z incX incZ n σ := by
    have := C63_zamaxm hT (behind m X Z) incX incZ n σ 0
    rw [gatherZ_zip] at this
    exact ⟨this.1, this.2.2.1⟩
  kern m X Z incX incZ expand fold n l σ j hf he hj := by
    have := C62_dotu hT (behind m X Z) incX incZ (expand := expand) (fold := fold) (n := n) hf he (bindY l.re l.im m σ) hj 0
    rw [gatherZ_zip, priAt_bind0, priAt_bind1, nth_view0 hf, nth_view0 hf] at this
    exact this

theorem zlink_dotc [F.OK] {T : Tune} (hT : T.OK F) : ZLink F T .dotc (F.dotcOp T) Prod.mk where
  e := rfl
  tR _ _ := rfl
  tI _ _ := rfl
  fst h := by cases h
  amax m X Z incX incZ n σ := by
    have := C63_zamaxm hT (behind m X Z) incX incZ n σ 0
    rw [gatherZ_zip] at this
    exact ⟨this.2.1, this.2.2.2⟩
  kern m X Z incX incZ expand fold n l σ j hf he hj := by
    have := C62_dotc hT (behind m X Z) incX incZ (expand := expand) (fold := fold) (n := n) hf he (bindY l.re l.im m σ) hj 0
    rw [gatherZ_zip, priAt_bind0, priAt_bind1, nth_view0 hf, nth_view0 hf] at this
    exact this

theorem zvals_congr {op : DepOp} {el : Flt × Flt → Flt × Flt → α} (hel : op.prod = false → ∀ x z z', el x z = el x z') {m m' : Mem} {X Z incX incZ : Int} {n : Nat}
    (h : ZReads op X Z incX incZ n (fun a => m' a = m a)) : zvals el m' X Z incX incZ n = zvals el m X Z incX incZ n := by
  unfold zvals
  apply List.map_congr_left
  intro i hi
  have ⟨⟨h1, h2⟩, h3⟩ := h i (List.mem_range.mp hi)
  have e1 : m'.pair (X + i * 2 * incX) = m.pair (X + i * 2 * incX) := by unfold Mem.pair; rw [h1, h2]
  rw [e1]
  by_cases hp : op.prod = true
  · have ⟨h4, h5⟩ := h3 hp
    have e2 : m'.pair (Z + i * 2 * incZ) = m.pair (Z + i * 2 * incZ) := by unfold Mem.pair; rw [h4, h5]
    rw [e2]
  · exact hel (by simpa using hp) _ _ _

/-- A block deposited in memory. -/
theorem zblock_view {T : Tune} {op : DepOp} {O : ZOp α} {el : Flt × Flt → Flt × Flt → α} (hL : ZKern F T op O el)
    (m : Mem) (X Z incX incZ : Int) {expand : Bool} {fold : Nat}
    (hf : 1 ≤ fold) (he : expand = true → 2 ≤ fold) (n : Nat) {l : Loc} (hs : CSep fold l) (σ : Regs) (σ' : Regs)
    (hσ : (Gen.mk T true op).kernelCode F (behind m X Z) incX incZ expand fold n (bindY l.re l.im m σ) = σ') :
    cview fold l (storeY fold 1 l.im σ' (storeY fold 0 l.re σ' m))
      = (⟨F.kernelZ T (zmode (F.dmindex0 (m l.pri)) (F.dmindex0 (m (l.pri + 1)))) O.e O.fR O.zfill (zvals el m X Z incX incZ n) (view fold l.re m).pri, (view fold l.re m).car⟩,
         ⟨F.kernelZ T (zmode (F.dmindex0 (m (l.pri + 1))) (F.dmindex0 (m l.pri))) O.e O.fI O.zfill (zvals el m X Z incX incZ n) (view fold l.im m).pri, (view fold l.im m).car⟩)
    ∧ ∀ a, ¬ l.CIn fold a → storeY fold 1 l.im σ' (storeY fold 0 l.re σ' m) a = m a := by
  have ⟨h1, h2⟩ := both_parts hs (storeY_refines hs.re 0 σ') (storeY_refines hs.im 1 σ') m
  refine ⟨h1.trans ?_, h2⟩
  have hk := hL m X Z incX incZ expand fold n l σ
  rw [hσ] at hk
  have aux : ∀ (ks : List Flt) (k : Nat), ks.length = fold → (∀ j, j < fold → σ' (.y k j) 0 = nth ks j) →
      (List.range fold).map (fun j => σ' (.y k j) 0) = ks := by
    intro ks k hl hj
    apply List.ext_getElem
    · simp [hl]
    · intro j h1 h2
      rw [List.getElem_map, List.getElem_range, hj j (by omega)]
      unfold nth
      rw [List.getD_eq_getElem?_getD, List.getElem?_eq_getElem h2]; rfl
  congr 2
  · exact aux _ 0 (by unfold Fmt.kernelZ Fmt.consolidateZ view; simp) (fun j hj => (hk j hf he hj).1)
  · exact aux _ 1 (by unfold Fmt.kernelZ Fmt.consolidateZ view; simp) (fun j hj => (hk j hf he hj).2)

theorem nth_map' {β : Type} (f : β → Flt) (g : Nat → β) {n j : Nat} (hj : j < n) : nth (((List.range n).map g).map f) j = f (g j) := by
  rw [List.map_map]; exact nth_rm _ hj

theorem zloopM_spec [F.OK] {T : Tune} (hT : T.OK F) {op : DepOp} {O : ZOp α} {el : Flt × Flt → Flt × Flt → α} (hL : ZLink F T op O el) {expand : Bool} {fold : Nat}
    (hf : 1 ≤ fold) (he : expand = true → 2 ≤ fold) {l : Loc} (hs : CSep fold l) (incX incZ : Int) (jA jD : Nat → Regs) (fuel : Nat) :
    ∀ (rem : Nat) (X Z : Int) (dep : Nat) (m : Mem), ZReads op X Z incX incZ rem (fun a => ¬ l.CIn fold a) →
      cview fold l (F.zloopM T op expand fold l incX incZ jA jD fuel rem X Z dep m)
        = F.zvecLoop T fold O fuel (zvals el m X Z incX incZ rem) dep (cview fold l m)
      ∧ ∀ a, ¬ l.CIn fold a → F.zloopM T op expand fold l incX incZ jA jD fuel rem X Z dep m a = m a := by
  have hren : ∀ m, cview fold l (F.zmrenormM fold l m) = (F.dmrenorm (view fold l.re m), F.dmrenorm (view fold l.im m)) ∧ ∀ a, ¬ l.CIn fold a → F.zmrenormM fold l m a = m a :=
    fun m => both_parts hs (dmrenormM_refines (F := F) hf hs.re) (dmrenormM_refines (F := F) hf hs.im) m
  induction fuel with
  | zero => intro rem X Z dep m _; exact hren m
  | succ fuel ih =>
    intro rem X Z dep m hr
    unfold zloopM zvecLoop
    by_cases h0 : rem = 0
    · have : (zvals el m X Z incX incZ rem).isEmpty = true := by rw [h0]; rfl
      rw [if_pos h0, if_pos this]; exact hren m
    · have hne : ¬ (zvals el m X Z incX incZ rem).isEmpty = true := by
        intro h; apply h0; rw [← zvals_length el m X Z incX incZ rem, List.isEmpty_iff.mp h]; rfl
      rw [if_neg h0, if_neg hne]
      have hmin : min rem T.nb ≤ rem := Nat.min_le_left _ _
      simp only [zvals_take, (hL.amax _ _ _ _ _ _ _).1, (hL.amax _ _ _ _ _ _ _).2]
      set nb := min rem T.nb with hnbd
      set a0 := F.amaxZ T O.e O.fR O.zfill (zvals el m X Z incX incZ nb) with ha0
      set a1 := F.amaxZ T O.e O.fI O.zfill (zvals el m X Z incX incZ nb) with ha1
      have hInR : l.re.In fold l.pri := by
        have := l.re.inP (n := fold) (i := 0) (by omega); rwa [Loc.P0] at this
      have hInI : l.im.In fold (l.pri + 1) := by
        have := l.im.inP (n := fold) (i := 0) (by omega); rwa [Loc.P0] at this
      have hpR : ∀ m : Mem, nth (view fold l.re m).pri 0 = m l.pri := fun m => nth_view0 hf l.re m
      have hpI : ∀ m : Mem, nth (view fold l.im m).pri 0 = m (l.pri + 1) := fun m => nth_view0 hf l.im m
      have hz : ∀ m' : Mem, (∀ a, ¬ l.CIn fold a → m' a = m a) → ∀ k, k ≤ rem → zvals el m' X Z incX incZ k = zvals el m X Z incX incZ k := by
        intro m' hm' k hk
        exact zvals_congr hL.fst (fun i hi => ⟨⟨hm' _ (hr i (by omega)).1.1, hm' _ (hr i (by omega)).1.2⟩,
          fun hp => ⟨hm' _ ((hr i (by omega)).2 hp).1, hm' _ ((hr i (by omega)).2 hp).2⟩⟩)
      have hterm : ∀ (k : Nat) (tf : α → Flt), (∀ x z, tf (el x z) = F.zterm op k x z) → ∀ j, j < nb → ∀ m' : Mem, (∀ a, ¬ l.CIn fold a → m' a = m a) →
          F.zterm op k (m'.pair (X + j * 2 * incX)) (m'.pair (Z + j * 2 * incZ)) = nth ((zvals el m X Z incX incZ nb).map tf) j := by
        intro k tf htf j hj m' hm'
        rw [← hz m' hm' nb hmin]
        unfold zvals
        rw [nth_map' _ _ hj, htf]
      -- the exceptional loop of the real part
      obtain ⟨m1, hm1, hv1, hi1, hf1⟩ : ∃ m1, (if (F.isInf a0 || F.isInf (m l.pri)) = true then
          F.accum0M nb (fun j m => F.zterm op 0 (m.pair (X + j * 2 * incX)) (m.pair (Z + j * 2 * incZ))) l.pri m else m) = m1
          ∧ view fold l.re m1 = (if (F.isInf a0 || F.isInf (nth (cview fold l m).1.pri 0)) = true then F.accum0 ((zvals el m X Z incX incZ nb).map O.tR) (cview fold l m).1 else (cview fold l m).1)
          ∧ view fold l.im m1 = (cview fold l m).2
          ∧ ∀ a, ¬ l.CIn fold a → m1 a = m a := by
        refine ⟨_, rfl, ?_⟩
        have e : nth (cview fold l m).1.pri 0 = m l.pri := hpR m
        rw [e]
        by_cases hi : (F.isInf a0 || F.isInf (m l.pri)) = true
        · rw [if_pos hi, if_pos hi]
          have hacc := accum0M_view (F := F) (N := nb) hf hs.re (fun j m => F.zterm op 0 (m.pair (X + j * 2 * incX)) (m.pair (Z + j * 2 * incZ)))
            ((zvals el m X Z incX incZ nb).map O.tR) (by rw [List.length_map, zvals_length]) m (by
              intro j hj m' hm'
              exact hterm 0 O.tR hL.tR j hj m' (fun a ha => hm' a (fun e => ha (Or.inl (by rw [e]; exact hInR)))))
          refine ⟨hacc.1, ?_, fun a ha => hacc.2 a (fun e => ha (Or.inl (by rw [e]; exact hInR)))⟩
          exact view_congr (fun a ha => hacc.2 a (fun e => hs.ap l.pri hInR (by rw [e] at ha; exact ha)))
        · rw [if_neg hi, if_neg hi]; exact ⟨rfl, rfl, fun a _ => rfl⟩
      rw [hm1, ← hv1]
      -- the exceptional loop of the imaginary part
      obtain ⟨m2, hm2, hv2, hi2, hf2⟩ : ∃ m2, (if (F.isInf a1 || F.isInf (m1 (l.pri + 1))) = true then
          F.accum0M nb (fun j m => F.zterm op 1 (m.pair (X + j * 2 * incX)) (m.pair (Z + j * 2 * incZ))) (l.pri + 1) m1 else m1) = m2
          ∧ view fold l.im m2 = (if (F.isInf a1 || F.isInf (nth (cview fold l m).2.pri 0)) = true then F.accum0 ((zvals el m X Z incX incZ nb).map O.tI) (cview fold l m).2 else (cview fold l m).2)
          ∧ view fold l.re m2 = view fold l.re m1
          ∧ ∀ a, ¬ l.CIn fold a → m2 a = m a := by
        refine ⟨_, rfl, ?_⟩
        have e : nth (cview fold l m).2.pri 0 = m1 (l.pri + 1) := by rw [← hi1]; exact hpI m1
        rw [e, ← hi1]
        by_cases hi : (F.isInf a1 || F.isInf (m1 (l.pri + 1))) = true
        · rw [if_pos hi, if_pos hi]
          have hacc := accum0M_view (F := F) (N := nb) (l := l.im) hf hs.im (fun j m => F.zterm op 1 (m.pair (X + j * 2 * incX)) (m.pair (Z + j * 2 * incZ)))
            ((zvals el m X Z incX incZ nb).map O.tI) (by rw [List.length_map, zvals_length]) m1 (by
              intro j hj m' hm'
              exact hterm 1 O.tI hL.tI j hj m' (fun a ha => (hm' a (fun e => ha (Or.inr (by rw [e]; exact hInI)))).trans (hf1 a ha)))
          refine ⟨hacc.1, ?_, fun a ha => (hacc.2 a (fun e => ha (Or.inr (by rw [e]; exact hInI)))).trans (hf1 a ha)⟩
          exact view_congr (fun a ha => hacc.2 a (fun e => hs.ap a ha (by rw [e]; exact hInI)))
        · rw [if_neg hi, if_neg hi]; exact ⟨rfl, rfl, hf1⟩
      rw [hm2, ← hv2, ← hi2, hpR, hpI]
      have hdrop : ∀ m' : Mem, (∀ a, ¬ l.CIn fold a → m' a = m a) →
          (zvals el m X Z incX incZ rem).drop T.nb = zvals el m' (X + nb * 2 * incX) (Z + nb * 2 * incZ) incX incZ (rem - nb) := by
        intro m' hm'
        rw [← hz m' hm' rem (Nat.le_refl _), zvals_drop]
      have hrd : ZReads op (X + nb * 2 * incX) (Z + nb * 2 * incZ) incX incZ (rem - nb) (fun a => ¬ l.CIn fold a) := by
        intro i hi
        have := hr (nb + i) (by omega)
        rw [show X + (nb : Int) * 2 * incX + (i : Int) * 2 * incX = X + ((nb + i : Nat) : Int) * 2 * incX by push_cast; ring,
          show Z + (nb : Int) * 2 * incZ + (i : Int) * 2 * incZ = Z + ((nb + i : Nat) : Int) * 2 * incZ by push_cast; ring]
        exact this
      split
      · exact ⟨rfl, hf2⟩
      · split
        · have := ih (rem - nb) (X + nb * 2 * incX) (Z + nb * 2 * incZ) dep m2 hrd
          rw [this.1, hdrop m2 hf2]
          exact ⟨rfl, fun a ha => (this.2 a ha).trans (hf2 a ha)⟩
        · rw [zvals_length, ← hL.e]
          generalize (if F.isNaNInf (m2 l.pri) = true then m2 l.pri else a0) = b0 at *
          generalize (if F.isNaNInf (m2 (l.pri + 1)) = true then m2 (l.pri + 1) else a1) = b1 at *
          obtain ⟨m3, hm3, hv3, hi3, hf3⟩ : ∃ m3, (if dep + nb > F.endurance / O.e then F.zmrenormM fold l m2 else m2) = m3
              ∧ view fold l.re m3 = (if dep + nb > F.endurance / O.e then F.dmrenorm (view fold l.re m2) else view fold l.re m2)
              ∧ view fold l.im m3 = (if dep + nb > F.endurance / O.e then F.dmrenorm (view fold l.im m2) else view fold l.im m2)
              ∧ ∀ a, ¬ l.CIn fold a → m3 a = m a := by
            refine ⟨_, rfl, ?_⟩
            split
            · have h := hren m2
              exact ⟨congrArg Prod.fst h.1, congrArg Prod.snd h.1, fun a ha => (h.2 a ha).trans (hf2 a ha)⟩
            · exact ⟨rfl, rfl, hf2⟩
          rw [hm3, ← hv3, ← hi3]
          have hup : cview fold l (F.zmzupdateM fold b0 b1 l m3) = (F.dmdupdate fold b0 (view fold l.re m3), F.dmdupdate fold b1 (view fold l.im m3))
              ∧ ∀ a, ¬ l.CIn fold a → F.zmzupdateM fold b0 b1 l m3 a = m3 a :=
            both_parts hs (dmdupdateM_refines (F := F) hf hs.re b0) (dmdupdateM_refines (F := F) hf hs.im b1) m3
          have hup1 : F.dmdupdate fold b0 (view fold l.re m3) = view fold l.re (F.zmzupdateM fold b0 b1 l m3) := (congrArg Prod.fst hup.1).symm
          have hup2 : F.dmdupdate fold b1 (view fold l.im m3) = view fold l.im (F.zmzupdateM fold b0 b1 l m3) := (congrArg Prod.snd hup.1).symm
          have hf4 : ∀ a, ¬ l.CIn fold a → F.zmzupdateM fold b0 b1 l m3 a = m a := fun a ha => (hup.2 a ha).trans (hf3 a ha)
          rw [hup1, hup2]
          clear hup hup1 hup2
          generalize F.zmzupdateM fold b0 b1 l m3 = m4 at *
          have hk := zblock_view hL.kern m4 X Z incX incZ hf he nb hs (jD rem) _ rfl
          rw [hz m4 hf4 nb hmin] at hk
          rw [hpR, hpI]
          generalize (Gen.mk T true op).kernelCode F (behind m4 X Z) incX incZ expand fold nb (bindY l.re l.im m4 (jD rem)) = σ' at *
          have hk1 := (congrArg Prod.fst hk.1).symm
          have hk2 := (congrArg Prod.snd hk.1).symm
          dsimp only at hk1 hk2
          rw [hk1, hk2]
          have hf5 : ∀ a, ¬ l.CIn fold a → storeY fold 1 l.im σ' (storeY fold 0 l.re σ' m4) a = m a := fun a ha => (hk.2 a ha).trans (hf4 a ha)
          clear hk hk1 hk2
          generalize storeY fold 1 l.im σ' (storeY fold 0 l.re σ' m4) = m5 at *
          have hsh := both_parts hs (setHead_refines hf hs.re b0 (F.isInf b0)) (setHead_refines hf hs.im b1 (F.isInf b1)) m5
          obtain ⟨m6, hm6, hsh1, hsh2⟩ : ∃ m6, (if F.isInf b1 = true then Mem.set (if F.isInf b0 = true then m5.set l.pri b0 else m5) (l.pri + 1) b1 else (if F.isInf b0 = true then m5.set l.pri b0 else m5)) = m6
              ∧ cview fold l m6 = (if F.isInf b0 = true then setHead b0 (cview fold l m5).1 else (cview fold l m5).1, if F.isInf b1 = true then setHead b1 (cview fold l m5).2 else (cview fold l m5).2)
              ∧ ∀ a, ¬ l.CIn fold a → m6 a = m5 a := ⟨_, rfl, hsh.1, hsh.2⟩
          rw [hm6]
          have hf6 : ∀ a, ¬ l.CIn fold a → m6 a = m a := fun a ha => (hsh2 a ha).trans (hf5 a ha)
          have hadv : (runUnrolled (Gen.mk T true op).tsz (T.pipe * T.unroll) nb).off = nb := adv_eq (G := Gen.mk T true op) hT nb
          rw [hadv, show incX * 2 * (nb : Int) = nb * 2 * incX by ring, show incZ * 2 * (nb : Int) = nb * 2 * incZ by ring]
          have := ih (rem - nb) (X + nb * 2 * incX) (Z + nb * 2 * incZ) ((if dep + nb > F.endurance / O.e then 0 else dep) + nb) m6 hrd
          rw [this.1, hdrop m6 hf6, hsh1]
          exact ⟨rfl, fun a ha => (this.2 a ha).trans (hf6 a ha)⟩

end
end Repro
