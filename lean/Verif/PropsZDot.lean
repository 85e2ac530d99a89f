import Verif.PropsZ
import Verif.PropsTight
/-!
# C42: dot products of complex vectors
-/

namespace Repro
open Fmt
variable {F : Fmt}

theorem flip_eq [F.OK] {T : Tune} {x : Flt} (hx : F.Finite x) : F.flip T x = fneg x := by
  unfold Fmt.flip
  split
  · rfl
  · have h1 := mul_one'' (F := F) hx
    have ho : F.Finite F.one := one_ok.1
    unfold mul at h1 ⊢
    have n1 := finite_not_nan hx
    have n2 := finite_not_nan ho
    have i1 := finite_not_inf hx
    have i2 := finite_not_inf ho
    have n3 : F.isNaN (fneg F.one) = false := n2
    have i3 : F.isInf (fneg F.one) = false := i2
    rw [n1, n2, i1, i2] at h1
    rw [n1, n3, i1, i3]
    simp only [Bool.or_self, Bool.false_eq_true, if_false] at h1 ⊢
    have e1 : (fneg F.one).mag = F.one.mag := rfl
    have e2 : (fneg F.one).neg = !F.one.neg := rfl
    rw [e1, e2]
    have hm : F.roundMag (F.val x.mag * F.val F.one.mag) F.eta = x.mag := congrArg Flt.mag h1
    have hs : (x.neg != F.one.neg) = x.neg := congrArg Flt.neg h1
    rw [hm]
    show (⟨_, _⟩ : Flt) = ⟨!x.neg, x.mag⟩
    have : (x.neg != !F.one.neg) = !x.neg := by
      revert hs; cases x.neg <;> cases F.one.neg <;> simp
    rw [this]

theorem dotuOp_ok [F.OK] (T : Tune) : (F.dotuOp T).OK := by
  have hz : (F.mul zero zero).mag = 0 := by
    have h := mul_zero' (F := F) (x := zero) zero_finite
    have h2 := h.2
    unfold toInt at h2
    have : F.val (F.mul zero zero).mag = 0 := by split at h2 <;> omega
    exact val_eq_zero.1 this
  have hf : F.Finite (F.mul zero zero) := (mul_zero' zero_finite).1
  refine ⟨by show 1 ≤ 2; decide, fun q => ?_, fun q => ?_⟩
  · show (if q = 0 then F.mul zero zero else F.flip T (F.mul zero zero)).mag = 0
    split
    · exact hz
    · rw [flip_eq hf]; exact hz
  · show (if q = 0 then F.mul zero zero else (F.mul zero zero)).mag = 0
    split <;> exact hz

theorem dotcOp_ok [F.OK] (T : Tune) : (F.dotcOp T).OK := by
  have hz : (F.mul zero zero).mag = 0 := by
    have h := mul_zero' (F := F) (x := zero) zero_finite
    have h2 := h.2
    unfold toInt at h2
    have : F.val (F.mul zero zero).mag = 0 := by split at h2 <;> omega
    exact val_eq_zero.1 this
  have hf : F.Finite (F.mul zero zero) := (mul_zero' zero_finite).1
  refine ⟨by show 1 ≤ 2; decide, fun q => ?_, fun q => ?_⟩
  · show (if q = 0 then F.mul zero zero else (F.mul zero zero)).mag = 0
    split <;> exact hz
  · show (if q = 0 then F.flip T (F.mul zero zero) else F.mul zero zero).mag = 0
    split
    · rw [flip_eq hf]; exact hz
    · exact hz

theorem partNums_two {α : Type} (f : α → Nat → Flt) (es : List α) : partNums 2 f es = es.flatMap (fun a => [f a 0, f a 1]) := rfl

theorem zip_gatherZ (X Y : Int → Flt × Flt) (incX incY : Int) (n : Nat) :
    (gatherZ X incX n).zip (gatherZ Y incY n) = (List.range n).map (fun (i : Nat) => (X (i * incX), Y (i * incY))) := by
  unfold gatherZ
  rw [List.zip_map, List.zip_eq_zipWith]
  rw [List.zipWith_self, List.map_map]; rfl

/-- The two products that an element of a complex dot product contributes to the real part: `ac` and `-bd` for
`(a + ib)(c + id)`, and `ac`, `bd` for the conjugated product. -/
def dotRe (F : Fmt) (conj : Bool) (x y : Flt × Flt) : Flt × Flt :=
  (F.mul x.1 y.1, if conj then F.mul x.2 y.2 else fneg (F.mul x.2 y.2))

/-- And to the imaginary part: `bc` (negated for the conjugated product) and `ad`. -/
def dotIm (F : Fmt) (conj : Bool) (x y : Flt × Flt) : Flt × Flt :=
  (if conj then fneg (F.mul x.2 y.1) else F.mul x.2 y.1, F.mul x.1 y.2)

/-- Both kinds of dot product: `zmzdotc` if `conj`, `zmzdotu` otherwise. -/
def zdot (F : Fmt) (conj : Bool) (T : Tune) (fold n : Nat) (X : Int → Flt × Flt) (incX : Int) (Y : Int → Flt × Flt) (incY : Int) (z : Binned × Binned) : Binned × Binned :=
  if conj then F.zmzdotc T fold n X incX Y incY z else F.zmzdotu T fold n X incX Y incY z

theorem zdot_re [F.OK] {conj : Bool} {T : Tune} (hT : T.OK F) {n : Nat} (hnb : 2 * min T.nb n ≤ F.endurance) {fold : Nat} (hfold : 2 ≤ fold) {h : Hist} (hl : h.Legal F)
    {X Y : Int → Flt × Flt} {incX incY : Int} (hs : n = 0 → h.Settled)
    (hx : ∀ i : Nat, i < n → F.Finite (dotRe F conj (X (i * incX)) (Y (i * incY))).1 ∧ F.Finite (dotRe F conj (X (i * incX)) (Y (i * incY))).2)
    (hN : 2 * n + h.nums.length ≤ F.capacity) (im : Binned) :
    (zdot F conj T fold n X incX Y incY (h.eval F fold, im)).1 =
      F.sumSeq fold ((List.range n).flatMap (fun (i : Nat) => [(dotRe F conj (X (i * incX)) (Y (i * incY))).1, (dotRe F conj (X (i * incX)) (Y (i * incY))).2]))
        (h.eval F fold) := by
  have gen : ∀ (O : ZOp ((Flt × Flt) × (Flt × Flt))), O.OK → O.e = 2 →
      (∀ i : Nat, i < n → O.fR (X (i * incX), Y (i * incY)) 0 = (dotRe F conj (X (i * incX)) (Y (i * incY))).1 ∧
        O.fR (X (i * incX), Y (i * incY)) 1 = (dotRe F conj (X (i * incX)) (Y (i * incY))).2) →
      (F.zvecSum T fold O ((gatherZ X incX n).zip (gatherZ Y incY n)) (h.eval F fold, im)).1 =
      F.sumSeq fold ((List.range n).flatMap (fun (i : Nat) => [(dotRe F conj (X (i * incX)) (Y (i * incY))).1, (dotRe F conj (X (i * incX)) (Y (i * incY))).2]))
        (h.eval F fold) := by
    intro O hO he hf
    have e : partNums O.e O.fR ((gatherZ X incX n).zip (gatherZ Y incY n))
        = (List.range n).flatMap (fun (i : Nat) => [(dotRe F conj (X (i * incX)) (Y (i * incY))).1, (dotRe F conj (X (i * incX)) (Y (i * incY))).2]) := by
      rw [he, partNums_two, zip_gatherZ, List.flatMap_map]
      apply List.flatMap_congr
      intro i hi
      obtain ⟨h1, h2⟩ := hf i (List.mem_range.1 hi)
      rw [h1, h2]
    rw [zvecSum_re hT hO (by rw [he, zip_gatherZ, List.length_map, List.length_range]; exact hnb) hfold hl, e]
    · intro h0; apply hs; have := congrArg List.length h0; rw [zip_gatherZ] at this; simpa using this
    · rw [e]
      intro x hxm
      obtain ⟨i, hi, hxi⟩ := List.mem_flatMap.1 hxm
      have := hx i (List.mem_range.1 hi)
      rcases List.mem_cons.1 hxi with rfl | hxi
      · exact this.1
      · rw [List.mem_singleton] at hxi; subst hxi; exact this.2
    · rw [partNums_length, he, zip_gatherZ, List.length_map, List.length_range]; exact hN
  unfold zdot
  cases conj with
  | true =>
    rw [if_pos rfl]
    exact gen (F.dotcOp T) (dotcOp_ok T) rfl (fun i hi => ⟨rfl, rfl⟩)
  | false =>
    rw [if_neg (by decide)]
    refine gen (F.dotuOp T) (dotuOp_ok T) rfl (fun i hi => ⟨rfl, ?_⟩)
    exact flip_eq (hx i hi).2

theorem zdot_im [F.OK] {conj : Bool} {T : Tune} (hT : T.OK F) {n : Nat} (hnb : 2 * min T.nb n ≤ F.endurance) {fold : Nat} (hfold : 2 ≤ fold) {h : Hist} (hl : h.Legal F)
    {X Y : Int → Flt × Flt} {incX incY : Int} (hs : n = 0 → h.Settled)
    (hx : ∀ i : Nat, i < n → F.Finite (dotIm F conj (X (i * incX)) (Y (i * incY))).1 ∧ F.Finite (dotIm F conj (X (i * incX)) (Y (i * incY))).2)
    (hN : 2 * n + h.nums.length ≤ F.capacity) (re : Binned) :
    (zdot F conj T fold n X incX Y incY (re, h.eval F fold)).2 =
      F.sumSeq fold ((List.range n).flatMap (fun (i : Nat) => [(dotIm F conj (X (i * incX)) (Y (i * incY))).1, (dotIm F conj (X (i * incX)) (Y (i * incY))).2]))
        (h.eval F fold) := by
  have gen : ∀ (O : ZOp ((Flt × Flt) × (Flt × Flt))), O.OK → O.e = 2 →
      (∀ i : Nat, i < n → O.fI (X (i * incX), Y (i * incY)) 0 = (dotIm F conj (X (i * incX)) (Y (i * incY))).1 ∧
        O.fI (X (i * incX), Y (i * incY)) 1 = (dotIm F conj (X (i * incX)) (Y (i * incY))).2) →
      (F.zvecSum T fold O ((gatherZ X incX n).zip (gatherZ Y incY n)) (re, h.eval F fold)).2 =
      F.sumSeq fold ((List.range n).flatMap (fun (i : Nat) => [(dotIm F conj (X (i * incX)) (Y (i * incY))).1, (dotIm F conj (X (i * incX)) (Y (i * incY))).2]))
        (h.eval F fold) := by
    intro O hO he hf
    have e : partNums O.e O.fI ((gatherZ X incX n).zip (gatherZ Y incY n))
        = (List.range n).flatMap (fun (i : Nat) => [(dotIm F conj (X (i * incX)) (Y (i * incY))).1, (dotIm F conj (X (i * incX)) (Y (i * incY))).2]) := by
      rw [he, partNums_two, zip_gatherZ, List.flatMap_map]
      apply List.flatMap_congr
      intro i hi
      obtain ⟨h1, h2⟩ := hf i (List.mem_range.1 hi)
      rw [h1, h2]
    rw [zvecSum_im hT hO (by rw [he, zip_gatherZ, List.length_map, List.length_range]; exact hnb) hfold hl, e]
    · intro h0; apply hs; have := congrArg List.length h0; rw [zip_gatherZ] at this; simpa using this
    · rw [e]
      intro x hxm
      obtain ⟨i, hi, hxi⟩ := List.mem_flatMap.1 hxm
      have := hx i (List.mem_range.1 hi)
      rcases List.mem_cons.1 hxi with rfl | hxi
      · exact this.1
      · rw [List.mem_singleton] at hxi; subst hxi; exact this.2
    · rw [partNums_length, he, zip_gatherZ, List.length_map, List.length_range]; exact hN
  unfold zdot
  cases conj with
  | true =>
    rw [if_pos rfl]
    refine gen (F.dotcOp T) (dotcOp_ok T) rfl (fun i hi => ⟨?_, rfl⟩)
    exact flip_eq (hx i hi).1
  | false =>
    rw [if_neg (by decide)]
    exact gen (F.dotuOp T) (dotuOp_ok T) rfl (fun i hi => ⟨rfl, rfl⟩)

/-- Add the four products of an element to the two parts of a complex binned value, one at a time. -/
def dotStep (F : Fmt) (conj : Bool) (fold : Nat) (x y : Flt × Flt) (z : Binned × Binned) : Binned × Binned :=
  (F.dmdadd fold (dotRe F conj x y).2 (F.dmdadd fold (dotRe F conj x y).1 z.1),
   F.dmdadd fold (dotIm F conj x y).2 (F.dmdadd fold (dotIm F conj x y).1 z.2))

/-- The four products are finite. -/
def DotFinite (F : Fmt) (x y : Flt × Flt) : Prop :=
  F.Finite (F.mul x.1 y.1) ∧ F.Finite (F.mul x.2 y.2) ∧ F.Finite (F.mul x.2 y.1) ∧ F.Finite (F.mul x.1 y.2)

theorem DotFinite.re {conj : Bool} {x y : Flt × Flt} (h : DotFinite F x y) : F.Finite (dotRe F conj x y).1 ∧ F.Finite (dotRe F conj x y).2 := by
  cases conj <;> exact ⟨h.1, h.2.1⟩

theorem DotFinite.im {conj : Bool} {x y : Flt × Flt} (h : DotFinite F x y) : F.Finite (dotIm F conj x y).1 ∧ F.Finite (dotIm F conj x y).2 := by
  cases conj <;> exact ⟨h.2.2.1, h.2.2.2⟩

/-- **C42** (partial: no block holds more than half as many elements as the endurance). The dot product of two
strided complex vectors added to a complex binned value gives, for every such tuning and all strides, the bits of
adding the four products of each element one at a time. The library is built with blocks of `endurance` elements
(2048 in double precision, 512 in single), so this is about vectors of at most half that length, see
`C42_shipped_partial`. Missing: longer vectors, for which the claim is false, see `C42_violated`. -/
theorem C42_dot_partial [F.OK] {conj : Bool} {T : Tune} (hT : T.OK F) {n : Nat} (hnb : 2 * min T.nb n ≤ F.endurance) {fold : Nat} (hfold : 2 ≤ fold)
    {h g : Hist} (hl : h.Legal F) (gl : g.Legal F)
    {X Y : Int → Flt × Flt} {incX incY : Int} (hs : n = 0 → h.Settled ∧ g.Settled)
    (hx : ∀ i : Nat, i < n → DotFinite F (X (i * incX)) (Y (i * incY)))
    (hN : 2 * n + h.nums.length ≤ F.capacity) (gN : 2 * n + g.nums.length ≤ F.capacity) :
    zdot F conj T fold n X incX Y incY (h.eval F fold, g.eval F fold) =
      (List.range n).foldl (fun z (i : Nat) => dotStep F conj fold (X (i * incX)) (Y (i * incY)) z) (h.eval F fold, g.eval F fold) := by
  have hpair : ∀ (l : List Nat) (u v : Binned),
      l.foldl (fun z (i : Nat) => dotStep F conj fold (X (i * incX)) (Y (i * incY)) z) (u, v)
        = (F.sumSeq fold (l.flatMap (fun (i : Nat) => [(dotRe F conj (X (i * incX)) (Y (i * incY))).1, (dotRe F conj (X (i * incX)) (Y (i * incY))).2])) u,
           F.sumSeq fold (l.flatMap (fun (i : Nat) => [(dotIm F conj (X (i * incX)) (Y (i * incY))).1, (dotIm F conj (X (i * incX)) (Y (i * incY))).2])) v) := by
    intro l
    induction l with
    | nil => intro u v; rfl
    | cons a l ih =>
      intro u v
      rw [List.foldl_cons, ih]
      unfold sumSeq
      rw [List.flatMap_cons, List.flatMap_cons, List.foldl_append, List.foldl_append]
      rfl
  rw [hpair]
  exact Prod.ext (zdot_re hT hnb hfold hl (fun h0 => (hs h0).1) (fun i hi => (hx i hi).re) hN _)
    (zdot_im hT hnb hfold gl (fun h0 => (hs h0).2) (fun i hi => (hx i hi).im) gN _)

/-- **C42** (partial, reproducibility). The same pairs of elements in another order, with other strides and
tunings, if the vector is short or the blocks are small enough, give the same bits and the same native result. -/
theorem C42_independent_partial [F.OK] {conj : Bool} {T T' : Tune} (hT : T.OK F) (hT' : T'.OK F) {n : Nat} (hnb : 2 * min T.nb n ≤ F.endurance) (hnb' : 2 * min T'.nb n ≤ F.endurance)
    {fold : Nat} (hfold : 2 ≤ fold) {X Y X' Y' : Int → Flt × Flt} {incX incY incX' incY' : Int}
    (hp : ((gatherZ X incX n).zip (gatherZ Y incY n)).Perm ((gatherZ X' incX' n).zip (gatherZ Y' incY' n)))
    (hx : ∀ i : Nat, i < n → DotFinite F (X (i * incX)) (Y (i * incY))) (hN : 2 * n ≤ F.capacity) :
    zdot F conj T fold n X incX Y incY (dmsetzero fold, dmsetzero fold) = zdot F conj T' fold n X' incX' Y' incY' (dmsetzero fold, dmsetzero fold) := by
  rw [zip_gatherZ, zip_gatherZ] at hp
  have hx' : ∀ i : Nat, i < n → DotFinite F (X' (i * incX')) (Y' (i * incY')) := by
    intro i hi
    have : (X' (i * incX'), Y' (i * incY')) ∈ (List.range n).map (fun (i : Nat) => (X' (i * incX'), Y' (i * incY'))) := List.mem_map.2 ⟨i, List.mem_range.2 hi, rfl⟩
    rw [← hp.mem_iff] at this
    obtain ⟨j, hj, he⟩ := List.mem_map.1 this
    have h1 := congrArg Prod.fst he
    have h2 := congrArg Prod.snd he
    dsimp only at h1 h2
    rw [← h1, ← h2]; exact hx j (List.mem_range.1 hj)
  have hN' : 2 * n + (Hist.zero).nums.length ≤ F.capacity := hN
  have part : ∀ (f : (Flt × Flt) → (Flt × Flt) → Flt × Flt), (∀ i : Nat, i < n → F.Finite (f (X (i * incX)) (Y (i * incY))).1 ∧ F.Finite (f (X (i * incX)) (Y (i * incY))).2) →
      F.sumSeq fold ((List.range n).flatMap (fun (i : Nat) => [(f (X (i * incX)) (Y (i * incY))).1, (f (X (i * incX)) (Y (i * incY))).2])) (dmsetzero fold)
      = F.sumSeq fold ((List.range n).flatMap (fun (i : Nat) => [(f (X' (i * incX')) (Y' (i * incY'))).1, (f (X' (i * incX')) (Y' (i * incY'))).2])) (dmsetzero fold) := by
    intro f hf
    have e : ∀ (X Y : Int → Flt × Flt) (incX incY : Int),
        (List.range n).flatMap (fun (i : Nat) => [(f (X (i * incX)) (Y (i * incY))).1, (f (X (i * incX)) (Y (i * incY))).2])
        = ((List.range n).map (fun (i : Nat) => (X (i * incX), Y (i * incY)))).flatMap (fun a => [(f a.1 a.2).1, (f a.1 a.2).2]) := by
      intro X Y incX incY; rw [List.flatMap_map]
    refine (C01_order_independent hfold ?_ ?_ ?_).1
    · rw [e, e X']; exact hp.flatMap_right _
    · intro x hxm
      obtain ⟨i, hi, hxi⟩ := List.mem_flatMap.1 hxm
      have := hf i (List.mem_range.1 hi)
      rcases List.mem_cons.1 hxi with rfl | hxi
      · exact this.1
      · rw [List.mem_singleton] at hxi; subst hxi; exact this.2
    · rw [List.length_flatMap]
      have : ((List.range n).map (fun (i : Nat) => [(f (X (i * incX)) (Y (i * incY))).1, (f (X (i * incX)) (Y (i * incY))).2].length)).sum = 2 * n := by
        show ((List.range n).map (fun (_ : Nat) => 2)).sum = _
        have gen : ∀ l : List Nat, (l.map (fun (_ : Nat) => 2)).sum = 2 * l.length := by
          intro l
          induction l with
          | nil => rfl
          | cons a l ih => rw [List.map_cons, List.sum_cons, ih, List.length_cons]; omega
        rw [gen, List.length_range]
      rw [this]; exact hN
  refine Prod.ext ?_ ?_
  · exact (zdot_re (h := .zero) hT hnb hfold trivial (fun _ => trivial) (fun i hi => (hx i hi).re) hN' _).trans
      ((part (dotRe F conj) (fun i hi => (hx i hi).re)).trans
      (zdot_re (h := .zero) hT' hnb' hfold trivial (fun _ => trivial) (fun i hi => (hx' i hi).re) hN' _).symm)
  · exact (zdot_im (h := .zero) hT hnb hfold trivial (fun _ => trivial) (fun i hi => (hx i hi).im) hN' _).trans
      ((part (dotIm F conj) (fun i hi => (hx i hi).im)).trans
      (zdot_im (h := .zero) hT' hnb' hfold trivial (fun _ => trivial) (fun i hi => (hx' i hi).im) hN' _).symm)

/-- **C42** (one part only, partial). Non-finite products in one part do not leak into the other. -/
theorem C42_other_part_partial [F.OK] {conj : Bool} {T : Tune} (hT : T.OK F) {n : Nat} (hnb : 2 * min T.nb n ≤ F.endurance) {fold : Nat} (hfold : 2 ≤ fold) {h : Hist} (hl : h.Legal F)
    {X Y : Int → Flt × Flt} {incX incY : Int} (hs : n = 0 → h.Settled)
    (hx : ∀ i : Nat, i < n → F.Finite (F.mul (X (i * incX)).1 (Y (i * incY)).1) ∧ F.Finite (F.mul (X (i * incX)).2 (Y (i * incY)).2))
    (hN : 2 * n + h.nums.length ≤ F.capacity) (im : Binned) :
    (zdot F conj T fold n X incX Y incY (h.eval F fold, im)).1 =
      (List.range n).foldl (fun z (i : Nat) => F.dmdadd fold (dotRe F conj (X (i * incX)) (Y (i * incY))).2
        (F.dmdadd fold (dotRe F conj (X (i * incX)) (Y (i * incY))).1 z)) (h.eval F fold) := by
  rw [zdot_re hT hnb hfold hl hs (fun i hi => by
    have := hx i hi
    cases conj <;> exact this) hN]
  unfold sumSeq
  rw [List.foldl_flatMap]; rfl

/-- A concrete case: blocks of two elements, both kinds. -/
example : 2 * exTZ.nb ≤ f64.endurance ∧ (∀ i : Nat, i < 5 → f64.Finite (f64.mul (exZ (i * 2)).1 (exZ (i * 3)).1)) ∧
    zdot f64 false exTZ 3 5 exZ 2 exZ 3 (dmsetzero 3, dmsetzero 3) =
      (List.range 5).foldl (fun z (i : Nat) => dotStep f64 false 3 (exZ (i * 2)) (exZ (i * 3)) z) (dmsetzero 3, dmsetzero 3) ∧
    zdot f64 true exTZ 3 5 exZ 2 exZ 3 (dmsetzero 3, dmsetzero 3) =
      (List.range 5).foldl (fun z (i : Nat) => dotStep f64 true 3 (exZ (i * 2)) (exZ (i * 3)) z) (dmsetzero 3, dmsetzero 3) := by
  decide +kernel

example : ∀ i : Nat, i < 5 → DotFinite f64 (exZ (i * 2)) (exZ (i * 3)) := by
  unfold DotFinite; decide +kernel

/-! ### The shipped block size -/

/-- The largest single precision number below a quarter. -/
def qtr : Flt := ⟨false, 125 * 2 ^ 23 - 1⟩

/-- The tuning of `cmcdotu` for AVX: blocks of 512 elements (`src/binnedBLAS/cmcdotu.ccog:36`), four complex
numbers to a register. -/
def tuneC : Tune := ⟨512, 4, 8, 2, 8, true⟩
/-- The same with the block size that the renormalisation test assumes. -/
def tuneCHalf : Tune := ⟨256, 4, 8, 2, 8, true⟩

theorem tuneC_ok : tuneC.OK f32 := ⟨by decide, by decide, ⟨2, rfl⟩, ⟨3, rfl⟩, by decide, by decide, by decide, by decide, fun h => by cases h⟩
theorem tuneCHalf_ok : tuneCHalf.OK f32 := ⟨by decide, by decide, ⟨2, rfl⟩, ⟨3, rfl⟩, by decide, by decide, by decide, by decide, fun h => by cases h⟩

/-- The element of the witness. -/
def qEl : (Flt × Flt) × (Flt × Flt) := ((qtr, fneg qtr), (f32.one, f32.one))

theorem q_parts : f32.mul qtr f32.one = qtr ∧ f32.flip tuneC (f32.mul (fneg qtr) f32.one) = qtr ∧ f32.mul (fneg qtr) f32.one = fneg qtr ∧ f32.Finite qtr := by
  decide +kernel

theorem loadZ_map' {α β : Type} (ts e : Nat) (f : β → Nat → Flt) (g : α → β) (z : α) (es : List α) (c : Chunk) :
    loadZ ts e f (g z) (es.map g) c = loadZ ts e (fun a => f (g a)) z es c := by
  have hg : ∀ i, (es.map g).getD i (g z) = g (es.getD i z) := by
    intro i
    rw [List.getD_eq_getElem?_getD, List.getD_eq_getElem?_getD, List.getElem?_map]
    cases es[i]? <;> rfl
  unfold loadZ
  dsimp only
  congr 1
  funext h
  split
  · rw [List.map_map, List.map_map]
    apply List.map_congr_left
    intro l _
    simp only [Function.comp_apply]
    split
    · rw [hg]
    · rfl
  · rw [List.map_map, List.map_map]
    apply List.map_congr_left
    intro l _
    simp only [Function.comp_apply, hg]

theorem traceZ_map' {α β : Type} (T : Tune) (e : Nat) (f : β → Nat → Flt) (g : α → β) (z : α) (es : List α) :
    T.traceZ e f (g z) (es.map g) = T.traceZ e (fun a => f (g a)) z es := by
  unfold Tune.traceZ Tune.dealZ
  simp only [loadZ_map', List.length_map]

/-- The deposits of the real part: 64 groups of sixteen copies of `qtr`. -/
theorem q_trace : tuneC.traceZ 2 (f32.dotuOp tuneC).fR (f32.dotuOp tuneC).zfill (List.replicate 512 qEl)
    = (List.range 64).flatMap (fun _ => (List.range 16).map (fun l => (l, qtr))) := by
  have h := traceZ_map' tuneC 2 (f32.dotuOp tuneC).fR (fun b : Bool => if b then qEl else (f32.dotuOp tuneC).zfill) false (List.replicate 512 true)
  rw [List.map_replicate] at h
  refine Eq.trans h ?_
  have e : (fun a : Bool => (f32.dotuOp tuneC).fR (if a then qEl else (f32.dotuOp tuneC).zfill)) =
      fun a h => if a then qtr else (f32.dotuOp tuneC).fR (f32.dotuOp tuneC).zfill h := by
    funext a h
    cases a
    · rfl
    · show (if h = 0 then f32.mul qtr f32.one else f32.flip tuneC (f32.mul (fneg qtr) f32.one)) = qtr
      rw [q_parts.1, q_parts.2.1]; split <;> rfl
  rw [e]
  decide +kernel

theorem q_lane : ∀ l, l < 16 → laneVals ((List.range 64).flatMap (fun _ => (List.range 16).map (fun l => (l, qtr)))) l = List.replicate 64 qtr := by
  decide +kernel

/-- The bins the real part starts from. -/
def qPri : List Flt := (f32.dmdupdate 3 qtr (dmsetzero 3)).pri

def qLane : List Flt := (List.replicate 64 qtr).foldl (fun s x => f32.zstep .plain x s) qPri

theorem q_cons (s : List (List Flt)) (pri r : List Flt) (h : ∀ l, l < 16 → s.getD l pri = r) :
    f32.consolidateZ tuneC 16 s pri = (List.range pri.length).map (fun j => f32.consSIMD 4 16 (fun _ => nth r j) (nth pri j)) := by
  unfold consolidateZ
  apply List.map_congr_left
  intro j _
  rw [if_pos (by decide)]
  show f32.consSIMD 4 16 _ _ = _
  unfold consSIMD
  simp only [show List.range' 1 (16 / 4 - 1) = [1, 2, 3] from rfl, List.foldl_cons, List.foldl_nil,
    Nat.reduceMul, Nat.reduceAdd, h 0 (by decide), h 1 (by decide), h 2 (by decide), h 3 (by decide), h 4 (by decide), h 5 (by decide), h 6 (by decide), h 7 (by decide), h 8 (by decide), h 9 (by decide), h 10 (by decide), h 11 (by decide), h 12 (by decide), h 13 (by decide), h 14 (by decide), h 15 (by decide)]

theorem maxMag_const {m : Nat} {l : List Flt} (hne : l ≠ []) (h : ∀ x ∈ l, x.mag = m) : maxMag l = m := by
  obtain ⟨x, hx, e⟩ := maxMag_mem hne
  rw [← h x hx, e]

theorem q_amax (f : (Flt × Flt) × (Flt × Flt) → Nat → Flt) (hz : ∀ q, (f (f32.dotuOp tuneC).zfill q).mag = 0) (h : ∀ q, (f qEl q).mag = qtr.mag) :
    f32.amaxZ tuneC 2 f (f32.dotuOp tuneC).zfill (List.replicate 512 qEl) = qtr := by
  have hm : ∀ x ∈ partNums 2 f (List.replicate 512 qEl), x.mag = qtr.mag := by
    intro x hx
    obtain ⟨a, ha, q, _, rfl⟩ := mem_partNums.1 hx
    rw [(List.mem_replicate.1 ha).2]; exact h q
  have hne : partNums 2 f (List.replicate 512 qEl) ≠ [] := by
    have : f qEl 0 ∈ partNums 2 f (List.replicate 512 qEl) := mem_partNums.2 ⟨qEl, by rw [List.mem_replicate]; exact ⟨by decide, rfl⟩, 0, by decide, rfl⟩
    intro h0; rw [h0] at this; cases this
  rw [amaxZ_eq tuneC_ok hz (fun x hx => by
    have e : f32.isNaN x = f32.isNaN qtr := by unfold isNaN; rw [hm x hx]
    rw [e]; decide), maxMag_const hne hm]
  rfl

theorem q_round : (f32.zvecLoop tuneC 3 (f32.dotuOp tuneC) 512 (List.replicate 512 qEl) 0 (dmsetzero 3, dmsetzero 3)).1
    = f32.dmrenorm ⟨(List.range qPri.length).map (fun j => f32.consSIMD 4 16 (fun _ => nth qLane j) (nth qPri j)), [zero, zero, zero]⟩ := by
  obtain ⟨p1, p2, p3, p4⟩ := q_parts
  have hR := q_amax (f32.dotuOp tuneC).fR (dotuOp_ok (F := f32) tuneC).zR (fun q => by
    show (if q = 0 then f32.mul qtr f32.one else f32.flip tuneC (f32.mul (fneg qtr) f32.one)).mag = _
    rw [p1, p2]; split <;> rfl)
  have hI := q_amax (f32.dotuOp tuneC).fI (dotuOp_ok (F := f32) tuneC).zI (fun q => by
    show (if q = 0 then f32.mul (fneg qtr) f32.one else f32.mul qtr f32.one).mag = _
    rw [p1, p3]; split <;> rfl)
  have hk : f32.kernelZ tuneC .plain 2 (f32.dotuOp tuneC).fR (f32.dotuOp tuneC).zfill (List.replicate 512 qEl) qPri
      = (List.range qPri.length).map (fun j => f32.consSIMD 4 16 (fun _ => nth qLane j) (nth qPri j)) := by
    unfold kernelZ
    rw [q_trace]
    refine q_cons _ _ _ (fun l hl => ?_)
    rw [show 2 * tuneC.pipe = 16 from rfl, lanesZ_getD _ _ _ hl, q_lane l hl]
    rfl
  have ht : (List.replicate 512 qEl).take tuneC.nb = List.replicate 512 qEl := List.take_of_length_le (by rw [List.length_replicate]; decide)
  have hd : (List.replicate 512 qEl).drop tuneC.nb = [] := List.drop_of_length_le (by rw [List.length_replicate]; decide)
  have he : (List.replicate 512 qEl).isEmpty = false := by rw [List.replicate_succ (n := 511)]; rfl
  have hren : f32.dmrenorm (dmsetzero 3) = dmsetzero 3 := by decide +kernel
  have hi0 : f32.isInf (nth (dmsetzero 3).pri 0) = false := by decide
  have hi1 : f32.isNaN (nth (dmsetzero 3).pri 0) = false := by decide
  have hi2 : f32.isNaNInf (nth (dmsetzero 3).pri 0) = false := by decide
  have hq : f32.isInf qtr = false := by decide
  have hz0 : f32.dmindex0 (nth qPri 0) = false := by decide +kernel
  have hc : (f32.dmdupdate 3 qtr (dmsetzero 3)).car = [zero, zero, zero] := by decide +kernel
  have hO : (f32.dotuOp tuneC).e = 2 := rfl
  have hE : (0 + (List.replicate 512 qEl).length > f32.endurance / 2) := by rw [List.length_replicate]; decide
  show (f32.zvecLoop tuneC 3 (f32.dotuOp tuneC) (510 + 1 + 1) (List.replicate 512 qEl) 0 (dmsetzero 3, dmsetzero 3)).1 = _
  rw [zvecLoop]
  simp only [ht, hd, he, hO, hR, hI, hi0, hi1, hi2, hq, Bool.or_false, Bool.and_false, Bool.false_eq_true, if_false, if_pos hE, hren]
  rw [zvecLoop]
  have hz0' : f32.dmindex0 (nth (f32.dmdupdate 3 qtr (dmsetzero 3)).pri 0) = false := hz0
  simp only [List.isEmpty_nil, if_true, hz0', zmode, Bool.false_eq_true, if_false]
  rw [show (f32.dmdupdate 3 qtr (dmsetzero 3)).pri = qPri from rfl, hk, hc]

/-- A quarter of the deposits into a lane; the evaluation is split to bound the memory the kernel needs. -/
def qStep (s : List Flt) : List Flt := (List.replicate 16 qtr).foldl (fun s x => f32.zstep .plain x s) s

theorem q_step1 : qStep qPri = [⟨false, 1145110528⟩, ⟨false, 1035993056⟩, ⟨false, 926941184⟩] := by decide +kernel
theorem q_step2 : qStep [⟨false, 1145110528⟩, ⟨false, 1035993056⟩, ⟨false, 926941184⟩] = [⟨false, 1145176064⟩, ⟨false, 1035993024⟩, ⟨false, 926941184⟩] := by decide +kernel
theorem q_step3 : qStep [⟨false, 1145176064⟩, ⟨false, 1035993024⟩, ⟨false, 926941184⟩] = [⟨false, 1145241600⟩, ⟨false, 1035992992⟩, ⟨false, 926941184⟩] := by decide +kernel
theorem q_step4 : qStep [⟨false, 1145241600⟩, ⟨false, 1035992992⟩, ⟨false, 926941184⟩] = [⟨false, 1145307136⟩, ⟨false, 1035992960⟩, ⟨false, 926941184⟩] := by decide +kernel

theorem q_lane_val : qLane = [⟨false, 1145307136⟩, ⟨false, 1035992960⟩, ⟨false, 926941184⟩] := by
  have e : qLane = qStep (qStep (qStep (qStep qPri))) := by
    unfold qLane qStep
    rw [show (64 : Nat) = 16 + 16 + 16 + 16 from rfl, List.replicate_add, List.replicate_add, List.replicate_add, List.foldl_append, List.foldl_append, List.foldl_append]
  rw [e, q_step1, q_step2, q_step3, q_step4]

theorem q_cons_val : (List.range qPri.length).map (fun j => f32.consSIMD 4 16 (fun _ => nth [⟨false, 1145307136⟩, ⟨false, 1035992960⟩, ⟨false, 926941184⟩] j) (nth qPri j)) =
    [⟨false, 1149239296⟩, ⟨false, 1035991040⟩, ⟨false, 926941184⟩] := by decide +kernel

theorem q_renorm_val : f32.dmrenorm ⟨[⟨false, 1149239296⟩, ⟨false, 1035991040⟩, ⟨false, 926941184⟩], [zero, zero, zero]⟩ =
    ⟨[⟨false, 1153433600⟩, ⟨false, 1038088192⟩, ⟨false, 926941184⟩], [⟨true, 1073741824⟩, ⟨true, 1065353216⟩, ⟨false, 0⟩]⟩ := by decide +kernel

theorem qtr_bad : (f32.rzdotu tuneC 3 512 (fun _ => (qtr, fneg qtr)) 1 (fun _ => (f32.one, f32.one)) 1).1 = ⟨true, 1258289920⟩ := by
  unfold rzdotu zmzdotu zvecSum
  have e : (gatherZ (fun _ => (qtr, fneg qtr)) 1 512).zip (gatherZ (fun _ => (f32.one, f32.one)) 1 512) = List.replicate 512 qEl := by
    unfold gatherZ
    rw [List.map_const', List.map_const', List.length_range, List.zip_replicate']; rfl
  rw [e, List.length_replicate]
  dsimp only
  rw [q_round, q_lane_val, q_cons_val, q_renorm_val]
  decide +kernel

theorem qtr_terms : (dotRe f32 false (qtr, fneg qtr) (f32.one, f32.one)).1 = qtr ∧ (dotRe f32 false (qtr, fneg qtr) (f32.one, f32.one)).2 = qtr ∧ f32.Finite qtr := by
  decide +kernel

theorem qtr_spec {n : Nat} (hn : 1 ≤ n) (hN : 2 * n ≤ f32.capacity) :
    (f32.zmzdotu tuneCHalf 3 n (fun _ => (qtr, fneg qtr)) 1 (fun _ => (f32.one, f32.one)) 1 (dmsetzero 3, dmsetzero 3)).1
      = f32.canon 3 10 (fun j => (2 * n : Nat) * f32.slice (f32.toInt qtr) j) := by
  obtain ⟨t1, t2, t3⟩ := qtr_terms
  have h := zdot_re (F := f32) (conj := false) tuneCHalf_ok (n := n) (Nat.le_trans (Nat.mul_le_mul_left 2 (Nat.min_le_left _ _)) (by decide)) (fold := 3) (by decide) (h := .zero) trivial
    (X := fun _ => (qtr, fneg qtr)) (Y := fun _ => (f32.one, f32.one)) (incX := 1) (incY := 1) (fun _ => trivial)
    (fun i _ => by rw [t1, t2]; exact ⟨t3, t3⟩) hN (dmsetzero 3)
  unfold zdot at h
  rw [if_neg (by decide)] at h
  refine h.trans ?_
  have e : (List.range n).flatMap (fun (_ : Nat) => [qtr, qtr]) = List.replicate (2 * n) qtr := by
    have gen : ∀ l : List Nat, l.flatMap (fun _ => [qtr, qtr]) = List.replicate (2 * l.length) qtr := by
      intro l
      induction l with
      | nil => rfl
      | cons a l ih =>
        rw [List.flatMap_cons, ih, List.length_cons, Nat.mul_add, Nat.add_comm, List.replicate_add]; rfl
    rw [gen, List.length_range]
  rw [t1, t2, e]
  show f32.sumSeq 3 (List.replicate (2 * n) qtr) (dmsetzero 3) = _
  rw [C01_sum_is_spec (by decide) (fun x hxm => by rw [List.mem_replicate] at hxm; rw [hxm.2]; exact t3) (by rw [List.length_replicate]; exact hN)]
  unfold specSum
  obtain ⟨m, rfl⟩ : ∃ m, n = m + 1 := ⟨n - 1, by omega⟩
  rw [if_neg (by rw [Nat.mul_add, List.replicate_add]; simp)]
  have e1 : f32.minIndex (List.replicate (2 * (m + 1)) qtr) = 10 := by
    have gen : ∀ n, f32.minIndex (List.replicate (n + 1) qtr) = 10 := by
      intro n
      induction n with
      | zero => decide +kernel
      | succ n ih =>
        rw [List.replicate_succ, minIndex_cons, ih]; decide +kernel
    exact gen (2 * m + 1)
  have e2 : f32.total (List.replicate (2 * (m + 1)) qtr) = fun j => (2 * (m + 1) : Nat) * f32.slice (f32.toInt qtr) j := by
    funext j; exact total_replicate _ _ _
  rw [e1, e2]

theorem qtr_good : (f32.rzdotu tuneCHalf 3 512 (fun _ => (qtr, fneg qtr)) 1 (fun _ => (f32.one, f32.one)) 1).1 = ⟨false, 1132462079⟩ := by
  unfold rzdotu
  dsimp only
  rw [qtr_spec (by decide) (by decide)]
  decide +kernel

/-- **C42 is violated by the shipped block size.** The block of a complex dot product holds up to `endurance`
elements, and every element makes two deposits, twice as many as a bin endures. For 512 copies of
`(q - iq)(1 + i)`, `q` just below `1/4`, the real part is `512 * 2q`, just below 256; the library built with
its block size 512 returns `-8387968`, and another number if it is built with blocks of 256, although all
inputs, products and sums are moderate. -/
theorem C42_violated :
    tuneC.OK f32 ∧ tuneCHalf.OK f32 ∧ tuneC.nb = f32.endurance ∧ DotFinite f32 (qtr, fneg qtr) (f32.one, f32.one) ∧
    (f32.rzdotu tuneC 3 512 (fun _ => (qtr, fneg qtr)) 1 (fun _ => (f32.one, f32.one)) 1).1 = f32.ofInt (-8387968) ∧
    (f32.rzdotu tuneCHalf 3 512 (fun _ => (qtr, fneg qtr)) 1 (fun _ => (f32.one, f32.one)) 1).1 ≠
      (f32.rzdotu tuneC 3 512 (fun _ => (qtr, fneg qtr)) 1 (fun _ => (f32.one, f32.one)) 1).1 ∧
    f32.toInt (f32.rzdotu tuneCHalf 3 512 (fun _ => (qtr, fneg qtr)) 1 (fun _ => (f32.one, f32.one)) 1).1 = 1024 * f32.toInt qtr := by
  rw [qtr_bad, qtr_good]
  refine ⟨tuneC_ok, tuneCHalf_ok, by decide, ?_, by decide +kernel, by decide, by decide +kernel⟩
  unfold DotFinite; decide +kernel

end Repro
