import Verif.ZVec
import Verif.PropsConv
/-!
# C48: sums of complex vectors
-/

namespace Repro
open Fmt
variable {F : Fmt}

theorem gatherZ_length (X : Int → Flt × Flt) (inc : Int) (n : Nat) : (gatherZ X inc n).length = n := by simp [gatherZ]

theorem partNums_one {α : Type} (f : α → Nat → Flt) (es : List α) : partNums 1 f es = es.map (fun a => f a 0) := by
  induction es with
  | nil => rfl
  | cons a es ih =>
    unfold partNums at *
    rw [List.flatMap_cons, List.map_cons, ih]; rfl

theorem partNums_gather (f : Flt × Flt → Nat → Flt) (X : Int → Flt × Flt) (inc : Int) (n : Nat) :
    partNums 1 f (gatherZ X inc n) = (List.range n).map (fun (i : Nat) => f (X (i * inc)) 0) := by
  rw [partNums_one]; unfold gatherZ; rw [List.map_map]; rfl

theorem zsumOp_ok : zsumOp.OK := ⟨by decide, fun _ => rfl, fun _ => rfl⟩
theorem zasumOp_ok : zasumOp.OK := ⟨by decide, fun _ => rfl, fun _ => rfl⟩

/-! ### The sum -/

/-- **C48** (one part). The real part of the accumulator is the sequential sum of the real parts of the elements,
whatever the imaginary parts of the elements and of the accumulator are: infinities and NaNs there do not leak. -/
theorem C48_sum_re [F.OK] {T : Tune} (hT : T.OK F) {fold : Nat} (hfold : 2 ≤ fold) {h : Hist} (hl : h.Legal F)
    {n : Nat} {X : Int → Flt × Flt} {incX : Int} (hs : n = 0 → h.Settled)
    (hx : ∀ i : Nat, i < n → F.Finite (X (i * incX)).1) (hN : n + h.nums.length ≤ F.capacity) (im : Binned) :
    (F.zmzsum T fold n X incX (h.eval F fold, im)).1 =
      (List.range n).foldl (fun y (i : Nat) => F.dmdadd fold (X (i * incX)).1 y) (h.eval F fold) := by
  have e := partNums_gather zsumOp.fR X incX n
  unfold zmzsum
  rw [zvecSum_re hT zsumOp_ok (by show 1 * min _ _ ≤ _; have := hT.nb2; omega) hfold hl]
  · show F.sumSeq fold (partNums 1 zsumOp.fR _) _ = _
    rw [e]; unfold sumSeq; rw [List.foldl_map]; rfl
  · intro h0; apply hs; have := gatherZ_length X incX n; rw [h0] at this; simpa using this.symm
  · show ∀ x ∈ partNums 1 zsumOp.fR _, _
    rw [e]; intro x hxm
    rw [List.mem_map] at hxm
    obtain ⟨i, hi, rfl⟩ := hxm
    exact hx i (List.mem_range.1 hi)
  · show (partNums 1 zsumOp.fR _).length + _ ≤ _
    rw [e, List.length_map, List.length_range]; exact hN

/-- **C48** (the other part). -/
theorem C48_sum_im [F.OK] {T : Tune} (hT : T.OK F) {fold : Nat} (hfold : 2 ≤ fold) {h : Hist} (hl : h.Legal F)
    {n : Nat} {X : Int → Flt × Flt} {incX : Int} (hs : n = 0 → h.Settled)
    (hx : ∀ i : Nat, i < n → F.Finite (X (i * incX)).2) (hN : n + h.nums.length ≤ F.capacity) (re : Binned) :
    (F.zmzsum T fold n X incX (re, h.eval F fold)).2 =
      (List.range n).foldl (fun y (i : Nat) => F.dmdadd fold (X (i * incX)).2 y) (h.eval F fold) := by
  have e := partNums_gather zsumOp.fI X incX n
  unfold zmzsum
  rw [zvecSum_im hT zsumOp_ok (by show 1 * min _ _ ≤ _; have := hT.nb2; omega) hfold hl]
  · show F.sumSeq fold (partNums 1 zsumOp.fI _) _ = _
    rw [e]; unfold sumSeq; rw [List.foldl_map]; rfl
  · intro h0; apply hs; have := gatherZ_length X incX n; rw [h0] at this; simpa using this.symm
  · show ∀ x ∈ partNums 1 zsumOp.fI _, _
    rw [e]; intro x hxm
    rw [List.mem_map] at hxm
    obtain ⟨i, hi, rfl⟩ := hxm
    exact hx i (List.mem_range.1 hi)
  · show (partNums 1 zsumOp.fI _).length + _ ≤ _
    rw [e, List.length_map, List.length_range]; exact hN

/-- **C48** (the whole sum). Adding a strided complex vector to a complex binned value with the blocked routine
gives, for every tuning and stride, the bits of adding the elements one at a time, part by part. -/
theorem C48_sum [F.OK] {T : Tune} (hT : T.OK F) {fold : Nat} (hfold : 2 ≤ fold) {h g : Hist} (hl : h.Legal F) (gl : g.Legal F)
    {n : Nat} {X : Int → Flt × Flt} {incX : Int} (hs : n = 0 → h.Settled ∧ g.Settled)
    (hx : ∀ i : Nat, i < n → F.Finite (X (i * incX)).1 ∧ F.Finite (X (i * incX)).2)
    (hN : n + h.nums.length ≤ F.capacity) (gN : n + g.nums.length ≤ F.capacity) :
    F.zmzsum T fold n X incX (h.eval F fold, g.eval F fold) =
      (List.range n).foldl (fun y (i : Nat) => (F.dmdadd fold (X (i * incX)).1 y.1, F.dmdadd fold (X (i * incX)).2 y.2))
        (h.eval F fold, g.eval F fold) := by
  have hpair : ∀ (l : List Nat) (u v : Binned),
      l.foldl (fun y (i : Nat) => (F.dmdadd fold (X (i * incX)).1 y.1, F.dmdadd fold (X (i * incX)).2 y.2)) (u, v)
        = (l.foldl (fun y (i : Nat) => F.dmdadd fold (X (i * incX)).1 y) u, l.foldl (fun y (i : Nat) => F.dmdadd fold (X (i * incX)).2 y) v) := by
    intro l
    induction l with
    | nil => intro u v; rfl
    | cons a l ih => intro u v; rw [List.foldl_cons, List.foldl_cons, List.foldl_cons, ih]
  rw [hpair]
  exact Prod.ext (C48_sum_re hT hfold hl (fun h0 => (hs h0).1) (fun i hi => (hx i hi).1) hN _)
    (C48_sum_im hT hfold gl (fun h0 => (hs h0).2) (fun i hi => (hx i hi).2) gN _)

/-- **C48** (reproducibility). Two complex vectors with the same elements in another order, stored with other
strides, summed by builds with other tunings: the same bits in both parts, and the same native result. -/
theorem C48_independent [F.OK] {T T' : Tune} (hT : T.OK F) (hT' : T'.OK F) {fold : Nat} (hfold : 2 ≤ fold)
    {n : Nat} {X X' : Int → Flt × Flt} {incX incX' : Int} (hp : (gatherZ X incX n).Perm (gatherZ X' incX' n))
    (hx : ∀ i : Nat, i < n → F.Finite (X (i * incX)).1 ∧ F.Finite (X (i * incX)).2) (hN : n ≤ F.capacity) :
    F.zmzsum T fold n X incX (dmsetzero fold, dmsetzero fold) = F.zmzsum T' fold n X' incX' (dmsetzero fold, dmsetzero fold) ∧
    F.rzsum T fold n X incX = F.rzsum T' fold n X' incX' := by
  have hx' : ∀ i : Nat, i < n → F.Finite (X' (i * incX')).1 ∧ F.Finite (X' (i * incX')).2 := by
    intro i hi
    have : X' (i * incX') ∈ gatherZ X' incX' n := List.mem_map.2 ⟨i, List.mem_range.2 hi, rfl⟩
    rw [← hp.mem_iff] at this
    obtain ⟨j, hj, he⟩ := List.mem_map.1 this
    rw [← he]; exact hx j (List.mem_range.1 hj)
  have part : ∀ (f : Flt × Flt → Flt), (∀ i : Nat, i < n → F.Finite (f (X (i * incX)))) →
      (List.range n).foldl (fun y (i : Nat) => F.dmdadd fold (f (X (i * incX))) y) (dmsetzero fold)
        = (List.range n).foldl (fun y (i : Nat) => F.dmdadd fold (f (X' (i * incX'))) y) (dmsetzero fold) := by
    intro f hf
    have hpm := hp.map f
    have e : ∀ (X : Int → Flt × Flt) (incX : Int), (List.range n).foldl (fun y (i : Nat) => F.dmdadd fold (f (X (i * incX))) y) (dmsetzero fold)
        = F.sumSeq fold ((gatherZ X incX n).map f) (dmsetzero fold) := by
      intro X incX; unfold sumSeq gatherZ; rw [List.map_map, List.foldl_map]; rfl
    rw [e, e]
    refine (C01_order_independent hfold hpm ?_ ?_).1
    · intro x hxm
      rw [List.mem_map] at hxm
      obtain ⟨a, ha, rfl⟩ := hxm
      obtain ⟨j, hj, rfl⟩ := List.mem_map.1 ha
      exact hf j (List.mem_range.1 hj)
    · rw [List.length_map, gatherZ_length]; exact hN
  have main : F.zmzsum T fold n X incX (dmsetzero fold, dmsetzero fold) = F.zmzsum T' fold n X' incX' (dmsetzero fold, dmsetzero fold) := by
    have hN' : n + (Hist.zero).nums.length ≤ F.capacity := hN
    refine Prod.ext ?_ ?_
    · exact (C48_sum_re (h := .zero) hT hfold trivial (fun _ => trivial) (fun i hi => (hx i hi).1) hN' _).trans
        ((part (·.1) (fun i hi => (hx i hi).1)).trans
        (C48_sum_re (h := .zero) hT' hfold trivial (fun _ => trivial) (fun i hi => (hx' i hi).1) hN' _).symm)
    · exact (C48_sum_im (h := .zero) hT hfold trivial (fun _ => trivial) (fun i hi => (hx i hi).2) hN' _).trans
        ((part (·.2) (fun i hi => (hx i hi).2)).trans
        (C48_sum_im (h := .zero) hT' hfold trivial (fun _ => trivial) (fun i hi => (hx' i hi).2) hN' _).symm)
  refine ⟨main, ?_⟩
  unfold rzsum
  rw [main]

/-! ### The absolute sum -/

theorem amax_pair [F.OK] {T : Tune} (h : T.OK F) {es : List (Flt × Flt)} (hne : es ≠ [])
    (h0 : ∀ x ∈ partNums 1 zasumOp.fR es, F.Finite x) (h1 : ∀ x ∈ partNums 1 zasumOp.fI es, F.Finite x) :
    F.Finite (F.fmax (F.amaxZ T 1 zasumOp.fR zasumOp.zfill es) (F.amaxZ T 1 zasumOp.fI zasumOp.zfill es)) ∧
    F.dindex (F.fmax (F.amaxZ T 1 zasumOp.fR zasumOp.zfill es) (F.amaxZ T 1 zasumOp.fI zasumOp.zfill es))
      = min (F.minIndex (partNums 1 zasumOp.fR es)) (F.minIndex (partNums 1 zasumOp.fI es)) := by
  rw [amaxZ_eq h zasumOp_ok.zR (fun x hx => finite_not_nan (h0 x hx)), amaxZ_eq h zasumOp_ok.zI (fun x hx => finite_not_nan (h1 x hx))]
  have hl0 := partNums_length 1 zasumOp.fR es
  have hpos : 1 ≤ es.length := List.length_pos_iff.2 hne
  generalize partNums 1 zasumOp.fR es = us at *
  generalize partNums 1 zasumOp.fI es = vs at *
  have hune : us ++ vs ≠ [] := by
    intro hc; have := congrArg List.length hc; rw [List.length_append, List.length_nil] at this; omega
  have hf : ∀ x ∈ us ++ vs, F.Finite x := by
    intro x hx; rw [List.mem_append] at hx; exact hx.elim (h0 x) (h1 x)
  have hM : ∀ {ws : List Flt}, (∀ x ∈ ws, F.Finite x) → maxMag ws ≤ F.infMag := fun hw => maxMag_le (fun x hx => Nat.le_of_lt (hw x hx))
  have hU := le_maxMag_append us vs
  have e : F.fmax ⟨false, maxMag us⟩ ⟨false, maxMag vs⟩ = ⟨false, maxMag (us ++ vs)⟩ := by
    have hp := fmax_pos (F := F) (hM hf) (a := ⟨false, maxMag us⟩) (b := ⟨false, maxMag vs⟩) ⟨rfl, hU.1⟩ ⟨rfl, hU.2.1⟩
    generalize F.fmax ⟨false, maxMag us⟩ ⟨false, maxMag vs⟩ = r at *
    obtain ⟨s, m⟩ := r
    obtain ⟨⟨p1, p2⟩, p3, p4⟩ := hp
    have p1 : s = false := p1
    have p2 : m ≤ maxMag (us ++ vs) := p2
    have p3 : maxMag us ≤ m := p3
    have p4 : maxMag vs ≤ m := p4
    have := hU.2.2
    rw [p1, show m = maxMag (us ++ vs) by omega]
  rw [e, ← minIndex_append]
  refine ⟨?_, dindex_maxMag hune hf⟩
  obtain ⟨x, hx, he⟩ := maxMag_mem hune
  show maxMag _ < _
  rw [← he]; exact hf x hx
where
  le_maxMag_append (us vs : List Flt) : maxMag us ≤ maxMag (us ++ vs) ∧ maxMag vs ≤ maxMag (us ++ vs) ∧ maxMag (us ++ vs) ≤ max (maxMag us) (maxMag vs) := by
    refine ⟨maxMag_le (fun x hx => le_maxMag (List.mem_append_left _ hx)), maxMag_le (fun x hx => le_maxMag (List.mem_append_right _ hx)), maxMag_le ?_⟩
    intro x hx
    rw [List.mem_append] at hx
    rcases hx with hx | hx
    · have := le_maxMag hx; omega
    · have := le_maxMag hx; omega

theorem zasumLoop_mid [F.OK] {T : Tune} (h : T.OK F) {fold : Nat} (hfold : 2 ≤ fold) {y : Binned} (hy : F.isNaNInf (nth y.pri 0) = false) :
    ∀ (fuel : Nat) (es : List (Flt × Flt)) {d dep N k : Nat} {A0 A1 : Nat → Int} {s0 s1 : Binned}, es.length ≤ fuel →
    F.Mid fold d N k A0 s0 → F.Mid fold d N k A1 s1 → d ≤ dep → dep ≤ F.endurance →
    (∀ x ∈ partNums 1 zasumOp.fR es, F.Finite x) → (∀ x ∈ partNums 1 zasumOp.fI es, F.Finite x) → N + es.length ≤ F.capacity →
    F.zasumLoop T fold fuel es dep (s0, s1) y
      = F.dmdmadd fold (F.canon fold (min k (min (F.minIndex (partNums 1 zasumOp.fR es)) (F.minIndex (partNums 1 zasumOp.fI es)))) (fun j => A1 j + F.total (partNums 1 zasumOp.fI es) j))
        (F.dmdmadd fold (F.canon fold (min k (min (F.minIndex (partNums 1 zasumOp.fR es)) (F.minIndex (partNums 1 zasumOp.fI es)))) (fun j => A0 j + F.total (partNums 1 zasumOp.fR es) j)) y) := by
  have hysp := isNaNInf_split hy
  have base : ∀ {d dep N k : Nat} {A0 A1 : Nat → Int} {s0 s1 : Binned},
      F.Mid fold d N k A0 s0 → F.Mid fold d N k A1 s1 → d ≤ dep → dep ≤ F.endurance → N ≤ F.capacity →
      F.dmdmadd fold (F.dmrenorm s1) (F.dmdmadd fold (F.dmrenorm s0) y)
      = F.dmdmadd fold (F.canon fold (min k (min (F.minIndex (partNums 1 zasumOp.fR [])) (F.minIndex (partNums 1 zasumOp.fI [])))) (fun j => A1 j + F.total (partNums 1 zasumOp.fI []) j))
        (F.dmdmadd fold (F.canon fold (min k (min (F.minIndex (partNums 1 zasumOp.fR [])) (F.minIndex (partNums 1 zasumOp.fI [])))) (fun j => A0 j + F.total (partNums 1 zasumOp.fR []) j)) y) := by
    intro d dep N k A0 A1 s0 s1 hm0 hm1 hd hdep hN
    have hk : k ≤ F.maxIndex := by obtain ⟨_, _, _, _, _, _, _, h5, _⟩ := hm0; exact h5
    rw [hm0.renorm (by omega) (by omega) hN, hm1.renorm (by omega) (by omega) hN]
    have e1 : min k (min (F.minIndex (partNums 1 zasumOp.fR [])) (F.minIndex (partNums 1 zasumOp.fI []))) = k := by
      show min k (min F.maxIndex F.maxIndex) = k; omega
    rw [e1]
    have e2 : ∀ (f : Flt × Flt → Nat → Flt) (A : Nat → Int), (fun j => A j + F.total (partNums 1 f []) j) = A := by
      intro f A; funext j; simp [partNums, total_nil]
    rw [e2, e2]
  intro fuel
  induction fuel with
  | zero =>
    intro es d dep N k A0 A1 s0 s1 hlen hm0 hm1 hd hdep hx0 hx1 hN
    have h0 : es = [] := List.eq_nil_of_length_eq_zero (by omega)
    subst h0
    unfold zasumLoop
    exact base hm0 hm1 hd hdep hN
  | succ fuel ih =>
    intro es d dep N k A0 A1 s0 s1 hlen hm0 hm1 hd hdep hx0 hx1 hN
    unfold zasumLoop
    by_cases h0 : es = []
    · subst h0
      rw [if_pos (show ([] : List (Flt × Flt)).isEmpty = true from rfl)]
      exact base hm0 hm1 hd hdep hN
    · rw [if_neg (by simpa using h0)]
      have hk : k ≤ F.maxIndex := by obtain ⟨_, _, _, _, _, _, _, h5, _⟩ := hm0; exact h5
      have hpos : 1 ≤ es.length := List.length_pos_iff.2 h0
      have hbl : (es.take T.nb).length = min T.nb es.length := List.length_take
      have hnb1 := h.nb1
      have hnb2 := h.nb2
      have hrl : (es.drop T.nb).length = es.length - T.nb := List.length_drop
      have hbne : es.take T.nb ≠ [] := by intro hc; rw [hc] at hbl; simp at hbl; omega
      have sp : ∀ f, partNums 1 f (es.take T.nb) ++ partNums 1 f (es.drop T.nb) = partNums 1 f es := fun f => partNums_take_drop T.nb 1 f es
      have lb : ∀ f : Flt × Flt → Nat → Flt, (partNums 1 f (es.take T.nb)).length = (es.take T.nb).length := by
        intro f; rw [partNums_length, Nat.one_mul]
      have hb0 : ∀ x ∈ partNums 1 zasumOp.fR (es.take T.nb), F.Finite x := fun x hx' => hx0 x (by rw [← sp]; exact List.mem_append_left _ hx')
      have hb1 : ∀ x ∈ partNums 1 zasumOp.fI (es.take T.nb), F.Finite x := fun x hx' => hx1 x (by rw [← sp]; exact List.mem_append_left _ hx')
      have hr0 : ∀ x ∈ partNums 1 zasumOp.fR (es.drop T.nb), F.Finite x := fun x hx' => hx0 x (by rw [← sp]; exact List.mem_append_right _ hx')
      have hr1 : ∀ x ∈ partNums 1 zasumOp.fI (es.drop T.nb), F.Finite x := fun x hx' => hx1 x (by rw [← sp]; exact List.mem_append_right _ hx')
      obtain ⟨ha1, ha2⟩ := amax_pair h hbne hb0 hb1
      have hsp0 := isNaNInf_split (hm0.finite (by omega) (by omega))
      have hsp1 := isNaNInf_split (hm1.finite (by omega) (by omega))
      dsimp only
      generalize F.fmax (F.amaxZ T 1 zasumOp.fR zasumOp.zfill (es.take T.nb)) (F.amaxZ T 1 zasumOp.fI zasumOp.zfill (es.take T.nb)) = a at ha1 ha2 ⊢
      have hc1 : (F.isInf a || F.isInf (nth y.pri 0)) = false := by
        rw [finite_not_inf ha1, hysp.2]; rfl
      rw [hc1]
      simp only [Bool.false_eq_true, if_false, hysp.1, hysp.2, hsp0.1, hsp1.1, Bool.or_false]
      -- one part of the step
      have step : ∀ {d' : Nat} {y' : Binned} {A : Nat → Int} {f : Flt × Flt → Nat → Flt} (z : Bool), (∀ q, (f zasumOp.zfill q).mag = 0) →
          (∀ x ∈ partNums 1 f (es.take T.nb), F.Finite x) →
          min (F.minIndex (partNums 1 zasumOp.fR (es.take T.nb))) (F.minIndex (partNums 1 zasumOp.fI (es.take T.nb))) ≤ F.minIndex (partNums 1 f (es.take T.nb)) →
          F.Mid fold d' N k A y' → d' + (es.take T.nb).length ≤ F.endurance →
          F.Mid fold (d' + (es.take T.nb).length) (N + (es.take T.nb).length)
            (min k (min (F.minIndex (partNums 1 zasumOp.fR (es.take T.nb))) (F.minIndex (partNums 1 zasumOp.fI (es.take T.nb)))))
            (fun j => A j + F.total (partNums 1 f (es.take T.nb)) j)
            ⟨F.kernelZ T (zmode (F.dmindex0 (nth (F.dmdupdate fold a y').pri 0)) z) 1 f zasumOp.zfill (es.take T.nb) (F.dmdupdate fold a y').pri,
              (F.dmdupdate fold a y').car⟩ := by
        intro d' y' A f z hz hf hmi hm' hle
        have hu := hm'.update (x := a) (by omega) (by omega)
        rw [ha2] at hu
        rw [Mid_index0 hfold hu (by omega)]
        have hk2 := Mid_kernelZ h (Nat.le_refl 1) hfold hu (zmode_ok z) hz (es := es.take T.nb) (f := f) (by rw [lb]; exact hle)
          (fun x hx' => ⟨hf x hx', by have := minIndex_le_mem (F := F) hx'; omega⟩)
        rw [lb] at hk2
        exact hk2
      have fin : ∀ {d' dep' : Nat} {t0 t1 : Binned}, F.Mid fold d' N k A0 t0 → F.Mid fold d' N k A1 t1 → d' ≤ dep' →
          dep' + (es.take T.nb).length ≤ F.endurance →
          F.zasumLoop T fold fuel (es.drop T.nb) (dep' + (es.take T.nb).length)
           (⟨F.kernelZ T (zmode (F.dmindex0 (nth (F.dmdupdate fold a t0).pri 0)) (F.dmindex0 (nth (F.dmdupdate fold a t1).pri 0))) 1 zasumOp.fR zasumOp.zfill (es.take T.nb) (F.dmdupdate fold a t0).pri,
              (F.dmdupdate fold a t0).car⟩,
            ⟨F.kernelZ T (zmode (F.dmindex0 (nth (F.dmdupdate fold a t1).pri 0)) (F.dmindex0 (nth (F.dmdupdate fold a t0).pri 0))) 1 zasumOp.fI zasumOp.zfill (es.take T.nb) (F.dmdupdate fold a t1).pri,
              (F.dmdupdate fold a t1).car⟩) y
          = F.dmdmadd fold (F.canon fold (min k (min (F.minIndex (partNums 1 zasumOp.fR es)) (F.minIndex (partNums 1 zasumOp.fI es)))) (fun j => A1 j + F.total (partNums 1 zasumOp.fI es) j))
            (F.dmdmadd fold (F.canon fold (min k (min (F.minIndex (partNums 1 zasumOp.fR es)) (F.minIndex (partNums 1 zasumOp.fI es)))) (fun j => A0 j + F.total (partNums 1 zasumOp.fR es) j)) y) := by
        intro d' dep' t0 t1 hm0' hm1' hdd hle
        rw [ih (es.drop T.nb) (by omega) (step _ zasumOp_ok.zR hb0 (by omega) hm0' (by omega)) (step _ zasumOp_ok.zI hb1 (by omega) hm1' (by omega))
          (by omega) hle hr0 hr1 (by omega)]
        have e1 : min (min k (min (F.minIndex (partNums 1 zasumOp.fR (es.take T.nb))) (F.minIndex (partNums 1 zasumOp.fI (es.take T.nb)))))
            (min (F.minIndex (partNums 1 zasumOp.fR (es.drop T.nb))) (F.minIndex (partNums 1 zasumOp.fI (es.drop T.nb))))
            = min k (min (F.minIndex (partNums 1 zasumOp.fR es)) (F.minIndex (partNums 1 zasumOp.fI es))) := by
          rw [← sp zasumOp.fR, ← sp zasumOp.fI, minIndex_append, minIndex_append]; omega
        have e2 : ∀ (f : Flt × Flt → Nat → Flt) (A : Nat → Int),
            (fun j => A j + F.total (partNums 1 f (es.take T.nb)) j + F.total (partNums 1 f (es.drop T.nb)) j) = (fun j => A j + F.total (partNums 1 f es) j) := by
          intro f A; funext j; rw [add_assoc, ← total_append, sp]
        rw [e1, e2, e2]
      by_cases hov : dep + (es.take T.nb).length > F.endurance
      · simp only [if_pos hov]
        have hren : ∀ {A : Nat → Int} {t : Binned}, F.Mid fold d N k A t → F.Mid fold 0 N k A (F.dmrenorm t) := by
          intro A t hm
          have hcn := hm.renorm (by omega) (by omega) (by omega)
          have hA : ∀ j, (A j).natAbs ≤ N * 2 ^ (F.W - 1) := by obtain ⟨_, _, _, _, _, _, _, _, h6⟩ := hm; exact h6
          rw [hcn]; exact mid_canon hk hm.zeros hA
        exact fin (hren hm0) (hren hm1) (Nat.zero_le _) (by omega)
      · simp only [if_neg hov]
        exact fin hm0 hm1 hd (by omega)


theorem total_zeros [F.OK] {k : Nat} {xs : List Flt} (hx : ∀ x ∈ xs, F.Finite x ∧ k ≤ F.dindex x) {j : Nat} (hj : j < k) : F.total xs j = 0 := by
  induction xs with
  | nil => rfl
  | cons x xs ih =>
    rw [total_cons, ih (fun z hz => hx z (List.mem_cons_of_mem _ hz))]
    have := hx x List.mem_cons_self
    rw [slice_of_fits (Nat.le_trans this.2 (dindex_le_max x)) (fits_mono this.2 (fits_dindex this.1)) j hj]; rfl

/-- The routine started from its zero temporaries. -/
theorem zasumLoop_zero [F.OK] {T : Tune} (h : T.OK F) {fold : Nat} (hfold : 2 ≤ fold) {y : Binned} (hy : F.isNaNInf (nth y.pri 0) = false)
    {fuel : Nat} {es : List (Flt × Flt)} (hne : es ≠ []) (hlen : es.length ≤ fuel)
    (hx0 : ∀ x ∈ partNums 1 zasumOp.fR es, F.Finite x) (hx1 : ∀ x ∈ partNums 1 zasumOp.fI es, F.Finite x) (hN : es.length ≤ F.capacity) :
    F.zasumLoop T fold fuel es 0 (dmsetzero fold, dmsetzero fold) y
      = F.dmdmadd fold (F.canon fold (min (F.minIndex (partNums 1 zasumOp.fR es)) (F.minIndex (partNums 1 zasumOp.fI es))) (F.total (partNums 1 zasumOp.fI es)))
        (F.dmdmadd fold (F.canon fold (min (F.minIndex (partNums 1 zasumOp.fR es)) (F.minIndex (partNums 1 zasumOp.fI es))) (F.total (partNums 1 zasumOp.fR es))) y) := by
  have hysp := isNaNInf_split hy
  have hpos : 1 ≤ es.length := List.length_pos_iff.2 hne
  cases fuel with
  | zero => omega
  | succ fuel =>
    unfold zasumLoop
    rw [if_neg (by simpa using hne)]
    have hbl : (es.take T.nb).length = min T.nb es.length := List.length_take
    have hnb1 := h.nb1
    have hnb2 := h.nb2
    have hrl : (es.drop T.nb).length = es.length - T.nb := List.length_drop
    have hbne : es.take T.nb ≠ [] := by intro hc; rw [hc] at hbl; simp at hbl; omega
    have sp : ∀ f, partNums 1 f (es.take T.nb) ++ partNums 1 f (es.drop T.nb) = partNums 1 f es := fun f => partNums_take_drop T.nb 1 f es
    have lb : ∀ f : Flt × Flt → Nat → Flt, (partNums 1 f (es.take T.nb)).length = (es.take T.nb).length := by
      intro f; rw [partNums_length, Nat.one_mul]
    have hb0 : ∀ x ∈ partNums 1 zasumOp.fR (es.take T.nb), F.Finite x := fun x hx' => hx0 x (by rw [← sp]; exact List.mem_append_left _ hx')
    have hb1 : ∀ x ∈ partNums 1 zasumOp.fI (es.take T.nb), F.Finite x := fun x hx' => hx1 x (by rw [← sp]; exact List.mem_append_left _ hx')
    have hr0 : ∀ x ∈ partNums 1 zasumOp.fR (es.drop T.nb), F.Finite x := fun x hx' => hx0 x (by rw [← sp]; exact List.mem_append_right _ hx')
    have hr1 : ∀ x ∈ partNums 1 zasumOp.fI (es.drop T.nb), F.Finite x := fun x hx' => hx1 x (by rw [← sp]; exact List.mem_append_right _ hx')
    obtain ⟨ha1, ha2⟩ := amax_pair h hbne hb0 hb1
    have hsp := setzero_pri0 (F := F) fold
    dsimp only
    generalize F.fmax (F.amaxZ T 1 zasumOp.fR zasumOp.zfill (es.take T.nb)) (F.amaxZ T 1 zasumOp.fI zasumOp.zfill (es.take T.nb)) = a at ha1 ha2 ⊢
    have hc1 : (F.isInf a || F.isInf (nth y.pri 0)) = false := by
      rw [finite_not_inf ha1, hysp.2]; rfl
    rw [hc1]
    simp only [Bool.false_eq_true, if_false, hysp.1, hysp.2, hsp.1, Bool.or_false]
    have hov : ¬ (0 + (es.take T.nb).length > F.endurance) := by omega
    simp only [if_neg hov]
    have hu := mid_empty (F := F) (fold := fold) (x := a)
    rw [ha2] at hu
    rw [Mid_index0 hfold hu (by omega)]
    have step : ∀ {f : Flt × Flt → Nat → Flt} (z : Bool), (∀ q, (f zasumOp.zfill q).mag = 0) →
        (∀ x ∈ partNums 1 f (es.take T.nb), F.Finite x) →
        min (F.minIndex (partNums 1 zasumOp.fR (es.take T.nb))) (F.minIndex (partNums 1 zasumOp.fI (es.take T.nb))) ≤ F.minIndex (partNums 1 f (es.take T.nb)) →
        F.Mid fold (0 + (es.take T.nb).length) (0 + (es.take T.nb).length)
          (min (F.minIndex (partNums 1 zasumOp.fR (es.take T.nb))) (F.minIndex (partNums 1 zasumOp.fI (es.take T.nb))))
          (fun j => 0 + F.total (partNums 1 f (es.take T.nb)) j)
          ⟨F.kernelZ T (zmode (decide (min (F.minIndex (partNums 1 zasumOp.fR (es.take T.nb))) (F.minIndex (partNums 1 zasumOp.fI (es.take T.nb))) = 0)) z) 1 f zasumOp.zfill (es.take T.nb)
            (F.dmdupdate fold a (dmsetzero fold)).pri, (F.dmdupdate fold a (dmsetzero fold)).car⟩ := by
      intro f z hz hf hmi
      have hk2 := Mid_kernelZ h (Nat.le_refl 1) hfold hu (zmode_ok z) hz (es := es.take T.nb) (f := f) (by rw [lb]; omega)
        (fun x hx' => ⟨hf x hx', by have := minIndex_le_mem (F := F) hx'; omega⟩)
      rw [lb] at hk2
      exact hk2
    rw [zasumLoop_mid h hfold hy fuel (es.drop T.nb) (by omega) (step _ zasumOp_ok.zR hb0 (by omega)) (step _ zasumOp_ok.zI hb1 (by omega))
      (Nat.le_refl _) (by omega) hr0 hr1 (by omega)]
    have e1 : min (min (F.minIndex (partNums 1 zasumOp.fR (es.take T.nb))) (F.minIndex (partNums 1 zasumOp.fI (es.take T.nb))))
        (min (F.minIndex (partNums 1 zasumOp.fR (es.drop T.nb))) (F.minIndex (partNums 1 zasumOp.fI (es.drop T.nb))))
        = min (F.minIndex (partNums 1 zasumOp.fR es)) (F.minIndex (partNums 1 zasumOp.fI es)) := by
      rw [← sp zasumOp.fR, ← sp zasumOp.fI, minIndex_append, minIndex_append]; omega
    have e2 : ∀ (f : Flt × Flt → Nat → Flt),
        (fun j => 0 + F.total (partNums 1 f (es.take T.nb)) j + F.total (partNums 1 f (es.drop T.nb)) j) = F.total (partNums 1 f es) := by
      intro f; funext j; rw [zero_add, ← total_append, sp]
    rw [e1, e2, e2]

theorem perm_parts (f g : Flt × Flt → Flt) (es : List (Flt × Flt)) : (es.flatMap (fun a => [f a, g a])).Perm (es.map g ++ es.map f) := by
  induction es with
  | nil => exact List.Perm.refl _
  | cons a es ih =>
    rw [List.flatMap_cons, List.map_cons, List.map_cons]
    show (f a :: g a :: es.flatMap (fun a => [f a, g a])).Perm (g a :: (es.map g ++ f a :: es.map f))
    refine (List.Perm.swap _ _ _).trans (List.Perm.cons _ ?_)
    exact ((List.Perm.cons _ ih)).trans List.perm_middle.symm

/-- **C48** (absolute sum). The absolute sum of a complex vector added to a real binned value gives, for every
tuning and stride, the bits of adding `|Re X_0|, |Im X_0|, |Re X_1|, ...` one at a time. -/
theorem C48_asum [F.OK] {T : Tune} (hT : T.OK F) {fold : Nat} (hfold : 2 ≤ fold) {h : Hist} (hl : h.Legal F)
    {n : Nat} {X : Int → Flt × Flt} {incX : Int}
    (hx : ∀ i : Nat, i < n → F.Finite (X (i * incX)).1 ∧ F.Finite (X (i * incX)).2) (hN : 2 * n + h.nums.length ≤ F.capacity) :
    F.dmzasum T fold n X incX (h.eval F fold) =
      (List.range n).foldl (fun y (i : Nat) => F.dmdadd fold (fabs (X (i * incX)).2) (F.dmdadd fold (fabs (X (i * incX)).1) y)) (h.eval F fold) := by
  by_cases h0 : n = 0
  · subst h0
    unfold dmzasum zasumLoop
    have hren : F.dmrenorm (dmsetzero fold) = dmsetzero fold := by
      unfold dmrenorm dmsetzero; dsimp only; rw [nth_setzero]; rfl
    dsimp only
    rw [hren, merge_zero_left, merge_zero_left]; rfl
  · have hlen := gatherZ_length X incX n
    have hxe : ∀ a ∈ gatherZ X incX n, F.Finite a.1 ∧ F.Finite a.2 := by
      intro a ha
      obtain ⟨i, hi, rfl⟩ := List.mem_map.1 ha
      exact hx i (List.mem_range.1 hi)
    have hrhs : (List.range n).foldl (fun y (i : Nat) => F.dmdadd fold (fabs (X (i * incX)).2) (F.dmdadd fold (fabs (X (i * incX)).1) y)) (h.eval F fold)
        = F.sumSeq fold ((gatherZ X incX n).flatMap (fun a => [fabs a.1, fabs a.2])) (h.eval F fold) := by
      unfold sumSeq
      rw [List.foldl_flatMap]; unfold gatherZ; rw [List.foldl_map]; rfl
    rw [hrhs]
    unfold dmzasum
    generalize gatherZ X incX n = es at *
    have hene : es ≠ [] := by intro hc; rw [hc] at hlen; exact h0 hlen.symm
    have e0 : partNums 1 zasumOp.fR es = es.map (fun a => fabs a.1) := partNums_one _ _
    have e1 : partNums 1 zasumOp.fI es = es.map (fun a => fabs a.2) := partNums_one _ _
    have hf0 : ∀ x ∈ es.map (fun a => fabs a.1), F.Finite x := by
      intro x hxm; obtain ⟨a, ha, rfl⟩ := List.mem_map.1 hxm; exact (hxe a ha).1
    have hf1 : ∀ x ∈ es.map (fun a => fabs a.2), F.Finite x := by
      intro x hxm; obtain ⟨a, ha, rfl⟩ := List.mem_map.1 hxm; exact (hxe a ha).2
    have hpp := perm_parts (fun a => fabs a.1) (fun a => fabs a.2) es
    have hflen : (es.flatMap (fun a => [fabs a.1, fabs a.2])).length = 2 * n := by
      rw [hpp.length_eq, List.length_append, List.length_map, List.length_map]; omega
    have hff : ∀ x ∈ es.flatMap (fun a => [fabs a.1, fabs a.2]), F.Finite x := by
      intro x hxm
      rw [hpp.mem_iff, List.mem_append] at hxm
      exact hxm.elim (hf1 x) (hf0 x)
    have hfne : es.flatMap (fun a => [fabs a.1, fabs a.2]) ≠ [] := by
      intro hc; rw [hc] at hflen; simp at hflen; omega
    have hm := hist_mid hfold h hl (by omega)
    have hcap := capacity_pos (F := F)
    have hy : F.isNaNInf (nth (h.eval F fold).pri 0) = false := by
      by_cases hs : h.seen = []
      · rw [(hm.1 hs).1]
        have e : nth (dmsetzero fold).pri 0 = zero := by unfold dmsetzero; exact nth_setzero fold
        rw [e]; exact isNaNInf_false zero_finite
      · exact (hm.2.1 hs).finite (by omega) (Nat.zero_le _)
    rw [zasumLoop_zero hT hfold hy hene (by omega) (by rw [e0]; exact hf0) (by rw [e1]; exact hf1) (by omega), e0, e1,
      ofList_spec hfold hff hl (by omega) (fun hc => absurd hc hfne)]
    generalize hus : es.map (fun a => fabs a.1) = us at *
    generalize hvs : es.map (fun a => fabs a.2) = vs at *
    generalize es.flatMap (fun a => [fabs a.1, fabs a.2]) = fs at *
    have lus : us.length = n := by rw [← hus, List.length_map]; exact hlen
    have lvs : vs.length = n := by rw [← hvs, List.length_map]; exact hlen
    have hk : min (F.minIndex us) (F.minIndex vs) ≤ F.maxIndex := by have := minIndex_le (F := F) us; omega
    have m0 : F.Mid fold 0 n (min (F.minIndex us) (F.minIndex vs)) (F.total us) (F.canon fold (min (F.minIndex us) (F.minIndex vs)) (F.total us)) :=
      mid_canon hk (fun j hj => total_zeros (fun x hx' => ⟨hf0 x hx', by have := minIndex_le_mem (F := F) hx'; omega⟩) hj)
        (fun j => by have := total_bound (F := F) hf0 j; rw [lus] at this; exact this)
    have m1 : F.Mid fold 0 n (min (F.minIndex us) (F.minIndex vs)) (F.total vs) (F.canon fold (min (F.minIndex us) (F.minIndex vs)) (F.total vs)) :=
      mid_canon hk (fun j hj => total_zeros (fun x hx' => ⟨hf1 x hx', by have := minIndex_le_mem (F := F) hx'; omega⟩) hj)
        (fun j => by have := total_bound (F := F) hf1 j; rw [lvs] at this; exact this)
    have hmi : F.minIndex fs = min (F.minIndex us) (F.minIndex vs) := by
      rw [minIndex_perm hpp, minIndex_append, Nat.min_comm]
    have htot : ∀ j, F.total fs j = F.total vs j + F.total us j := by
      intro j; rw [total_perm hpp, total_append]
    unfold Hist.spec
    rw [ofList_nums, ofList_seen]
    rw [if_neg (show ¬ fs.reverse ++ h.seen = [] by simp [hfne])]
    by_cases hs : h.seen = []
    · obtain ⟨g1, g2⟩ := hm.1 hs
      rw [g1, merge_zero_right _ (m0.not_zero (by omega) (Nat.zero_le _)), (Mid.merge hfold m1 m0 (by omega)).1, g2, hs, List.append_nil,
        minIndex_perm (List.reverse_perm fs), hmi, Nat.min_self]
      congr 1; funext j; rw [total_perm (List.reverse_perm fs), htot]
    · have q := Mid.merge hfold m0 (hm.2.1 hs) (by omega)
      rw [(Mid.merge hfold m1 q.2 (by omega)).1, minIndex_append, minIndex_perm (List.reverse_perm fs), hmi]
      have e3 : min (min (F.minIndex us) (F.minIndex vs)) (min (min (F.minIndex us) (F.minIndex vs)) (F.minIndex h.seen))
          = min (min (F.minIndex us) (F.minIndex vs)) (F.minIndex h.seen) := by omega
      rw [e3]
      congr 1; funext j; rw [total_append, total_perm (List.reverse_perm fs), htot]; ring

/-- **C48** (reproducibility of the absolute sum): the same bits and the same native number for every order,
stride and tuning. -/
theorem C48_asum_independent [F.OK] {T T' : Tune} (hT : T.OK F) (hT' : T'.OK F) {fold : Nat} (hfold : 2 ≤ fold)
    {n : Nat} {X X' : Int → Flt × Flt} {incX incX' : Int} (hp : (gatherZ X incX n).Perm (gatherZ X' incX' n))
    (hx : ∀ i : Nat, i < n → F.Finite (X (i * incX)).1 ∧ F.Finite (X (i * incX)).2) (hN : 2 * n ≤ F.capacity) :
    F.dmzasum T fold n X incX (dmsetzero fold) = F.dmzasum T' fold n X' incX' (dmsetzero fold) ∧
    F.rdzasum T fold n X incX = F.rdzasum T' fold n X' incX' := by
  have hx' : ∀ i : Nat, i < n → F.Finite (X' (i * incX')).1 ∧ F.Finite (X' (i * incX')).2 := by
    intro i hi
    have : X' (i * incX') ∈ gatherZ X' incX' n := List.mem_map.2 ⟨i, List.mem_range.2 hi, rfl⟩
    rw [← hp.mem_iff] at this
    obtain ⟨j, hj, he⟩ := List.mem_map.1 this
    rw [← he]; exact hx j (List.mem_range.1 hj)
  have e : ∀ (X : Int → Flt × Flt) (incX : Int),
      (List.range n).foldl (fun y (i : Nat) => F.dmdadd fold (fabs (X (i * incX)).2) (F.dmdadd fold (fabs (X (i * incX)).1) y)) (dmsetzero fold)
        = F.sumSeq fold ((gatherZ X incX n).flatMap (fun a => [fabs a.1, fabs a.2])) (dmsetzero fold) := by
    intro X incX; unfold sumSeq
    rw [List.foldl_flatMap]; unfold gatherZ; rw [List.foldl_map]; rfl
  have hN' : 2 * n + (Hist.zero).nums.length ≤ F.capacity := hN
  have main : F.dmzasum T fold n X incX (dmsetzero fold) = F.dmzasum T' fold n X' incX' (dmsetzero fold) := by
    refine (C48_asum (h := .zero) hT hfold trivial hx hN').trans (Eq.trans ?_ (C48_asum (h := .zero) hT' hfold trivial hx' hN').symm)
    show List.foldl _ (dmsetzero fold) _ = List.foldl _ (dmsetzero fold) _
    rw [e, e]
    have hpp := perm_parts (fun a => fabs a.1) (fun a => fabs a.2) (gatherZ X incX n)
    refine (C01_order_independent hfold (hp.flatMap_right _) ?_ ?_).1
    · intro x hxm
      obtain ⟨a, ha, hxa⟩ := List.mem_flatMap.1 hxm
      obtain ⟨i, hi, rfl⟩ := List.mem_map.1 ha
      have := hx i (List.mem_range.1 hi)
      rcases List.mem_cons.1 hxa with rfl | hxa
      · exact this.1
      · rw [List.mem_singleton] at hxa; subst hxa; exact this.2
    · rw [hpp.length_eq, List.length_append, List.length_map, List.length_map, gatherZ_length]; omega
  refine ⟨main, ?_⟩
  unfold rdzasum
  rw [main]

/-- Nontrivial concrete data: 5 elements of mixed signs and magnitudes, stride 2, blocks of two elements, two
elements to a register; the hypotheses hold and both sides are evaluated. In the second statement the imaginary
parts contain an infinity and a NaN. -/
def exZ : Int → Flt × Flt := fun i => (⟨i % 3 == 0, 4 * 10 ^ 18 + 10 ^ 17 * i.toNat⟩, ⟨i % 4 == 0, 5 * 10 ^ 18 - 10 ^ 17 * i.toNat⟩)
def exTZ : Tune := ⟨2, 2, 2, 1, 2, true⟩

theorem exTZ_ok : exTZ.OK f64 := ⟨by decide, by decide, ⟨1, rfl⟩, ⟨1, rfl⟩, by decide, by decide, by decide, by decide, fun h => by cases h⟩

example : (∀ i : Nat, i < 5 → f64.Finite (exZ (i * 2)).1 ∧ f64.Finite (exZ (i * 2)).2) ∧
    f64.zmzsum exTZ 3 5 exZ 2 (dmsetzero 3, dmsetzero 3) =
      (List.range 5).foldl (fun y (i : Nat) => (f64.dmdadd 3 (exZ (i * 2)).1 y.1, f64.dmdadd 3 (exZ (i * 2)).2 y.2)) (dmsetzero 3, dmsetzero 3) ∧
    f64.dmzasum exTZ 3 5 exZ 2 (dmsetzero 3) =
      (List.range 5).foldl (fun y (i : Nat) => f64.dmdadd 3 (fabs (exZ (i * 2)).2) (f64.dmdadd 3 (fabs (exZ (i * 2)).1) y)) (dmsetzero 3) := by
  decide +kernel

def exZInf : Int → Flt × Flt := fun i => ((exZ i).1, if i = 3 then f64.inf false else if i = 4 then f64.nan else (exZ i).2)

example : (∀ i : Nat, i < 5 → f64.Finite (exZInf (i * 1)).1) ∧ ¬ f64.Finite (exZInf 3).2 ∧
    (f64.zmzsum exTZ 3 5 exZInf 1 (dmsetzero 3, dmsetzero 3)).1 =
      (List.range 5).foldl (fun y (i : Nat) => f64.dmdadd 3 (exZInf (i * 1)).1 y) (dmsetzero 3) := by
  decide +kernel

end Repro
