import Verif.PropsAmax
import Verif.Vec
/-!
# C04, C20, C21, C36: the blocked vector routines
-/

namespace Repro
open Fmt
variable {F : Fmt}

theorem dindex_mag (x y : Flt) (h : x.mag = y.mag) : F.dindex x = F.dindex y := by
  unfold dindex expo isZero; rw [h]

/-- The bin of the largest magnitude is the smallest bin index. -/
theorem dindex_maxMag [F.OK] {vs : List Flt} (hne : vs ≠ []) (hf : ∀ x ∈ vs, F.Finite x) :
    F.dindex ⟨false, maxMag vs⟩ = F.minIndex vs := by
  obtain ⟨x, hx, he⟩ := maxMag_mem hne
  have e1 : F.dindex ⟨false, maxMag vs⟩ = F.dindex x := dindex_mag _ _ he.symm
  apply Nat.le_antisymm
  · have hall : ∀ l : List Flt, (∀ y ∈ l, y ∈ vs) → F.dindex x ≤ F.minIndex l := by
      intro l
      induction l with
      | nil => intro _; exact dindex_le_max x
      | cons y l ih =>
        intro hl
        have h1 := ih (fun z hz => hl z (List.mem_cons_of_mem _ hz))
        have hy := hl y List.mem_cons_self
        have h2 := dindex_bound (F := F) (x := y) (b := x) (hf y hy) (by rw [he]; exact le_maxMag hy)
        rw [minIndex_cons]; omega
    rw [e1]; exact hall vs (fun y hy => hy)
  · rw [e1]; exact minIndex_le_mem hx

theorem finite_not_nan {x : Flt} (h : F.Finite x) : F.isNaN x = false := by
  unfold isNaN Finite at *; simp; omega

theorem finite_not_inf {x : Flt} (h : F.Finite x) : F.isInf x = false := by
  unfold isInf Finite at *; simp; omega

/-- The maximum of a finite block. -/
theorem amax_block [F.OK] {T : Tune} (h : T.OK F) {b : List Flt} (hne : b ≠ []) (hf : ∀ x ∈ b, F.Finite x) :
    F.Finite (F.amaxK T (b.map fabs)) ∧ F.dindex (F.amaxK T (b.map fabs)) = F.minIndex b := by
  have e : F.amaxK T (b.map fabs) = ⟨false, maxMag b⟩ := damax_eq h (fun x hx => finite_not_nan (hf x hx))
  rw [e]
  refine ⟨?_, dindex_maxMag hne hf⟩
  obtain ⟨x, hx, he⟩ := maxMag_mem hne
  show maxMag b < _
  rw [← he]; exact hf x hx

theorem isNaNInf_split {x : Flt} (h : F.isNaNInf x = false) : F.isNaN x = false ∧ F.isInf x = false := by
  unfold isNaNInf at h; unfold isNaN isInf
  simp at h ⊢; omega

theorem setzero_pri0 [F.OK] (fold : Nat) : F.isNaN (nth (dmsetzero fold).pri 0) = false ∧ F.isInf (nth (dmsetzero fold).pri 0) = false := by
  have e : nth (dmsetzero fold).pri 0 = zero := by unfold dmsetzero; exact nth_setzero fold
  rw [e]
  exact ⟨finite_not_nan zero_finite, finite_not_inf zero_finite⟩

theorem minIndex_take_drop (n : Nat) (vs : List Flt) : min (F.minIndex (vs.take n)) (F.minIndex (vs.drop n)) = F.minIndex vs := by
  rw [← minIndex_append, List.take_append_drop]

theorem total_take_drop (n : Nat) (vs : List Flt) (j : Nat) : F.total (vs.take n) j + F.total (vs.drop n) j = F.total vs j := by
  rw [← total_append, List.take_append_drop]

/-- One block: update and kernel are the update and the deposits of the library. -/
theorem Mid_block [F.OK] {T : Tune} (h : T.OK F) {fold n N k : Nat} (hfold : 2 ≤ fold) {A : Nat → Int} {y : Binned}
    (hm : F.Mid fold n N k A y) {b : List Flt} (hn : n + b.length ≤ F.endurance) (hx : ∀ x ∈ b, F.Finite x ∧ k ≤ F.dindex x) :
    F.Mid fold (n + b.length) (N + b.length) k (fun j => A j + F.total b j) ⟨F.kernel T b y.pri, y.car⟩ := by
  have e : (⟨F.kernel T b y.pri, y.car⟩ : Binned) = F.deposits b y := by
    have h1 := Mid_kernel h hfold hm hn hx
    have h2 := deposits_car (F := F) b y
    rw [h1, ← h2]
  rw [e]
  exact Mid.deposits hfold b hm hn hx

/-- The block loop on a value within its endurance. -/
theorem vecLoop_mid [F.OK] {T : Tune} (h : T.OK F) {fold : Nat} (hfold : 2 ≤ fold) : ∀ (fuel : Nat) (vs : List Flt) {d dep N k : Nat}
    {A : Nat → Int} {y : Binned}, vs.length ≤ fuel → F.Mid fold d N k A y → d ≤ dep → dep ≤ F.endurance →
    (∀ x ∈ vs, F.Finite x) → N + vs.length ≤ F.capacity →
    F.vecLoop T fold fuel vs dep y = F.canon fold (min k (F.minIndex vs)) (fun j => A j + F.total vs j) := by
  intro fuel
  induction fuel with
  | zero =>
    intro vs d dep N k A y hlen hm hd hdep hx hN
    have h0 : vs = [] := List.eq_nil_of_length_eq_zero (by omega)
    subst h0
    unfold vecLoop
    have hk : k ≤ F.maxIndex := by obtain ⟨_, _, _, _, _, _, _, h5, _⟩ := hm; exact h5
    rw [hm.renorm (by omega) (by omega) (by simp at hN; omega)]
    have e1 : min k (F.minIndex []) = k := by show min k F.maxIndex = k; omega
    rw [e1]; congr 1; funext j; simp [total_nil]
  | succ fuel ih =>
    intro vs d dep N k A y hlen hm hd hdep hx hN
    unfold vecLoop
    by_cases h0 : vs = []
    · subst h0
      rw [if_pos rfl]
      have hk : k ≤ F.maxIndex := by obtain ⟨_, _, _, _, _, _, _, h5, _⟩ := hm; exact h5
      rw [hm.renorm (by omega) (by omega) (by simp at hN; omega)]
      have e1 : min k (F.minIndex []) = k := by show min k F.maxIndex = k; omega
      rw [e1]; congr 1; funext j; simp [total_nil]
    · rw [if_neg h0]
      have hpos : 1 ≤ vs.length := List.length_pos_iff.2 h0
      have hbl : (vs.take T.nb).length = min T.nb vs.length := List.length_take
      have hnb1 := h.nb1
      have hnb2 := h.nb2
      have hbne : vs.take T.nb ≠ [] := by
        intro hc; rw [hc] at hbl; simp at hbl; omega
      have hbf : ∀ x ∈ vs.take T.nb, F.Finite x := fun x hx' => hx x (List.mem_of_mem_take hx')
      have hbr : ∀ x ∈ vs.drop T.nb, F.Finite x := fun x hx' => hx x (List.mem_of_mem_drop hx')
      have hrl : (vs.drop T.nb).length = vs.length - T.nb := List.length_drop
      obtain ⟨ha1, ha2⟩ := amax_block h hbne hbf
      have hsp := isNaNInf_split (hm.finite (by omega) (by omega))
      dsimp only
      have hc1 : (F.isInf (F.amaxK T ((vs.take T.nb).map fabs)) || F.isInf (nth y.pri 0)) = false := by
        rw [finite_not_inf ha1, hsp.2]; rfl
      rw [hc1]
      simp only [Bool.false_eq_true, if_false, hsp.1, hsp.2]
      -- the update
      have step : ∀ {d' : Nat} {y' : Binned}, F.Mid fold d' N k A y' → d' + (vs.take T.nb).length ≤ F.endurance →
          F.Mid fold (d' + (vs.take T.nb).length) (N + (vs.take T.nb).length) (min k (F.minIndex (vs.take T.nb)))
            (fun j => A j + F.total (vs.take T.nb) j)
            ⟨F.kernel T (vs.take T.nb) (F.dmdupdate fold (F.amaxK T ((vs.take T.nb).map fabs)) y').pri,
              (F.dmdupdate fold (F.amaxK T ((vs.take T.nb).map fabs)) y').car⟩ := by
        intro d' y' hm' hle
        have hu := hm'.update (x := F.amaxK T ((vs.take T.nb).map fabs)) (by omega) (by omega)
        rw [ha2] at hu
        exact Mid_block h hfold hu hle (fun x hx' => ⟨hbf x hx', by have := minIndex_le_mem (F := F) hx'; omega⟩)
      have fin : ∀ {d' dep' : Nat} {y' : Binned}, F.Mid fold d' N k A y' → d' ≤ dep' → dep' + (vs.take T.nb).length ≤ F.endurance →
          F.vecLoop T fold fuel (vs.drop T.nb) (dep' + (vs.take T.nb).length)
            ⟨F.kernel T (vs.take T.nb) (F.dmdupdate fold (F.amaxK T ((vs.take T.nb).map fabs)) y').pri,
              (F.dmdupdate fold (F.amaxK T ((vs.take T.nb).map fabs)) y').car⟩
            = F.canon fold (min k (F.minIndex vs)) (fun j => A j + F.total vs j) := by
        intro d' dep' y' hm' hdd hle
        rw [ih (vs.drop T.nb) (by omega) (step hm' (by omega)) (by omega) hle hbr (by omega)]
        have e1 : min (min k (F.minIndex (vs.take T.nb))) (F.minIndex (vs.drop T.nb)) = min k (F.minIndex vs) := by
          rw [← minIndex_take_drop T.nb vs]; omega
        rw [e1]; congr 1; funext j
        rw [add_assoc, total_take_drop]
      by_cases hov : dep + (vs.take T.nb).length > F.endurance
      · simp only [if_pos hov]
        have hcn := hm.renorm (by omega) (by omega) (by omega)
        have hk : k ≤ F.maxIndex := by obtain ⟨_, _, _, _, _, _, _, h5, _⟩ := hm; exact h5
        have hA : ∀ j, (A j).natAbs ≤ N * 2 ^ (F.W - 1) := by obtain ⟨_, _, _, _, _, _, _, _, h6⟩ := hm; exact h6
        have hm' : F.Mid fold 0 N k A (F.dmrenorm y) := by
          rw [hcn]; exact mid_canon hk hm.zeros hA
        exact fin hm' (le_refl _) (by rw [hbl]; omega)
      · simp only [if_neg hov]
        exact fin hm hd (by omega)

/-- The block loop on the zero value. -/
theorem vecLoop_zero [F.OK] {T : Tune} (h : T.OK F) {fold : Nat} (hfold : 2 ≤ fold) {fuel : Nat} {vs : List Flt}
    (hlen : vs.length ≤ fuel) (hx : ∀ x ∈ vs, F.Finite x) (hN : vs.length ≤ F.capacity) :
    F.vecLoop T fold fuel vs 0 (dmsetzero fold) = F.specSum fold vs := by
  have hren : F.dmrenorm (dmsetzero fold) = dmsetzero fold := by
    unfold dmrenorm dmsetzero; dsimp only; rw [nth_setzero]; rfl
  unfold specSum
  cases fuel with
  | zero =>
    have h0 : vs = [] := List.eq_nil_of_length_eq_zero (by omega)
    rw [if_pos h0]; unfold vecLoop; exact hren
  | succ fuel =>
    unfold vecLoop
    by_cases h0 : vs = []
    · rw [if_pos h0, if_pos h0]; exact hren
    · rw [if_neg h0, if_neg h0]
      have hpos : 1 ≤ vs.length := List.length_pos_iff.2 h0
      have hbl : (vs.take T.nb).length = min T.nb vs.length := List.length_take
      have hnb1 := h.nb1
      have hnb2 := h.nb2
      have hbne : vs.take T.nb ≠ [] := by
        intro hc; rw [hc] at hbl; simp at hbl; omega
      have hbf : ∀ x ∈ vs.take T.nb, F.Finite x := fun x hx' => hx x (List.mem_of_mem_take hx')
      have hbr : ∀ x ∈ vs.drop T.nb, F.Finite x := fun x hx' => hx x (List.mem_of_mem_drop hx')
      have hrl : (vs.drop T.nb).length = vs.length - T.nb := List.length_drop
      obtain ⟨ha1, ha2⟩ := amax_block h hbne hbf
      have hsp := setzero_pri0 (F := F) fold
      dsimp only
      have hc1 : (F.isInf (F.amaxK T ((vs.take T.nb).map fabs)) || F.isInf (nth (dmsetzero fold).pri 0)) = false := by
        rw [finite_not_inf ha1, hsp.2]; rfl
      rw [hc1]
      simp only [Bool.false_eq_true, if_false, hsp.1, hsp.2]
      have hov : ¬ (0 + (vs.take T.nb).length > F.endurance) := by omega
      simp only [if_neg hov]
      have hu := mid_empty (F := F) (fold := fold) (x := F.amaxK T ((vs.take T.nb).map fabs))
      rw [ha2] at hu
      have hm := Mid_block h hfold hu (b := vs.take T.nb) (by omega) (fun x hx' => ⟨hbf x hx', minIndex_le_mem (F := F) hx'⟩)
      rw [vecLoop_mid h hfold fuel (vs.drop T.nb) (by omega) hm (le_refl _) (by omega) hbr (by omega), minIndex_take_drop]
      congr 1; funext j
      rw [zero_add, total_take_drop]

/-- The blocked routine leaves the bits of the sequential additions. -/
theorem vecSum_eq [F.OK] {T : Tune} (hT : T.OK F) {fold : Nat} (hfold : 2 ≤ fold) {h : Hist} (hl : h.Legal F)
    {vs : List Flt} (hs : vs = [] → h.Settled) (hx : ∀ x ∈ vs, F.Finite x) (hN : vs.length + h.nums.length ≤ F.capacity) :
    F.vecSum T fold vs (h.eval F fold) = F.sumSeq fold vs (h.eval F fold) := by
  rw [ofList_spec hfold hx hl hN hs]
  have hm := hist_mid hfold h hl (by omega)
  unfold vecSum
  have en := ofList_nums vs h
  have es := ofList_seen vs h
  by_cases h0 : h.seen = []
  · obtain ⟨e1, e2⟩ := hm.1 h0
    rw [e1, vecLoop_zero hT hfold (le_refl _) hx (by omega)]
    unfold specSum Hist.spec
    rw [en, es, h0, e2, List.append_nil]
    by_cases hv : vs = []
    · rw [if_pos hv, if_pos (by rw [hv]; rfl)]
    · rw [if_neg hv, if_neg (by simpa using hv), minIndex_perm (List.reverse_perm vs)]
      congr 1; funext j; exact (total_perm (List.reverse_perm vs) j).symm
  · rw [vecLoop_mid hT hfold _ vs (le_refl _) (hm.2.1 h0) (le_refl _) (Nat.zero_le _) hx (by omega)]
    unfold Hist.spec
    rw [en, es, if_neg (by simp [h0]), minIndex_append, minIndex_perm (List.reverse_perm vs), Nat.min_comm]
    congr 1; funext j
    rw [total_append, total_perm (List.reverse_perm vs) j, add_comm]

theorem gather_length (X : Int → Flt) (inc : Int) (n : Nat) : (gather X inc n).length = n := by simp [gather]

theorem mem_gather {X : Int → Flt} {inc : Int} {n : Nat} {x : Flt} (h : x ∈ gather X inc n) :
    ∃ i : Nat, i < n ∧ x = X (i * inc) := by
  unfold gather at h
  rw [List.mem_map] at h
  obtain ⟨i, hi, rfl⟩ := h
  exact ⟨i, List.mem_range.1 hi, rfl⟩

/-- **C04.** Adding a strided vector to a binned value (left by any legal program) with the blocked vector
routine gives, for every tuning (block size up to the endurance, vector width, unrolling) and every
stride, the bits of adding `X[0], X[incX], ...` one at a time. -/
theorem C04_sum_is_sequential [F.OK] {T : Tune} (hT : T.OK F) {fold : Nat} (hfold : 2 ≤ fold) {h : Hist} (hl : h.Legal F)
    {n : Nat} {X : Int → Flt} {incX : Int} (hs : n = 0 → h.Settled)
    (hx : ∀ i : Nat, i < n → F.Finite (X (i * incX))) (hN : n + h.nums.length ≤ F.capacity) :
    F.dmdsum T fold n X incX (h.eval F fold) =
      (List.range n).foldl (fun y (i : Nat) => F.dmdadd fold (X (i * incX)) y) (h.eval F fold) := by
  unfold dmdsum
  rw [vecSum_eq hT hfold hl]
  · unfold sumSeq gather; rw [List.foldl_map]
  · intro h0; apply hs; have := gather_length X incX n; rw [h0] at this; simpa using this.symm
  · intro x hxm
    obtain ⟨i, hi, rfl⟩ := mem_gather hxm
    exact hx i hi
  · rw [gather_length]; exact hN

/-- **C04** (independence). Two vectors with the same elements in another order, stored with other strides,
summed by builds with other tunings: the same bits. -/
theorem C04_independent [F.OK] {T T' : Tune} (hT : T.OK F) (hT' : T'.OK F) {fold : Nat} (hfold : 2 ≤ fold) {h : Hist} (hl : h.Legal F)
    {n : Nat} {X X' : Int → Flt} {incX incX' : Int} (hp : (gather X incX n).Perm (gather X' incX' n))
    (hs : n = 0 → h.Settled) (hx : ∀ i : Nat, i < n → F.Finite (X (i * incX))) (hN : n + h.nums.length ≤ F.capacity) :
    F.dmdsum T fold n X incX (h.eval F fold) = F.dmdsum T' fold n X' incX' (h.eval F fold) := by
  unfold dmdsum
  have hs' : ∀ {X : Int → Flt} {incX : Int}, gather X incX n = [] → h.Settled := by
    intro X incX h0; apply hs; have := gather_length X incX n; rw [h0] at this; simpa using this.symm
  have hx1 : ∀ x ∈ gather X incX n, F.Finite x := by
    intro x hxm
    obtain ⟨i, hi, rfl⟩ := mem_gather hxm
    exact hx i hi
  have hx2 : ∀ x ∈ gather X' incX' n, F.Finite x := fun x hxm => hx1 x (hp.mem_iff.2 hxm)
  rw [vecSum_eq hT hfold hl hs' hx1 (by rw [gather_length]; exact hN),
    vecSum_eq hT' hfold hl hs' hx2 (by rw [gather_length]; exact hN),
    ofList_spec hfold hx1 hl (by rw [gather_length]; exact hN) hs',
    ofList_spec hfold hx2 hl (by rw [gather_length]; exact hN) hs']
  apply hist_spec_congr
  · rw [ofList_nums, ofList_nums]
    exact List.Perm.append (((List.reverse_perm _).trans hp).trans (List.reverse_perm _).symm) (List.Perm.refl _)
  · rw [ofList_seen, ofList_seen]
    exact List.Perm.append (((List.reverse_perm _).trans hp).trans (List.reverse_perm _).symm) (List.Perm.refl _)

/-- **C04** (splitting). Summing a vector in two calls, cut anywhere, gives the bits of one call: the
remainders left in a block, and the renormalisations between the calls, do not show. -/
theorem C04_split [F.OK] {T T' T'' : Tune} (hT : T.OK F) (hT' : T'.OK F) (hT'' : T''.OK F) {fold : Nat} (hfold : 2 ≤ fold)
    {h : Hist} (hl : h.Legal F) {us vs : List Flt} (hs : us ++ vs = [] → h.Settled)
    (hx : ∀ x ∈ us ++ vs, F.Finite x) (hN : (us ++ vs).length + h.nums.length ≤ F.capacity) :
    F.vecSum T fold vs (F.vecSum T' fold us (h.eval F fold)) = F.vecSum T'' fold (us ++ vs) (h.eval F fold) := by
  have hN' := hN
  rw [List.length_append] at hN'
  have hxu : ∀ x ∈ us, F.Finite x := fun x hx' => hx x (List.mem_append_left _ hx')
  have hxv : ∀ x ∈ vs, F.Finite x := fun x hx' => hx x (List.mem_append_right _ hx')
  rw [vecSum_eq hT'' hfold hl hs hx hN]
  by_cases hu : us = []
  · subst hu
    have e : F.vecSum T' fold [] (h.eval F fold) = (Hist.renorm h).eval F fold := by
      unfold vecSum; rfl
    rw [List.nil_append] at hs hN ⊢
    rw [e, vecSum_eq hT hfold (h := .renorm h) hl (fun _ => trivial) hxv hN]
    rw [ofList_spec hfold hxv (h := .renorm h) hl hN (fun _ => trivial), ofList_spec hfold hxv hl hN hs]
    apply hist_spec_congr
    · rw [ofList_nums, ofList_nums]; exact List.Perm.refl _
    · rw [ofList_seen, ofList_seen]; exact List.Perm.refl _
  · rw [vecSum_eq hT' hfold hl (fun h0 => absurd h0 hu) hxu (by omega), ← ofList_eval]
    rw [vecSum_eq hT hfold (ofList_legal hxu hl) (fun _ => ofList_settled _ (fun h0 => absurd h0 hu)) hxv
      (by rw [ofList_nums, List.length_append, List.length_reverse]; omega)]
    rw [ofList_eval]; unfold sumSeq; rw [List.foldl_append]

/-- 5000 numbers make three blocks; a shorter concrete run (block size 2, seven numbers of both signs,
stride 2) is evaluated. -/
def exMem : Int → Flt := fun i => ⟨i % 3 == 0, 4 * 10 ^ 18 + 10 ^ 16 * i.toNat⟩

example : (Tune.OK f64 ⟨2, 1, 2, 1, 1, false⟩) ∧ (∀ i : Nat, i < 7 → f64.Finite (exMem (i * 2))) ∧
    f64.dmdsum ⟨2, 1, 2, 1, 1, false⟩ 3 7 exMem 2 (dmsetzero 3)
      = (List.range 7).foldl (fun y (i : Nat) => f64.dmdadd 3 (exMem (i * 2)) y) (dmsetzero 3) := by
  refine ⟨⟨by decide, by decide, ⟨0, rfl⟩, ⟨1, rfl⟩, by decide, by decide, by decide, by decide, fun _ => rfl⟩, ?_, ?_⟩ <;> decide +kernel

/-! ### C20 -/

theorem fabs_finite {x : Flt} (h : F.Finite x) : F.Finite (fabs x) := h

/-- **C20.** The sum of absolute values is, bit for bit, the sum of the vector of absolute values. -/
theorem C20_asum_is_sequential [F.OK] {T : Tune} (hT : T.OK F) {fold : Nat} (hfold : 2 ≤ fold) {h : Hist} (hl : h.Legal F)
    {n : Nat} {X : Int → Flt} {incX : Int} (hs : n = 0 → h.Settled)
    (hx : ∀ i : Nat, i < n → F.Finite (X (i * incX))) (hN : n + h.nums.length ≤ F.capacity) :
    F.dmdasum T fold n X incX (h.eval F fold) =
      (List.range n).foldl (fun y (i : Nat) => F.dmdadd fold (fabs (X (i * incX))) y) (h.eval F fold) := by
  have e : (gather X incX n).map fabs = gather (fun i => fabs (X i)) incX n := by unfold gather; rw [List.map_map]; rfl
  have := C04_sum_is_sequential hT hfold hl (X := fun i => fabs (X i)) (incX := incX) hs hx hN
  unfold dmdsum at this
  unfold dmdasum
  rw [e]; exact this

/-- **C20** (signs and order). The result only depends on the multiset of the absolute values. -/
theorem C20_independent [F.OK] {T T' : Tune} (hT : T.OK F) (hT' : T'.OK F) {fold : Nat} (hfold : 2 ≤ fold) {h : Hist} (hl : h.Legal F)
    {n : Nat} {X X' : Int → Flt} {incX incX' : Int} (hp : ((gather X incX n).map fabs).Perm ((gather X' incX' n).map fabs))
    (hs : n = 0 → h.Settled) (hx : ∀ i : Nat, i < n → F.Finite (X (i * incX))) (hN : n + h.nums.length ≤ F.capacity) :
    F.dmdasum T fold n X incX (h.eval F fold) = F.dmdasum T' fold n X' incX' (h.eval F fold) := by
  have e : ∀ (X : Int → Flt) (incX : Int), (gather X incX n).map fabs = gather (fun i => fabs (X i)) incX n := by
    intro X incX; unfold gather; rw [List.map_map]; rfl
  rw [e, e] at hp
  have := C04_independent hT hT' hfold hl hp hs hx hN
  unfold dmdsum at this
  unfold dmdasum
  rw [e, e]; exact this

theorem rha_mul_dvd (r : Int) (u : Nat) : (2 ^ u : Int) ∣ rha r u * 2 ^ u := ⟨rha r u, by ring⟩

/-- What the bins up to the last one keep of a non-negative number is not negative. -/
theorem kept_nonneg [F.OK] {r : Int} (hr : 0 ≤ r) (k m : Nat) (h0 : F.resid r k = r) :
    0 ≤ r - F.resid r (k + (m + 1)) := by
  have hb := resid_succ_bound (F := F) r (k + m)
  have hU := ipow_pos (F.uexp (k + m))
  have hd : (2 ^ F.uexp (k + m) : Int) ∣ r - F.resid r (k + (m + 1)) := by
    have hs := slices_sum (F := F) r k (m + 1)
    rw [h0] at hs
    rw [← hs]
    have key : ∀ n, n ≤ m + 1 → (2 ^ F.uexp (k + m) : Int) ∣ sumTo (fun i => F.slice r (k + i) * 2 ^ F.uexp (k + i)) n := by
      intro n
      induction n with
      | zero => intro _; exact Int.dvd_zero _
      | succ n ih =>
        intro hn
        simp only [sumTo]
        refine Int.dvd_add (ih (by omega)) ?_
        have : F.uexp (k + m) ≤ F.uexp (k + n) := uexp_anti (by omega)
        exact Dvd.dvd.mul_left (pow_dvd_pow 2 this) _
    exact key _ (Nat.le_refl _)
  have e : k + (m + 1) = k + m + 1 := by omega
  rw [e] at hd ⊢
  obtain ⟨c, hc⟩ := hd
  by_contra hneg
  have hc1 : c ≤ -1 := by
    by_contra hh
    have : 0 ≤ 2 ^ F.uexp (k + m) * c := mul_nonneg (le_of_lt hU) (by omega)
    omega
  have : 2 ^ F.uexp (k + m) * c ≤ 2 ^ F.uexp (k + m) * (-1) := mul_le_mul_of_nonneg_left hc1 (le_of_lt hU)
  omega

/-- **C20** (sign of the result). The value represented by a sum of absolute values is not negative. -/
theorem C20_nonneg [F.OK] {T : Tune} (hT : T.OK F) {fold : Nat} (hfold : 2 ≤ fold)
    {n : Nat} {X : Int → Flt} {incX : Int} (hn : 1 ≤ n)
    (hx : ∀ i : Nat, i < n → F.Finite (X (i * incX))) (hN : n ≤ F.capacity) :
    0 ≤ F.exactVal fold (F.dmdasum T fold n X incX (dmsetzero fold)) := by
  let xs := (gather X incX n).map fabs
  have hlen : xs.length = n := by simp [xs, gather_length]
  have hf : ∀ x ∈ xs, F.Finite x := by
    intro x hxm
    rw [List.mem_map] at hxm
    obtain ⟨z, hz, rfl⟩ := hxm
    obtain ⟨i, hi, rfl⟩ := mem_gather hz
    exact hx i hi
  have hne : xs ≠ [] := by intro h0; rw [h0] at hlen; simp at hlen; omega
  have hv := vecSum_eq hT hfold (h := .zero) trivial (vs := xs) (fun h0 => absurd h0 hne) hf (by rw [hlen]; exact hN)
  have e : Hist.zero.eval F fold = dmsetzero fold := rfl
  rw [e] at hv
  unfold dmdasum
  show 0 ≤ F.exactVal fold (F.vecSum T fold xs _)
  rw [hv, (sumSeq_mid hfold hne hf (by omega)).exactVal (by omega) (Nat.zero_le _) (by omega)]
  have hk : ∀ x ∈ xs, F.Finite x ∧ F.minIndex xs ≤ F.dindex x := fun x hxm => ⟨hf x hxm, minIndex_le_mem hxm⟩
  have hl := totals_loss (F := F) (k := F.minIndex xs) (n := fold) hk
  have hge : (xs.map (fun x => F.resid (F.toInt x) (F.minIndex xs + fold))).sum ≤ F.exactSum xs := by
    have key : ∀ l : List Flt, (∀ x ∈ l, x ∈ xs) → (l.map (fun x => F.resid (F.toInt x) (F.minIndex xs + fold))).sum ≤ F.exactSum l := by
      intro l
      induction l with
      | nil => intro _; simp [exactSum]
      | cons x l ih =>
        intro hl
        have h1 := ih (fun z hz => hl z (List.mem_cons_of_mem _ hz))
        have hxm := hl x List.mem_cons_self
        rw [exactSum_cons, List.map_cons, List.sum_cons]
        have hpos : 0 ≤ F.toInt x := by
          rw [List.mem_map] at hxm
          obtain ⟨z, _, rfl⟩ := hxm
          unfold toInt fabs; simp
        have := kept_nonneg (F := F) hpos (F.minIndex xs) (fold - 1)
          (resid_of_fits (dindex_le_max x) (fits_dindex (hk x hxm).1) _ (hk x hxm).2)
        have e2 : F.minIndex xs + (fold - 1 + 1) = F.minIndex xs + fold := by omega
        rw [e2] at this
        omega
    exact key xs (fun x hxm => hxm)
  omega

/-! ### C21 -/

theorem mul_comm_all (x y : Flt) : F.mul x y = F.mul y x := by
  unfold mul
  rw [Bool.or_comm (F.isNaN x), Bool.or_comm (F.isInf x), Nat.mul_comm (F.val x.mag)]
  have e1 : (x.neg != y.neg) = (y.neg != x.neg) := by cases x.neg <;> cases y.neg <;> rfl
  have e2 : (x.mag = 0 ∨ y.mag = 0) = (y.mag = 0 ∨ x.mag = 0) := propext Or.comm
  rw [e1]; simp only [e2]

theorem zip_gather (X Y : Int → Flt) (incX incY : Int) (n : Nat) :
    List.zipWith F.mul (gather X incX n) (gather Y incY n)
      = (List.range n).map (fun (i : Nat) => F.mul (X (i * incX)) (Y (i * incY))) := by
  unfold gather
  rw [List.zipWith_map, List.zipWith_self]

/-- The products of a dot product. -/
def products (F : Fmt) (n : Nat) (X : Int → Flt) (incX : Int) (Y : Int → Flt) (incY : Int) : List Flt :=
  (List.range n).map (fun (i : Nat) => F.mul (X (i * incX)) (Y (i * incY)))

/-- **C21.** The dot product is, bit for bit, the sum of the individually rounded products. -/
theorem C21_dot_is_sequential [F.OK] {T : Tune} (hT : T.OK F) {fold : Nat} (hfold : 2 ≤ fold) {h : Hist} (hl : h.Legal F)
    {n : Nat} {X Y : Int → Flt} {incX incY : Int} (hs : n = 0 → h.Settled)
    (hx : ∀ i : Nat, i < n → F.Finite (F.mul (X (i * incX)) (Y (i * incY)))) (hN : n + h.nums.length ≤ F.capacity) :
    F.dmddot T fold n X incX Y incY (h.eval F fold) =
      (List.range n).foldl (fun z (i : Nat) => F.dmdadd fold (F.mul (X (i * incX)) (Y (i * incY))) z) (h.eval F fold) := by
  unfold dmddot
  rw [zip_gather, vecSum_eq hT hfold hl]
  · unfold sumSeq; rw [List.foldl_map]
  · intro h0; apply hs; simpa using h0
  · intro x hxm
    rw [List.mem_map] at hxm
    obtain ⟨i, hi, rfl⟩ := hxm
    exact hx i (List.mem_range.1 hi)
  · simpa using hN

/-- **C21** (independence). The bits only depend on the multiset of rounded products: not on the order in
which the pairs are met, nor on strides or tuning. -/
theorem C21_independent [F.OK] {T T' : Tune} (hT : T.OK F) (hT' : T'.OK F) {fold : Nat} (hfold : 2 ≤ fold) {h : Hist} (hl : h.Legal F)
    {n : Nat} {X Y X' Y' : Int → Flt} {incX incY incX' incY' : Int}
    (hp : (products F n X incX Y incY).Perm (products F n X' incX' Y' incY'))
    (hs : n = 0 → h.Settled) (hx : ∀ i : Nat, i < n → F.Finite (F.mul (X (i * incX)) (Y (i * incY))))
    (hN : n + h.nums.length ≤ F.capacity) :
    F.dmddot T fold n X incX Y incY (h.eval F fold) = F.dmddot T' fold n X' incX' Y' incY' (h.eval F fold) := by
  have g : ∀ (X Y : Int → Flt) (incX incY : Int), products F n X incX Y incY
      = gather (fun i => F.mul (X (i * incX)) (Y (i * incY))) 1 n := by
    intro X Y incX incY; unfold products gather; simp
  rw [g, g] at hp
  have := C04_independent hT hT' hfold hl hp hs (by simpa using hx) hN
  unfold dmdsum at this
  unfold dmddot
  rw [zip_gather, zip_gather]
  show F.vecSum T fold (products F n X incX Y incY) _ = F.vecSum T' fold (products F n X' incX' Y' incY') _
  rw [g, g]; exact this

/-- **C21** (swap). Swapping the two vectors changes nothing, whatever the numbers. -/
theorem C21_swap (T : Tune) (fold n : Nat) (X Y : Int → Flt) (incX incY : Int) (z : Binned) :
    F.dmddot T fold n X incX Y incY z = F.dmddot T fold n Y incY X incX z := by
  unfold dmddot
  rw [zip_gather, zip_gather]
  congr 1
  apply List.map_congr_left
  intro i _; exact mul_comm_all _ _

/-- Simultaneous reversal of both vectors (an order reversal through the strides). -/
example : (products f64 4 exMem 1 (fun i => exMem (3 * i)) 1).Perm
      (products f64 4 (fun i => exMem (3 - i)) 1 (fun i => exMem (9 - 3 * i)) 1) ∧
    (∀ i : Nat, i < 4 → f64.Finite (f64.mul (exMem (i * 1)) (exMem (3 * (i * 1))))) := by
  constructor
  · have e : products f64 4 (fun i => exMem (3 - i)) 1 (fun i => exMem (9 - 3 * i)) 1
        = (products f64 4 exMem 1 (fun i => exMem (3 * i)) 1).reverse := by decide +kernel
    rw [e]; exact (List.reverse_perm _).symm
  · decide +kernel

/-! ### C36 -/

/-- **C36.** The native sum is the conversion of the specified binned sum of the elements; likewise
absolute sum and dot product. The specification `specSum` only depends on the multiset. -/
theorem C36_wrappers [F.OK] {T : Tune} (hT : T.OK F) {fold : Nat} (hfold : 2 ≤ fold)
    {n : Nat} {X Y : Int → Flt} {incX incY : Int} (hN : n ≤ F.capacity) :
    ((∀ i : Nat, i < n → F.Finite (X (i * incX))) →
      F.rdsum T fold n X incX = convert F fold (F.specSum fold (gather X incX n)) ∧
      F.rdasum T fold n X incX = convert F fold (F.specSum fold ((gather X incX n).map fabs))) ∧
    ((∀ i : Nat, i < n → F.Finite (F.mul (X (i * incX)) (Y (i * incY)))) →
      F.rddot T fold n X incX Y incY = convert F fold (F.specSum fold (products F n X incX Y incY))) := by
  refine ⟨fun hx => ⟨?_, ?_⟩, fun hx => ?_⟩
  · unfold rdsum dmdsum vecSum
    rw [vecLoop_zero hT hfold (Nat.le_refl _) _ (by rw [gather_length]; exact hN)]
    intro x hxm
    obtain ⟨i, hi, rfl⟩ := mem_gather hxm
    exact hx i hi
  · unfold rdasum dmdasum vecSum
    rw [vecLoop_zero hT hfold (Nat.le_refl _) _ (by rw [List.length_map, gather_length]; exact hN)]
    intro x hxm
    rw [List.mem_map] at hxm
    obtain ⟨z, hz, rfl⟩ := hxm
    obtain ⟨i, hi, rfl⟩ := mem_gather hz
    exact hx i hi
  · unfold rddot dmddot vecSum
    rw [zip_gather]
    show convert F fold (F.vecLoop T fold (products F n X incX Y incY).length (products F n X incX Y incY) 0 _) = _
    rw [vecLoop_zero hT hfold (Nat.le_refl _) _ (by simpa [products] using hN)]
    intro x hxm
    unfold products at hxm
    rw [List.mem_map] at hxm
    obtain ⟨i, hi, rfl⟩ := hxm
    exact hx i (List.mem_range.1 hi)

/-- **C36** (reproducibility of the native result). Every order, stride and tuning returns the same native
number, from `reproBLAS_rdsum` with any fold and from `reproBLAS_dsum`. -/
theorem C36_sum_reproducible [F.OK] {T T' : Tune} (hT : T.OK F) (hT' : T'.OK F) {fold : Nat} (hfold : 2 ≤ fold)
    {n : Nat} {X X' : Int → Flt} {incX incX' : Int} (hp : (gather X incX n).Perm (gather X' incX' n))
    (hx : ∀ i : Nat, i < n → F.Finite (X (i * incX))) (hN : n ≤ F.capacity) :
    F.rdsum T fold n X incX = F.rdsum T' fold n X' incX' ∧ F.dsum T n X incX = F.dsum T' n X' incX' := by
  have key : ∀ fold, 2 ≤ fold → F.rdsum T fold n X incX = F.rdsum T' fold n X' incX' := by
    intro fold hfold
    unfold rdsum
    congr 1
    exact C04_independent (h := .zero) hT hT' hfold trivial hp (fun _ => trivial) hx (by simpa [Hist.nums] using hN)
  exact ⟨key fold hfold, key defaultFold (by decide)⟩

/-- The short names are the routines at the default fold. -/
theorem C36_default_fold (T : Tune) (n : Nat) (X Y : Int → Flt) (incX incY : Int) :
    F.dsum T n X incX = F.rdsum T 3 n X incX ∧ F.dasum T n X incX = F.rdasum T 3 n X incX ∧
    F.ddot T n X incX Y incY = F.rddot T 3 n X incX Y incY := ⟨rfl, rfl, rfl⟩

end Repro
