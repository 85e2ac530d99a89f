import Verif.ZLemmas
/-!
# The block loop of the complex routines
-/

namespace Repro
open Fmt
variable {F : Fmt} {α : Type}

/-- The maximum of one part. -/
theorem amaxZ_eq [F.OK] {T : Tune} (h : T.OK F) {e : Nat} {f : α → Nat → Flt} {z : α} (hz : ∀ q, (f z q).mag = 0) {es : List α}
    (hv : ∀ x ∈ partNums e f es, F.isNaN x = false) :
    F.amaxZ T e f z es = ⟨false, maxMag (partNums e f es)⟩ := by
  have hts : 1 ≤ T.ts := by obtain ⟨a, ha⟩ := h.ts; rw [ha]; exact Nat.two_pow_pos a
  have hnn : ∀ x ∈ partNums e f es, x.mag ≤ F.infMag := by
    intro x hx; have := hv x hx; unfold isNaN at this; simpa using this
  generalize hvs : partNums e f es = vs at *
  have hM : maxMag vs ≤ F.infMag := maxMag_le hnn
  have hdone := amax_done h es.length
  have hpz : Pos (maxMag vs) zero := ⟨rfl, Nat.zero_le _⟩
  unfold amaxZ
  generalize htr : (runUnrolled T.ts T.aunroll es.length).done.flatMap (fun c =>
    ((loadZ T.ts e f z es c).map fabs).zipIdx.map (fun d => (d.2 % T.ts, d.1))) = tr
  have hmem : ∀ d ∈ tr, d.1 < T.ts ∧ Pos (maxMag vs) d.2 := by
    intro d hd
    rw [← htr, List.mem_flatMap] at hd
    obtain ⟨c, hc, hd⟩ := hd
    rw [List.mem_map] at hd
    obtain ⟨q, hq, rfl⟩ := hd
    refine ⟨Nat.mod_lt _ hts, ?_⟩
    have hq1 := List.fst_mem_of_mem_zipIdx hq
    rw [List.mem_map] at hq1
    obtain ⟨x, hx, hxe⟩ := hq1
    show Pos _ q.1
    rw [← hxe]
    refine ⟨rfl, ?_⟩
    show x.mag ≤ _
    rcases loadZ_mem (le_refl _) hdone hc hx with h1 | ⟨r, _, h1⟩
    · rw [hvs] at h1; exact le_maxMag h1
    · rw [h1, hz r]; omega
  have hall : ∀ x ∈ vs, ∃ d ∈ tr, d.2.mag = x.mag := by
    intro x hx
    rw [← hvs, mem_partNums] at hx
    obtain ⟨a, ha, q, hq, rfl⟩ := hx
    rw [← getD_list es z, List.mem_map] at ha
    obtain ⟨i, hi, rfl⟩ := ha
    rw [← hdone.vis, List.mem_flatMap] at hi
    obtain ⟨c, hc, hi⟩ := hi
    have hld : f (es.getD i z) q ∈ loadZ T.ts e f z es c := by
      rw [loadZ_eq, List.mem_flatMap]
      refine ⟨q, List.mem_range.2 hq, List.mem_map.2 ⟨es.getD i z, ?_, rfl⟩⟩
      rw [loadE_eq z es (hdone.shape c hc)]
      exact List.mem_append_left _ (List.mem_map.2 ⟨i, hi, rfl⟩)
    obtain ⟨n, hn, hne⟩ := List.getElem_of_mem (List.mem_map.2 ⟨_, hld, rfl⟩ : fabs (f (es.getD i z) q) ∈ (loadZ T.ts e f z es c).map fabs)
    refine ⟨(n % T.ts, fabs (f (es.getD i z) q)), ?_, rfl⟩
    rw [← htr, List.mem_flatMap]
    refine ⟨c, hc, List.mem_map.2 ⟨(fabs (f (es.getD i z) q), n), ?_, rfl⟩⟩
    rw [List.mem_zipIdx_iff_getElem?]
    rw [List.getElem?_eq_getElem hn, hne]
  have hrep : ∀ i, nth (List.replicate T.ts zero) i = zero := by
    intro i; unfold nth
    rw [List.getD_eq_getElem?_getD, List.getElem?_replicate]; split <;> rfl
  have h1 := maxLanes (F := F) hM tr (List.replicate T.ts zero) (fun i => by rw [hrep]; exact hpz)
    (fun d hd => by rw [List.length_replicate]; exact hmem d hd)
  dsimp only at h1 ⊢
  have h2 := maxFinal (F := F) hM h1.1 (T.ts - 1)
  dsimp only at h2
  generalize hr : (List.range' 1 (T.ts - 1)).foldl (fun a i => F.fmax a (nth (tr.foldl (fun m d => m.set d.1 (F.fmax (nth m d.1) d.2)) (List.replicate T.ts zero)) i)) (nth (tr.foldl (fun m d => m.set d.1 (F.fmax (nth m d.1) d.2)) (List.replicate T.ts zero)) 0) = r at h2 ⊢
  have hge : maxMag vs ≤ r.mag := by
    apply maxMag_le
    intro x hx
    obtain ⟨d, hd, hde⟩ := hall x hx
    have := hmem d hd
    rw [← hde]
    exact Nat.le_trans (h1.2.2 d hd) (h2.2 d.1 (by omega))
  obtain ⟨n, g⟩ := r
  have e1 : n = false := h2.1.1
  have e2 : g ≤ maxMag vs := h2.1.2
  have e3 : maxMag vs ≤ g := hge
  have : g = maxMag vs := by omega
  rw [e1, this]

theorem amaxZ_block [F.OK] {T : Tune} (h : T.OK F) {e : Nat} {f : α → Nat → Flt} {z : α} (hz : ∀ q, (f z q).mag = 0) {es : List α}
    (hne : partNums e f es ≠ []) (hf : ∀ x ∈ partNums e f es, F.Finite x) :
    F.Finite (F.amaxZ T e f z es) ∧ F.dindex (F.amaxZ T e f z es) = F.minIndex (partNums e f es) := by
  rw [amaxZ_eq h hz (fun x hx => finite_not_nan (hf x hx))]
  refine ⟨?_, dindex_maxMag hne hf⟩
  obtain ⟨x, hx, he⟩ := maxMag_mem hne
  show maxMag _ < _
  rw [← he]; exact hf x hx

theorem partNums_take_drop (n e : Nat) (f : α → Nat → Flt) (es : List α) :
    partNums e f (es.take n) ++ partNums e f (es.drop n) = partNums e f es := by
  rw [← partNums_append, List.take_append_drop]

theorem Mid_index0 [F.OK] {fold n N k : Nat} (hfold : 2 ≤ fold) {A : Nat → Int} {y : Binned} (hm : F.Mid fold n N k A y) (hn : n ≤ F.endurance) :
    F.dmindex0 (nth y.pri 0) = decide (k = 0) := by
  obtain ⟨B, C, Z, h1, h2, h3, h4, h5, h6⟩ := hm
  have hpri : y.pri = F.priB fold k B := by rw [h1]; rfl
  have hw : F.Win (B k) := by
    have := endur_abs (F := F) (vs := []) h3 (by simpa using hn) (by simp) k
    rw [absTotal_nil] at this
    exact win_of_abs (by omega)
  rw [hpri, nth_priB (by omega), Nat.add_zero, dmindex0_mkPri hw]

/-- The conditions on what a routine deposits: the fill of a partial load is worth zero. -/
structure ZOp.OK (O : ZOp α) : Prop where
  e1 : 1 ≤ O.e
  zR : ∀ q, (O.fR O.zfill q).mag = 0
  zI : ∀ q, (O.fI O.zfill q).mag = 0

/-- The block loop: the imaginary part, whatever happens in the real part. -/
theorem zvecLoop_mid [F.OK] {T : Tune} (h : T.OK F) {O : ZOp α} (hO : O.OK) (hnb : O.e * T.nb ≤ F.endurance) {fold : Nat} (hfold : 2 ≤ fold) :
    ∀ (fuel : Nat) (es : List α) {d dep N k : Nat} {A : Nat → Int} {y0 y1 : Binned}, es.length ≤ fuel → F.Mid fold d N k A y1 →
    d ≤ O.e * dep → dep ≤ F.endurance / O.e → (∀ x ∈ partNums O.e O.fI es, F.Finite x) → N + (partNums O.e O.fI es).length ≤ F.capacity →
    (F.zvecLoop T fold O fuel es dep (y0, y1)).2
      = F.canon fold (min k (F.minIndex (partNums O.e O.fI es))) (fun j => A j + F.total (partNums O.e O.fI es) j) := by
  have he1 := hO.e1
  have hediv : ∀ {m : Nat}, m ≤ F.endurance / O.e → O.e * m ≤ F.endurance := by
    intro m hm
    exact Nat.le_trans (Nat.mul_le_mul_left _ hm) (Nat.mul_div_le _ _)
  intro fuel
  induction fuel with
  | zero =>
    intro es d dep N k A y0 y1 hlen hm hd hdep hx hN
    have h0 : es = [] := List.eq_nil_of_length_eq_zero (by omega)
    subst h0
    unfold zvecLoop
    have hk : k ≤ F.maxIndex := by obtain ⟨_, _, _, _, _, _, _, h5, _⟩ := hm; exact h5
    have := hediv hdep
    show F.dmrenorm y1 = _
    rw [hm.renorm (by omega) (by omega) (by simp [partNums] at hN; omega)]
    have e1 : min k (F.minIndex (partNums O.e O.fI [])) = k := by show min k F.maxIndex = k; omega
    rw [e1]; congr 1; funext j; simp [partNums, total_nil]
  | succ fuel ih =>
    intro es d dep N k A y0 y1 hlen hm hd hdep hx hN
    unfold zvecLoop
    have hde := hediv hdep
    have hk : k ≤ F.maxIndex := by obtain ⟨_, _, _, _, _, _, _, h5, _⟩ := hm; exact h5
    by_cases h0 : es = []
    · subst h0
      rw [if_pos (show ([] : List α).isEmpty = true from rfl)]
      show F.dmrenorm y1 = _
      rw [hm.renorm (by omega) (by omega) (by simp [partNums] at hN; omega)]
      have e1 : min k (F.minIndex (partNums O.e O.fI [])) = k := by show min k F.maxIndex = k; omega
      rw [e1]; congr 1; funext j; simp [partNums, total_nil]
    · rw [if_neg (by simpa using h0)]
      have hpos : 1 ≤ es.length := List.length_pos_iff.2 h0
      have hbl : (es.take T.nb).length = min T.nb es.length := List.length_take
      have hnb1 := h.nb1
      have hrl : (es.drop T.nb).length = es.length - T.nb := List.length_drop
      have hsplit := partNums_take_drop T.nb O.e O.fI es
      have hl1 := partNums_length O.e O.fI (es.take T.nb)
      have hl2 := partNums_length O.e O.fI (es.drop T.nb)
      have hl0 := partNums_length O.e O.fI es
      have hbne : partNums O.e O.fI (es.take T.nb) ≠ [] := by
        intro hc; rw [hc] at hl1
        have : 1 ≤ O.e * (es.take T.nb).length := Nat.mul_pos he1 (by omega)
        simp only [List.length_nil] at hl1; omega
      have hbf : ∀ x ∈ partNums O.e O.fI (es.take T.nb), F.Finite x := fun x hx' => hx x (by rw [← hsplit]; exact List.mem_append_left _ hx')
      have hbr : ∀ x ∈ partNums O.e O.fI (es.drop T.nb), F.Finite x := fun x hx' => hx x (by rw [← hsplit]; exact List.mem_append_right _ hx')
      have hlsum : (partNums O.e O.fI (es.take T.nb)).length + (partNums O.e O.fI (es.drop T.nb)).length = (partNums O.e O.fI es).length := by
        rw [← List.length_append, hsplit]
      obtain ⟨ha1, ha2⟩ := amaxZ_block h hO.zI hbne hbf
      have hsp := isNaNInf_split (hm.finite (by omega) (by omega))
      have hni := hm.finite (by omega) (by omega)
      dsimp only
      generalize hA1 : F.amaxZ T O.e O.fI O.zfill (es.take T.nb) = a1 at ha1 ha2 ⊢
      generalize hA0 : F.amaxZ T O.e O.fR O.zfill (es.take T.nb) = a0
      have hc1 : (F.isInf a1 || F.isInf (nth y1.pri 0)) = false := by
        rw [finite_not_inf ha1, hsp.2]; rfl
      rw [hc1]
      simp only [Bool.false_eq_true, if_false, hsp.1, hsp.2, Bool.and_false, hni, finite_not_inf ha1]
      generalize (if (F.isInf a0 || F.isInf (nth y0.pri 0)) = true then F.accum0 ((es.take T.nb).map O.tR) y0 else y0) = w0
      -- the update
      have step : ∀ {d' : Nat} {y' : Binned} (z : Bool), F.Mid fold d' N k A y' → d' + (partNums O.e O.fI (es.take T.nb)).length ≤ F.endurance →
          F.Mid fold (d' + (partNums O.e O.fI (es.take T.nb)).length) (N + (partNums O.e O.fI (es.take T.nb)).length)
            (min k (F.minIndex (partNums O.e O.fI (es.take T.nb))))
            (fun j => A j + F.total (partNums O.e O.fI (es.take T.nb)) j)
            ⟨F.kernelZ T (zmode (F.dmindex0 (nth (F.dmdupdate fold a1 y').pri 0)) z) O.e O.fI O.zfill (es.take T.nb) (F.dmdupdate fold a1 y').pri,
              (F.dmdupdate fold a1 y').car⟩ := by
        intro d' y' z hm' hle
        have hu := hm'.update (x := a1) (by omega) (by omega)
        rw [ha2] at hu
        rw [Mid_index0 hfold hu (by omega)]
        exact Mid_kernelZ h he1 hfold hu (zmode_ok z) hO.zI hle (fun x hx' => ⟨hbf x hx', by have := minIndex_le_mem (F := F) hx'; omega⟩)
      have fin : ∀ {d' dep' : Nat} {y' : Binned} (z : Bool) (v : Binned), F.Mid fold d' N k A y' → d' ≤ O.e * dep' →
          dep' + (es.take T.nb).length ≤ F.endurance / O.e →
          (F.zvecLoop T fold O fuel (es.drop T.nb) (dep' + (es.take T.nb).length) (v,
            ⟨F.kernelZ T (zmode (F.dmindex0 (nth (F.dmdupdate fold a1 y').pri 0)) z) O.e O.fI O.zfill (es.take T.nb) (F.dmdupdate fold a1 y').pri,
              (F.dmdupdate fold a1 y').car⟩)).2
            = F.canon fold (min k (F.minIndex (partNums O.e O.fI es))) (fun j => A j + F.total (partNums O.e O.fI es) j) := by
        intro d' dep' y' z v hm' hdd hle
        have hle' := hediv hle
        rw [Nat.mul_add] at hle'
        rw [ih (es.drop T.nb) (by omega) (step z hm' (by omega)) (by rw [Nat.mul_add]; omega) hle hbr (by omega)]
        have e1 : min (min k (F.minIndex (partNums O.e O.fI (es.take T.nb)))) (F.minIndex (partNums O.e O.fI (es.drop T.nb)))
            = min k (F.minIndex (partNums O.e O.fI es)) := by
          rw [← hsplit, minIndex_append]; omega
        rw [e1]; congr 1; funext j
        rw [add_assoc, ← total_append, hsplit]
      by_cases hov : dep + (es.take T.nb).length > F.endurance / O.e
      · simp only [if_pos hov]
        have hcn := hm.renorm (by omega) (by omega) (by omega)
        have hA : ∀ j, (A j).natAbs ≤ N * 2 ^ (F.W - 1) := by obtain ⟨_, _, _, _, _, _, _, _, h6⟩ := hm; exact h6
        have hm' : F.Mid fold 0 N k A (F.dmrenorm y1) := by
          rw [hcn]; exact mid_canon hk hm.zeros hA
        refine fin _ _ hm' (Nat.zero_le _) ?_
        rw [Nat.zero_add, Nat.le_div_iff_mul_le (by omega), Nat.mul_comm]
        exact Nat.le_trans (Nat.mul_le_mul_left _ (by omega)) hnb
      · simp only [if_neg hov]
        exact fin _ _ hm hd (by omega)

/-- The block loop from the zero value. -/
theorem zvecLoop_zero [F.OK] {T : Tune} (h : T.OK F) {O : ZOp α} (hO : O.OK) (hnb : O.e * T.nb ≤ F.endurance) {fold : Nat} (hfold : 2 ≤ fold)
    {fuel : Nat} {es : List α} {y0 : Binned} (hlen : es.length ≤ fuel) (hx : ∀ x ∈ partNums O.e O.fI es, F.Finite x)
    (hN : (partNums O.e O.fI es).length ≤ F.capacity) :
    (F.zvecLoop T fold O fuel es 0 (y0, dmsetzero fold)).2 = F.specSum fold (partNums O.e O.fI es) := by
  have he1 := hO.e1
  have hren : F.dmrenorm (dmsetzero fold) = dmsetzero fold := by
    unfold dmrenorm dmsetzero; dsimp only; rw [nth_setzero]; rfl
  unfold specSum
  cases fuel with
  | zero =>
    have h0 : es = [] := List.eq_nil_of_length_eq_zero (by omega)
    rw [if_pos (by rw [h0]; rfl)]; unfold zvecLoop; exact hren
  | succ fuel =>
    unfold zvecLoop
    by_cases h0 : es = []
    · rw [if_pos (by simp [h0]), if_pos (by rw [h0]; rfl)]; exact hren
    · have hpos : 1 ≤ es.length := List.length_pos_iff.2 h0
      have hl0 := partNums_length O.e O.fI es
      have : 1 ≤ O.e * es.length := Nat.mul_pos he1 hpos
      have hne0 : ¬ partNums O.e O.fI es = [] := by intro hc; rw [hc] at hl0; simp only [List.length_nil] at hl0; omega
      rw [if_neg (show ¬ es.isEmpty = true by simpa using h0)]
      rw [show (if partNums O.e O.fI es = [] then dmsetzero fold else F.canon fold (F.minIndex (partNums O.e O.fI es)) (F.total (partNums O.e O.fI es)))
        = F.canon fold (F.minIndex (partNums O.e O.fI es)) (F.total (partNums O.e O.fI es)) from if_neg hne0]
      have hbl : (es.take T.nb).length = min T.nb es.length := List.length_take
      have hnb1 := h.nb1
      have hrl : (es.drop T.nb).length = es.length - T.nb := List.length_drop
      have hsplit := partNums_take_drop T.nb O.e O.fI es
      have hl1 := partNums_length O.e O.fI (es.take T.nb)
      have hl2 := partNums_length O.e O.fI (es.drop T.nb)
      have hbne : partNums O.e O.fI (es.take T.nb) ≠ [] := by
        intro hc; rw [hc] at hl1
        have : 1 ≤ O.e * (es.take T.nb).length := Nat.mul_pos he1 (by omega)
        simp only [List.length_nil] at hl1; omega
      have hbf : ∀ x ∈ partNums O.e O.fI (es.take T.nb), F.Finite x := fun x hx' => hx x (by rw [← hsplit]; exact List.mem_append_left _ hx')
      have hbr : ∀ x ∈ partNums O.e O.fI (es.drop T.nb), F.Finite x := fun x hx' => hx x (by rw [← hsplit]; exact List.mem_append_right _ hx')
      have hlsum : (partNums O.e O.fI (es.take T.nb)).length + (partNums O.e O.fI (es.drop T.nb)).length = (partNums O.e O.fI es).length := by
        rw [← List.length_append, hsplit]
      obtain ⟨ha1, ha2⟩ := amaxZ_block h hO.zI hbne hbf
      have hsp := setzero_pri0 (F := F) fold
      have hni : F.isNaNInf (nth (dmsetzero fold).pri 0) = false := by
        have e : nth (dmsetzero fold).pri 0 = zero := by unfold dmsetzero; exact nth_setzero fold
        rw [e]; exact isNaNInf_false zero_finite
      have hble : (es.take T.nb).length ≤ F.endurance / O.e := by
        rw [Nat.le_div_iff_mul_le (by omega), Nat.mul_comm]
        exact Nat.le_trans (Nat.mul_le_mul_left _ (by omega)) hnb
      have hble' : O.e * (es.take T.nb).length ≤ F.endurance := Nat.le_trans (Nat.mul_le_mul_left _ hble) (Nat.mul_div_le _ _)
      dsimp only
      generalize hA1 : F.amaxZ T O.e O.fI O.zfill (es.take T.nb) = a1 at ha1 ha2 ⊢
      generalize hA0 : F.amaxZ T O.e O.fR O.zfill (es.take T.nb) = a0
      have hc1 : (F.isInf a1 || F.isInf (nth (dmsetzero fold).pri 0)) = false := by
        rw [finite_not_inf ha1, hsp.2]; rfl
      rw [hc1]
      simp only [Bool.false_eq_true, if_false, hsp.1, hsp.2, Bool.and_false, hni, finite_not_inf ha1]
      have hov : ¬ (0 + (es.take T.nb).length > F.endurance / O.e) := by omega
      simp only [if_neg hov]
      have hu := mid_empty (F := F) (fold := fold) (x := a1)
      rw [ha2] at hu
      rw [Mid_index0 hfold hu (by omega)]
      have hm := Mid_kernelZ h he1 hfold hu (zmode_ok (F.dmindex0 (nth (F.dmdupdate fold (if F.isNaNInf (nth (if (F.isInf a0 || F.isInf (nth y0.pri 0)) = true then F.accum0 ((es.take T.nb).map O.tR) y0 else y0).pri 0) = true then nth (if (F.isInf a0 || F.isInf (nth y0.pri 0)) = true then F.accum0 ((es.take T.nb).map O.tR) y0 else y0).pri 0 else a0) (if (F.isInf a0 || F.isInf (nth y0.pri 0)) = true then F.accum0 ((es.take T.nb).map O.tR) y0 else y0)).pri 0))) hO.zI
        (es := es.take T.nb) (by omega) (fun x hx' => ⟨hbf x hx', minIndex_le_mem (F := F) hx'⟩)
      rw [zvecLoop_mid h hO hnb hfold fuel (es.drop T.nb) (by omega) hm (by rw [Nat.zero_add, Nat.zero_add, hl1]) (by omega) hbr (by omega), ← minIndex_append, hsplit]
      congr 1; funext j
      rw [zero_add, ← total_append, hsplit]

/-! ### Vectors shorter than a block -/

/-- The tuning with a block no longer than the vector. -/
def Tune.short (T : Tune) (m : Nat) : Tune := if m < T.nb ∧ m ≠ 0 then { T with nb := m } else T

theorem Tune.OK.short {T : Tune} (h : T.OK F) (m : Nat) : (T.short m).OK F := by
  unfold Tune.short
  split
  · next hm => exact ⟨by show 1 ≤ m; omega, by have := h.nb2; show m ≤ F.endurance; omega, h.ts, h.pipe, h.tp, h.unroll, h.au1, h.au, h.sisd⟩
  · exact h

theorem amaxZ_nb (T : Tune) (m : Nat) : F.amaxZ (α := α) { T with nb := m } = F.amaxZ T := by
  unfold amaxZ; rfl

theorem kernelZ_nb (T : Tune) (m : Nat) : F.kernelZ (α := α) { T with nb := m } = F.kernelZ T := by
  funext mode e f zfill es pri
  unfold kernelZ consolidateZ Tune.traceZ; rfl

theorem zvecLoop_nil (T : Tune) (fold : Nat) (O : ZOp α) (fuel dep : Nat) (y : Binned × Binned) :
    F.zvecLoop T fold O fuel [] dep y = (F.dmrenorm y.1, F.dmrenorm y.2) := by
  cases fuel with
  | zero => rfl
  | succ fuel =>
    unfold zvecLoop
    exact if_pos rfl

/-- A vector that fits into one block is handled in the same way for every larger block size. -/
theorem zvecLoop_short {T T' : Tune} (fold : Nat) (O : ZOp α) (es : List α) (fuel dep : Nat) (y : Binned × Binned) (h1 : es.length ≤ T'.nb) (h2 : es.length ≤ T.nb)
    (ha : F.amaxZ (α := α) T' = F.amaxZ T) (hk : F.kernelZ (α := α) T' = F.kernelZ T) :
    F.zvecLoop T fold O fuel es dep y = F.zvecLoop T' fold O fuel es dep y := by
  cases fuel with
  | zero => rfl
  | succ fuel =>
    have e3 : F.zvecLoop T' fold O fuel [] = F.zvecLoop T fold O fuel [] := by
      funext d y
      rw [zvecLoop_nil, zvecLoop_nil]
    unfold zvecLoop
    rw [ha, hk, List.take_of_length_le h1, List.take_of_length_le h2, List.drop_of_length_le h1, List.drop_of_length_le h2, e3]

theorem zvecSum_short (T : Tune) (fold : Nat) (O : ZOp α) (es : List α) (y : Binned × Binned) :
    F.zvecSum T fold O es y = F.zvecSum (T.short es.length) fold O es y := by
  unfold zvecSum Tune.short
  split
  · next h => exact zvecLoop_short fold O es _ 0 y (Nat.le_refl _) (by omega) (amaxZ_nb T _) (kernelZ_nb T _)
  · rfl

theorem short_nb {T : Tune} {es : List α} {e B : Nat} (he : es ≠ []) (h : e * min T.nb es.length ≤ B) : e * (T.short es.length).nb ≤ B := by
  have h0 : 1 ≤ es.length := List.length_pos_iff.2 he
  unfold Tune.short
  split
  · next hm => rw [Nat.min_eq_right (by omega)] at h; exact h
  · next hm => rw [Nat.min_eq_left (by omega)] at h; exact h

/-- The imaginary part of a routine is the sequential sum of its numbers, whatever the real part. -/
theorem zvecSum_im [F.OK] {T : Tune} (hT : T.OK F) {O : ZOp α} (hO : O.OK) {es : List α} (hnb : O.e * min T.nb es.length ≤ F.endurance) {fold : Nat} (hfold : 2 ≤ fold)
    {h : Hist} (hl : h.Legal F) (hs : es = [] → h.Settled) (hx : ∀ x ∈ partNums O.e O.fI es, F.Finite x)
    (hN : (partNums O.e O.fI es).length + h.nums.length ≤ F.capacity) (y0 : Binned) :
    (F.zvecSum T fold O es (y0, h.eval F fold)).2 = F.sumSeq fold (partNums O.e O.fI es) (h.eval F fold) := by
  by_cases he : es = []
  · subst he
    have hst := hs rfl
    have e1 : (F.zvecSum T fold O [] (y0, h.eval F fold)).2 = h.renorm.eval F fold := rfl
    have e2 : F.sumSeq fold (partNums O.e O.fI []) (h.eval F fold) = h.eval F fold := rfl
    have hN' : h.nums.length ≤ F.capacity := by omega
    rw [e1, e2, hist_spec hfold (h := h.renorm) hl hN' trivial, hist_spec hfold hl hN' hst]; rfl
  rw [zvecSum_short]
  replace hT := hT.short es.length
  replace hnb : O.e * (T.short es.length).nb ≤ F.endurance := short_nb he hnb
  generalize T.short es.length = T at hT hnb ⊢
  have hs' : partNums O.e O.fI es = [] → h.Settled := by
    intro hc
    apply hs
    have hl0 := partNums_length O.e O.fI es
    rw [hc] at hl0
    by_contra hne
    have : 1 ≤ O.e * es.length := Nat.mul_pos hO.e1 (List.length_pos_iff.2 hne)
    simp only [List.length_nil] at hl0; omega
  rw [ofList_spec hfold hx hl hN hs']
  have hm := hist_mid hfold h hl (by omega)
  unfold zvecSum
  generalize hvs : partNums O.e O.fI es = vs at *
  have en := ofList_nums vs h
  have es' := ofList_seen vs h
  by_cases h0 : h.seen = []
  · obtain ⟨e1, e2⟩ := hm.1 h0
    rw [e1, zvecLoop_zero hT hO hnb hfold (le_refl _) (by rw [hvs]; exact hx) (by rw [hvs]; omega), hvs]
    unfold specSum Hist.spec
    rw [en, es', h0, e2, List.append_nil]
    by_cases hv : vs = []
    · rw [if_pos hv, if_pos (by rw [hv]; rfl)]
    · rw [if_neg hv, if_neg (by simpa using hv), minIndex_perm (List.reverse_perm vs)]
      congr 1; funext j; exact (total_perm (List.reverse_perm vs) j).symm
  · rw [zvecLoop_mid hT hO hnb hfold _ es (le_refl _) (hm.2.1 h0) (Nat.zero_le _) (Nat.zero_le _) (by rw [hvs]; exact hx) (by rw [hvs]; omega), hvs]
    unfold Hist.spec
    rw [en, es', if_neg (by simp [h0]), minIndex_append, minIndex_perm (List.reverse_perm vs), Nat.min_comm]
    congr 1; funext j
    rw [total_append, total_perm (List.reverse_perm vs) j, add_comm]

/-- Exchange the real and the imaginary part. -/
def ZOp.swap (O : ZOp α) : ZOp α := ⟨O.e, O.fI, O.fR, O.tI, O.tR, O.zfill⟩

theorem zvecLoop_swap (T : Tune) (fold : Nat) (O : ZOp α) : ∀ (fuel : Nat) (es : List α) (dep : Nat) (y : Binned × Binned),
    F.zvecLoop T fold O.swap fuel es dep y.swap = (F.zvecLoop T fold O fuel es dep y).swap := by
  intro fuel
  induction fuel with
  | zero => intro es dep y; rfl
  | succ fuel ih =>
    intro es dep y
    unfold zvecLoop
    by_cases h0 : es.isEmpty = true
    · rw [if_pos h0, if_pos h0]; rfl
    · rw [if_neg h0, if_neg h0]
      dsimp only [ZOp.swap, Prod.fst_swap, Prod.snd_swap]
      generalize (if (F.isInf (F.amaxZ T O.e O.fI O.zfill (es.take T.nb)) || F.isInf (nth y.2.pri 0)) = true then F.accum0 ((es.take T.nb).map O.tI) y.2 else y.2) = y1
      generalize (if (F.isInf (F.amaxZ T O.e O.fR O.zfill (es.take T.nb)) || F.isInf (nth y.1.pri 0)) = true then F.accum0 ((es.take T.nb).map O.tR) y.1 else y.1) = y0
      rw [Bool.and_comm (F.isNaN (nth y1.pri 0)), Bool.and_comm (F.isInf (nth y1.pri 0))]
      split
      · rfl
      · split
        · exact ih _ _ (y0, y1)
        · exact ih _ _ (_, _)

theorem zvecSum_re [F.OK] {T : Tune} (hT : T.OK F) {O : ZOp α} (hO : O.OK) {es : List α} (hnb : O.e * min T.nb es.length ≤ F.endurance) {fold : Nat} (hfold : 2 ≤ fold)
    {h : Hist} (hl : h.Legal F) (hs : es = [] → h.Settled) (hx : ∀ x ∈ partNums O.e O.fR es, F.Finite x)
    (hN : (partNums O.e O.fR es).length + h.nums.length ≤ F.capacity) (y1 : Binned) :
    (F.zvecSum T fold O es (h.eval F fold, y1)).1 = F.sumSeq fold (partNums O.e O.fR es) (h.eval F fold) := by
  have hsw : O.swap.OK := ⟨hO.e1, hO.zI, hO.zR⟩
  have := zvecSum_im hT hsw hnb hfold hl (es := es) hs hx hN y1
  unfold zvecSum at this ⊢
  have e := zvecLoop_swap (F := F) T fold O es.length es 0 (h.eval F fold, y1)
  rw [Prod.swap_prod_mk] at e
  rw [e] at this
  exact this

end Repro
