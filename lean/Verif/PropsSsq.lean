import Verif.SsqState
/-!
# C29: scaled sums of squares
-/

namespace Repro
open Fmt
variable {F : Fmt}

/-- The accumulator of a scaled sum of the squares of `ps`, with at most `d` deposits since the last renormalization. -/
structure SsqState (F : Fmt) (fold d : Nat) (ps : List Flt) (S : Flt) (y : Binned) : Prop where
  ne : ps ≠ []
  fin : ∀ x ∈ ps, F.Finite x
  scale : S = scaleOf F ps
  mid : F.Mid fold d ps.length (F.minIndex (ps.map (F.sq S))) (F.total (ps.map (F.sq S))) y

theorem sq_fin_all [F.OK] {S : Flt} {n m : Nat} (hS : F.IsScale S n m) {xs : List Flt} (hf : ∀ x ∈ xs, F.Finite x)
    (hb : F.val (maxMag xs) < 2 ^ (F.W + n)) : ∀ v ∈ xs.map (F.sq S), F.Finite v := by
  intro v hv
  obtain ⟨x, hx, rfl⟩ := List.mem_map.1 hv
  exact (sq_val hS (hf x hx) (Nat.lt_of_le_of_lt (val_mono (le_maxMag hx)) hb)).1

theorem canon_congr {fold k : Nat} {A A' : Nat → Int} (h : ∀ j, k ≤ j → j < k + fold → A j = A' j) : F.canon fold k A = F.canon fold k A' := by
  unfold canon
  rw [mid_eq_midZ, mid_eq_midZ]
  unfold midZ
  congr 1 <;>
  · apply List.map_congr_left
    intro i hi
    simp only [List.mem_range'] at hi
    obtain ⟨a, b, rfl⟩ := hi
    have := h (k + 1 * a) (by omega) (by omega)
    dsimp only
    rw [this]

/-- Rescaling a state to the larger scale of `M`. -/
theorem SsqState.rescale [F.OK] {fold d : Nat} {ps : List Flt} {S : Flt} {y : Binned} (h : SsqState F fold d ps S y) (hfold : 1 ≤ fold)
    (hJ : F.ssqHi + fold ≤ F.ssqJ + 1) (hd : d ≤ F.endurance) {M : Flt} (hM : F.Finite M) (hlt : F.lt S (F.dscale M) = true) :
    ∃ y0 k0 A0 n m, F.IsScale (F.dscale M) n m ∧ F.val M.mag < 2 ^ (F.W + n) ∧ maxMag ps < M.mag ∧
      F.Near fold F.ssqJ (F.dmdrescale (F.dscale M) S y) y0 ∧ F.Mid fold d ps.length k0 A0 y0 ∧
      F.dindex (F.sq (F.dscale M) M) ≤ k0 ∧ F.dindex (F.sq (F.dscale M) M) + fold ≤ F.ssqJ + 1 ∧
      F.dindex (F.sq (F.dscale M) M) ≤ F.minIndex (ps.map (F.sq (F.dscale M))) ∧
      ∀ j, j ≤ F.ssqJ → A0 j = F.total (ps.map (F.sq (F.dscale M))) j := by
  have ⟨s1, s2, s3, s4, s5, s6, s7, s8⟩ := F.ssq_facts
  obtain ⟨ne, fin, scale, mid⟩ := h
  rw [scaleOf_ne ne] at scale
  subst scale
  have hP := maxMag_finite ne fin
  obtain ⟨n, m, n', m', t, i1, i2, hn, hm, ht, hmm, v1, v2, hl⟩ := scale_step hP hM hlt
  have hmm' : maxMag ps < M.mag := hmm
  have hb' : F.val (maxMag ps) < 2 ^ (F.W + n') := Nat.lt_of_le_of_lt (val_mono (Nat.le_of_lt hmm')) v2
  have hk : F.ssqLo ≤ F.minIndex (ps.map (F.sq (F.dscale ⟨false, maxMag ps⟩))) := by
    rw [minIndex_sq i1 ne fin v1]
    exact sq_lo i1 hP v1
  obtain ⟨y0, hn0, hm0⟩ := rescale_near i1 i2 hn ht hfold mid hd hk
  have hhi := sq_hi i2 hM v2 hl
  have hmin : F.dindex (F.sq (F.dscale M) M) ≤ F.dindex (F.sq (F.dscale M) ⟨false, maxMag ps⟩) :=
    dindex_bound (F := F) (sq_val i2 hP hb').1 (sq_mono i2 hP hM v2 (Nat.le_of_lt hmm'))
  refine ⟨y0, _, _, n', m', i2, v2, hmm', hn0, hm0, ?_, by omega, ?_, ?_⟩
  · by_cases hc : F.minIndex (ps.map (F.sq (F.dscale ⟨false, maxMag ps⟩))) + 2 * t < F.ssqHi
    · rw [minIndex_sq i1 ne fin v1] at hc ⊢
      have := sq_idx i1 i2 hm hP v1 hb' hc
      omega
    · omega
  · rw [minIndex_sq i2 ne fin hb']; exact hmin
  · intro j hj
    exact (total_sq i1 i2 hm hj (fun x hx => ⟨fin x hx, Nat.lt_of_le_of_lt (val_mono (le_maxMag hx)) v1⟩)).symm

/-- One block of the loop: rescale, update, kernel. -/
theorem SsqState.step [F.OK] {T : Tune} (hT : T.OK F) {fold d : Nat} {ps b : List Flt} {S : Flt} {y : Binned} (hfold : 2 ≤ fold)
    (hJ : F.ssqHi + fold ≤ F.ssqJ + 1) (h : (ps = [] ∧ S = zero ∧ y = dmsetzero fold) ∨ SsqState F fold d ps S y)
    (hb : b ≠ []) (hbf : ∀ x ∈ b, F.Finite x) (hd : d + b.length ≤ F.endurance) :
    let amax : Flt := ⟨false, maxMag b⟩
    let new := F.dscale amax
    let y := if F.lt S new && F.lt zero S then F.dmdrescale new S y else y
    let S := if F.lt S new then new else S
    let a := F.div amax S
    let y := F.dmdupdate fold (F.mul a a) y
    SsqState F fold (d + b.length) (ps ++ b) S ⟨F.kernel T (b.map (F.sq S)) y.pri, y.car⟩ := by
  dsimp only
  have ⟨hp, hW, hWp, _, hem, hem1, hbi, het, hb3, _⟩ := F.facts
  have hM := maxMag_finite hb hbf
  obtain ⟨n, m, z, i1, v1, w1⟩ := scale_of hM
  have zlt : F.lt zero (F.dscale ⟨false, maxMag b⟩) = true := by
    rw [lt_scale rfl i1.neg zero_finite i1.fin]
    have := mag_ne_of_val i1.val
    simp only [decide_eq_true_eq]
    show 0 < _; omega
  -- the deposits
  have fin : ∀ {S : Flt} {n m : Nat} {y' : Binned} {k : Nat}, F.IsScale S n m → F.val (maxMag b) < 2 ^ (F.W + n) →
      (∀ x ∈ ps, F.Finite x) → S = scaleOf F (ps ++ b) →
      F.Mid fold d ps.length k (F.total (ps.map (F.sq S))) (F.dmdupdate fold (F.sq S ⟨false, maxMag b⟩) y') →
      k = F.minIndex ((ps ++ b).map (F.sq S)) →
      SsqState F fold (d + b.length) (ps ++ b) S ⟨F.kernel T (b.map (F.sq S)) (F.dmdupdate fold (F.sq S ⟨false, maxMag b⟩) y').pri,
        (F.dmdupdate fold (F.sq S ⟨false, maxMag b⟩) y').car⟩ := by
    intro S n m y' k iS vS hps hsc hmid hk
    have hfb := sq_fin_all iS hbf vS
    have hblk := Mid_block hT hfold hmid (b := b.map (F.sq S)) (by rw [List.length_map]; exact hd) (fun v hv => ⟨hfb v hv, by
      have h2 := minIndex_le_mem (F := F) hv
      rw [hk, List.map_append, minIndex_append]; omega⟩)
    refine ⟨by simp [hb], ?_, hsc, ?_⟩
    · intro x hx
      rcases List.mem_append.1 hx with h | h
      · exact hps x h
      · exact hbf x h
    · rw [List.length_map, hk] at hblk
      rw [List.length_append]
      have e : F.total ((ps ++ b).map (F.sq S)) = fun j => F.total (ps.map (F.sq S)) j + F.total (b.map (F.sq S)) j := by
        funext j; rw [List.map_append, total_append]
      rw [e]; exact hblk
  rcases h with ⟨rfl, rfl, rfl⟩ | h
  · have hz0 : F.lt zero zero = false := by unfold lt; simp
    rw [hz0, zlt]
    simp only [Bool.and_false, Bool.false_eq_true, if_false, if_true]
    rw [sq_div i1 hM rfl v1]
    refine fin i1 v1 (by simp) ?_ ?_ ?_ (k := F.dindex (F.sq (F.dscale ⟨false, maxMag b⟩) ⟨false, maxMag b⟩))
    · rw [List.nil_append, scaleOf_ne hb]
    · exact (mid_empty (F := F)).mono (by omega) (by omega)
    · rw [List.nil_append, minIndex_sq i1 hb hbf v1]
  · have hP := maxMag_finite h.ne h.fin
    obtain ⟨n', m', z', i2, v2, w2⟩ := scale_of hP
    have hsc := h.scale
    rw [scaleOf_ne h.ne] at hsc
    have happ := scaleOf_append h.ne hb h.fin hbf
    rw [← h.scale, scaleOf_ne hb] at happ
    have hpos : F.lt zero S = true := by
      rw [hsc, lt_scale rfl i2.neg zero_finite i2.fin]
      have := mag_ne_of_val i2.val
      simp only [decide_eq_true_eq]
      show 0 < _; omega
    by_cases hlt : F.lt S (F.dscale ⟨false, maxMag b⟩) = true
    · obtain ⟨y0, k0, A0, n1, m1, j1, j2, j3, j4, j5, j6, j7, j8, j9⟩ := h.rescale (by omega) hJ (by omega) hM hlt
      rw [if_pos hlt] at happ
      rw [hlt, hpos]
      simp only [Bool.and_self, if_true]
      rw [sq_div i1 hM rfl v1]
      have hidx : F.dmindex (nth y0.pri 0) = k0 := j5.index (by omega) (by omega)
      have hmb : F.minIndex ((ps ++ b).map (F.sq (F.dscale ⟨false, maxMag b⟩))) = F.dindex (F.sq (F.dscale ⟨false, maxMag b⟩) ⟨false, maxMag b⟩) := by
        rw [List.map_append, minIndex_append, minIndex_sq i1 hb hbf v1]; omega
      refine fin i1 v1 h.fin happ.symm ?_ rfl
      rw [j4.update j7 (by rw [hidx]; exact j6), hmb]
      have hu := j5.update (x := F.sq (F.dscale ⟨false, maxMag b⟩) ⟨false, maxMag b⟩) (by omega) (by omega)
      rw [Nat.min_eq_right j6] at hu
      have hpf := sq_fin_all i1 h.fin (Nat.lt_of_le_of_lt (val_mono (Nat.le_of_lt j3)) v1)
      refine hu.congr (fun j _ hj => (j9 j (by omega)).symm) ?_ ?_
      · exact total_zero_below hpf j8
      · intro j
        have := total_natAbs hpf j
        rwa [List.length_map] at this
    · have hlt' : F.lt S (F.dscale ⟨false, maxMag b⟩) = false := by simpa using hlt
      rw [if_neg hlt] at happ
      rw [hlt']
      simp only [Bool.false_and, Bool.false_eq_true, if_false]
      have hv : F.val (maxMag b) < 2 ^ (F.W + n') := by
        rw [hsc, lt_scale i2.neg i1.neg i2.fin i1.fin] at hlt'
        simp only [decide_eq_false_iff_not] at hlt'
        have h1 := val_mono (F := F) (show (F.dscale ⟨false, maxMag b⟩).mag ≤ (F.dscale ⟨false, maxMag ps⟩).mag by omega)
        rw [i1.val, i2.val] at h1
        refine Nat.lt_of_lt_of_le v1 ?_
        rw [Nat.pow_add, Nat.pow_add]
        exact Nat.mul_le_mul_left _ h1
      subst hsc
      rw [sq_div i2 hM rfl hv]
      refine fin i2 hv h.fin happ.symm (h.mid.update (by omega) (by omega)) ?_
      rw [List.map_append, minIndex_append, minIndex_sq i2 hb hbf hv]

theorem SsqState.spec [F.OK] {fold d : Nat} {ps : List Flt} {S : Flt} {y : Binned} (h : SsqState F fold d ps S y) (hfold : 2 ≤ fold)
    (hd : d ≤ F.endurance) (hN : ps.length ≤ F.capacity) : F.ssqEnd S y = ssqSpec F fold ps ∧ F.dmrenorm y = (ssqSpec F fold ps).2 := by
  have hr := h.mid.renorm (by omega) hd hN
  have e : F.dmrenorm y = (ssqSpec F fold ps).2 := by
    rw [hr]
    unfold ssqSpec specSum
    dsimp only
    rw [if_neg (by simpa using h.ne), ← h.scale]
  refine ⟨?_, e⟩
  obtain ⟨ne, fin, scale, mid⟩ := h
  have hk : F.minIndex (ps.map (F.sq S)) ≤ F.maxIndex := minIndex_le _
  have hA : ∀ j, (F.total (ps.map (F.sq S)) j).natAbs ≤ ps.length * 2 ^ (F.W - 1) := by obtain ⟨_, _, _, _, _, _, _, _, h6⟩ := mid; exact h6
  have hm' : F.Mid fold 0 ps.length (F.minIndex (ps.map (F.sq S))) (F.total (ps.map (F.sq S))) (F.dmrenorm y) := by
    rw [hr]; exact mid_canon hk mid.zeros hA
  unfold ssqEnd
  dsimp only
  rw [hm'.finite (by omega) (by omega)]
  simp only [Bool.false_eq_true, if_false]
  rw [e, scale]
  rfl

theorem SsqState.of_spec [F.OK] {fold : Nat} {ps : List Flt} (ne : ps ≠ []) (hf : ∀ x ∈ ps, F.Finite x) :
    SsqState F fold 0 ps (ssqSpec F fold ps).1 (ssqSpec F fold ps).2 := by
  refine ⟨ne, hf, rfl, ?_⟩
  obtain ⟨n, m, z, i1, v1, w1⟩ := scale_of (maxMag_finite ne hf)
  have hpf := sq_fin_all i1 hf v1
  unfold ssqSpec specSum
  dsimp only
  rw [if_neg (by simpa using ne), scaleOf_ne ne]
  refine mid_canon (minIndex_le _) (total_zero_below hpf (le_refl _)) ?_
  intro j
  have := total_natAbs hpf j
  rwa [List.length_map] at this

theorem ssqEnd_zero [F.OK] {fold : Nat} : F.ssqEnd zero (dmsetzero fold) = ssqSpec F fold [] := by
  have hren : F.dmrenorm (dmsetzero fold) = dmsetzero fold := by
    unfold dmrenorm dmsetzero; dsimp only; rw [nth_setzero]; rfl
  unfold ssqEnd
  dsimp only
  have e : nth (dmsetzero fold).pri 0 = zero := by unfold dmsetzero; exact nth_setzero fold
  rw [hren, e, isNaNInf_false zero_finite]
  rfl

/-- The block loop computes the specification. -/
theorem ssqLoop_spec [F.OK] {T : Tune} (hT : T.OK F) {fold : Nat} (hfold : 2 ≤ fold) (hJ : F.ssqHi + fold ≤ F.ssqJ + 1) :
    ∀ (fuel : Nat) (xs : List Flt) {ps : List Flt} {d dep : Nat} {S : Flt} {y : Binned}, xs.length ≤ fuel →
    ((ps = [] ∧ S = zero ∧ y = dmsetzero fold) ∨ SsqState F fold d ps S y) → d ≤ dep → dep ≤ F.endurance →
    (∀ x ∈ xs, F.Finite x) → ps.length + xs.length ≤ F.capacity →
    F.ssqLoop T fold fuel xs dep S y = ssqSpec F fold (ps ++ xs) := by
  intro fuel
  have fin : ∀ {ps : List Flt} {d : Nat} {S : Flt} {y : Binned}, ((ps = [] ∧ S = zero ∧ y = dmsetzero fold) ∨ SsqState F fold d ps S y) →
      d ≤ F.endurance → ps.length ≤ F.capacity → F.ssqEnd S y = ssqSpec F fold (ps ++ []) := by
    intro ps d S y h hd hN
    rw [List.append_nil]
    rcases h with ⟨rfl, rfl, rfl⟩ | h
    · exact ssqEnd_zero
    · exact (h.spec hfold hd hN).1
  induction fuel with
  | zero =>
    intro xs ps d dep S y hlen h hd hdep hx hN
    have h0 : xs = [] := List.eq_nil_of_length_eq_zero (by omega)
    subst h0
    exact fin h (by omega) (by simpa using hN)
  | succ fuel ih =>
    intro xs ps d dep S y hlen h hd hdep hx hN
    unfold ssqLoop
    by_cases h0 : xs = []
    · subst h0
      rw [if_pos rfl]
      exact fin h (by omega) (by simpa using hN)
    · rw [if_neg h0]
      have hpos : 1 ≤ xs.length := List.length_pos_iff.2 h0
      have hbl : (xs.take T.nb).length = min T.nb xs.length := List.length_take
      have hnb1 := hT.nb1
      have hnb2 := hT.nb2
      have hbne : xs.take T.nb ≠ [] := by
        intro hc; rw [hc] at hbl; simp at hbl; omega
      have hbf : ∀ x ∈ xs.take T.nb, F.Finite x := fun x hx' => hx x (List.mem_of_mem_take hx')
      have hbr : ∀ x ∈ xs.drop T.nb, F.Finite x := fun x hx' => hx x (List.mem_of_mem_drop hx')
      have hrl : (xs.drop T.nb).length = xs.length - T.nb := List.length_drop
      have ea : F.amaxK T ((xs.take T.nb).map fabs) = ⟨false, maxMag (xs.take T.nb)⟩ := damax_eq hT (fun x hx => finite_not_nan (hbf x hx))
      have hmf := maxMag_finite hbne hbf
      have hsp : F.isNaN (nth y.pri 0) = false ∧ F.isInf (nth y.pri 0) = false := by
        rcases h with ⟨rfl, rfl, rfl⟩ | h
        · exact setzero_pri0 fold
        · exact isNaNInf_split (h.mid.finite (by omega) (by omega))
      dsimp only
      rw [ea]
      have hc1 : (F.isInf ⟨false, maxMag (xs.take T.nb)⟩ || F.isInf (nth y.pri 0)) = false := by
        rw [finite_not_inf hmf, hsp.2]; rfl
      rw [hc1]
      simp only [Bool.false_eq_true, if_false, hsp.1, hsp.2]
      have etd : ps ++ xs = (ps ++ xs.take T.nb) ++ xs.drop T.nb := by rw [List.append_assoc, List.take_append_drop]
      by_cases hov : dep + (xs.take T.nb).length > F.endurance
      · simp only [if_pos hov]
        have h' : (ps = [] ∧ S = zero ∧ F.dmrenorm y = dmsetzero fold) ∨ SsqState F fold 0 ps S (F.dmrenorm y) := by
          rcases h with ⟨rfl, rfl, rfl⟩ | h
          · left
            refine ⟨rfl, rfl, ?_⟩
            unfold dmrenorm dmsetzero; dsimp only; rw [nth_setzero]; rfl
          · right
            have a := SsqState.of_spec (F := F) (fold := fold) h.ne h.fin
            have b := h.spec hfold (by omega) (by omega)
            rw [b.2]
            have e : S = (ssqSpec F fold ps).1 := h.scale
            rw [e]; exact a
        have hs := SsqState.step hT hfold hJ h' hbne hbf (by omega)
        rw [etd]
        exact ih (xs.drop T.nb) (by omega) (Or.inr hs) (by omega) (by omega) hbr (by rw [List.length_append]; omega)
      · simp only [if_neg hov]
        have hs := SsqState.step hT hfold hJ h hbne hbf (by omega)
        rw [etd]
        exact ih (xs.drop T.nb) (by omega) (Or.inr hs) (by omega) (by omega) hbr (by rw [List.length_append]; omega)

theorem scaleOf_perm {xs ys : List Flt} (h : xs.Perm ys) : scaleOf F xs = scaleOf F ys := by
  unfold scaleOf
  by_cases hx : xs = []
  · subst hx; have : ys = [] := h.nil_eq.symm; subst this; rfl
  · have hy : ys ≠ [] := by intro hh; subst hh; exact hx h.eq_nil
    rw [if_neg hx, if_neg hy, maxMag_perm h]

/-- The specification only depends on the multiset. -/
theorem ssqSpec_perm {fold : Nat} {xs ys : List Flt} (h : xs.Perm ys) : ssqSpec F fold xs = ssqSpec F fold ys := by
  unfold ssqSpec
  rw [scaleOf_perm h, specSum_perm (h.map _)]

/-- **C29** (value): continuing the scaled sum of squares of `ps` (nothing for `ps = []`) with a vector gives the
specified pair of `ps` and the vector, whatever the tuning of the kernel. The fold is at most 22 for double and 6 for
float (default: 3). -/
theorem C29_ssq_is_spec [F.OK] {T : Tune} (hT : T.OK F) {fold : Nat} (hfold : 2 ≤ fold) (hJ : F.ssqHi + fold ≤ F.ssqJ + 1)
    {ps : List Flt} (hps : ∀ x ∈ ps, F.Finite x) {n : Nat} {X : Int → Flt} {incX : Int}
    (hx : ∀ i : Nat, i < n → F.Finite (X (i * incX))) (hN : ps.length + n ≤ F.capacity) :
    F.dmdssq T fold n X incX (ssqSpec F fold ps).1 (ssqSpec F fold ps).2 = ssqSpec F fold (ps ++ gather X incX n) := by
  unfold dmdssq ssqList
  have hxs : ∀ x ∈ gather X incX n, F.Finite x := by
    intro x hxm
    obtain ⟨i, hi, rfl⟩ := mem_gather hxm
    exact hx i hi
  refine ssqLoop_spec hT hfold hJ _ _ (ps := ps) (d := 0) (Nat.le_refl _) ?_ (Nat.le_refl _) (Nat.zero_le _) hxs (by rw [gather_length]; exact hN)
  by_cases h0 : ps = []
  · left; subst h0; exact ⟨rfl, rfl, rfl⟩
  · right; exact SsqState.of_spec h0 hps

/-- What `ps = []` means above: the zero scale and the zero value a caller starts with. -/
theorem C29_start (fold : Nat) : ssqSpec F fold [] = (zero, dmsetzero fold) := rfl

/-- The restriction on the fold: at most 22 bins for double and 6 for float. -/
theorem C29_folds : (∀ fold, f64.ssqHi + fold ≤ f64.ssqJ + 1 ↔ fold ≤ 22) ∧ (∀ fold, f32.ssqHi + fold ≤ f32.ssqJ + 1 ↔ fold ≤ 6) := by
  have a : f64.ssqHi = 27 := by decide
  have b : f64.ssqJ = 48 := by decide
  have c : f32.ssqHi = 11 := by decide
  have d : f32.ssqJ = 16 := by decide
  rw [a, b, c, d]
  exact ⟨fun fold => by omega, fun fold => by omega⟩

/-- **C29** (reproducibility): scale and bits of the sum of squares do not depend on the order of the elements, on
the stride or on the tuning. -/
theorem C29_independent [F.OK] {T T' : Tune} (hT : T.OK F) (hT' : T'.OK F) {fold : Nat} (hfold : 2 ≤ fold)
    (hJ : F.ssqHi + fold ≤ F.ssqJ + 1) {n : Nat} {X X' : Int → Flt} {incX incX' : Int}
    (hp : (gather X incX n).Perm (gather X' incX' n)) (hx : ∀ i : Nat, i < n → F.Finite (X (i * incX))) (hN : n ≤ F.capacity) :
    F.dmdssq T fold n X incX zero (dmsetzero fold) = F.dmdssq T' fold n X' incX' zero (dmsetzero fold) ∧
    rdnrm2 F T fold n X incX = rdnrm2 F T' fold n X' incX' := by
  have hx' : ∀ i : Nat, i < n → F.Finite (X' (i * incX')) := by
    intro i hi
    have h1 : X' (i * incX') ∈ gather X' incX' n := by
      unfold gather; exact List.mem_map.2 ⟨i, List.mem_range.2 hi, rfl⟩
    obtain ⟨j, hj, e⟩ := mem_gather (hp.mem_iff.2 h1)
    rw [e]; exact hx j hj
  have e : F.dmdssq T fold n X incX zero (dmsetzero fold) = F.dmdssq T' fold n X' incX' zero (dmsetzero fold) := by
    have a := C29_ssq_is_spec hT hfold hJ (ps := []) (by simp) hx (by simpa using hN)
    have b := C29_ssq_is_spec hT' hfold hJ (ps := []) (by simp) hx' (by simpa using hN)
    rw [C29_start] at a b
    rw [a, b]
    exact ssqSpec_perm (by simpa using hp)
  exact ⟨e, by unfold rdnrm2; rw [e]⟩

/-- **C29** (splitting): two vectors one after the other, in either order, are one vector. -/
theorem C29_split [F.OK] {T T' T'' : Tune} (hT : T.OK F) (hT' : T'.OK F) (hT'' : T''.OK F) {fold : Nat} (hfold : 2 ≤ fold)
    (hJ : F.ssqHi + fold ≤ F.ssqJ + 1) {us vs ws : List Flt} (hp : ws.Perm (us ++ vs)) (hx : ∀ x ∈ us ++ vs, F.Finite x)
    (hN : (us ++ vs).length ≤ F.capacity) :
    let s := F.ssqList T fold us zero (dmsetzero fold)
    F.ssqList T' fold vs s.1 s.2 = F.ssqList T'' fold ws zero (dmsetzero fold) := by
  dsimp only
  have hxu : ∀ x ∈ us, F.Finite x := fun x h => hx x (List.mem_append_left _ h)
  have hxv : ∀ x ∈ vs, F.Finite x := fun x h => hx x (List.mem_append_right _ h)
  rw [List.length_append] at hN
  have start : ∀ {T : Tune} (_ : T.OK F) {l : List Flt}, (∀ x ∈ l, F.Finite x) → l.length ≤ F.capacity →
      F.ssqList T fold l zero (dmsetzero fold) = ssqSpec F fold l := by
    intro T hT l hl hn
    unfold ssqList
    have := ssqLoop_spec hT hfold hJ l.length l (ps := []) (d := 0) (dep := 0) (S := zero) (y := dmsetzero fold) (Nat.le_refl _)
      (Or.inl ⟨rfl, rfl, rfl⟩) (Nat.le_refl _) (Nat.zero_le _) hl (by simpa using hn)
    simpa using this
  rw [start hT hxu (by omega), start hT'' (fun x h => hx x (hp.mem_iff.1 h)) (by rw [hp.length_eq, List.length_append]; omega), ssqSpec_perm hp]
  unfold ssqList
  refine ssqLoop_spec hT' hfold hJ _ _ (ps := us) (d := 0) (Nat.le_refl _) ?_ (Nat.le_refl _) (Nat.zero_le _) hxv hN
  by_cases h0 : us = []
  · left; subst h0; exact ⟨rfl, rfl, rfl⟩
  · right; exact SsqState.of_spec h0 hxu

theorem lt_asymm_scale {S S' : Flt} (h : F.lt S S' = true) : F.lt S' S = false := by
  unfold lt at *
  simp at h ⊢
  omega

/-- **C29** (merging): adding two scaled sums of squares gives the scaled sum of squares of all the elements. -/
theorem C29_merge [F.OK] {fold : Nat} (hfold : 2 ≤ fold) (hJ : F.ssqHi + fold ≤ F.ssqJ + 1) {xs ys : List Flt}
    (hx : ∀ x ∈ xs, F.Finite x) (hy : ∀ y ∈ ys, F.Finite y) (hN : xs.length + ys.length ≤ F.capacity) :
    F.dmdmaddsq fold (ssqSpec F fold xs).1 (ssqSpec F fold xs).2 (ssqSpec F fold ys).1 (ssqSpec F fold ys).2
      = ssqSpec F fold (xs ++ ys) := by
  have feq_self : ∀ {S : Flt}, F.Finite S → F.feq S S = true := by
    intro S h; unfold feq; rw [finite_not_nan h]; simp
  have zlt : ∀ {S : Flt} {n m : Nat}, F.IsScale S n m → F.lt zero S = true ∧ F.lt S zero = false ∧ F.feq S zero = false ∧ F.feq zero S = false := by
    intro S n m h
    have h0 := mag_ne_of_val h.val
    have hk : key S = S.mag := by unfold key; rw [h.neg]; rfl
    have hz : key zero = 0 := rfl
    unfold lt feq
    rw [hk, hz, finite_not_nan h.fin, finite_not_nan zero_finite]
    refine ⟨by simp; omega, by simp, by simp; omega, by simp; omega⟩
  have rz : ∀ (S : Flt) (y : Binned), F.dmdrescale S zero y = y := by
    intro S y; unfold dmdrescale
    have : isZero zero = true := rfl
    rw [this]; simp
  by_cases h0 : xs = []
  · subst h0
    rw [C29_start, List.nil_append]
    dsimp only
    by_cases h1 : ys = []
    · subst h1; rw [C29_start]
      unfold dmdmaddsq
      have : F.lt zero zero = false := by unfold lt; simp
      dsimp only
      rw [this, feq_self zero_finite]
      simp only [Bool.false_eq_true, if_false, if_true]
      rw [merge_zero_left]
    · obtain ⟨n, m, z, i1, v1, w1⟩ := scale_of (maxMag_finite h1 hy)
      obtain ⟨a, b, c, d⟩ := zlt i1
      have e : (ssqSpec F fold ys).1 = F.dscale ⟨false, maxMag ys⟩ := scaleOf_ne h1
      unfold dmdmaddsq
      rw [e, b, d, rz]
      simp only [Bool.false_eq_true, if_false]
      rw [merge_zero_left, ← e]
  · by_cases h1 : ys = []
    · subst h1
      rw [C29_start, List.append_nil]
      dsimp only
      obtain ⟨n, m, z, i1, v1, w1⟩ := scale_of (maxMag_finite h0 hx)
      obtain ⟨a, b, c, d⟩ := zlt i1
      have e : (ssqSpec F fold xs).1 = F.dscale ⟨false, maxMag xs⟩ := scaleOf_ne h0
      have hz := (SsqState.of_spec (F := F) (fold := fold) h0 hx).mid.not_zero (by omega) (by omega)
      unfold dmdmaddsq
      rw [e, a, rz, merge_zero_right _ hz]
      simp only [if_true]
      rw [← e]
    · have sx := SsqState.of_spec (F := F) (fold := fold) h0 hx
      have sy := SsqState.of_spec (F := F) (fold := fold) h1 hy
      have ex : (ssqSpec F fold xs).1 = F.dscale ⟨false, maxMag xs⟩ := scaleOf_ne h0
      have ey : (ssqSpec F fold ys).1 = F.dscale ⟨false, maxMag ys⟩ := scaleOf_ne h1
      have fX := maxMag_finite h0 hx
      have fY := maxMag_finite h1 hy
      obtain ⟨n, m, z, i1, v1, w1⟩ := scale_of fX
      obtain ⟨n', m', z', i2, v2, w2⟩ := scale_of fY
      have happ := scaleOf_append h0 h1 hx hy
      have happ' := scaleOf_append h1 h0 hy hx
      rw [scaleOf_perm (List.perm_append_comm : (ys ++ xs).Perm (xs ++ ys))] at happ'
      rw [scaleOf_ne h0, scaleOf_ne h1] at happ happ'
      have target : ∀ {S : Flt}, scaleOf F (xs ++ ys) = S → ssqSpec F fold (xs ++ ys) =
          (S, F.canon fold (F.minIndex ((xs ++ ys).map (F.sq S))) (F.total ((xs ++ ys).map (F.sq S)))) := by
        intro S hS
        unfold ssqSpec specSum
        rw [if_neg (by simp [h0]), hS]
      rw [ex] at sx ⊢
      rw [ey] at sy ⊢
      unfold dmdmaddsq
      by_cases hlt : F.lt (F.dscale ⟨false, maxMag ys⟩) (F.dscale ⟨false, maxMag xs⟩) = true
      · -- the scale of the first is larger
        rw [if_pos hlt] at happ'
        rw [hlt]
        simp only [if_true]
        obtain ⟨y0, k0, A0, n1, m1, j1, j2, j3, j4, j5, j6, j7, j8, j9⟩ := sy.rescale (by omega) hJ (by omega) fX hlt
        have hkx : F.minIndex (xs.map (F.sq (F.dscale ⟨false, maxMag xs⟩))) = F.dindex (F.sq (F.dscale ⟨false, maxMag xs⟩) ⟨false, maxMag xs⟩) :=
          minIndex_sq i1 h0 hx v1
        have hix := sx.mid.index (by omega) (by omega)
        rw [hkx] at hix
        have hmy := j5.index (by omega) (by omega)
        rw [j4.madd_right (by rw [hix]; exact j7) (sx.mid.not_zero (by omega) (by omega)) (sx.mid.finite (by omega) (by omega)) (by omega)
          (by rw [hix, hmy]; exact j6), (sx.mid.merge hfold j5 hN).1, target happ', hkx, Nat.min_eq_left j6, List.map_append, minIndex_append, hkx,
          Nat.min_eq_left j8]
        congr 1
        apply canon_congr
        intro j _ hj
        rw [total_append, j9 j (by omega)]
      · have hlt' : F.lt (F.dscale ⟨false, maxMag ys⟩) (F.dscale ⟨false, maxMag xs⟩) = false := by simpa using hlt
        rw [hlt']
        simp only [Bool.false_eq_true, if_false]
        by_cases heq : F.feq (F.dscale ⟨false, maxMag xs⟩) (F.dscale ⟨false, maxMag ys⟩) = true
        · rw [heq]
          simp only [if_true]
          rw [if_neg hlt] at happ'
          have hS : F.dscale ⟨false, maxMag xs⟩ = F.dscale ⟨false, maxMag ys⟩ := by
            unfold feq key at heq
            rw [i1.neg, i2.neg] at heq
            simp at heq
            have a := i1.neg; have b := i2.neg; have c := heq.2
            generalize F.dscale ⟨false, maxMag xs⟩ = a1 at *
            generalize F.dscale ⟨false, maxMag ys⟩ = a2 at *
            cases a1; cases a2
            simp only at *
            rw [a, b]; congr 1
          rw [hS] at sx ⊢
          rw [(sx.mid.merge hfold sy.mid hN).1, target happ', List.map_append, minIndex_append]
          congr 1
          apply canon_congr
          intro j _ _
          rw [total_append]
        · have hg : F.lt (F.dscale ⟨false, maxMag xs⟩) (F.dscale ⟨false, maxMag ys⟩) = true := by
            unfold feq key at heq
            rw [lt_scale i2.neg i1.neg i2.fin i1.fin] at hlt'
            rw [lt_scale i1.neg i2.neg i1.fin i2.fin]
            rw [i1.neg, i2.neg, finite_not_nan i1.fin, finite_not_nan i2.fin] at heq
            simp at heq hlt' ⊢
            omega
          rw [if_pos hg] at happ
          rw [if_neg heq]
          obtain ⟨y0, k0, A0, n1, m1, j1, j2, j3, j4, j5, j6, j7, j8, j9⟩ := sx.rescale (by omega) hJ (by omega) fY hg
          have hkx : F.minIndex (ys.map (F.sq (F.dscale ⟨false, maxMag ys⟩))) = F.dindex (F.sq (F.dscale ⟨false, maxMag ys⟩) ⟨false, maxMag ys⟩) :=
            minIndex_sq i2 h1 hy v2
          have hix := sy.mid.index (by omega) (by omega)
          rw [hkx] at hix
          have hmy := j5.index (by omega) (by omega)
          rw [j4.madd_left (by rw [hix]; exact j7) (sy.mid.not_zero (by omega) (by omega)) (sy.mid.finite (by omega) (by omega)) (by omega)
            (by rw [hix, hmy]; exact j6), (j5.merge hfold sy.mid hN).1, target happ, hkx, Nat.min_eq_right j6, List.map_append, minIndex_append, hkx,
            Nat.min_eq_right j8]
          congr 1
          apply canon_congr
          intro j _ hj
          rw [total_append, j9 j (by omega)]

/-! ### Large folds -/

/-- The block sizes used in the following counterexamples. -/
theorem tuneOne_ok : (⟨1, 1, 1, 1, 1, false⟩ : Tune).OK f64 ∧ (⟨1, 1, 1, 1, 1, false⟩ : Tune).OK f32 := by
  constructor <;> constructor <;> first | decide | exact ⟨0, rfl⟩

/-- **C29 fails for large folds**: with 25 bins of double (or 9 of float) two finite numbers have scaled sums of squares with
different bits in the two orders; the factor by which bins are divided when the scale grows overflows or the quotients
underflow, and bins are lost. The restriction on the fold in `C29_independent` (22 and 6) cannot be dropped. -/
theorem C29_large_fold_violated :
    f64.ssqList ⟨1, 1, 1, 1, 1, false⟩ 25 [f64.pow2 (-520), f64.pow2 (-39)] zero (dmsetzero 25) ≠
    f64.ssqList ⟨1, 1, 1, 1, 1, false⟩ 25 [f64.pow2 (-39), f64.pow2 (-520)] zero (dmsetzero 25) ∧
    f32.ssqList ⟨1, 1, 1, 1, 1, false⟩ 9 [f32.pow2 (-104), f32.pow2 (-50)] zero (dmsetzero 9) ≠
    f32.ssqList ⟨1, 1, 1, 1, 1, false⟩ 9 [f32.pow2 (-50), f32.pow2 (-104)] zero (dmsetzero 9) := by
  decide +kernel

/-! ### Instances -/

/-- A vector whose scale grows from block to block meets the hypotheses, and the norm of (3, 4) is 5. -/
example : (⟨1, 1, 1, 1, 1, false⟩ : Tune).OK f64 ∧ f64.ssqHi + 3 ≤ f64.ssqJ + 1 ∧
    (∀ i : Nat, i < 3 → f64.Finite ((fun i : Int => f64.pow2 (200 * i - 300)) (i * 1))) ∧ 3 ≤ f64.capacity :=
  ⟨tuneOne_ok.1, by decide, by decide +kernel, by decide +kernel⟩

example : rdnrm2 f64 ⟨1, 1, 1, 1, 1, false⟩ 3 2 (fun i => f64.ofInt (4 - i)) 1 = f64.ofInt 5 := by decide +kernel

/-- Two partial sums with different scales. -/
example : (ssqSpec f64 3 [f64.pow2 200]).1 ≠ (ssqSpec f64 3 [f64.pow2 (-200), f64.ofInt 3]).1 ∧
    f64.dmdmaddsq 3 (ssqSpec f64 3 [f64.pow2 200]).1 (ssqSpec f64 3 [f64.pow2 200]).2
      (ssqSpec f64 3 [f64.pow2 (-200), f64.ofInt 3]).1 (ssqSpec f64 3 [f64.pow2 (-200), f64.ofInt 3]).2 =
    ssqSpec f64 3 [f64.ofInt 3, f64.pow2 200, f64.pow2 (-200)] := by
  decide +kernel

end Repro
