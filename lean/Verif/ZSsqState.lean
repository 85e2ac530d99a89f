import Verif.ZRescale
import Verif.PropsSsq
import Verif.PropsZ
/-!
# The state of a complex scaled sum of squares
-/

namespace Repro
open Fmt
variable {F : Fmt}

theorem rescale_cond [F.OK] {S S' : Flt} {n m n' m' t : Nat} (hS : F.IsScale S n m) (hS' : F.IsScale S' n' m') (ht : n' = n + F.W * t)
    (ht1 : 1 ≤ t) : (F.feq S' S || isZero S' || isZero S) = false := by
  have ⟨hp, hW, hWp, hpW, he, he1, hbi, het, hb3, hb4⟩ := F.facts
  have hne : F.feq S' S = false := by
    unfold feq key
    rw [hS.neg, hS'.neg]
    have h1 : S'.mag ≠ S.mag := by
      intro h
      have h2 := hS.val
      rw [← h, hS'.val] at h2
      have h3 := Nat.pow_right_injective (Nat.le_refl 2) h2
      have : 1 * 1 ≤ F.W * t := Nat.mul_le_mul (by omega) ht1
      omega
    simp
    intro _ _ h
    exact h1 (by omega)
  have hz' : isZero S' = false := by
    unfold isZero; simpa using mag_ne_of_val hS'.val
  have hz : isZero S = false := by
    unfold isZero; simpa using mag_ne_of_val hS.val
  rw [hne, hz, hz']; rfl

/-- Rescaling both parts at once and updating is rescaling one part and updating. -/
theorem zrescale_update [F.OK] {S S' : Flt} {n m n' m' t : Nat} (hS : F.IsScale S n m) (hS' : F.IsScale S' n' m') (ht : n' = n + F.W * t)
    (ht1 : 1 ≤ t) {fold d N0 N1 k : Nat} {A0 A1 : Nat → Int} {y0 y1 : Binned} (hfold : 1 ≤ fold) (hm0 : F.Mid fold d N0 k A0 y0)
    (hm1 : F.Mid fold d N1 k A1 y1) (hd : d ≤ F.endurance) (hk : F.ssqLo ≤ k) {x : Flt} (hx : F.dindex x + fold ≤ F.ssqJ + 1)
    (hi : F.dindex x ≤ min (k + 2 * t) (F.ssqJ + 1)) :
    F.dmdupdate fold x (F.zmdrescale fold S' S (y0, y1)).1 = F.dmdupdate fold x (F.dmdrescale S' S y0) ∧
    F.dmdupdate fold x (F.zmdrescale fold S' S (y0, y1)).2 = F.dmdupdate fold x (F.dmdrescale S' S y1) := by
  have ⟨hp, hW, hWp, hpW, he, he1, hbi, het, hb3, hb4⟩ := F.facts
  have ⟨s1, s2, s3, s4, s5, s6, s7, s8⟩ := F.ssq_facts
  have hr := factor hS hS' ht
  dsimp only at hr
  have hc := rescale_cond hS hS' ht ht1
  obtain ⟨u0, nu0, mu0⟩ := rescale_near hS hS' ht ht1 hfold hm0 hd hk
  obtain ⟨u1, nu1, mu1⟩ := rescale_near hS hS' ht ht1 hfold hm1 hd hk
  have iu0 := mu0.index hfold hd
  have iu1 := mu1.index hfold hd
  have hy : ∀ y : Binned, F.dmdrescale S' S y = F.rescaleLoop (F.mul (F.div S' S) (F.div S' S)) y.pri y.car := by
    intro y; unfold dmdrescale; rw [hc]; rfl
  have hyz : F.zmdrescale fold S' S (y0, y1) = F.zrescaleLoop (F.mul (F.div S' S) (F.div S' S)) fold 0 (y0, y1) := by
    unfold zmdrescale; rw [hc]; rfl
  rw [hy] at nu0 nu1
  rw [hy, hy, hyz]
  generalize F.mul (F.div S' S) (F.div S' S) = r at *
  -- what is known about the entries of a part
  have part : ∀ {N : Nat} {A : Nat → Int} {y : Binned}, F.Mid fold d N k A y → (y.pri.length = fold ∧ y.car.length = fold) ∧
      (∀ i, i < fold → k + 2 * t + i ≤ F.ssqJ → isZero (F.div (nth y.pri i) r) = false ∧ F.isNaNInf (F.div (nth y.pri i) r) = false ∧
        F.dmindex (F.div (nth y.pri i) r) = k + 2 * t + i) ∧
      (F.ssqJ < k + 2 * t → F.Finite (F.div (nth y.pri 0) r) ∧ (isZero (F.div (nth y.pri 0) r) = true ∨ F.ssqJ < F.dmindex (F.div (nth y.pri 0) r))) := by
    intro N A y hm
    obtain ⟨B, C, Z, h1, h2, h3, h4, h5, h6⟩ := hm
    have hwin : ∀ j, F.Win (B j) := fun j => win_of_bound hd (h3 j)
    have hl := midZ_len F fold k B C Z
    rw [← h1] at hl
    have hpn : ∀ i, i < fold → nth y.pri i = F.mkPri (k + i) (B (k + i)) := fun i hi => by rw [h1]; exact nth_pri_midZ' hi
    refine ⟨hl, ?_, ?_⟩
    · intro i hi hle
      have hWt := ssqJ_shift (F := F) hk (show k + 2 * t ≤ F.ssqJ by omega)
      have hdiv : F.div (nth y.pri i) r = F.mkPri (k + 2 * t + i) (B (k + i)) := by
        rw [hpn i hi, (div_pri hr (hwin _) (by omega)).1 (by omega) hWt]
        congr 1; omega
      rw [hdiv]
      exact ⟨mkPri_isZero (hwin _), mkPri_isNaNInf (hwin _), dmindex_mkPri (hwin _) (by omega)⟩
    · intro hgt
      have hd0 := (div_pri hr (hwin k) (j := k) (by omega)).2 h5 (by omega)
      have e0 : nth y.pri 0 = F.mkPri k (B k) := hpn 0 (by omega)
      rw [← e0] at hd0
      exact ⟨hd0.1, Or.inr (dmindex_small (by omega) hd0.2)⟩
  obtain ⟨l0, a0, b0⟩ := part hm0
  obtain ⟨l1, a1, b1⟩ := part hm1
  have hl2 : Len2 fold (y0, y1) := ⟨l0, l1⟩
  have hzl := zr_len (F := F) (r := r) fold 0 hl2 (by omega)
  by_cases hcase : k + 2 * t ≤ F.ssqJ
  · have hzn : ∀ i, i < fold → k + 2 * t + i ≤ F.ssqJ → _ := fun i hi hle => zr_nth (F := F) (r := r) fold 0 (y := (y0, y1)) (l := i) hl2 (by omega)
      (by omega) (by omega) (fun q hq => by omega) (fun q _ hq => ⟨(a0 q (by omega) (by omega)).1, (a1 q (by omega) (by omega)).1⟩)
    have near : ∀ {z y u : Binned}, z.pri.length = fold → z.car.length = fold → y.pri.length = fold → y.car.length = fold →
        (∀ i, i < fold → k + 2 * t + i ≤ F.ssqJ → nth z.pri i = F.div (nth y.pri i) r ∧ nth z.car i = nth y.car i) →
        (∀ i, i < fold → k + 2 * t + i ≤ F.ssqJ → isZero (F.div (nth y.pri i) r) = false ∧ F.isNaNInf (F.div (nth y.pri i) r) = false ∧
          F.dmindex (F.div (nth y.pri i) r) = k + 2 * t + i) →
        F.dmdupdate fold x z = F.dmdupdate fold x (F.rescaleLoop r y.pri y.car) := by
      intro z y u z1 z2 y1 y2 hz hq
      have hrl := rescale_len (F := F) (r := r) y.pri y.car (by rw [y1, y2])
      rw [y1] at hrl
      have hrn : ∀ i, i < fold → k + 2 * t + i ≤ F.ssqJ → _ := fun i hi hle => rescale_nth (F := F) (r := r) y.pri y.car i (by rw [y1, y2]) (by rw [y1]; exact hi)
        (fun l hll => (hq l (by omega) (by omega)).1)
      have q0 := hq 0 (by omega) (by omega)
      have e1 := (hz 0 (by omega) (by omega)).1
      have e2 := (hrn 0 (by omega) (by omega)).1
      rw [Nat.add_zero] at q0
      have hn : F.Near fold F.ssqJ z (F.rescaleLoop r y.pri y.car) := by
        refine ⟨z1, z2, hrl.1, hrl.2, by rw [e1]; exact q0.1, by rw [e2]; exact q0.1, by rw [e1]; exact q0.2.1, by rw [e2]; exact q0.2.1,
          Or.inl ⟨by rw [e1, e2], ?_⟩⟩
        intro i hi hle
        rw [e2, q0.2.2] at hle
        rw [(hz i hi hle).1, (hz i hi hle).2, (hrn i hi hle).1, (hrn i hi hle).2]
        exact ⟨rfl, rfl⟩
      exact hn.update hx (by rw [e2, q0.2.2]; omega)
    exact ⟨near (u := y0) hzl.1.1 hzl.1.2 l0.1 l0.2 (fun i h1 h2 => (hzn i h1 h2).1) a0, near (u := y0) hzl.2.1 hzl.2.2 l1.1 l1.2 (fun i h1 h2 => (hzn i h1 h2).2) a1⟩
  · have b0' := b0 (by omega)
    have b1' := b1 (by omega)
    have hyr : ∀ {y u : Binned}, F.Near fold F.ssqJ y u → F.dmindex (nth u.pri 0) = min (k + 2 * t) (F.ssqJ + 1) → F.ssqJ < F.dmindex (nth y.pri 0) := by
      intro y u hn hu
      rcases hn.eq with ⟨e, -⟩ | ⟨e, -⟩
      · rw [e, hu]; omega
      · exact e
    have head : (F.isNaNInf (nth (F.zrescaleLoop r fold 0 (y0, y1)).1.pri 0) = false ∧ (isZero (nth (F.zrescaleLoop r fold 0 (y0, y1)).1.pri 0) = true ∨ F.ssqJ < F.dmindex (nth (F.zrescaleLoop r fold 0 (y0, y1)).1.pri 0))) ∧
        (F.isNaNInf (nth (F.zrescaleLoop r fold 0 (y0, y1)).2.pri 0) = false ∧ (isZero (nth (F.zrescaleLoop r fold 0 (y0, y1)).2.pri 0) = true ∨ F.ssqJ < F.dmindex (nth (F.zrescaleLoop r fold 0 (y0, y1)).2.pri 0))) := by
      rcases zr_head (F := F) (r := r) hl2 hfold with ⟨e0, e1⟩ | ⟨v0, v1, e0, e1, e⟩
      · rw [e0, e1]
        exact ⟨⟨isNaNInf_false b0'.1, b0'.2⟩, isNaNInf_false b1'.1, b1'.2⟩
      · rw [e]
        dsimp only at e0 e1 ⊢
        have c0 := update_zero_head (F := F) (J := F.ssqJ) (y := v0) hfold (by omega) (by rw [e0]; exact b0'.1) (by rw [e0]; exact b0'.2)
        have c1 := update_zero_head (F := F) (J := F.ssqJ) (y := v1) hfold (by omega) (by rw [e1]; exact b1'.1) (by rw [e1]; exact b1'.2)
        exact ⟨⟨c0.1, Or.inr c0.2⟩, c1.1, Or.inr c1.2⟩
    exact ⟨update_fresh hx head.1.1 nu0.s head.1.2 (Or.inr (hyr nu0 iu0)) hfold, update_fresh hx head.2.1 nu1.s head.2.2 (Or.inr (hyr nu1 iu1)) hfold⟩

/-! ### states with a known largest magnitude -/

/-- The number with magnitude `μ`. -/
abbrev top (μ : Nat) : Flt := ⟨false, μ⟩

/-- A sum of the squares of `ps` at the scale of `μ`, which bounds the magnitudes. -/
structure SsqM (F : Fmt) (fold d : Nat) (ps : List Flt) (μ : Nat) (y : Binned) : Prop where
  fin : F.Finite (top μ)
  le : ∀ x ∈ ps, x.mag ≤ μ
  mid : F.Mid fold d ps.length (F.dindex (F.sq (F.dscale (top μ)) (top μ))) (F.total (ps.map (F.sq (F.dscale (top μ))))) y

theorem fin_of_le {x : Flt} {μ : Nat} (hf : F.Finite (top μ)) (h : x.mag ≤ μ) : F.Finite x := Nat.lt_of_le_of_lt h hf

/-- Rescaling a state to a larger scale. -/
theorem SsqM.rescale [F.OK] {fold d : Nat} {ps : List Flt} {μ μ' : Nat} {y : Binned} (h : SsqM F fold d ps μ y) (hfold : 1 ≤ fold)
    (hJ : F.ssqHi + fold ≤ F.ssqJ + 1) (hd : d ≤ F.endurance) (hM : F.Finite (top μ')) (hlt : F.lt (F.dscale (top μ)) (F.dscale (top μ')) = true) :
    ∃ y0 k0 A0 n m, F.IsScale (F.dscale (top μ')) n m ∧ F.val μ' < 2 ^ (F.W + n) ∧ μ < μ' ∧
      F.Near fold F.ssqJ (F.dmdrescale (F.dscale (top μ')) (F.dscale (top μ)) y) y0 ∧ F.Mid fold d ps.length k0 A0 y0 ∧
      F.dindex (F.sq (F.dscale (top μ')) (top μ')) ≤ k0 ∧ F.dindex (F.sq (F.dscale (top μ')) (top μ')) + fold ≤ F.ssqJ + 1 ∧
      ∀ j, j ≤ F.ssqJ → A0 j = F.total (ps.map (F.sq (F.dscale (top μ')))) j := by
  have ⟨s1, s2, s3, s4, s5, s6, s7, s8⟩ := F.ssq_facts
  obtain ⟨fin, le, mid⟩ := h
  obtain ⟨n, m, n', m', t, i1, i2, hn, hm, ht, hmm, v1, v2, hl⟩ := scale_step fin hM hlt
  have hmm' : μ < μ' := hmm
  have hb' : F.val μ < 2 ^ (F.W + n') := Nat.lt_of_le_of_lt (val_mono (Nat.le_of_lt hmm')) v2
  have hk := sq_lo i1 fin v1
  obtain ⟨y0, hn0, hm0⟩ := rescale_near i1 i2 hn ht hfold mid hd hk
  have hhi := sq_hi i2 hM v2 hl
  have hmin : F.dindex (F.sq (F.dscale (top μ')) (top μ')) ≤ F.dindex (F.sq (F.dscale (top μ')) (top μ)) :=
    dindex_bound (F := F) (sq_val i2 fin hb').1 (sq_mono i2 fin hM v2 (Nat.le_of_lt hmm'))
  refine ⟨y0, _, _, n', m', i2, v2, hmm', hn0, hm0, ?_, by omega, ?_⟩
  · by_cases hc : F.dindex (F.sq (F.dscale (top μ)) (top μ)) + 2 * t < F.ssqHi
    · have := sq_idx i1 i2 hm fin v1 hb' hc
      omega
    · omega
  · intro j hj
    exact (total_sq i1 i2 hm hj (fun x hx => ⟨fin_of_le fin (le x hx), Nat.lt_of_le_of_lt (val_mono (le x hx)) v1⟩)).symm

/-- Rescaling both parts and updating them by the new largest magnitude. -/
theorem SsqM.zrescale [F.OK] {fold d : Nat} {us vs : List Flt} {μ μ' : Nat} {y0 y1 : Binned} (h0 : SsqM F fold d us μ y0) (h1 : SsqM F fold d vs μ y1)
    (hfold : 1 ≤ fold) (hJ : F.ssqHi + fold ≤ F.ssqJ + 1) (hd : d ≤ F.endurance) (hM : F.Finite (top μ'))
    (hlt : F.lt (F.dscale (top μ)) (F.dscale (top μ')) = true) :
    μ < μ' ∧ SsqM F fold d us μ' (F.dmdupdate fold (F.sq (F.dscale (top μ')) (top μ')) (F.zmdrescale fold (F.dscale (top μ')) (F.dscale (top μ)) (y0, y1)).1) ∧
      SsqM F fold d vs μ' (F.dmdupdate fold (F.sq (F.dscale (top μ')) (top μ')) (F.zmdrescale fold (F.dscale (top μ')) (F.dscale (top μ)) (y0, y1)).2) := by
  have ⟨s1, s2, s3, s4, s5, s6, s7, s8⟩ := F.ssq_facts
  obtain ⟨n, m, n', m', t, i1, i2, hn, hm, ht, hmm, v1, v2, hl⟩ := scale_step h0.fin hM hlt
  have hmm' : μ < μ' := hmm
  have hb' : F.val μ < 2 ^ (F.W + n') := Nat.lt_of_le_of_lt (val_mono (Nat.le_of_lt hmm')) v2
  have hk := sq_lo i1 h0.fin v1
  have hhi := sq_hi i2 hM v2 hl
  have hmin : F.dindex (F.sq (F.dscale (top μ')) (top μ')) ≤ F.dindex (F.sq (F.dscale (top μ')) (top μ)) :=
    dindex_bound (F := F) (sq_val i2 h0.fin hb').1 (sq_mono i2 h0.fin hM v2 (Nat.le_of_lt hmm'))
  have hi : F.dindex (F.sq (F.dscale (top μ')) (top μ')) ≤ min (F.dindex (F.sq (F.dscale (top μ)) (top μ)) + 2 * t) (F.ssqJ + 1) := by
    by_cases hc : F.dindex (F.sq (F.dscale (top μ)) (top μ)) + 2 * t < F.ssqHi
    · have := sq_idx i1 i2 hm h0.fin v1 hb' hc
      omega
    · omega
  have e := zrescale_update i1 i2 hn ht hfold h0.mid h1.mid hd hk (x := F.sq (F.dscale (top μ')) (top μ')) (by omega) hi
  refine ⟨hmm', ?_, ?_⟩
  · rw [e.1]; exact one h0
  · rw [e.2]; exact one h1
where
  one {ps : List Flt} {y : Binned} (h : SsqM F fold d ps μ y) :
      SsqM F fold d ps μ' (F.dmdupdate fold (F.sq (F.dscale (top μ')) (top μ')) (F.dmdrescale (F.dscale (top μ')) (F.dscale (top μ)) y)) := by
    obtain ⟨z0, k0, A0, n1, m1, j1, j2, j3, j4, j5, j6, j7, j9⟩ := h.rescale hfold hJ hd hM hlt
    have hidx : F.dmindex (nth z0.pri 0) = k0 := j5.index hfold hd
    rw [j4.update j7 (by rw [hidx]; exact j6)]
    have hu := j5.update (x := F.sq (F.dscale (top μ')) (top μ')) hfold hd
    rw [Nat.min_eq_right j6] at hu
    have hle : ∀ x ∈ ps, x.mag ≤ μ' := fun x hx => Nat.le_trans (h.le x hx) (Nat.le_of_lt j3)
    have hpf : ∀ v ∈ ps.map (F.sq (F.dscale (top μ'))), F.Finite v ∧ F.dindex (F.sq (F.dscale (top μ')) (top μ')) ≤ F.dindex v := by
      intro v hv
      obtain ⟨x, hx, rfl⟩ := List.mem_map.1 hv
      have hxf := fin_of_le hM (hle x hx)
      have hvx := sq_val j1 hxf (Nat.lt_of_le_of_lt (val_mono (hle x hx)) j2)
      exact ⟨hvx.1, dindex_bound (F := F) hvx.1 (sq_mono j1 hxf hM j2 (hle x hx))⟩
    refine ⟨hM, hle, hu.congr (fun j _ hj => (j9 j (by omega)).symm) ?_ ?_⟩
    · intro j hj; exact total_zeros hpf hj
    · intro j
      have := total_natAbs (fun v hv => (hpf v hv).1) j
      rwa [List.length_map] at this

end Repro
