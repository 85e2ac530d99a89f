import Verif.FtzLemmas
/-!
# All operations in flush-to-zero mode, and C57
-/

namespace Repro
namespace Fmt
variable {F : Fmt}

theorem isZeroZ_eq_mkPri [F.OK] {j : Nat} {b : Int} (h : F.Win b) : F.isZeroZ (F.mkPri j b) = isZero (F.mkPri j b) := by
  unfold isZeroZ; rw [flush_mkPri h]

theorem mkPri_isZeroZ [F.OK] {j : Nat} {b : Int} (h : F.Win b) : F.isZeroZ (F.mkPri j b) = false := by
  rw [isZeroZ_eq_mkPri h]; exact mkPri_isZero h

theorem sexp_big [F.OK] {j : Nat} (h : F.p + 1 ≤ F.uexp j) : F.p - 1 ≤ F.sexp j := by
  have ⟨h1, h2, h3, h4, h5, h6, h7, _⟩ := F.bfacts
  unfold sexp
  split <;> omega

theorem eta_ge [F.OK] : F.p - 1 ≤ F.eta := by
  have ⟨hp, hW, hWp, _, he, he1, hb, het, _⟩ := F.facts
  unfold eta; omega

theorem flush_carF [F.OK] {z : Bool} {c : Int} (h : c.natAbs ≤ 2 ^ F.p) : F.flush (F.carF z c) = F.carF z c :=
  flush_dvd eta_ge (by rw [(carF_ok h).2]; exact Dvd.intro_left _ rfl)

theorem flush_ofInt [F.OK] {c : Int} (h : c.natAbs ≤ 2 ^ F.p) : F.flush (F.ofInt c) = F.ofInt c :=
  flush_dvd eta_ge (by rw [(ofInt_ok h).2]; exact Dvd.intro_left _ rfl)

theorem addZ_carF [F.OK] {z z' : Bool} {c d : Int} (hc : c.natAbs ≤ 2 ^ (F.p - 1)) (hd : d.natAbs ≤ 2 ^ (F.p - 1)) :
    F.addZ (F.carF z c) (F.carF z' d) = F.carF (z && z' && decide (c = 0) && decide (d = 0)) (c + d) := by
  have hp := two_p (F := F)
  unfold addZ
  rw [flush_carF (by omega), flush_carF (by omega), add_carF (by omega) (by omega), flush_carF (by omega)]

theorem addZ_carF_ofInt [F.OK] {z : Bool} {c d : Int} (hc : c.natAbs ≤ 2 ^ (F.p - 1)) (hd : d.natAbs ≤ 2 ^ (F.p - 1)) :
    F.addZ (F.carF z c) (F.ofInt d) = F.ofInt (c + d) := by
  have hp := two_p (F := F)
  unfold addZ
  rw [flush_carF (by omega), flush_ofInt (by omega), add_carF_ofInt (by omega) (by omega), flush_ofInt (by omega)]

theorem winz_zero [F.OK] : F.Win 0 := by unfold Win; have := ipow_pos (F.p - 2); omega

theorem subZ_bins [F.OK] {j : Nat} {b : Int} (hu : F.p - 1 ≤ F.sexp j) (hb : F.Win b) :
    F.subZ (F.mkPri j b) (F.bins j) = F.sub (F.mkPri j b) (F.bins j) ∧
    F.flush (F.sub (F.mkPri j b) (F.bins j)) = F.sub (F.mkPri j b) (F.bins j) := by
  have : F.subZ (F.mkPri j b) (F.bins j) = F.sub (F.mkPri j b) (F.bins j) := by
    rw [bins_eq]; exact subZ_mkPri hu hb winz_zero
  refine ⟨this, ?_⟩
  rw [← this]; exact flush_idem _

theorem addZ_offset [F.OK] {j : Nat} {a b : Int} (hu : F.p - 1 ≤ F.sexp j) (ha : F.Win a) (hb : F.Win b) (hab : F.Win (a + b)) :
    F.addZ (F.mkPri j a) (F.subZ (F.mkPri j b) (F.bins j)) = F.mkPri j (a + b) := by
  obtain ⟨h1, h2⟩ := subZ_bins (F := F) hu hb
  rw [h1]
  unfold addZ
  rw [h2, flush_mkPri ha, add_offset ha hb hab, flush_mkPri hab]

theorem subZ_offset [F.OK] {j : Nat} {b : Int} (hu : F.p - 1 ≤ F.sexp j) (hb : F.Win b) :
    F.subZ (F.bins j) (F.subZ (F.mkPri j b) (F.bins j)) = F.sub (F.bins j) (F.sub (F.mkPri j b) (F.bins j)) := by
  obtain ⟨h1, h2⟩ := subZ_bins (F := F) hu hb
  rw [h1, sub_offset hb]
  unfold subZ
  rw [h2, bins_eq, flush_mkPri winz_zero, ← bins_eq, sub_offset hb]
  exact flush_mkPri (by unfold Win at *; omega)

theorem renormCarZ_bin [F.OK] {j : Nat} {b c : Int} {z : Bool} (hw : F.Win b) (hc : c.natAbs ≤ 2 ^ (F.p - 1)) :
    F.renormCarZ (F.mkPri j b) (F.carF z c) = F.renormCar (F.mkPri j b) (F.carF z c) := by
  have hp := two_p (F := F)
  have ⟨hp', _⟩ := F.facts
  have h4 : 4 ≤ 2 ^ (F.p - 1) := by
    have : 2 ^ 2 ≤ 2 ^ (F.p - 1) := Nat.pow_le_pow_right (by omega) (by omega)
    omega
  unfold renormCarZ renormCar
  have hq : (F.mkPri j b).mag >>> (F.p - 3) &&& 3 ≤ 3 := Nat.and_le_right
  generalize (F.mkPri j b).mag >>> (F.p - 3) &&& 3 = q at hq
  rw [addZ_carF_ofInt hc (by omega), add_carF_ofInt (by omega) (by omega)]

theorem dmrenormZ_midZ [F.OK] {fold k : Nat} {B C : Nat → Int} {Z : Nat → Bool} (hfold : 1 ≤ fold)
    (hB : ∀ j, k ≤ j → j < k + fold → F.Win (B j)) (hC : ∀ j, k ≤ j → j < k + fold → (C j).natAbs ≤ 2 ^ (F.p - 1)) :
    F.dmrenormZ (F.midZ fold k B C Z) = F.dmrenorm (F.midZ fold k B C Z) := by
  unfold dmrenormZ dmrenorm
  have hw0 := hB k (by omega) (by omega)
  rw [nth_pri_midZ hfold, isZeroZ_eq_mkPri hw0, mkPri_isZero hw0, mkPri_isNaNInf hw0]
  simp only [Bool.or_self, Bool.false_eq_true, if_false]
  congr 1
  unfold midZ
  dsimp only
  rw [List.zipWith_map, List.zipWith_self, List.zipWith_map, List.zipWith_self]
  apply map_range'_congr
  intro j h1 h2
  exact renormCarZ_bin (hB j h1 h2) (hC j h1 h2)

/-- **Merge in DAZ/FTZ mode** of two values given by offsets and carries. -/
theorem dmdmaddZ_midZ [F.OK] {fold kx ky : Nat} {Bx Cx By Cy : Nat → Int} {Zx Zy : Nat → Bool}
    (hfold : 1 ≤ fold) (hkx : kx ≤ F.maxIndex) (hky : ky ≤ F.maxIndex)
    (hBx : ∀ j, F.Win (Bx j)) (hBy : ∀ j, F.Win (By j)) (hBxy : ∀ j, F.Win (Bx j + By j))
    (hCx : ∀ j, (Cx j).natAbs ≤ 2 ^ (F.p - 1)) (hCy : ∀ j, (Cy j).natAbs ≤ 2 ^ (F.p - 1))
    (hux : ∀ j, j < kx + fold → F.p + 1 ≤ F.uexp j) (huy : ∀ j, j < ky + fold → F.p + 1 ≤ F.uexp j)
    (hzx : ∀ j, j < kx → Bx j = 0 ∧ Cx j = 0) (hzy : ∀ j, j < ky → By j = 0 ∧ Cy j = 0) :
    ∃ Z, F.dmdmaddZ fold (F.midZ fold kx Bx Cx Zx) (F.midZ fold ky By Cy Zy) =
      F.dmrenormZ (F.midZ fold (min kx ky) (fun j => Bx j + By j) (fun j => Cx j + Cy j) Z) := by
  refine ⟨fun j => if j < ky then Zx j else if j < kx then Zy j else
    (Zx j && Zy j && decide (Cx j = 0) && decide (Cy j = 0)), ?_⟩
  unfold dmdmaddZ
  rw [nth_pri_midZ hfold, nth_pri_midZ hfold, mkPri_isZeroZ (hBx _), mkPri_isZeroZ (hBy _),
    mkPri_isNaNInf (hBx _), mkPri_isNaNInf (hBy _),
    dmindex_mkPri (hBx _) hkx, dmindex_mkPri (hBy _) hky]
  simp only [Bool.or_self, Bool.false_eq_true, if_false]
  split
  · next hlt =>
    rw [Nat.min_eq_left (by omega)]
    congr 1
    unfold midZ
    dsimp only
    rw [← range_map_shift (k := kx) (f := fun j => F.mkPri j (Bx j + By j)),
      ← range_map_shift (k := kx) (f := fun j => F.carF (if j < ky then Zx j else if j < kx then Zy j else
        (Zx j && Zy j && decide (Cx j = 0) && decide (Cy j = 0))) (Cx j + Cy j))]
    congr 1
    · apply List.map_congr_left
      intro i hi
      rw [List.mem_range] at hi
      rw [nth_map_range' hi]
      by_cases hs : i < ky - kx
      · rw [if_pos hs, (hzy (kx + i) (by omega)).1, add_zero]
      · rw [if_neg hs, nth_map_range' (by omega)]
        have : ky + (i - (ky - kx)) = kx + i := by omega
        rw [this]
        exact addZ_offset (sexp_big (hux _ (by omega))) (hBx _) (hBy _) (hBxy _)
    · apply List.map_congr_left
      intro i hi
      rw [List.mem_range] at hi
      rw [nth_map_range' hi]
      by_cases hs : i < ky - kx
      · rw [if_pos hs, if_pos (by omega), (hzy (kx + i) (by omega)).2, add_zero]
      · rw [if_neg hs, nth_map_range' (by omega), if_neg (by omega), if_neg (by omega)]
        have : ky + (i - (ky - kx)) = kx + i := by omega
        rw [this]
        exact addZ_carF (hCx _) (hCy _)
  · next hlt =>
    rw [Nat.min_eq_right (by omega)]
    congr 1
    unfold midZ
    dsimp only
    rw [← range_map_shift (k := ky) (f := fun j => F.mkPri j (Bx j + By j)),
      ← range_map_shift (k := ky) (f := fun j => F.carF (if j < ky then Zx j else if j < kx then Zy j else
        (Zx j && Zy j && decide (Cx j = 0) && decide (Cy j = 0))) (Cx j + Cy j))]
    congr 1
    · apply List.map_congr_left
      intro i hi
      rw [List.mem_range] at hi
      rw [nth_map_range' hi]
      by_cases hs : i < kx - ky
      · rw [if_pos hs, (hzx (ky + i) (by omega)).1, zero_add]
      · rw [if_neg hs, nth_map_range' (by omega)]
        have : kx + (i - (kx - ky)) = ky + i := by omega
        rw [this, add_comm (Bx _)]
        exact addZ_offset (sexp_big (huy _ (by omega))) (hBy _) (hBx _) (by rw [add_comm]; exact hBxy _)
    · apply List.map_congr_left
      intro i hi
      rw [List.mem_range] at hi
      rw [nth_map_range' hi]
      by_cases hs : i < kx - ky
      · rw [if_pos hs, if_neg (by omega), if_pos (by omega), (hzx (ky + i) (by omega)).2, zero_add]
      · rw [if_neg hs, nth_map_range' (by omega), if_neg (by omega), if_neg (by omega)]
        have : kx + (i - (kx - ky)) = ky + i := by omega
        rw [this, add_comm (Cx _), addZ_carF (hCy _) (hCx _)]
        congr 1
        cases Zx (ky + i) <;> cases Zy (ky + i) <;> simp [Bool.and_comm]

theorem Mid.mergeZ [F.OK] {fold Nx Ny kx ky : Nat} {A A' : Nat → Int} {x y : Binned} (hfold : 2 ≤ fold)
    (hx : F.Mid fold 0 Nx kx A x) (hy : F.Mid fold 0 Ny ky A' y) (hN : Nx + Ny ≤ F.capacity)
    (hux : ∀ j, j < kx + fold → F.p + 1 ≤ F.uexp j) (huy : ∀ j, j < ky + fold → F.p + 1 ≤ F.uexp j) :
    F.dmdmaddZ fold x y = F.dmdmadd fold x y := by
  rw [(hx.merge hfold hy hN).1]
  obtain ⟨B, C, Z, h1, h2, h3, h4, h5, h6⟩ := hx
  obtain ⟨B', C', Z', g1, g2, g3, g4, g5, g6⟩ := hy
  have hw : ∀ j, (B j + B' j).natAbs < 2 ^ (F.p - 3) + F.endurance * 2 ^ (F.W - 1) := by
    intro j; have := h3 j; have := g3 j; rw [endurance_eq]; omega
  have hA : ∀ j, (A j + A' j).natAbs ≤ (Nx + Ny) * 2 ^ (F.W - 1) := by
    intro j; have := h6 j; have := g6 j; rw [Nat.add_mul]; omega
  have hcx : ∀ j, (C j).natAbs ≤ 2 ^ (F.p - 1) := fun j =>
    car_of_bound (Nat.zero_le _) (show Nx ≤ F.capacity by omega) (h3 j) (h6 j) (h2 j)
  have hcy : ∀ j, (C' j).natAbs ≤ 2 ^ (F.p - 1) := fun j =>
    car_of_bound (Nat.zero_le _) (show Ny ≤ F.capacity by omega) (g3 j) (g6 j) (g2 j)
  have hAe : ∀ j, A j + A' j = (B j + B' j) + (C j + C' j) * 2 ^ (F.p - 3) := by
    intro j; rw [h2 j, g2 j]; ring
  obtain ⟨Z'', he⟩ := dmdmaddZ_midZ (F := F) (fold := fold) (kx := kx) (ky := ky) (Zx := Z) (Zy := Z')
    (by omega) h5 g5
    (fun j => win_of_bound (Nat.zero_le _) (h3 j)) (fun j => win_of_bound (Nat.zero_le _) (g3 j))
    (fun j => win_of_bound (Nat.le_refl _) (hw j)) hcx hcy hux huy
    (fun j hj => ⟨(h4 j hj).1, (h4 j hj).2.1⟩) (fun j hj => ⟨(g4 j hj).1, (g4 j hj).2.1⟩)
  rw [h1, g1, he, dmrenormZ_midZ (by omega) (fun j _ _ => win_of_bound (Nat.le_refl _) (hw j))
      (fun j _ _ => car_of_bound (Nat.le_refl _) hN (hw j) (hA j) (hAe j)),
    dmrenorm_midZ (by omega) (fun j _ _ => win_of_bound (Nat.le_refl _) (hw j))
      (fun j _ _ => Nat.le_trans (car_of_bound (Nat.le_refl _) hN (hw j) (hA j) (hAe j)) pow_p1_le)]
  congr 1; funext j; rw [hAe j]


/-! ### the operations on reachable values -/

/-- The check returning 0 means that every bin of the accumulator lies far above the subnormal range. -/
theorem denorm_units2 [F.OK] {fold k : Nat} {b : Int} (hfold : 1 ≤ fold) (hw : F.Win b)
    (h : F.dmdenorm fold (F.mkPri k b) = false) :
    (∀ j, j < k + fold → F.p + 2 * F.W ≤ F.uexp j) ∧ (2 ≤ fold → k + 1 < F.maxIndex) := by
  have ⟨hp, hW, hWp, hpW, he, he1, hb, het, _⟩ := F.facts
  have ⟨h1, h2, h3, h4, h5, h6, h7, _⟩ := F.bfacts
  unfold dmdenorm at h
  rw [mkPri_expo hw] at h
  have h := of_decide_eq_false h
  have hbias : F.bias + 2 = F.maxExp := by unfold bias; omega
  have hle : F.sexp k ≤ F.uexp k := by
    unfold sexp
    split
    · next h0 => subst h0; have := uexp_zero (F := F); omega
    · exact Nat.le_refl _
  have hkey : F.p + F.W + F.W * fold ≤ F.uexp k := by
    have : ((F.W * fold : Nat) : Int) = (F.W : Int) * fold := by push_cast; ring
    omega
  have hstep : ∀ i, F.uexp k ≤ F.uexp (k + i) + F.W * i := by
    intro i
    induction i with
    | zero => simp
    | succ i ih =>
      have := uexp_succ_le (F := F) (k + i)
      have e : F.W * (i + 1) = F.W * i + F.W := by ring
      rw [← Nat.add_assoc, e]; omega
  refine ⟨?_, ?_⟩
  · intro j hj
    have h1 := hstep (fold - 1)
    have h2 := uexp_anti (F := F) (show j ≤ k + (fold - 1) by omega)
    have e : F.W * fold = F.W * (fold - 1) + F.W := by
      obtain ⟨n, rfl⟩ : ∃ n, fold = n + 1 := ⟨fold - 1, by omega⟩
      rw [Nat.add_sub_cancel]; ring
    omega
  · intro hf
    by_contra hc
    have g1 : F.uexp k ≤ F.uexp (F.maxIndex - 1) := uexp_anti (by omega)
    have g2 : F.uexp (F.maxIndex - 1) ≤ F.p + F.W := by
      rcases (inferInstance : F.OK).isDoubleOrFloat with rfl | rfl <;> decide
    have g3 : F.W * 1 ≤ F.W * fold := Nat.mul_le_mul_left _ (by omega)
    omega

theorem denorm_units [F.OK] {fold k : Nat} {b : Int} (hfold : 1 ≤ fold) (hw : F.Win b)
    (h : F.dmdenorm fold (F.mkPri k b) = false) :
    (∀ j, j < k + fold → F.p + 1 ≤ F.uexp j) ∧ (2 ≤ fold → k + 1 < F.maxIndex) := by
  have ⟨hp, hW, _⟩ := F.facts
  have h' := denorm_units2 hfold hw h
  exact ⟨fun j hj => by have := h'.1 j hj; omega, h'.2⟩

theorem sub_index [h : F.OK] {x : Flt} (hx : F.expo x = 0) : F.maxIndex - 1 ≤ F.dindex x := by
  unfold dindex
  rw [if_pos hx]
  split
  · omega
  · next hz =>
    have hm := expo_zero.1 hx
    have hz' : x.mag ≠ 0 := by intro hc; simp [isZero, hc] at hz
    have hl : Nat.log2 x.mag < F.p - 1 := by rw [Nat.log2_lt hz']; exact hm
    have g : F.maxIndex - 1 ≤ (F.maxExp + F.eta - (F.p - 1)) / F.W := by
      rcases h.isDoubleOrFloat with rfl | rfl <;> decide
    have : (F.maxExp + F.eta - (F.p - 1)) / F.W ≤ (F.maxExp + F.eta - (Nat.log2 x.mag + 1)) / F.W :=
      Nat.div_le_div_right (by omega)
    omega

theorem Mid.updateZ [F.OK] {fold n N k : Nat} {A : Nat → Int} {y : Binned} (x : Flt) (hfold : 2 ≤ fold)
    (h : F.Mid fold n N k A y) (hn : n ≤ F.endurance) (hd : F.dmdenorm fold (nth y.pri 0) = false) :
    F.dmdupdateZ fold x y = F.dmdupdate fold x y := by
  have hz := h.not_zero (by omega) hn
  have hi := h.index (by omega) hn
  have hfi := h.finite (by omega) hn
  obtain ⟨B, C, Z, h1, h2, h3, h4, h5, h6⟩ := h
  have hw := win_of_bound (F := F) hn (h3 k)
  have e0 : nth y.pri 0 = F.mkPri k (B k) := by rw [h1]; exact nth_pri_midZ (by omega)
  have hmax := (denorm_units (F := F) (by omega) hw (by rw [← e0]; exact hd)).2 hfold
  have hzz : F.isZeroZ (nth y.pri 0) = false := by rw [e0]; exact mkPri_isZeroZ hw
  unfold dmdupdateZ dmdupdate
  simp only [hz, hzz, hi, hfi, Bool.false_eq_true, if_false]
  by_cases hx : F.expo x = 0
  · have g1 := sub_index (F := F) hx
    have g2 : F.dindexZ x = F.maxIndex := by unfold dindexZ; rw [if_pos hx]
    rw [g2, if_neg (by omega), if_neg (by omega)]
  · have : F.dindexZ x = F.dindex x := by unfold dindexZ dindex; rw [if_neg hx, if_neg hx]
    rw [this]

theorem Mid.denorm_mono [F.OK] {fold n N k : Nat} {A : Nat → Int} {y : Binned} (hfold : 1 ≤ fold)
    (h : F.Mid fold n N k A y) (hn : n ≤ F.endurance) (hd : F.dmdenorm fold (nth y.pri 0) = false) :
    (∀ j, j < k + fold → F.p + 1 ≤ F.uexp j) := by
  obtain ⟨B, C, Z, h1, h2, h3, h4, h5, h6⟩ := h
  have hw := win_of_bound (F := F) hn (h3 k)
  have e0 : nth y.pri 0 = F.mkPri k (B k) := by rw [h1]; exact nth_pri_midZ (by omega)
  exact (denorm_units (F := F) hfold hw (by rw [← e0]; exact hd)).1

theorem Mid.depositZ [F.OK] {fold n N k : Nat} {A : Nat → Int} {y : Binned} {x : Flt} (hfold : 2 ≤ fold)
    (h : F.Mid fold n N k A y) (hn : n + 1 ≤ F.endurance) (hx : F.Finite x) (hf : F.Fits (F.toInt x) k)
    (hu : ∀ j, j < k + fold → F.p + 1 ≤ F.uexp j) :
    F.dmddepositZ x y.pri = F.dmddeposit x y.pri := by
  obtain ⟨B, C, Z, h1, h2, h3, h4, h5, h6⟩ := h
  have hs := fun j => slice_le (F := F) (fits_mono (Nat.zero_le k) hf) j
  have h3' : ∀ j, (B j + F.slice (F.toInt x) j).natAbs < 2 ^ (F.p - 3) + (n + 1) * 2 ^ (F.W - 1) := by
    intro j; have := h3 j; have := hs j; rw [Nat.add_mul]; omega
  rw [h1]
  unfold midZ
  dsimp only
  exact dmddepositZ_eq hfold h5 hx hf (fun j _ h => hu j h)
    (fun j _ _ => ⟨win_of_bound (by omega) (h3 j), win_of_bound hn (h3' j)⟩)

theorem Mid.renormZ [F.OK] {fold n N k : Nat} {A : Nat → Int} {y : Binned} (hfold : 1 ≤ fold)
    (h : F.Mid fold n N k A y) (hn : n ≤ F.endurance) (hN : N ≤ F.capacity) :
    F.dmrenormZ y = F.dmrenorm y := by
  obtain ⟨B, C, Z, h1, h2, h3, h4, h5, h6⟩ := h
  rw [h1]
  exact dmrenormZ_midZ hfold (fun j _ _ => win_of_bound hn (h3 j))
    (fun j _ _ => car_of_bound hn hN (h3 j) (h6 j) (h2 j))

theorem Mid.addZ [F.OK] {fold N k : Nat} {A : Nat → Int} {y : Binned} {x : Flt} (hfold : 2 ≤ fold)
    (h : F.Mid fold 0 N k A y) (hN : N + 1 ≤ F.capacity) (hx : F.Finite x)
    (hd : F.dmdenorm fold (nth y.pri 0) = false) :
    F.dmdaddZ fold x y = F.dmdadd fold x y := by
  have e := endurance_pos (F := F)
  have hu := h.denorm_mono (by omega) (by omega) hd
  have h1 := h.update (x := x) (by omega) (by omega)
  have hfit := fits_mono (F := F) (show min k (F.dindex x) ≤ F.dindex x by omega) (fits_dindex hx)
  have h2 := h1.deposit (x := x) hfold (by omega) hx hfit
  have h2z := h1.depositZ (x := x) hfold (by omega) hx hfit (fun j hj => hu j (by omega))
  unfold dmdaddZ dmdadd
  dsimp only
  rw [h.updateZ x hfold (by omega) hd, h2z]
  exact h2.renormZ (by omega) (by omega) hN

theorem Mid.depositsZ [F.OK] {fold k : Nat} (hfold : 2 ≤ fold) (hu : ∀ j, j < k + fold → F.p + 1 ≤ F.uexp j) :
    ∀ (xs : List Flt) {n N : Nat} {A : Nat → Int} {y : Binned},
    F.Mid fold n N k A y → n + xs.length ≤ F.endurance → (∀ x ∈ xs, F.Finite x ∧ k ≤ F.dindex x) →
    F.depositsZ xs y = F.deposits xs y := by
  intro xs
  induction xs with
  | nil => intro n N A y h _ _; rfl
  | cons x xs ih =>
    intro n N A y h hn hx
    rw [List.length_cons] at hn
    have hx0 := hx x List.mem_cons_self
    have hfit := fits_mono (F := F) hx0.2 (fits_dindex hx0.1)
    have h1 := h.deposit (x := x) hfold (by omega) hx0.1 hfit
    have h1z := h.depositZ (x := x) hfold (by omega) hx0.1 hfit hu
    have h2 := ih h1 (by omega) (fun z hz => hx z (List.mem_cons_of_mem _ hz))
    unfold Fmt.depositsZ Fmt.deposits at h2 ⊢
    rw [List.foldl_cons, List.foldl_cons, h1z, h2]

theorem Mid.negateZ [F.OK] {fold n N k : Nat} {A : Nat → Int} {y : Binned} (hfold : 2 ≤ fold)
    (h : F.Mid fold n N k A y) (hn : n ≤ F.endurance) (hu : ∀ j, j < k + fold → F.p + 1 ≤ F.uexp j) :
    F.dmnegateZ fold y = F.dmnegate fold y := by
  have hi := h.index (by omega) hn
  have hz := h.not_zero (by omega) hn
  obtain ⟨B, C, Z, h1, h2, h3, h4, h5, h6⟩ := h
  have hw := fun j => win_of_bound (F := F) hn (h3 j)
  have e0 : nth y.pri 0 = F.mkPri k (B k) := by rw [h1]; exact nth_pri_midZ (by omega)
  have hzz : F.isZeroZ (nth y.pri 0) = false := by rw [e0]; exact mkPri_isZeroZ (hw k)
  unfold dmnegateZ dmnegate
  simp only [hz, hzz, hi, Bool.false_eq_true, if_false]
  congr 1
  apply List.map_congr_left
  intro i hii
  rw [List.mem_range] at hii
  have : nth y.pri i = F.mkPri (k + i) (B (k + i)) := by
    rw [h1]; unfold midZ; exact nth_map_range' hii
  rw [this]
  exact subZ_offset (sexp_big (hu _ (by omega))) (hw _)

theorem denorm_zero [F.OK] (fold : Nat) : F.dmdenorm fold (nth (dmsetzero fold).pri 0) = true := by
  have ⟨hp, hW, hWp, hpW, he, he1, hb, het, _⟩ := F.facts
  unfold dmsetzero
  dsimp only
  rw [nth_setzero]
  have h0 : F.expo zero = 0 := expo_zero.2 (pow_pos' _)
  have hbias : F.bias + 2 = F.maxExp := by unfold bias; omega
  have : ((F.W * fold : Nat) : Int) = (F.W : Int) * fold := by push_cast; ring
  unfold dmdenorm
  rw [h0]
  apply decide_eq_true
  push_cast
  omega

/-- **C57.** The guarded protocol is invisible: whatever a program does with an accumulator, if before
each operation it asks `binned_dmdenorm` about the accumulators involved and runs the operation in
"denormals are zero / flush to zero" mode when the answer is 0, all bits come out as if the mode had
never been switched on. Subnormal summands are included. -/
theorem C57_guarded_mode [F.OK] {fold : Nat} (hfold : 2 ≤ fold) (h : Hist) (hl : h.Legal F)
    (hN : h.nums.length ≤ F.capacity) : h.evalGuarded F fold = h.eval F fold := by
  have e := endurance_pos (F := F)
  induction h with
  | zero => rfl
  | add x h ih =>
    simp only [Hist.nums, List.length_cons] at hN
    have hm := hist_mid hfold h hl.2 (by omega)
    simp only [Hist.evalGuarded, Hist.eval]
    rw [ih hl.2 (by omega)]
    split
    · rfl
    · next hd =>
      by_cases hs : h.seen = []
      · rw [(hm.1 hs).1] at hd; exact absurd (denorm_zero fold) hd
      · exact (hm.2.1 hs).addZ hfold (by omega) hl.1 (by simpa using hd)
  | update x h ih =>
    simp only [Hist.nums] at hN
    have hm := hist_mid hfold h hl (by omega)
    simp only [Hist.evalGuarded, Hist.eval]
    rw [ih hl (by omega)]
    split
    · rfl
    · next hd =>
      by_cases hs : h.seen = []
      · rw [(hm.1 hs).1] at hd; exact absurd (denorm_zero fold) hd
      · exact (hm.2.1 hs).updateZ x hfold (by omega) (by simpa using hd)
  | batch b xs h ih =>
    simp only [Hist.nums, List.length_append] at hN
    have hm := hist_mid hfold h hl.2.2 (by omega)
    simp only [Hist.evalGuarded, Hist.eval]
    rw [ih hl.2.2 (by omega)]
    split
    · rfl
    · next hd =>
      have key : ∃ N k A, F.Mid fold 0 N k A (F.dmdupdate fold b (h.eval F fold)) ∧ k ≤ F.dindex b ∧
          N ≤ h.nums.length := by
        by_cases hs : h.seen = []
        · rw [(hm.1 hs).1]
          exact ⟨_, _, _, mid_empty, Nat.le_refl _, Nat.zero_le _⟩
        · exact ⟨_, _, _, (hm.2.1 hs).update (by omega) (by omega), by omega, Nat.le_refl _⟩
      obtain ⟨N, k, A, hM, hk, hNl⟩ := key
      have hu := hM.denorm_mono (by omega) (by omega) (by simpa using hd)
      have hx : ∀ x ∈ xs, F.Finite x ∧ k ≤ F.dindex x := fun x hx =>
        ⟨(hl.1 x hx).1, Nat.le_trans hk (hl.1 x hx).2⟩
      have hlen := hl.2.1
      have g1 := hM.depositsZ hfold hu xs (by omega) hx
      have g2 := Mid.deposits hfold xs hM (by omega) hx
      rw [g1]
      exact g2.renormZ (by omega) (by omega) (by omega)
  | merge h₁ h₂ ih₁ ih₂ =>
    simp only [Hist.nums, List.length_append] at hN
    have hm₁ := hist_mid hfold h₁ hl.1 (by omega)
    have hm₂ := hist_mid hfold h₂ hl.2 (by omega)
    simp only [Hist.evalGuarded, Hist.eval]
    rw [ih₁ hl.1 (by omega), ih₂ hl.2 (by omega)]
    split
    · rfl
    · next hd =>
      simp only [Bool.or_eq_true, not_or, Bool.not_eq_true] at hd
      by_cases hs₁ : h₁.seen = []
      · rw [(hm₁.1 hs₁).1, denorm_zero] at hd; exact absurd hd.1 (by simp)
      · by_cases hs₂ : h₂.seen = []
        · rw [(hm₂.1 hs₂).1, denorm_zero] at hd; exact absurd hd.2 (by simp)
        · have m₁ := hm₁.2.1 hs₁
          have m₂ := hm₂.2.1 hs₂
          exact m₁.mergeZ hfold m₂ (by omega) (m₁.denorm_mono (by omega) (by omega) hd.1)
            (m₂.denorm_mono (by omega) (by omega) hd.2)
  | negate h ih =>
    simp only [Hist.nums, List.length_map] at hN
    have hm := hist_mid hfold h hl (by omega)
    simp only [Hist.evalGuarded, Hist.eval]
    rw [ih hl (by omega)]
    split
    · rfl
    · next hd =>
      by_cases hs : h.seen = []
      · rw [(hm.1 hs).1] at hd; exact absurd (denorm_zero fold) hd
      · have m := hm.2.1 hs
        exact m.negateZ hfold (by omega) (m.denorm_mono (by omega) (by omega) (by simpa using hd))
  | renorm h ih =>
    simp only [Hist.nums] at hN
    have hm := hist_mid hfold h hl (by omega)
    simp only [Hist.evalGuarded, Hist.eval]
    rw [ih hl (by omega)]
    split
    · rfl
    · next hd =>
      by_cases hs : h.seen = []
      · rw [(hm.1 hs).1] at hd; exact absurd (denorm_zero fold) hd
      · exact (hm.2.1 hs).renormZ (by omega) (by omega) hN

/-- Once the check has returned 0 it returns 0 after every further addition, so a whole loop of
additions can run in DAZ/FTZ mode after a single check. -/
theorem C57_one_check [F.OK] {fold : Nat} (hfold : 2 ≤ fold) (h : Hist) (hl : h.Legal F) (xs : List Flt)
    (hx : ∀ x ∈ xs, F.Finite x) (hN : h.nums.length + xs.length ≤ F.capacity)
    (hd : F.dmdenorm fold (nth (h.eval F fold).pri 0) = false) :
    xs.foldl (fun y x => F.dmdaddZ fold x y) (h.eval F fold) = F.sumSeq fold xs (h.eval F fold) ∧
    F.dmdenorm fold (nth (F.sumSeq fold xs (h.eval F fold)).pri 0) = false := by
  have e := endurance_pos (F := F)
  induction xs generalizing h with
  | nil => exact ⟨rfl, hd⟩
  | cons x xs ih =>
    rw [List.length_cons] at hN
    have hm := hist_mid hfold h hl (by omega)
    have hs : h.seen ≠ [] := by
      intro hs
      rw [(hm.1 hs).1, denorm_zero] at hd
      exact absurd hd (by simp)
    have m := hm.2.1 hs
    have hx0 := hx x List.mem_cons_self
    have hz := m.addZ hfold (by omega) hx0 hd
    have ma := (m.add hfold (by omega) hx0).2
    have hd' : F.dmdenorm fold (nth ((Hist.add x h).eval F fold).pri 0) = false := by
      have hs' : F.sexp (F.minIndex h.seen) ≤ F.sexp (min (F.minIndex h.seen) (F.dindex x)) := by
        unfold sexp
        split
        · next h0 => rw [h0, Nat.zero_min, if_pos rfl]
        · split
          · exact Nat.le_of_lt (uexp_emax (by omega))
          · exact uexp_anti (by omega)
      have p1 : F.expo (nth (h.eval F fold).pri 0) = F.sexp (F.minIndex h.seen) + 1 := by
        obtain ⟨B, C, Z, h1, h2, h3, h4, h5, h6⟩ := m
        rw [h1, nth_pri_midZ (by omega)]
        exact mkPri_expo (win_of_bound (Nat.zero_le _) (h3 _))
      have p2 : F.expo (nth ((Hist.add x h).eval F fold).pri 0) = F.sexp (min (F.minIndex h.seen) (F.dindex x)) + 1 := by
        show F.expo (nth (F.dmdadd fold x (h.eval F fold)).pri 0) = _
        obtain ⟨B, C, Z, h1, h2, h3, h4, h5, h6⟩ := ma
        rw [h1, nth_pri_midZ (by omega)]
        exact mkPri_expo (win_of_bound (Nat.zero_le _) (h3 _))
      unfold dmdenorm at hd ⊢
      rw [p1] at hd
      rw [p2]
      have := of_decide_eq_false hd
      apply decide_eq_false
      omega
    have ih' := ih (Hist.add x h) ⟨hx0, hl⟩ (fun z hz => hx z (List.mem_cons_of_mem _ hz))
      (by simp only [Hist.nums, List.length_cons]; omega) hd'
    have e1 : (Hist.add x h).eval F fold = F.dmdadd fold x (h.eval F fold) := rfl
    rw [e1] at ih'
    rw [List.foldl_cons, hz]
    exact ih'

/-- When the check returns 0, all bins of the accumulator (and its value) are multiples of
`2^(p + 2W)` least subnormals, `2^(2W + 1)` times the smallest normal number. -/
theorem C57_units [F.OK] {fold : Nat} (hfold : 2 ≤ fold) (h : Hist) (hl : h.Legal F)
    (hN : h.nums.length ≤ F.capacity) (hd : F.dmdenorm fold (nth (h.eval F fold).pri 0) = false) :
    ∀ j, j < F.minIndex h.seen + fold → F.p + 2 * F.W ≤ F.uexp j := by
  have e := endurance_pos (F := F)
  have hm := hist_mid hfold h hl (by omega)
  have hs : h.seen ≠ [] := by
    intro hs
    rw [(hm.1 hs).1, denorm_zero] at hd
    exact absurd hd (by simp)
  obtain ⟨B, C, Z, h1, h2, h3, h4, h5, h6⟩ := hm.2.1 hs
  have hw := win_of_bound (F := F) (Nat.zero_le _) (h3 (F.minIndex h.seen))
  rw [h1, nth_pri_midZ (by omega)] at hd
  exact (denorm_units2 (by omega) hw hd).1

/-- For doubles: the check returns 0 exactly when something has been added and the last bin, number
`index + fold - 1`, is at most 48 (47 if the first bin is the overflow bin). -/
theorem C57_check_double {fold : Nat} (hfold : 2 ≤ fold) (h : Hist) (hl : h.Legal f64)
    (hN : h.nums.length ≤ f64.capacity) :
    f64.dmdenorm fold (nth (h.eval f64 fold).pri 0) = false ↔
      h.seen ≠ [] ∧ (if f64.minIndex h.seen = 0 then fold ≤ 48 else f64.minIndex h.seen + fold ≤ 49) := by
  have e := endurance_pos (F := f64)
  have hm := hist_mid hfold h hl (by omega)
  by_cases hs : h.seen = []
  · rw [(hm.1 hs).1, denorm_zero]; simp [hs]
  · obtain ⟨B, C, Z, h1, h2, h3, h4, h5, h6⟩ := hm.2.1 hs
    have hw := win_of_bound (F := f64) (Nat.zero_le _) (h3 (f64.minIndex h.seen))
    rw [h1, nth_pri_midZ (by omega)]
    unfold dmdenorm
    rw [mkPri_expo hw]
    generalize f64.minIndex h.seen = k at h5 ⊢
    have h5' : k ≤ 51 := h5
    have ep : (f64.p : Int) = 53 := rfl
    have eW : (f64.W : Int) = 40 := rfl
    have em : (f64.maxExp : Int) = 1024 := rfl
    have eb : (f64.bias : Int) = 1022 := rfl
    rw [ep, eW, em, eb, decide_eq_false_iff_not]
    by_cases hk : k = 0
    · subst hk
      have : f64.sexp 0 = 2045 := by decide
      rw [this, if_pos rfl]
      simp only [ne_eq, hs, not_false_eq_true, true_and]
      omega
    · have : f64.sexp k = 2059 - 40 * k := by
        rw [sexp_pos (by omega)]
        have e1 : f64.maxIndex = 51 := by decide
        unfold uexp
        rw [e1, Nat.min_eq_left h5']
        rfl
      rw [this, if_neg hk]
      simp only [ne_eq, hs, not_false_eq_true, true_and]
      omega

/-- For floats: the check returns 0 exactly when something has been added and the last bin is at most 16
(15 if the first bin is the overflow bin). -/
theorem C57_check_float {fold : Nat} (hfold : 2 ≤ fold) (h : Hist) (hl : h.Legal f32)
    (hN : h.nums.length ≤ f32.capacity) :
    f32.dmdenorm fold (nth (h.eval f32 fold).pri 0) = false ↔
      h.seen ≠ [] ∧ (if f32.minIndex h.seen = 0 then fold ≤ 16 else f32.minIndex h.seen + fold ≤ 17) := by
  have e := endurance_pos (F := f32)
  have hm := hist_mid hfold h hl (by omega)
  by_cases hs : h.seen = []
  · rw [(hm.1 hs).1, denorm_zero]; simp [hs]
  · obtain ⟨B, C, Z, h1, h2, h3, h4, h5, h6⟩ := hm.2.1 hs
    have hw := win_of_bound (F := f32) (Nat.zero_le _) (h3 (f32.minIndex h.seen))
    rw [h1, nth_pri_midZ (by omega)]
    unfold dmdenorm
    rw [mkPri_expo hw]
    generalize f32.minIndex h.seen = k at h5 ⊢
    have h5' : k ≤ 20 := h5
    have ep : (f32.p : Int) = 24 := rfl
    have eW : (f32.W : Int) = 13 := rfl
    have em : (f32.maxExp : Int) = 128 := rfl
    have eb : (f32.bias : Int) = 126 := rfl
    rw [ep, eW, em, eb, decide_eq_false_iff_not]
    by_cases hk : k = 0
    · subst hk
      have : f32.sexp 0 = 253 := by decide
      rw [this, if_pos rfl]
      simp only [ne_eq, hs, not_false_eq_true, true_and]
      omega
    · have : f32.sexp k = 265 - 13 * k := by
        rw [sexp_pos (by omega)]
        have e1 : f32.maxIndex = 20 := by decide
        unfold uexp
        rw [e1, Nat.min_eq_left h5']
        rfl
      rw [this, if_neg hk]
      simp only [ne_eq, hs, not_false_eq_true, true_and]
      omega

/-- Complex accumulators: the check looks at both parts, and if it returns 0 both parts can be added to
in DAZ/FTZ mode (a complex accumulator is a pair of real ones, which is what `h₁` and `h₂` produce). -/
theorem C57_complex [F.OK] {fold : Nat} (hfold : 2 ≤ fold) (h₁ h₂ : Hist) (hl₁ : h₁.Legal F) (hl₂ : h₂.Legal F)
    (hN₁ : h₁.nums.length + 1 ≤ F.capacity) (hN₂ : h₂.nums.length + 1 ≤ F.capacity)
    (hd : F.zmdenorm fold (nth (h₁.eval F fold).pri 0) (nth (h₂.eval F fold).pri 0) = false)
    (re im : Flt) (hr : F.Finite re) (hi : F.Finite im) :
    F.dmdaddZ fold re (h₁.eval F fold) = F.dmdadd fold re (h₁.eval F fold) ∧
    F.dmdaddZ fold im (h₂.eval F fold) = F.dmdadd fold im (h₂.eval F fold) := by
  unfold zmdenorm at hd
  rw [Bool.or_eq_false_iff] at hd
  have a := (C57_one_check hfold h₁ hl₁ [re] (by simpa using hr) (by simpa using hN₁) hd.1).1
  have b := (C57_one_check hfold h₂ hl₂ [im] (by simpa using hi) (by simpa using hN₂) hd.2).1
  exact ⟨a, b⟩

end Fmt

open Fmt

/-- a history with subnormal, normal and zero summands -/
def exFtz (F : Fmt) : Hist := .batch (F.ofInt 7) [⟨false, 77⟩, F.ofInt (-2), ⟨true, 0⟩] (.add (F.ofInt 1) .zero)

example : (exFtz f32).Legal f32 ∧ (exFtz f32).nums.length ≤ f32.capacity ∧
    f32.dmdenorm 3 (nth (f32.dmdadd 3 (f32.ofInt 1) (dmsetzero 3)).pri 0) = false := by
  refine ⟨?_, by decide, by decide +kernel⟩
  unfold exFtz; simp only [Hist.Legal]; decide +kernel
example : (exFtz f64).Legal f64 ∧ (exFtz f64).nums.length ≤ f64.capacity ∧
    f64.dmdenorm 3 (nth (f64.dmdadd 3 (f64.ofInt 1) (dmsetzero 3)).pri 0) = false := by
  refine ⟨?_, by decide, by decide +kernel⟩
  unfold exFtz; simp only [Hist.Legal]; decide +kernel
/-- the mode really acts: with the check, a subnormal summand is handled by flushing arithmetic -/
example : f64.addZ ⟨false, 77⟩ ⟨false, 1⟩ ≠ f64.add ⟨false, 77⟩ ⟨false, 1⟩ := by decide +kernel
theorem C57_guard_needed_double :
    f64.dmdaddZ 3 ⟨false, 2 ^ 40⟩ (f64.dmdadd 3 ⟨false, 1⟩ (dmsetzero 3)) ≠ f64.dmdadd 3 ⟨false, 2 ^ 40⟩ (f64.dmdadd 3 ⟨false, 1⟩ (dmsetzero 3)) ∧ 
    f64.dmdenorm 3 (nth (f64.dmdadd 3 ⟨false, 1⟩ (dmsetzero 3)).pri 0) = true := by
  decide +kernel

/-- Without the check the mode changes results (a double and a float accumulator of tiny numbers). -/
theorem C57_guard_needed_float :
    f32.dmdaddZ 3 ⟨false, 77⟩ (f32.dmdadd 3 ⟨false, 1⟩ (dmsetzero 3)) ≠ f32.dmdadd 3 ⟨false, 77⟩ (f32.dmdadd 3 ⟨false, 1⟩ (dmsetzero 3)) ∧
    f32.dmdenorm 3 (nth (f32.dmdadd 3 ⟨false, 1⟩ (dmsetzero 3)).pri 0) = true := by
  decide +kernel

end Repro
