import Verif.PropsSsq
/-!
# C50: infinities and NaN in sums of squares and norms
-/

namespace Repro
open Fmt
variable {F : Fmt}

theorem kind_fabs (x : Flt) : F.kind (fabs x) = if F.isNaN x then .nan else if F.isInf x then .inf false else .fin := by
  have a : F.isNaN (fabs x) = F.isNaN x := rfl
  have b : F.isInf (fabs x) = F.isInf x := rfl
  unfold kind
  rw [a, b]; rfl

/-- What the absolute values of a list add up to. -/
theorem kinds_abs (xs : List Flt) : F.kinds (xs.map fabs) =
    if ∃ x ∈ xs, F.isNaN x = true then .nan else if ∃ x ∈ xs, F.isInf x = true then .inf false else .fin := by
  induction xs with
  | nil => simp [kinds]
  | cons x xs ih =>
    rw [List.map_cons]
    simp only [kinds]
    rw [ih, kind_fabs]
    simp only [List.mem_cons, exists_eq_or_imp]
    by_cases a : F.isNaN x = true
    · simp only [a, if_true, true_or]
      split
      · rfl
      · split <;> rfl
    · simp only [Bool.not_eq_true] at a
      simp only [a, Bool.false_eq_true, if_false, false_or]
      by_cases b : F.isInf x = true
      · simp only [b, if_true, true_or]
        by_cases c : ∃ y ∈ xs, F.isNaN y = true
        · rw [if_pos c, if_pos c]; rfl
        · rw [if_neg c, if_neg c]
          split <;> rfl
      · simp only [Bool.not_eq_true] at b
        simp only [b, Bool.false_eq_true, if_false, false_or, Kind.fin_add]

/-- Adding something non-negative to something non-negative. -/
theorem kind_add_nonneg [F.OK] {x y : Flt} (hx : x.neg = false) (hy : y.neg = false) (nx : F.isNaN x = false) (ny : F.isNaN y = false) :
    (F.add x y).neg = false ∧ F.isNaN (F.add x y) = false := by
  unfold Fmt.add
  rw [nx, ny, hx, hy]
  simp only [Bool.or_self, Bool.false_eq_true, if_false]
  by_cases xi : F.isInf x = true
  · simp [xi, hx, nx]
  · simp only [Bool.not_eq_true] at xi
    by_cases yi : F.isInf y = true
    · simp [xi, yi, hy, ny]
    · simp only [Bool.not_eq_true] at yi
      have e1 : F.toInt x = F.val x.mag := by unfold toInt; rw [hx]; rfl
      have e2 : F.toInt y = F.val y.mag := by unfold toInt; rw [hy]; rfl
      simp only [xi, yi, Bool.false_eq_true, if_false]
      rw [e1, e2]
      have hle : ∀ n s, F.isNaN ⟨false, F.roundMag n s⟩ = false := by
        intro n s
        unfold isNaN
        rw [roundMag_def]
        simp only [decide_eq_false_iff_not]
        have := Nat.min_le_right (F.rk n s * 2 ^ (F.p - 1) + rne n (s + F.rk n s)) F.infMag
        omega
      constructor
      · split
        · simp
        · simp; omega
      · split
        · exact finite_not_nan zero_finite
        · exact hle _ _

theorem foldl_add_abs [F.OK] : ∀ (b : List Flt) {m : Flt}, m.neg = false → F.Finite m → (∀ x ∈ b, x.neg = false) →
    F.kinds b ≠ .fin → F.kind (b.foldl F.add m) = F.kinds b := by
  intro b
  induction b with
  | nil => intro m _ _ _ h; simp [kinds] at h
  | cons x b ih =>
    intro m hm hf hx hk
    rw [List.foldl_cons]
    by_cases hxf : F.kind x = .fin
    · simp only [kinds, hxf, Kind.fin_add] at hk ⊢
      obtain ⟨a1, a2⟩ := kind_add_nonneg hm (hx x List.mem_cons_self) (finite_not_nan hf) (finite_not_nan (kind_fin.1 hxf))
      by_cases hs : F.kind (F.add m x) = .fin
      · exact ih a1 (kind_fin.1 hs) (fun y hy => hx y (List.mem_cons_of_mem _ hy)) hk
      · rw [foldl_add_special b hs]
        have h1 : F.kind (F.add m x) = .inf false := by
          cases h1 : F.kind (F.add m x) with
          | fin => exact absurd h1 hs
          | nan => rw [kind_nan.1 h1] at a2; simp at a2
          | inf s => have := kind_inf.1 h1; rw [this] at a1; unfold inf at a1; simp at a1; rw [a1]
        rw [h1]
        have e : b = b.map fabs := by
          have : b.map fabs = b.map id := by
            apply List.map_congr_left
            intro y hy
            have := hx y (List.mem_cons_of_mem _ hy)
            cases y; simp only at this; subst this; rfl
          rw [this, List.map_id]
        rw [e, kinds_abs] at hk ⊢
        split
        · rfl
        · split
          · rfl
          · next h2 h3 => rw [if_neg h2, if_neg h3] at hk; exact absurd rfl hk
    · have h1 := kind_add_right (F := F) (x := m) hxf
      rw [kind_fin.2 hf, Kind.fin_add] at h1
      rw [foldl_add_special b (by rw [h1]; exact hxf), h1]
      simp only [kinds]

theorem ssqEnd_special {S : Flt} {y : Binned} (h : F.kind (nth y.pri 0) ≠ .fin) : F.ssqEnd S y = (F.dscale F.one, y) := by
  unfold ssqEnd
  dsimp only
  rw [renorm_special h, isNaNInf_kind.2 h]
  rfl

/-- The loop on an accumulator that is already infinite or NaN. -/
theorem ssqLoop_special [F.OK] {T : Tune} (hT : T.OK F) {fold : Nat} : ∀ (fuel : Nat) (vs : List Flt) {dep : Nat} {S : Flt} {y : Binned},
    vs.length ≤ fuel → 1 ≤ y.pri.length → F.kind (nth y.pri 0) ≠ .fin →
    (F.ssqLoop T fold fuel vs dep S y).1 = F.dscale F.one ∧
    F.kind (nth (F.ssqLoop T fold fuel vs dep S y).2.pri 0) = (F.kind (nth y.pri 0)).add (F.kinds (vs.map fabs)) := by
  intro fuel
  induction fuel with
  | zero =>
    intro vs dep S y hlen hl hk
    have h0 : vs = [] := List.eq_nil_of_length_eq_zero (by omega)
    subst h0
    unfold ssqLoop
    rw [ssqEnd_special hk]; simp [kinds]
  | succ fuel ih =>
    intro vs dep S y hlen hl hk
    unfold ssqLoop
    by_cases h0 : vs = []
    · rw [if_pos h0, ssqEnd_special hk, h0]; simp [kinds]
    · rw [if_neg h0]
      dsimp only
      have hnb1 := hT.nb1
      have hpos : 1 ≤ vs.length := List.length_pos_iff.2 h0
      have hrl : (vs.drop T.nb).length = vs.length - T.nb := List.length_drop
      have hkv : F.kinds (vs.map fabs) = (F.kinds ((vs.take T.nb).map fabs)).add (F.kinds ((vs.drop T.nb).map fabs)) := by
        rw [← kinds_append, ← List.map_append, List.take_append_drop]
      have hacc : F.kind (nth (F.accum0 ((vs.take T.nb).map fabs) y).pri 0) = (F.kind (nth y.pri 0)).add (F.kinds ((vs.take T.nb).map fabs)) := by
        rw [accum0_pri0 _ hl, foldl_add_special _ hk]
      cases hc : F.kind (nth y.pri 0) with
      | fin => exact absurd hc hk
      | nan =>
        have hnan : ∀ y', (y' = F.accum0 ((vs.take T.nb).map fabs) y ∨ y' = y) → F.isNaN (nth y'.pri 0) = true := by
          intro y' h
          rcases h with h | h
          · rw [h]; apply nan_of_kind; rw [hacc, hc]; rfl
          · rw [h]; exact nan_of_kind hc
        have hy' : ∀ c : Bool, F.isNaN (nth (if c = true then F.accum0 ((vs.take T.nb).map fabs) y else y).pri 0) = true := by
          intro c; cases c
          · exact hnan _ (Or.inr rfl)
          · exact hnan _ (Or.inl rfl)
        rw [if_pos (hy' _)]
        exact ⟨rfl, kind_nan.2 (hy' _)⟩
      | inf s =>
        have hi := (inf_of_kind hc).2
        rw [hi, Bool.or_true]
        simp only [if_true]
        rw [hc] at hacc
        cases hk2 : F.kind (nth (F.accum0 ((vs.take T.nb).map fabs) y).pri 0) with
        | fin =>
          rw [hk2] at hacc
          exact absurd hacc.symm (Kind.add_ne_fin (by simp))
        | nan =>
          rw [if_pos (nan_of_kind hk2)]
          refine ⟨rfl, ?_⟩
          rw [hk2] at hacc
          dsimp only
          rw [hk2, hkv, ← Kind.add_assoc, ← hacc]
          rfl
        | inf t =>
          have hnt := inf_of_kind hk2
          rw [hnt.1, hnt.2]
          simp only [Bool.false_eq_true, if_false, if_true]
          have := ih (vs.drop T.nb) (dep := dep) (S := S) (y := F.accum0 ((vs.take T.nb).map fabs) y) (by omega) (by rw [accum0_length]; exact hl) (by rw [hk2]; simp)
          refine ⟨this.1, ?_⟩
          rw [this.2, hacc, hkv, Kind.add_assoc]

theorem state_pri0' [F.OK] {fold d : Nat} (hfold : 2 ≤ fold) {ps : List Flt} {S : Flt} {y : Binned}
    (h : (ps = [] ∧ S = zero ∧ y = dmsetzero fold) ∨ SsqState F fold d ps S y) (hd : d ≤ F.endurance) :
    y.pri.length = fold ∧ y.car.length = fold ∧ F.Finite (nth y.pri 0) ∧ (nth y.pri 0).neg = false := by
  rcases h with ⟨-, -, rfl⟩ | h
  · refine ⟨by simp [dmsetzero], by simp [dmsetzero], ?_, ?_⟩
    · have e : nth (dmsetzero fold).pri 0 = zero := by unfold dmsetzero; exact nth_setzero fold
      rw [e]; exact zero_finite
    · have e : nth (dmsetzero fold).pri 0 = zero := by unfold dmsetzero; exact nth_setzero fold
      rw [e]; rfl
  · obtain ⟨B, C, Z, h1, h2, h3, h4, h5, h6⟩ := h.mid
    have hl := midZ_len F fold (F.minIndex (ps.map (F.sq S))) B C Z
    rw [h1]
    refine ⟨hl.1, hl.2, ?_, ?_⟩
    · rw [nth_pri_midZ (by omega)]; exact mkPri_finite (win_of_bound hd (h3 _))
    · rw [nth_pri_midZ (by omega)]; rfl

theorem rescale_len' {S S' : Flt} {y : Binned} (h : y.pri.length = y.car.length) : (F.dmdrescale S' S y).pri.length = y.pri.length := by
  unfold dmdrescale
  split
  · rfl
  · exact (rescale_len y.pri y.car h).1

theorem update_plen {fold : Nat} {x : Flt} {y : Binned} (h1 : y.pri.length = fold) : (F.dmdupdate fold x y).pri.length = fold := by
  unfold dmdupdate
  dsimp only
  split
  · exact h1
  · split
    · simp
    · split
      · simp
      · exact h1

theorem kernel_len_pos {T : Tune} {vs pri : List Flt} : (F.kernel T vs pri).length = pri.length := by
  unfold kernel consolidate; simp

theorem sq_nan {S x : Flt} (h : F.isNaN x = true) : F.isNaN (F.sq S x) = true := by
  unfold Fmt.sq; dsimp only
  exact mul_nan_left (mul_nan_left h)

theorem renorm_plen {y : Binned} : (F.dmrenorm y).pri.length = y.pri.length := by
  unfold dmrenorm; split <;> simp

theorem renorm_clen {y : Binned} (h : y.pri.length = y.car.length) : (F.dmrenorm y).pri.length = (F.dmrenorm y).car.length := by
  unfold dmrenorm; split
  · exact h
  · simp [h]

/-- The loop on values some of which are not finite. -/
theorem ssqLoop_mixed [F.OK] {T : Tune} (hT : T.OK F) {fold : Nat} (hfold : 2 ≤ fold) (hJ : F.ssqHi + fold ≤ F.ssqJ + 1) :
    ∀ (fuel : Nat) (xs : List Flt) {ps : List Flt} {d dep : Nat} {S : Flt} {y : Binned}, xs.length ≤ fuel →
    ((ps = [] ∧ S = zero ∧ y = dmsetzero fold) ∨ SsqState F fold d ps S y) → d ≤ dep → dep ≤ F.endurance →
    F.kinds (xs.map fabs) ≠ .fin → ps.length + xs.length ≤ F.capacity →
    (F.ssqLoop T fold fuel xs dep S y).1 = F.dscale F.one ∧
    F.kind (nth (F.ssqLoop T fold fuel xs dep S y).2.pri 0) = F.kinds (xs.map fabs) := by
  intro fuel
  induction fuel with
  | zero =>
    intro xs ps d dep S y hlen h hd hdep hk hN
    have h0 : xs = [] := List.eq_nil_of_length_eq_zero (by omega)
    subst h0
    exact absurd rfl hk
  | succ fuel ih =>
    intro xs ps d dep S y hlen h hd hdep hk hN
    unfold ssqLoop
    have h0 : xs ≠ [] := by intro h0; subst h0; exact hk rfl
    rw [if_neg h0]
    obtain ⟨hl, hlc, hfin, hneg⟩ := state_pri0' hfold h (by omega)
    have hpos : 1 ≤ xs.length := List.length_pos_iff.2 h0
    have hbl : (xs.take T.nb).length = min T.nb xs.length := List.length_take
    have hnb1 := hT.nb1
    have hnb2 := hT.nb2
    have hbne : xs.take T.nb ≠ [] := by
      intro hc; rw [hc] at hbl; simp at hbl; omega
    have hrl : (xs.drop T.nb).length = xs.length - T.nb := List.length_drop
    have hkv : F.kinds (xs.map fabs) = (F.kinds ((xs.take T.nb).map fabs)).add (F.kinds ((xs.drop T.nb).map fabs)) := by
      rw [← kinds_append, ← List.map_append, List.take_append_drop]
    have hyi : F.isInf (nth y.pri 0) = false := finite_not_inf hfin
    have hyn : F.isNaN (nth y.pri 0) = false := finite_not_nan hfin
    dsimp only
    by_cases hkb : F.kinds ((xs.take T.nb).map fabs) = .fin
    · -- a finite block
      have hbf : ∀ x ∈ xs.take T.nb, F.Finite x := fun x hx => kinds_fin.1 hkb (fabs x) (List.mem_map_of_mem hx)
      have ea : F.amaxK T ((xs.take T.nb).map fabs) = ⟨false, maxMag (xs.take T.nb)⟩ := damax_eq hT (fun x hx => finite_not_nan (hbf x hx))
      have hmf := maxMag_finite hbne hbf
      rw [ea]
      have hc1 : (F.isInf ⟨false, maxMag (xs.take T.nb)⟩ || F.isInf (nth y.pri 0)) = false := by
        rw [finite_not_inf hmf, hyi]; rfl
      rw [hc1]
      simp only [Bool.false_eq_true, if_false, hyn, hyi]
      rw [hkb, Kind.fin_add] at hkv
      rw [hkv]
      have hk' : F.kinds ((xs.drop T.nb).map fabs) ≠ .fin := by rw [← hkv]; exact hk
      by_cases hov : dep + (xs.take T.nb).length > F.endurance
      · simp only [if_pos hov]
        have h' : (ps = [] ∧ S = zero ∧ F.dmrenorm y = dmsetzero fold) ∨ SsqState F fold 0 ps S (F.dmrenorm y) := by
          rcases h with ⟨rfl, rfl, rfl⟩ | h
          · left
            refine ⟨rfl, rfl, ?_⟩
            unfold dmrenorm dmsetzero; dsimp only; rw [nth_setzero]; rfl
          · right
            have a := SsqState.of_spec (F := F) (fold := fold) h.ne h.fin
            have b := h.spec hfold (by omega) (by omega)
            rw [b.2]
            have e : S = (ssqSpec F fold ps).1 := h.scale
            rw [e]; exact a
        have hs := SsqState.step hT hfold hJ h' hbne hbf (by omega)
        exact ih (xs.drop T.nb) (by omega) (Or.inr hs) (by omega) (by omega) hk' (by rw [List.length_append]; omega)
      · simp only [if_neg hov]
        have hs := SsqState.step hT hfold hJ h hbne hbf (by omega)
        exact ih (xs.drop T.nb) (by omega) (Or.inr hs) (by omega) (by omega) hk' (by rw [List.length_append]; omega)
    · by_cases hai : F.isInf (F.amaxK T ((xs.take T.nb).map fabs)) = true
      · -- native accumulation
        rw [hai]
        simp only [Bool.true_or, if_true]
        have hacc := accum0_pri0 (F := F) ((xs.take T.nb).map fabs) (y := y) (by omega)
        have hsum := foldl_add_abs (F := F) ((xs.take T.nb).map fabs) (m := nth y.pri 0) hneg hfin
          (by intro x hx; obtain ⟨z, -, rfl⟩ := List.mem_map.1 hx; rfl) hkb
        rw [← hacc] at hsum
        cases hK : F.kinds ((xs.take T.nb).map fabs) with
        | fin => exact absurd hK hkb
        | nan =>
          rw [hK] at hsum
          rw [if_pos (nan_of_kind hsum), hsum, hkv, hK]
          exact ⟨rfl, rfl⟩
        | inf s =>
          rw [hK] at hsum
          have hi := inf_of_kind hsum
          rw [hi.1, hi.2]
          simp only [Bool.false_eq_true, if_false, if_true]
          have := ssqLoop_special hT (fold := fold) fuel (xs.drop T.nb) (dep := dep) (S := S) (y := F.accum0 ((xs.take T.nb).map fabs) y) (by omega) (by rw [accum0_length, hl]; omega)
            (by rw [hsum]; simp)
          rw [this.1, this.2, hsum, hkv, hK]
          exact ⟨rfl, rfl⟩
      · -- NaN goes through the kernel
        have hnan : ∃ x ∈ xs.take T.nb, F.isNaN x = true := by
          by_contra hc
          apply hai
          refine amax_inf hT ?_ hc
          intro hf
          apply hkb
          rw [kinds_fin]
          intro x hx
          obtain ⟨z, hz, rfl⟩ := List.mem_map.1 hx
          exact kinds_fin.1 hf z hz
        have hKn : F.kinds ((xs.take T.nb).map fabs) = .nan := by rw [kinds_abs, if_pos hnan]
        simp only [Bool.not_eq_true] at hai
        rw [hai, hyi]
        simp only [Bool.or_self, Bool.false_eq_true, if_false, hyn, hyi]
        rw [hkv, hKn]
        have fin : ∀ {dep' : Nat} {S' : Flt} {pri car : List Flt}, 1 ≤ pri.length →
            (F.ssqLoop T fold fuel (xs.drop T.nb) dep' S' ⟨F.kernel T ((xs.take T.nb).map (F.sq S')) pri, car⟩).1 = F.dscale F.one ∧
            F.kind (nth (F.ssqLoop T fold fuel (xs.drop T.nb) dep' S' ⟨F.kernel T ((xs.take T.nb).map (F.sq S')) pri, car⟩).2.pri 0)
              = Kind.nan.add (F.kinds ((xs.drop T.nb).map fabs)) := by
          intro dep' S' pri car hp
          have hn : F.kind (nth (F.kernel T ((xs.take T.nb).map (F.sq S')) pri) 0) = .nan := by
            rw [kind_nan]
            refine kernel_nan hT hp ?_
            obtain ⟨x, hx, hxn⟩ := hnan
            exact ⟨_, List.mem_map_of_mem hx, sq_nan hxn⟩
          have := ssqLoop_special hT (fold := fold) fuel (xs.drop T.nb) (dep := dep') (S := S') (by omega)
            (y := ⟨F.kernel T ((xs.take T.nb).map (F.sq S')) pri, car⟩) (by rw [kernel_len_pos]; exact hp) (by rw [hn]; simp)
          rw [hn] at this
          exact this
        apply fin
        rw [update_plen]
        · omega
        · split
          · split
            · rw [rescale_len' (renorm_clen (by omega)), renorm_plen]; exact hl
            · rw [rescale_len' (by omega)]; exact hl
          · split
            · rw [renorm_plen]; exact hl
            · exact hl

theorem normOf_special {y : Binned} {fold : Nat} [F.OK] (h : F.kind (nth y.pri 0) ≠ .fin) :
    (F.kind (nth y.pri 0) = .nan → F.isNaN (normOf F fold (F.dscale F.one, y)) = true) ∧
    (F.kind (nth y.pri 0) = .inf false → normOf F fold (F.dscale F.one, y) = F.inf false) := by
  unfold normOf
  rename_i hOK
  rcases hOK.isDoubleOrFloat with rfl | rfl
  · have hne : ¬ (f64 = f32) := by decide
    simp only [if_neg hne]
    rw [convert_special h]
    constructor
    · intro hn
      have hq : f64.isNaN (f64.sqrt (nth y.pri 0)) = true := by
        unfold sqrt; rw [nan_of_kind hn, if_pos rfl]; decide
      unfold mul; rw [hq]; simp; decide
    · intro hi
      rw [kind_inf.1 hi]
      decide +kernel
  · simp only [if_true]
    rw [convert_special h]
    constructor
    · intro hn
      have hw : f64.isNaN (widen (nth y.pri 0)) = true := by
        unfold widen; rw [nan_of_kind hn, if_pos rfl]; decide
      have hq : f64.isNaN (f64.sqrt (widen (nth y.pri 0))) = true := by
        unfold sqrt; rw [hw, if_pos rfl]; decide
      have hm : f64.isNaN (f64.mul (widen (f32.dscale f32.one)) (f64.sqrt (widen (nth y.pri 0)))) = true := by
        unfold mul; rw [hq]; simp; decide
      unfold narrow; rw [hm, if_pos rfl]; decide
    · intro hi
      rw [kind_inf.1 hi]
      decide +kernel

/-- **C50.** A vector with a NaN has norm NaN; without NaN but with an infinity of either sign it has norm `+Inf`; and
the scale returned with the sum of squares is then 1. This holds whatever came before, for every order and tuning. -/
theorem C50_special_norm [F.OK] {T : Tune} (hT : T.OK F) {fold : Nat} (hfold : 2 ≤ fold) (hJ : F.ssqHi + fold ≤ F.ssqJ + 1)
    {n : Nat} {X : Int → Flt} {incX : Int} (hN : n ≤ F.capacity) (hx : ∃ i : Nat, i < n ∧ ¬ F.Finite (X (i * incX))) :
    (F.dmdssq T fold n X incX zero (dmsetzero fold)).1 = F.dscale F.one ∧
    ((∃ i : Nat, i < n ∧ F.isNaN (X (i * incX)) = true) → F.isNaN (rdnrm2 F T fold n X incX) = true) ∧
    ((¬ ∃ i : Nat, i < n ∧ F.isNaN (X (i * incX)) = true) → rdnrm2 F T fold n X incX = F.inf false) := by
  have hmem : ∀ P : Flt → Prop, (∃ x ∈ gather X incX n, P x) ↔ ∃ i : Nat, i < n ∧ P (X (i * incX)) := by
    intro P
    constructor
    · rintro ⟨x, hx, hp⟩
      obtain ⟨i, hi, rfl⟩ := mem_gather hx
      exact ⟨i, hi, hp⟩
    · rintro ⟨i, hi, hp⟩
      exact ⟨_, by unfold gather; exact List.mem_map.2 ⟨i, List.mem_range.2 hi, rfl⟩, hp⟩
  have hk : F.kinds ((gather X incX n).map fabs) ≠ .fin := by
    obtain ⟨x, hxm, hxf⟩ := (hmem (fun x => ¬ F.Finite x)).2 hx
    intro hc
    exact hxf (kinds_fin.1 hc (fabs x) (List.mem_map_of_mem hxm))
  have hm := ssqLoop_mixed hT hfold hJ (gather X incX n).length (gather X incX n) (ps := []) (d := 0) (dep := 0) (S := zero)
    (y := dmsetzero fold) (Nat.le_refl _) (Or.inl ⟨rfl, rfl, rfl⟩) (Nat.le_refl _) (Nat.zero_le _) hk (by rw [gather_length]; simpa using hN)
  have hd : F.dmdssq T fold n X incX zero (dmsetzero fold) =
      F.ssqLoop T fold (gather X incX n).length (gather X incX n) 0 zero (dmsetzero fold) := rfl
  rw [← hd] at hm
  have hr : rdnrm2 F T fold n X incX = normOf F fold (F.dscale F.one, (F.dmdssq T fold n X incX zero (dmsetzero fold)).2) := by
    unfold rdnrm2
    rw [← hm.1]
  have hs := normOf_special (F := F) (fold := fold) (y := (F.dmdssq T fold n X incX zero (dmsetzero fold)).2) (by rw [hm.2]; exact hk)
  rw [hr]
  refine ⟨hm.1, fun hn => ?_, fun hn => ?_⟩
  · apply hs.1
    rw [hm.2, kinds_abs, if_pos ((hmem (fun x => F.isNaN x = true)).2 hn)]
  · apply hs.2
    have hn' : ¬ ∃ x ∈ gather X incX n, F.isNaN x = true := fun h => hn ((hmem (fun x => F.isNaN x = true)).1 h)
    rw [kinds_abs, if_neg hn'] at hk
    rw [hm.2, kinds_abs, if_neg hn']
    by_cases hi : ∃ x ∈ gather X incX n, F.isInf x = true
    · rw [if_pos hi]
    · rw [if_neg hi] at hk; exact absurd rfl hk

/-- Scale of one. -/
theorem C50_scale_one : f64.dscale f64.one = f64.one ∧ f32.dscale f32.one = f32.one := by decide +kernel

/-- An instance: blocks of two elements, an infinity in the second block. -/
example : (∃ i : Nat, i < 4 ∧ ¬ f64.Finite ((fun i : Int => if i = 2 then f64.inf true else f64.ofInt (3 - i)) (i * 1))) ∧
    rdnrm2 f64 ⟨2, 1, 2, 1, 1, false⟩ 3 4 (fun i : Int => if i = 2 then f64.inf true else f64.ofInt (3 - i)) 1 = f64.inf false :=
  ⟨⟨2, by decide, by decide +kernel⟩, by decide +kernel⟩

end Repro
