import Verif.ZInfLemmas
/-!
# C52: infinities and NaN in absolute sums and norms of complex vectors
-/

namespace Repro
open Fmt
variable {F : Fmt}

/-- The complex temporary of the absolute sum while everything is finite. -/
def AState (F : Fmt) (fold d N : Nat) (s : Binned × Binned) : Prop :=
  s = (dmsetzero fold, dmsetzero fold) ∨ ∃ k A0 A1, F.Mid fold d N k A0 s.1 ∧ F.Mid fold d N k A1 s.2

theorem Mid.len {fold n N k : Nat} {A : Nat → Int} {y : Binned} (h : F.Mid fold n N k A y) : y.pri.length = fold := by
  obtain ⟨B, C, Z, h1, _⟩ := h
  rw [h1]; exact (midZ_len F fold k B C Z).1

theorem AState.facts [F.OK] {fold d N : Nat} (hfold : 2 ≤ fold) {s : Binned × Binned} (h : AState F fold d N s) (hd : d ≤ F.endurance) :
    s.1.pri.length = fold ∧ s.2.pri.length = fold ∧ F.kind (nth s.1.pri 0) = .fin ∧ F.kind (nth s.2.pri 0) = .fin := by
  rcases h with rfl | ⟨k, A0, A1, h0, h1⟩
  · have e : nth (dmsetzero fold).pri 0 = zero := by unfold dmsetzero; exact nth_setzero fold
    refine ⟨by simp [dmsetzero], by simp [dmsetzero], ?_, ?_⟩ <;> rw [e] <;> exact kind_fin.2 zero_finite
  · exact ⟨Mid.len h0, Mid.len h1, isNaNInf_kind'.1 (h0.finite (by omega) hd), isNaNInf_kind'.1 (h1.finite (by omega) hd)⟩

theorem AState.renorm [F.OK] {fold d N : Nat} (hfold : 2 ≤ fold) {s : Binned × Binned} (h : AState F fold d N s) (hd : d ≤ F.endurance) (hN : N ≤ F.capacity) :
    AState F fold 0 N (F.dmrenorm s.1, F.dmrenorm s.2) := by
  rcases h with rfl | ⟨k, A0, A1, h0, h1⟩
  · left
    have hren : F.dmrenorm (dmsetzero fold) = dmsetzero fold := by
      unfold dmrenorm dmsetzero; dsimp only; rw [nth_setzero]; rfl
    rw [hren]
  · right
    have hk : k ≤ F.maxIndex := by obtain ⟨_, _, _, _, _, _, _, h5, _⟩ := h0; exact h5
    have hren : ∀ {A : Nat → Int} {t : Binned}, F.Mid fold d N k A t → F.Mid fold 0 N k A (F.dmrenorm t) := by
      intro A t hm
      have hcn := hm.renorm (by omega) (by omega) (by omega)
      have hA : ∀ j, (A j).natAbs ≤ N * 2 ^ (F.W - 1) := by obtain ⟨_, _, _, _, _, _, _, _, h6⟩ := hm; exact h6
      rw [hcn]; exact mid_canon hk hm.zeros hA
    exact ⟨k, A0, A1, hren h0, hren h1⟩

/-- One finite block. -/
theorem AState.step [F.OK] {T : Tune} (hT : T.OK F) {fold d N : Nat} (hfold : 2 ≤ fold) {s : Binned × Binned} (h : AState F fold d N s)
    {b : List (Flt × Flt)} (hb : b ≠ []) (hbf : ∀ x ∈ parts b, F.Finite x) (hd : d + b.length ≤ F.endurance) :
    let a := F.fmax (F.amaxZ T 1 zasumOp.fR zasumOp.zfill b) (F.amaxZ T 1 zasumOp.fI zasumOp.zfill b)
    let s0 := F.dmdupdate fold a s.1
    let s1 := F.dmdupdate fold a s.2
    let z0 := F.dmindex0 (nth s0.pri 0)
    let z1 := F.dmindex0 (nth s1.pri 0)
    F.isInf a = false ∧ AState F fold (d + b.length) (N + b.length) (⟨F.kernelZ T (zmode z0 z1) 1 zasumOp.fR zasumOp.zfill b s0.pri, s0.car⟩,
           ⟨F.kernelZ T (zmode z1 z0) 1 zasumOp.fI zasumOp.zfill b s1.pri, s1.car⟩) := by
  have e0 : partNums 1 zasumOp.fR b = b.map (fun a => fabs a.1) := partNums_one _ _
  have e1 : partNums 1 zasumOp.fI b = b.map (fun a => fabs a.2) := partNums_one _ _
  have h0 : ∀ x ∈ partNums 1 zasumOp.fR b, F.Finite x := by
    intro x hx
    rw [e0] at hx
    obtain ⟨a, ha, rfl⟩ := List.mem_map.1 hx
    exact hbf a.1 (mem_parts.2 ⟨a, ha, Or.inl rfl⟩)
  have h1 : ∀ x ∈ partNums 1 zasumOp.fI b, F.Finite x := by
    intro x hx
    rw [e1] at hx
    obtain ⟨a, ha, rfl⟩ := List.mem_map.1 hx
    exact hbf a.2 (mem_parts.2 ⟨a, ha, Or.inr rfl⟩)
  obtain ⟨ha1, ha2⟩ := amax_pair hT hb h0 h1
  dsimp only
  generalize F.fmax (F.amaxZ T 1 zasumOp.fR zasumOp.zfill b) (F.amaxZ T 1 zasumOp.fI zasumOp.zfill b) = a at ha1 ha2 ⊢
  refine ⟨finite_not_inf ha1, Or.inr ?_⟩
  have lb : ∀ f : Flt × Flt → Nat → Flt, (partNums 1 f b).length = b.length := by intro f; rw [partNums_length, Nat.one_mul]
  have up : ∃ k A0 A1, F.Mid fold d N k A0 (F.dmdupdate fold a s.1) ∧ F.Mid fold d N k A1 (F.dmdupdate fold a s.2) ∧
      k ≤ min (F.minIndex (partNums 1 zasumOp.fR b)) (F.minIndex (partNums 1 zasumOp.fI b)) := by
    rcases h with rfl | ⟨k, A0, A1, m0, m1⟩
    · have hu := (mid_empty (F := F) (fold := fold) (x := a)).mono (Nat.zero_le d) (Nat.zero_le N)
      rw [ha2] at hu
      exact ⟨_, _, _, hu, hu, Nat.le_refl _⟩
    · have u0 := m0.update (x := a) (by omega) (by omega)
      have u1 := m1.update (x := a) (by omega) (by omega)
      rw [ha2] at u0 u1
      exact ⟨_, _, _, u0, u1, Nat.min_le_right _ _⟩
  obtain ⟨k, A0, A1, m0, m1, hk⟩ := up
  have step : ∀ {t : Binned} {A : Nat → Int} {f : Flt × Flt → Nat → Flt} (z : Bool), (∀ q, (f zasumOp.zfill q).mag = 0) →
      (∀ x ∈ partNums 1 f b, F.Finite x) → k ≤ F.minIndex (partNums 1 f b) → F.Mid fold d N k A t →
      F.Mid fold (d + b.length) (N + b.length) k (fun j => A j + F.total (partNums 1 f b) j)
        ⟨F.kernelZ T (zmode (F.dmindex0 (nth t.pri 0)) z) 1 f zasumOp.zfill b t.pri, t.car⟩ := by
    intro t A f z hz hf hmi hm'
    rw [Mid_index0 hfold hm' (by omega)]
    have hk2 := Mid_kernelZ hT (Nat.le_refl 1) hfold hm' (zmode_ok z) hz (es := b) (f := f) (by rw [lb]; exact hd)
      (fun x hx' => ⟨hf x hx', by have := minIndex_le_mem (F := F) hx'; omega⟩)
    rw [lb] at hk2
    exact hk2
  exact ⟨k, _, _, step _ zasumOp_ok.zR h0 (by omega) m0, step _ zasumOp_ok.zI h1 (by omega) m1⟩

theorem renorm_kind {y : Binned} (h : F.kind (nth y.pri 0) ≠ .fin) : F.kind (nth (F.dmrenorm y).pri 0) = F.kind (nth y.pri 0) := by
  rw [renorm_special h]

/-- A NaN in the temporary. -/
theorem zasumLoop_nan [F.OK] {T : Tune} {fold : Nat} (fuel : Nat) (es : List (Flt × Flt)) {dep : Nat} {s : Binned × Binned} {y : Binned}
    (hy : 1 ≤ y.pri.length) (hs1 : 1 ≤ s.1.pri.length) (h : F.isNaN (nth s.1.pri 0) = true ∨ F.isNaN (nth s.2.pri 0) = true) (hlen : es.length ≤ fuel) :
    F.kind (nth (F.zasumLoop T fold fuel es dep s y).pri 0) = .nan := by
  have l1 : 1 ≤ (F.dmdmadd fold (F.dmrenorm s.1) y).pri.length ∨ True := Or.inr trivial
  have base : F.kind (nth (F.dmdmadd fold (F.dmrenorm s.2) (F.dmdmadd fold (F.dmrenorm s.1) y)).pri 0) = .nan := by
    -- length of the first merge
    have maddlen : ∀ {x z : Binned}, 1 ≤ z.pri.length → 1 ≤ x.pri.length → (1 ≤ fold ∨ F.kind (nth x.pri 0) ≠ .fin) → 1 ≤ (F.dmdmadd fold x z).pri.length := by
      intro x z hz hx hf
      unfold dmdmadd
      split
      · exact hz
      · split
        · exact hx
        · split
          · cases hp : z.pri with
            | nil => rw [hp] at hz; simp at hz
            | cons m ms => simp
          · rename_i hn
            have hf1 : 1 ≤ fold := by
              rcases hf with h | h
              · exact h
              · exfalso; apply hn; rw [isNaNInf_kind.2 h]; rfl
            dsimp only
            split <;> rw [renorm_length] <;> simp <;> omega
    rcases h with h | h
    · have hk : F.kind (nth s.1.pri 0) = .nan := kind_nan.2 h
      have hr : F.kind (nth (F.dmrenorm s.1).pri 0) = .nan := by rw [renorm_kind (by rw [hk]; simp), hk]
      have hm := madd_special (F := F) (fold := fold) (x := F.dmrenorm s.1) (y := y) hy (Or.inl (by rw [hr]; simp))
      rw [hr] at hm
      have hm' : F.kind (nth (F.dmdmadd fold (F.dmrenorm s.1) y).pri 0) = .nan := by rw [hm]; cases F.kind (nth y.pri 0) <;> rfl
      rw [madd_special (maddlen hy (by rw [renorm_length]; exact hs1) (Or.inr (by rw [hr]; simp))) (Or.inr (by rw [hm']; simp)), hm']
      rfl
    · have hk : F.kind (nth s.2.pri 0) = .nan := kind_nan.2 h
      have hr : F.kind (nth (F.dmrenorm s.2).pri 0) = .nan := by rw [renorm_kind (by rw [hk]; simp), hk]
      generalize F.dmdmadd fold (F.dmrenorm s.1) y = w
      by_cases hw : 1 ≤ w.pri.length
      · rw [madd_special hw (Or.inl (by rw [hr]; simp)), hr]
        cases F.kind (nth w.pri 0) <;> rfl
      · -- an empty accumulator counts as zero
        have hw0 : w.pri = [] := List.eq_nil_of_length_eq_zero (by omega)
        unfold dmdmadd
        rw [kind_not_zero (by rw [hr]; simp), hw0]
        have : isZero (nth ([] : List Flt) 0) = true := rfl
        rw [this]
        exact hr
  have hstep : ∀ y' : Binned, 1 ≤ y'.pri.length → F.kind (nth (F.accum0 [F.add (nth s.1.pri 0) (nth s.2.pri 0)] y').pri 0) = .nan := by
    intro y' hy'
    rw [accum0_pri0 _ hy', kind_nan]
    show F.isNaN (F.add (nth y'.pri 0) (F.add (nth s.1.pri 0) (nth s.2.pri 0))) = true
    apply add_nan_right
    rcases h with h | h
    · exact add_nan_left h
    · exact add_nan_right h
  cases fuel with
  | zero => unfold zasumLoop; exact base
  | succ fuel =>
    unfold zasumLoop
    by_cases h0 : es = []
    · rw [if_pos (by simp [h0])]; exact base
    · rw [if_neg (by simpa using h0)]
      dsimp only
      have hc : ∀ c : Bool, (c || F.isNaN (nth s.1.pri 0) || F.isNaN (nth s.2.pri 0)) = true := by
        intro c
        rcases h with h | h <;> simp [h]
      rw [if_pos (hc _)]
      apply hstep
      split
      · rw [accum0_length]; exact hy
      · exact hy

/-- The result is already infinite, the temporary finite. -/
theorem zasumLoop_special [F.OK] {T : Tune} (hT : T.OK F) {fold : Nat} : ∀ (fuel : Nat) (es : List (Flt × Flt)) {dep : Nat} {s : Binned × Binned} {y : Binned},
    es.length ≤ fuel → y.pri.length = fold → 1 ≤ fold → F.kind (nth y.pri 0) ≠ .fin → F.kind (nth s.1.pri 0) = .fin → F.kind (nth s.2.pri 0) = .fin →
    F.kind (nth (F.dmrenorm s.1).pri 0) = .fin → F.kind (nth (F.dmrenorm s.2).pri 0) = .fin → s.1.pri.length = fold →
    F.kind (nth (F.zasumLoop T fold fuel es dep s y).pri 0) = (F.kind (nth y.pri 0)).add (F.kinds ((parts es).map fabs)) := by
  have base : ∀ {s : Binned × Binned} {y : Binned}, y.pri.length = fold → 1 ≤ fold → F.kind (nth y.pri 0) ≠ .fin →
    F.kind (nth (F.dmrenorm s.1).pri 0) = .fin → F.kind (nth (F.dmrenorm s.2).pri 0) = .fin → s.1.pri.length = fold →
    F.kind (nth (F.dmdmadd fold (F.dmrenorm s.2) (F.dmdmadd fold (F.dmrenorm s.1) y)).pri 0) = F.kind (nth y.pri 0) := by
    intro s y hy hf hk r1 r2 hl
    have m1 := madd_special (F := F) (fold := fold) (x := F.dmrenorm s.1) (y := y) (by omega) (Or.inr hk)
    rw [r1, Kind.add_fin] at m1
    have hlen : 1 ≤ (F.dmdmadd fold (F.dmrenorm s.1) y).pri.length := by
      unfold dmdmadd
      split
      · omega
      · split
        · rw [renorm_length]; omega
        · rw [isNaNInf_kind.2 hk, Bool.or_true]
          simp only [if_true]
          cases hp : y.pri with
          | nil => rw [hp] at hy; simp at hy; omega
          | cons m ms => simp
    rw [madd_special hlen (Or.inr (by rw [m1]; exact hk)), r2, Kind.add_fin, m1]
  intro fuel
  induction fuel with
  | zero =>
    intro es dep s y hlen hy hf hk k0 k1 r0 r1 hl
    have h0 : es = [] := List.eq_nil_of_length_eq_zero (by omega)
    subst h0
    unfold zasumLoop
    rw [base hy hf hk r0 r1 hl]; simp [parts, kinds]
  | succ fuel ih =>
    intro es dep s y hlen hy hf hk k0 k1 r0 r1 hl
    unfold zasumLoop
    by_cases h0 : es = []
    · rw [if_pos (by simp [h0]), base hy hf hk r0 r1 hl, h0]; simp [parts, kinds]
    · rw [if_neg (by simpa using h0)]
      dsimp only
      have hnb1 := hT.nb1
      have hpos : 1 ≤ es.length := List.length_pos_iff.2 h0
      have hrl : (es.drop T.nb).length = es.length - T.nb := List.length_drop
      have hkv : F.kinds ((parts es).map fabs) = (F.kinds ((parts (es.take T.nb)).map fabs)).add (F.kinds ((parts (es.drop T.nb)).map fabs)) := by
        rw [← kinds_parts, List.take_append_drop]
      have n0 : F.isNaN (nth s.1.pri 0) = false := finite_not_nan (kind_fin.1 k0)
      have n1 : F.isNaN (nth s.2.pri 0) = false := finite_not_nan (kind_fin.1 k1)
      have hacc : F.kind (nth (F.accum0 ((es.take T.nb).flatMap (fun a => [fabs a.1, fabs a.2])) y).pri 0) = (F.kind (nth y.pri 0)).add (F.kinds ((parts (es.take T.nb)).map fabs)) := by
        rw [accum0_pri0 _ (by omega), foldl_add_special _ hk, kinds_flat]
      have nanres : ∀ {y' : Binned}, 1 ≤ y'.pri.length → F.isNaN (nth y'.pri 0) = true → F.kind (nth (F.accum0 [F.add (nth s.1.pri 0) (nth s.2.pri 0)] y').pri 0) = .nan := by
        intro y' h1 h2
        rw [accum0_pri0 _ h1, kind_nan]
        exact add_nan_left h2
      rw [n0, n1]
      simp only [Bool.or_false]
      cases hc : F.kind (nth y.pri 0) with
      | fin => exact absurd hc hk
      | nan =>
        have hy' : ∀ c : Bool, F.isNaN (nth (if c = true then F.accum0 ((es.take T.nb).flatMap (fun a => [fabs a.1, fabs a.2])) y else y).pri 0) = true := by
          intro c; cases c
          · exact nan_of_kind hc
          · apply nan_of_kind; simp only [if_true]; rw [hacc, hc]; rfl
        rw [if_pos (hy' _)]
        rw [nanres _ (hy' _)]
        · rfl
        · split
          · rw [accum0_length]; omega
          · omega
      | inf t =>
        have hi := (inf_of_kind hc).2
        rw [hi, Bool.or_true]
        simp only [if_true]
        rw [hc] at hacc
        cases hk2 : F.kind (nth (F.accum0 ((es.take T.nb).flatMap (fun a => [fabs a.1, fabs a.2])) y).pri 0) with
        | fin =>
          rw [hk2] at hacc
          exact absurd hacc.symm (Kind.add_ne_fin (by simp))
        | nan =>
          rw [if_pos (nan_of_kind hk2), nanres (by rw [accum0_length]; omega) (nan_of_kind hk2)]
          rw [hk2] at hacc
          rw [hkv, ← Kind.add_assoc, ← hacc]
          rfl
        | inf u =>
          have hnt := inf_of_kind hk2
          rw [hnt.1, hnt.2]
          simp only [Bool.false_eq_true, if_false, if_true]
          rw [ih (es.drop T.nb) (by omega) (by rw [accum0_length]; exact hy) hf (by rw [hk2]; simp) k0 k1 r0 r1 hl, hacc, hkv, Kind.add_assoc]

/-- The loop on elements some parts of which are not finite. -/
theorem zasumLoop_mixed [F.OK] {T : Tune} (hT : T.OK F) {fold : Nat} (hfold : 2 ≤ fold) {y : Binned} (hy : y.pri.length = fold) (hyf : F.kind (nth y.pri 0) = .fin)
    (hyn : (nth y.pri 0).neg = false) :
    ∀ (fuel : Nat) (es : List (Flt × Flt)) {d dep N : Nat} {s : Binned × Binned}, es.length ≤ fuel → AState F fold d N s → d ≤ dep → dep ≤ F.endurance →
    N + es.length ≤ F.capacity → F.kinds ((parts es).map fabs) ≠ .fin →
    F.kind (nth (F.zasumLoop T fold fuel es dep s y).pri 0) = F.kinds ((parts es).map fabs) := by
  have hyi := finite_not_inf (kind_fin.1 hyf)
  have hynn := finite_not_nan (kind_fin.1 hyf)
  intro fuel
  induction fuel with
  | zero =>
    intro es d dep N s hlen _ _ _ _ hk
    have h0 : es = [] := List.eq_nil_of_length_eq_zero (by omega)
    subst h0; exact absurd rfl hk
  | succ fuel ih =>
    intro es d dep N s hlen hs hd hdep hN hk
    unfold zasumLoop
    have h0 : es ≠ [] := by intro h0; subst h0; exact hk rfl
    rw [if_neg (by simpa using h0)]
    obtain ⟨l0, l1, k0, k1⟩ := hs.facts hfold (by omega)
    obtain ⟨rl0, -, rk0, rk1⟩ := (hs.renorm hfold (by omega) (by omega)).facts hfold (Nat.zero_le _)
    have hnb1 := hT.nb1
    have hnb2 := hT.nb2
    have hpos : 1 ≤ es.length := List.length_pos_iff.2 h0
    have hbl : (es.take T.nb).length = min T.nb es.length := List.length_take
    have hbne : es.take T.nb ≠ [] := by intro hc; rw [hc] at hbl; simp at hbl; omega
    have hrl : (es.drop T.nb).length = es.length - T.nb := List.length_drop
    have hkv : F.kinds ((parts es).map fabs) = (F.kinds ((parts (es.take T.nb)).map fabs)).add (F.kinds ((parts (es.drop T.nb)).map fabs)) := by
      rw [← kinds_parts, List.take_append_drop]
    have n0 : F.isNaN (nth s.1.pri 0) = false := finite_not_nan (kind_fin.1 k0)
    have n1 : F.isNaN (nth s.2.pri 0) = false := finite_not_nan (kind_fin.1 k1)
    dsimp only
    rw [n0, n1]
    simp only [Bool.or_false]
    by_cases hkb : F.kinds ((parts (es.take T.nb)).map fabs) = .fin
    · have hbf : ∀ x ∈ parts (es.take T.nb), F.Finite x := fun x hx => kinds_fin.1 hkb (fabs x) (List.mem_map_of_mem hx)
      rw [hkb, Kind.fin_add] at hkv
      rw [hkv]
      have hk' : F.kinds ((parts (es.drop T.nb)).map fabs) ≠ .fin := by rw [← hkv]; exact hk
      by_cases hov : dep + (es.take T.nb).length > F.endurance
      · have hst := (hs.renorm hfold (by omega) (by omega)).step hT hfold hbne hbf (by omega)
        rw [hst.1, hyi]
        simp only [Bool.or_self, Bool.false_eq_true, if_false, hynn, hyi, if_pos hov]
        exact ih (es.drop T.nb) (by omega) hst.2 (by omega) (by omega) (by omega) hk'
      · have hst := hs.step hT hfold hbne hbf (by omega)
        rw [hst.1, hyi]
        simp only [Bool.or_self, Bool.false_eq_true, if_false, hynn, hyi, if_neg hov]
        exact ih (es.drop T.nb) (by omega) hst.2 (by omega) (by omega) (by omega) hk'
    · by_cases hai : F.isInf (F.fmax (F.amaxZ T 1 zasumOp.fR zasumOp.zfill (es.take T.nb)) (F.amaxZ T 1 zasumOp.fI zasumOp.zfill (es.take T.nb))) = true
      · rw [hai]
        simp only [Bool.true_or, if_true]
        have hacc := accum0_pri0 (F := F) ((es.take T.nb).flatMap (fun a => [fabs a.1, fabs a.2])) (y := y) (by omega)
        have hsum := foldl_add_abs (F := F) ((es.take T.nb).flatMap (fun a => [fabs a.1, fabs a.2])) (m := nth y.pri 0) hyn (kind_fin.1 hyf) flat_nonneg
          (by rw [kinds_flat]; exact hkb)
        rw [← hacc, kinds_flat] at hsum
        cases hK : F.kinds ((parts (es.take T.nb)).map fabs) with
        | fin => exact absurd hK hkb
        | nan =>
          rw [hK] at hsum
          rw [if_pos (nan_of_kind hsum), accum0_pri0 _ (by rw [accum0_length]; omega), hkv, hK]
          show F.kind (F.add _ _) = _
          rw [kind_nan.2 (add_nan_left (nan_of_kind hsum))]
          rfl
        | inf t =>
          rw [hK] at hsum
          have hi := inf_of_kind hsum
          rw [hi.1, hi.2]
          simp only [Bool.false_eq_true, if_false, if_true]
          rw [zasumLoop_special hT fuel (es.drop T.nb) (by omega) (by rw [accum0_length]; exact hy) (by omega) (by rw [hsum]; simp) k0 k1 rk0 rk1 l0, hsum, hkv, hK]
      · have hnan : ∃ x ∈ parts (es.take T.nb), F.isNaN x = true := by
          by_contra hc
          exact hai (amax_pair_inf hT hkb hc)
        have hKn : F.kinds ((parts (es.take T.nb)).map fabs) = .nan := by rw [kinds_abs, if_pos hnan]
        simp only [Bool.not_eq_true] at hai
        rw [hai, hyi]
        simp only [Bool.or_self, Bool.false_eq_true, if_false, hynn, hyi]
        rw [hkv, hKn]
        show _ = Kind.nan
        generalize F.fmax (F.amaxZ T 1 zasumOp.fR zasumOp.zfill (es.take T.nb)) (F.amaxZ T 1 zasumOp.fI zasumOp.zfill (es.take T.nb)) = a
        obtain ⟨x, hx, hxn⟩ := hnan
        obtain ⟨p, hp, hpx⟩ := mem_parts.1 hx
        have ul : ∀ c : Bool, (F.dmdupdate fold a (if c = true then F.dmrenorm s.1 else s.1)).pri.length = fold ∧
            (F.dmdupdate fold a (if c = true then F.dmrenorm s.2 else s.2)).pri.length = fold := by
          intro c
          cases c
          · exact ⟨update_length l0, update_length l1⟩
          · exact ⟨update_length (by simp only [if_true]; rw [renorm_length]; exact l0), update_length (by simp only [if_true]; rw [renorm_length]; exact l1)⟩
        have ul' := ul (decide (dep + (es.take T.nb).length > F.endurance))
        simp only [decide_eq_true_eq] at ul'
        refine zasumLoop_nan fuel _ (by omega) ?_ ?_ (by omega)
        · dsimp only; rw [kernelZ_len, ul'.1]; omega
        · dsimp only
          rcases hpx with e | e
          · left
            refine kernelZ_nan hT (Nat.le_refl 1) (by rw [ul'.1]; omega) (Or.inl ⟨fabs p.1, ?_, ?_⟩)
            · rw [partNums_one]; exact List.mem_map.2 ⟨p, hp, rfl⟩
            · rw [← e]; exact hxn
          · right
            refine kernelZ_nan hT (Nat.le_refl 1) (by rw [ul'.2]; omega) (Or.inl ⟨fabs p.2, ?_, ?_⟩)
            · rw [partNums_one]; exact List.mem_map.2 ⟨p, hp, rfl⟩
            · rw [← e]; exact hxn

end Repro
