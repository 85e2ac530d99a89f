import Verif.PropsZInf
/-!
# C52: the theorems
-/

namespace Repro
open Fmt
variable {F : Fmt}

theorem madd_pos {fold : Nat} (hf : 1 ≤ fold) {x y : Binned} (hx : 1 ≤ x.pri.length) (hy : 1 ≤ y.pri.length) : 1 ≤ (F.dmdmadd fold x y).pri.length := by
  unfold dmdmadd
  split
  · exact hy
  · split
    · exact hx
    · split
      · cases hp : y.pri with
        | nil => rw [hp] at hy; simp at hy
        | cons m ms => simp
      · dsimp only
        split <;> rw [renorm_length] <;> simp <;> omega

theorem div_nan_left {x y : Flt} (h : F.isNaN x = true) : F.isNaN (F.div x y) = true := by
  unfold Fmt.div; rw [h]; simp only [Bool.true_or, if_true]
  unfold isNaN Fmt.nan; have := pow_pos' (F.p - 2); simp

theorem rescale_nan [F.OK] {S S' : Flt} {y : Binned} (hy : 1 ≤ y.pri.length) (h : F.isNaN (nth y.pri 0) = true) : F.isNaN (nth (F.dmdrescale S S' y).pri 0) = true := by
  unfold dmdrescale
  split
  · exact h
  · dsimp only
    cases hp : y.pri with
    | nil => rw [hp] at hy; simp at hy
    | cons m ms =>
      rw [hp] at h
      have hm : F.isNaN m = true := h
      have hd : F.isNaN (F.div m (F.mul (F.div S S') (F.div S S'))) = true := div_nan_left hm
      unfold rescaleLoop
      dsimp only
      rw [kind_not_zero (F := F) (by rw [kind_nan.2 hd]; simp)]
      exact hd

/-- A pair of rows of the same length. -/
def Row (fold : Nat) (y : Binned) : Prop := y.pri.length = fold ∧ y.car.length = fold

theorem maddsq_nan [F.OK] {fold : Nat} (hf : 1 ≤ fold) {S S' : Flt} {x y : Binned} (hx : Row fold x) (hy : 1 ≤ y.pri.length ∧ y.pri.length = y.car.length)
    (h : F.isNaN (nth x.pri 0) = true ∨ F.isNaN (nth y.pri 0) = true) :
    F.kind (nth (F.dmdmaddsq fold S x S' y).2.pri 0) = .nan := by
  have go : ∀ {x y : Binned}, 1 ≤ y.pri.length → (F.isNaN (nth x.pri 0) = true ∨ F.isNaN (nth y.pri 0) = true) →
      F.kind (nth (F.dmdmadd fold x y).pri 0) = .nan := by
    intro x y hy h
    rcases h with h | h
    · rw [madd_special hy (Or.inl (by rw [kind_nan.2 h]; simp)), kind_nan.2 h]
      cases F.kind (nth y.pri 0) <;> rfl
    · rw [madd_special hy (Or.inr (by rw [kind_nan.2 h]; simp)), kind_nan.2 h]; rfl
  unfold dmdmaddsq
  split
  · dsimp only
    apply go
    · rw [rescale_len' hy.2]; exact hy.1
    · rcases h with h | h
      · exact Or.inl h
      · exact Or.inr (rescale_nan hy.1 h)
  · split
    · exact go hy.1 h
    · dsimp only
      apply go hy.1
      rcases h with h | h
      · exact Or.inl (rescale_nan (by rw [hx.1]; exact hf) h)
      · exact Or.inr h

theorem madd_row [F.OK] {fold : Nat} {x y : Binned} (hx : Row fold x) (hy : Row fold y) (hf : 1 ≤ fold) : Row fold (F.dmdmadd fold x y) := by
  unfold dmdmadd
  split
  · exact hy
  · split
    · exact hx
    · split
      · obtain ⟨h1, h2⟩ := hy
        cases hp : y.pri with
        | nil => rw [hp] at h1; simp at h1; omega
        | cons m ms =>
          rw [hp] at h1
          exact ⟨h1, h2⟩
      · dsimp only
        split <;> exact ⟨by rw [renorm_length]; simp, by unfold dmrenorm; split <;> simp⟩

theorem rescale_row {fold : Nat} {S S' : Flt} {y : Binned} (h : Row fold y) : Row fold (F.dmdrescale S S' y) := by
  obtain ⟨h1, h2⟩ := h
  unfold dmdrescale
  split
  · exact ⟨h1, h2⟩
  · have := rescale_len (F := F) (r := F.mul (F.div S S') (F.div S S')) y.pri y.car (by omega)
    exact ⟨by rw [this.1, h1], by rw [this.2, h1]⟩

theorem maddsq_row [F.OK] {fold : Nat} (hf : 1 ≤ fold) {S S' : Flt} {x y : Binned} (hx : Row fold x) (hy : Row fold y) :
    Row fold (F.dmdmaddsq fold S x S' y).2 := by
  unfold dmdmaddsq
  split
  · exact madd_row hx (rescale_row hy) hf
  · split
    · exact madd_row hx hy hf
    · exact madd_row (rescale_row hx) hy hf

theorem renorm_row {fold : Nat} {y : Binned} (h : Row fold y) : Row fold (F.dmrenorm y) := by
  obtain ⟨h1, h2⟩ := h
  unfold dmrenorm
  split
  · exact ⟨h1, h2⟩
  · exact ⟨by simp [h1], by simp [h1, h2]⟩

theorem update_row {fold : Nat} {x : Flt} {y : Binned} (h : Row fold y) : Row fold (F.dmdupdate fold x y) := update_len h.1 h.2

theorem accum0_row {fold : Nat} {b : List Flt} {y : Binned} (h : Row fold y) : Row fold (F.accum0 b y) := by
  refine ⟨by rw [accum0_length]; exact h.1, ?_⟩
  unfold accum0; exact h.2

theorem zssqEnd_nan [F.OK] {fold : Nat} (hf : 1 ≤ fold) {S S' : Flt} {s : Binned × Binned} {y : Binned} (hs : Row fold s.1 ∧ Row fold s.2) (hy : Row fold y)
    (h : F.isNaN (nth s.1.pri 0) = true ∨ F.isNaN (nth s.2.pri 0) = true) :
    (F.zssqEnd fold S s S' y).1 = F.dscale F.one ∧ F.kind (nth (F.zssqEnd fold S s S' y).2.pri 0) = .nan := by
  have rn : ∀ {t : Binned}, F.isNaN (nth t.pri 0) = true → F.isNaN (nth (F.dmrenorm t).pri 0) = true := by
    intro t ht; rw [renorm_special (by rw [kind_nan.2 ht]; simp)]; exact ht
  have r1 := renorm_row (F := F) hs.1
  have r2 := renorm_row (F := F) hs.2
  have mr := maddsq_row (F := F) hf (S := S) (S' := S') r1 hy
  have key : F.kind (nth (F.dmdmaddsq fold S (F.dmrenorm s.2) (F.dmdmaddsq fold S (F.dmrenorm s.1) S' y).1 (F.dmdmaddsq fold S (F.dmrenorm s.1) S' y).2).2.pri 0) = .nan := by
    apply maddsq_nan hf r2 ⟨by rw [mr.1]; exact hf, by rw [mr.1, mr.2]⟩
    rcases h with h | h
    · right
      exact kind_nan.1 (maddsq_nan hf r1 ⟨by rw [hy.1]; exact hf, by rw [hy.1, hy.2]⟩ (Or.inl (rn h)))
    · exact Or.inl (rn h)
  unfold zssqEnd
  dsimp only
  rw [key, isNaNInf_kind.2 (by rw [key]; simp)]
  exact ⟨rfl, rfl⟩

/-- A NaN in the temporary. -/
theorem zssqLoop_nan [F.OK] {T : Tune} {fold : Nat} (hf : 1 ≤ fold) (fuel : Nat) (es : List (Flt × Flt)) {dep : Nat} {S S' : Flt} {s : Binned × Binned} {y : Binned}
    (hs : Row fold s.1 ∧ Row fold s.2) (hy : Row fold y) (h : F.isNaN (nth s.1.pri 0) = true ∨ F.isNaN (nth s.2.pri 0) = true) :
    (F.zssqLoop T fold S' fuel es dep S s y).1 = F.dscale F.one ∧ F.kind (nth (F.zssqLoop T fold S' fuel es dep S s y).2.pri 0) = .nan := by
  have base := zssqEnd_nan (F := F) hf (S := S) (S' := S') hs hy h
  cases fuel with
  | zero => unfold zssqLoop; exact base
  | succ fuel =>
    unfold zssqLoop
    by_cases h0 : es = []
    · rw [if_pos h0]; exact base
    · rw [if_neg h0]
      dsimp only
      have hc : ∀ c : Bool, (c || F.isNaN (nth s.1.pri 0) || F.isNaN (nth s.2.pri 0)) = true := by
        intro c
        rcases h with h | h <;> simp [h]
      rw [if_pos (hc _)]
      refine ⟨rfl, ?_⟩
      have hl : ∀ c : Bool, 1 ≤ (if c = true then F.accum0 ((es.take T.nb).flatMap (fun a => [fabs a.1, fabs a.2])) y else y).pri.length := by
        intro c
        have := hy.1
        cases c
        · simp only [Bool.false_eq_true, if_false]; omega
        · simp only [if_true]; rw [accum0_length]; omega
      rw [accum0_pri0 _ (hl _), kind_nan]
      apply add_nan_right
      rcases h with h | h
      · exact add_nan_left h
      · exact add_nan_right h

/-- What holds of the temporary while everything is finite. -/
theorem ZState.facts [F.OK] {fold d : Nat} {ps : List (Flt × Flt)} {S : Flt} {s : Binned × Binned} (h : ZState F fold d ps S s) (hfold : 2 ≤ fold) (hd : d ≤ F.endurance) :
    Row fold s.1 ∧ Row fold s.2 ∧ F.kind (nth s.1.pri 0) = .fin ∧ F.kind (nth s.2.pri 0) = .fin ∧ (S = zero ∨ F.lt zero S = true ∧ F.Finite S) := by
  rcases h with ⟨rfl, rfl, rfl⟩ | ⟨h1, rfl, h3, h4⟩
  · have e : nth (dmsetzero fold).pri 0 = zero := by unfold dmsetzero; exact nth_setzero fold
    refine ⟨⟨by simp [dmsetzero], by simp [dmsetzero]⟩, ⟨by simp [dmsetzero], by simp [dmsetzero]⟩, ?_, ?_, Or.inl rfl⟩ <;> rw [e] <;> exact kind_fin.2 zero_finite
  · have row : ∀ {n N k : Nat} {A : Nat → Int} {y : Binned}, F.Mid fold n N k A y → Row fold y := by
      intro n N k A y hm
      obtain ⟨B, C, Z, e, _⟩ := hm
      rw [e]; exact midZ_len F fold k B C Z
    obtain ⟨n, m, z, i1, v1, w1⟩ := scale_of h3.fin
    exact ⟨row h3.mid, row h4.mid, isNaNInf_kind'.1 (h3.mid.finite (by omega) hd), isNaNInf_kind'.1 (h4.mid.finite (by omega) hd), Or.inr ⟨scale_pos h3.fin, i1.fin⟩⟩

theorem ZState.renorm [F.OK] {fold d : Nat} {ps : List (Flt × Flt)} {S : Flt} {s : Binned × Binned} (h : ZState F fold d ps S s) (hfold : 2 ≤ fold) (hd : d ≤ F.endurance)
    (hN : ps.length ≤ F.capacity) : ZState F fold 0 ps S (F.dmrenorm s.1, F.dmrenorm s.2) := by
  rcases h with ⟨rfl, rfl, rfl⟩ | ⟨g1, g2, g3, g4⟩
  · left
    have hren : F.dmrenorm (dmsetzero fold) = dmsetzero fold := by
      unfold dmrenorm dmsetzero; dsimp only; rw [nth_setzero]; rfl
    exact ⟨rfl, rfl, by dsimp only; rw [hren]⟩
  · right
    refine ⟨g1, g2, ?_, ?_⟩
    · rw [g3.renorm (by omega) (by omega) (by rw [List.length_map]; omega)]; exact SsqM.of g3.fin g3.le
    · rw [g4.renorm (by omega) (by omega) (by rw [List.length_map]; omega)]; exact SsqM.of g4.fin g4.le

/-- Merging a finite temporary into an infinite result that had no scale. -/
theorem zssqEnd_special [F.OK] {fold : Nat} (hf : 1 ≤ fold) {S : Flt} {s : Binned × Binned} {y : Binned} (hs : Row fold s.1) (hy : Row fold y)
    (hk : F.kind (nth y.pri 0) ≠ .fin) (r0 : F.kind (nth (F.dmrenorm s.1).pri 0) = .fin) (r1 : F.kind (nth (F.dmrenorm s.2).pri 0) = .fin)
    (hS : S = zero ∨ F.lt zero S = true ∧ F.Finite S) :
    (F.zssqEnd fold S s zero y).1 = F.dscale F.one ∧ F.kind (nth (F.zssqEnd fold S s zero y).2.pri 0) = F.kind (nth y.pri 0) := by
  have feqS : ∀ {a : Flt}, F.Finite a → F.feq a a = true := by
    intro a ha; unfold feq; rw [finite_not_nan ha]; simp
  have ltS : ∀ {a : Flt}, F.lt a a = false := by intro a; unfold lt; simp
  have hSf : F.Finite S := by
    rcases hS with rfl | h
    · exact zero_finite
    · exact h.2
  have e1 : ∀ x : Binned, F.dmdmaddsq fold S x zero y = (S, F.dmdmadd fold x y) := by
    intro x
    unfold dmdmaddsq
    rcases hS with rfl | ⟨h, _⟩
    · rw [ltS, feqS zero_finite]; rfl
    · rw [h]
      have : F.dmdrescale S zero y = y := by
        unfold dmdrescale
        have : isZero (zero : Flt) = true := rfl
        rw [this, Bool.or_true]; rfl
      rw [this]; rfl
  have e2 : ∀ x y : Binned, F.dmdmaddsq fold S x S y = (S, F.dmdmadd fold x y) := by
    intro x y; unfold dmdmaddsq; rw [ltS, feqS hSf]; rfl
  unfold zssqEnd
  dsimp only
  rw [e1]
  dsimp only
  rw [e2]
  dsimp only
  have m1 := madd_special (F := F) (fold := fold) (x := F.dmrenorm s.1) (y := y) (by rw [hy.1]; exact hf) (Or.inr hk)
  rw [r0, Kind.add_fin] at m1
  have m2 := madd_special (F := F) (fold := fold) (x := F.dmrenorm s.2) (y := F.dmdmadd fold (F.dmrenorm s.1) y)
    (madd_pos hf (by rw [(renorm_row hs).1]; exact hf) (by rw [hy.1]; exact hf)) (Or.inr (by rw [m1]; exact hk))
  rw [r1, Kind.add_fin, m1] at m2
  rw [m2, isNaNInf_kind.2 (by rw [m2]; exact hk)]
  exact ⟨rfl, rfl⟩

theorem mul_self_neg (t : Flt) : F.isNaN (F.mul t t) = true ∨ (F.mul t t).neg = false := by
  by_cases h : F.isNaN (F.mul t t) = true
  · exact Or.inl h
  · right
    unfold Fmt.mul at h ⊢
    split
    · rfl
    · rename_i h1
      rw [if_neg h1] at h
      split
      · rename_i h2
        rw [if_pos h2] at h
        split
        · rfl
        · simp
      · simp

/-- Dividing an infinity by a square. -/
theorem rescale_inf [F.OK] {S S' : Flt} {y : Binned} {t : Bool} (hy : 1 ≤ y.pri.length) (h : F.kind (nth y.pri 0) = .inf t) :
    F.kind (nth (F.dmdrescale S S' y).pri 0) = .inf t ∨ F.kind (nth (F.dmdrescale S S' y).pri 0) = .nan := by
  unfold dmdrescale
  split
  · exact Or.inl h
  · dsimp only
    cases hp : y.pri with
    | nil => rw [hp] at hy; simp at hy
    | cons m ms =>
      rw [hp] at h
      have hm : m = F.inf t := kind_inf.1 h
      generalize F.div S S' = q
      have hd : F.kind (F.div m (F.mul q q)) = .inf t ∨ F.kind (F.div m (F.mul q q)) = .nan := by
        have ⟨i1, i2⟩ := inf_of_kind (F := F) (x := m) h
        rcases mul_self_neg (F := F) q with hn | hn
        · right
          rw [kind_nan]
          unfold Fmt.div; rw [hn]; simp only [Bool.or_true, if_true]
          unfold isNaN Fmt.nan; have := pow_pos' (F.p - 2); simp
        · by_cases hn' : F.isNaN (F.mul q q) = true
          · right
            rw [kind_nan]
            unfold Fmt.div; rw [hn']; simp only [Bool.or_true, if_true]
            unfold isNaN Fmt.nan; have := pow_pos' (F.p - 2); simp
          · simp only [Bool.not_eq_true] at hn'
            unfold Fmt.div
            rw [i1, i2, hn']
            simp only [Bool.or_self, Bool.false_eq_true, if_false, if_true]
            split
            · right; rw [kind_nan]; unfold isNaN Fmt.nan; have := pow_pos' (F.p - 2); simp
            · left
              rw [kind_inf, hn, hm]
              simp [inf]
      have hnz : isZero (F.div m (F.mul q q)) = false := by
        apply kind_not_zero (F := F)
        rcases hd with hd | hd <;> rw [hd] <;> simp
      unfold rescaleLoop
      dsimp only
      rw [hnz]
      exact hd

theorem inf_add_kind (t : Bool) (K : Kind) (h : K = .fin ∨ K = .inf t ∨ K = .nan) : (Kind.inf t).add K = .inf t ∨ (Kind.inf t).add K = .nan := by
  rcases h with rfl | rfl | rfl
  · exact Or.inl rfl
  · left; cases t <;> rfl
  · exact Or.inr rfl

theorem inf_add_any (t : Bool) (K : Kind) : (Kind.inf t).add K = .inf t ∨ (Kind.inf t).add K = .nan := by
  cases K with
  | fin => exact Or.inl rfl
  | nan => exact Or.inr rfl
  | inf u => cases t <;> cases u <;> simp [Kind.add]

/-- Merging into an infinite result. -/
theorem maddsq_inf [F.OK] {fold : Nat} (hf : 1 ≤ fold) {S S' : Flt} {x y : Binned} (hy : Row fold y) {t : Bool}
    (h : F.kind (nth y.pri 0) = .inf t ∨ F.kind (nth y.pri 0) = .nan) :
    F.kind (nth (F.dmdmaddsq fold S x S' y).2.pri 0) = .inf t ∨ F.kind (nth (F.dmdmaddsq fold S x S' y).2.pri 0) = .nan := by
  have go : ∀ {x y : Binned}, 1 ≤ y.pri.length → (F.kind (nth y.pri 0) = .inf t ∨ F.kind (nth y.pri 0) = .nan) →
      F.kind (nth (F.dmdmadd fold x y).pri 0) = .inf t ∨ F.kind (nth (F.dmdmadd fold x y).pri 0) = .nan := by
    intro x y hy h
    rcases h with h | h
    · rw [madd_special hy (Or.inr (by rw [h]; simp)), h]; exact inf_add_any _ _
    · rw [madd_special hy (Or.inr (by rw [h]; simp)), h]; exact Or.inr rfl
  have hl : 1 ≤ y.pri.length := by rw [hy.1]; exact hf
  unfold dmdmaddsq
  split
  · dsimp only
    apply go
    · rw [(rescale_row hy).1]; exact hf
    · rcases h with h | h
      · exact rescale_inf hl h
      · exact Or.inr (kind_nan.2 (rescale_nan hl (nan_of_kind h)))
  · split
    · exact go hl h
    · exact go hl h

theorem zssqEnd_inf [F.OK] {fold : Nat} (hf : 1 ≤ fold) {S S' : Flt} {s : Binned × Binned} {y : Binned} (hs : Row fold s.1) (hy : Row fold y) {t : Bool}
    (h : F.kind (nth y.pri 0) = .inf t ∨ F.kind (nth y.pri 0) = .nan) :
    (F.zssqEnd fold S s S' y).1 = F.dscale F.one ∧
    (F.kind (nth (F.zssqEnd fold S s S' y).2.pri 0) = .inf t ∨ F.kind (nth (F.zssqEnd fold S s S' y).2.pri 0) = .nan) := by
  have m1 := maddsq_inf (F := F) hf (S := S) (S' := S') (x := F.dmrenorm s.1) hy h
  have m2 := maddsq_inf (F := F) hf (S := S) (S' := (F.dmdmaddsq fold S (F.dmrenorm s.1) S' y).1) (x := F.dmrenorm s.2)
    (maddsq_row hf (renorm_row hs) hy) m1
  unfold zssqEnd
  dsimp only
  refine ⟨?_, m2⟩
  rw [isNaNInf_kind.2 (by rcases m2 with m | m <;> rw [m] <;> simp)]
  rfl

/-- The result is already infinite or NaN: whatever the scales, it stays so. -/
theorem zssqLoop_inf [F.OK] {T : Tune} (hT : T.OK F) {fold : Nat} (hf : 1 ≤ fold) {S S' : Flt} {s : Binned × Binned} (hs : Row fold s.1)
    (k0 : F.kind (nth s.1.pri 0) = .fin) (k1 : F.kind (nth s.2.pri 0) = .fin) {t : Bool} :
    ∀ (fuel : Nat) (es : List (Flt × Flt)) {dep : Nat} {y : Binned}, es.length ≤ fuel → Row fold y → (F.kind (nth y.pri 0) = .inf t ∨ F.kind (nth y.pri 0) = .nan) →
    (F.zssqLoop T fold S' fuel es dep S s y).1 = F.dscale F.one ∧
    (F.kind (nth (F.zssqLoop T fold S' fuel es dep S s y).2.pri 0) = .inf t ∨ F.kind (nth (F.zssqLoop T fold S' fuel es dep S s y).2.pri 0) = .nan) ∧
    ((F.kind (nth y.pri 0)).add (F.kinds ((parts es).map fabs)) = .nan → F.kind (nth (F.zssqLoop T fold S' fuel es dep S s y).2.pri 0) = .nan) := by
  have base : ∀ {y : Binned}, Row fold y → (F.kind (nth y.pri 0) = .inf t ∨ F.kind (nth y.pri 0) = .nan) →
      (F.zssqEnd fold S s S' y).1 = F.dscale F.one ∧
      (F.kind (nth (F.zssqEnd fold S s S' y).2.pri 0) = .inf t ∨ F.kind (nth (F.zssqEnd fold S s S' y).2.pri 0) = .nan) ∧
      ((F.kind (nth y.pri 0)).add (F.kinds ((parts []).map fabs)) = .nan → F.kind (nth (F.zssqEnd fold S s S' y).2.pri 0) = .nan) := by
    intro y hy h
    have a := zssqEnd_inf (F := F) hf (S := S) (S' := S') hs hy h
    refine ⟨a.1, a.2, ?_⟩
    intro hn
    have hn : F.kind (nth y.pri 0) = .nan := by
      have e : F.kinds ((parts []).map fabs) = .fin := rfl
      rwa [e, Kind.add_fin] at hn
    have b := maddsq_nan (F := F) hf (S := S) (S' := S') (x := F.dmrenorm s.1) (y := y) (renorm_row hs) ⟨by rw [hy.1]; exact hf, by rw [hy.1, hy.2]⟩ (Or.inr (nan_of_kind hn))
    have r := maddsq_row (F := F) hf (S := S) (S' := S') (renorm_row (F := F) hs) hy
    have m2 := maddsq_inf (F := F) hf (S := S) (S' := (F.dmdmaddsq fold S (F.dmrenorm s.1) S' y).1) (x := F.dmrenorm s.2) r (t := false) (Or.inr b)
    have m3 := maddsq_inf (F := F) hf (S := S) (S' := (F.dmdmaddsq fold S (F.dmrenorm s.1) S' y).1) (x := F.dmrenorm s.2) r (t := true) (Or.inr b)
    unfold zssqEnd
    dsimp only
    rcases m2 with m2 | m2
    · rcases m3 with m3 | m3
      · rw [m2] at m3; simp at m3
      · exact m3
    · exact m2
  intro fuel
  induction fuel with
  | zero =>
    intro es dep y hlen hy h
    have h0 : es = [] := List.eq_nil_of_length_eq_zero (by omega)
    subst h0
    unfold zssqLoop
    exact base hy h
  | succ fuel ih =>
    intro es dep y hlen hy h
    unfold zssqLoop
    by_cases h0 : es = []
    · rw [if_pos h0, h0]; exact base hy h
    · rw [if_neg h0]
      dsimp only
      have hnb1 := hT.nb1
      have hyl := hy.1
      have hpos : 1 ≤ es.length := List.length_pos_iff.2 h0
      have hrl : (es.drop T.nb).length = es.length - T.nb := List.length_drop
      have hk : F.kind (nth y.pri 0) ≠ .fin := by rcases h with h | h <;> rw [h] <;> simp
      have hkv : F.kinds ((parts es).map fabs) = (F.kinds ((parts (es.take T.nb)).map fabs)).add (F.kinds ((parts (es.drop T.nb)).map fabs)) := by
        rw [← kinds_parts, List.take_append_drop]
      have n0 : F.isNaN (nth s.1.pri 0) = false := finite_not_nan (kind_fin.1 k0)
      have n1 : F.isNaN (nth s.2.pri 0) = false := finite_not_nan (kind_fin.1 k1)
      have hacc : F.kind (nth (F.accum0 ((es.take T.nb).flatMap (fun a => [fabs a.1, fabs a.2])) y).pri 0) = (F.kind (nth y.pri 0)).add (F.kinds ((parts (es.take T.nb)).map fabs)) := by
        rw [accum0_pri0 _ (by omega), foldl_add_special _ hk, kinds_flat]
      have nanres : ∀ {y' : Binned}, 1 ≤ y'.pri.length → F.isNaN (nth y'.pri 0) = true → F.kind (nth (F.accum0 [F.add (nth s.1.pri 0) (nth s.2.pri 0)] y').pri 0) = .nan := by
        intro y' h1 h2
        rw [accum0_pri0 _ h1, kind_nan]
        exact add_nan_left h2
      rw [n0, n1]
      simp only [Bool.or_false]
      rcases h with hc | hc
      · have hi := (inf_of_kind hc).2
        rw [hi, Bool.or_true]
        simp only [if_true]
        rw [hc] at hacc
        have hcase : F.kind (nth (F.accum0 ((es.take T.nb).flatMap (fun a => [fabs a.1, fabs a.2])) y).pri 0) = .inf t ∨
            F.kind (nth (F.accum0 ((es.take T.nb).flatMap (fun a => [fabs a.1, fabs a.2])) y).pri 0) = .nan := by rw [hacc]; exact inf_add_any _ _
        rcases hcase with hk2 | hk2
        · have hnt := inf_of_kind hk2
          rw [hnt.1, hnt.2]
          simp only [Bool.false_eq_true, if_false, if_true]
          have := ih (es.drop T.nb) (dep := dep) (by omega) (accum0_row (b := (es.take T.nb).flatMap (fun a => [fabs a.1, fabs a.2])) hy) (Or.inl hk2)
          rw [hacc, Kind.add_assoc, ← hkv] at this
          rw [hc]
          exact this
        · rw [if_pos (nan_of_kind hk2)]
          dsimp only
          rw [nanres (by rw [accum0_length]; omega) (nan_of_kind hk2)]
          exact ⟨rfl, Or.inr rfl, fun _ => rfl⟩
      · have hy' : ∀ c : Bool, F.isNaN (nth (if c = true then F.accum0 ((es.take T.nb).flatMap (fun a => [fabs a.1, fabs a.2])) y else y).pri 0) = true := by
          intro c; cases c
          · exact nan_of_kind hc
          · apply nan_of_kind; simp only [if_true]; rw [hacc, hc]; rfl
        rw [if_pos (hy' _)]
        dsimp only
        rw [nanres _ (hy' _)]
        · exact ⟨rfl, Or.inr rfl, fun _ => rfl⟩
        · split
          · rw [accum0_length]; omega
          · omega

/-- The result is already infinite, the temporary finite. -/
theorem zssqLoop_special [F.OK] {T : Tune} (hT : T.OK F) {fold : Nat} (hf : 1 ≤ fold) {S : Flt} {s : Binned × Binned} (hs : Row fold s.1)
    (k0 : F.kind (nth s.1.pri 0) = .fin) (k1 : F.kind (nth s.2.pri 0) = .fin)
    (r0 : F.kind (nth (F.dmrenorm s.1).pri 0) = .fin) (r1 : F.kind (nth (F.dmrenorm s.2).pri 0) = .fin) (hS : S = zero ∨ F.lt zero S = true ∧ F.Finite S) :
    ∀ (fuel : Nat) (es : List (Flt × Flt)) {dep : Nat} {y : Binned}, es.length ≤ fuel → Row fold y → F.kind (nth y.pri 0) ≠ .fin →
    (F.zssqLoop T fold zero fuel es dep S s y).1 = F.dscale F.one ∧
    F.kind (nth (F.zssqLoop T fold zero fuel es dep S s y).2.pri 0) = (F.kind (nth y.pri 0)).add (F.kinds ((parts es).map fabs)) := by
  intro fuel
  induction fuel with
  | zero =>
    intro es dep y hlen hy hk
    have h0 : es = [] := List.eq_nil_of_length_eq_zero (by omega)
    subst h0
    unfold zssqLoop
    have := zssqEnd_special hf hs hy hk r0 r1 hS
    rw [this.1, this.2]; simp [parts, kinds]
  | succ fuel ih =>
    intro es dep y hlen hy hk
    unfold zssqLoop
    by_cases h0 : es = []
    · rw [if_pos h0]
      have := zssqEnd_special hf hs hy hk r0 r1 hS
      rw [this.1, this.2, h0]; simp [parts, kinds]
    · rw [if_neg h0]
      dsimp only
      have hnb1 := hT.nb1
      have hyl := hy.1
      have hpos : 1 ≤ es.length := List.length_pos_iff.2 h0
      have hrl : (es.drop T.nb).length = es.length - T.nb := List.length_drop
      have hkv : F.kinds ((parts es).map fabs) = (F.kinds ((parts (es.take T.nb)).map fabs)).add (F.kinds ((parts (es.drop T.nb)).map fabs)) := by
        rw [← kinds_parts, List.take_append_drop]
      have n0 : F.isNaN (nth s.1.pri 0) = false := finite_not_nan (kind_fin.1 k0)
      have n1 : F.isNaN (nth s.2.pri 0) = false := finite_not_nan (kind_fin.1 k1)
      have hacc : F.kind (nth (F.accum0 ((es.take T.nb).flatMap (fun a => [fabs a.1, fabs a.2])) y).pri 0) = (F.kind (nth y.pri 0)).add (F.kinds ((parts (es.take T.nb)).map fabs)) := by
        rw [accum0_pri0 _ (by omega), foldl_add_special _ hk, kinds_flat]
      have nanres : ∀ {y' : Binned}, 1 ≤ y'.pri.length → F.isNaN (nth y'.pri 0) = true → F.kind (nth (F.accum0 [F.add (nth s.1.pri 0) (nth s.2.pri 0)] y').pri 0) = .nan := by
        intro y' h1 h2
        rw [accum0_pri0 _ h1, kind_nan]
        exact add_nan_left h2
      rw [n0, n1]
      simp only [Bool.or_false]
      cases hc : F.kind (nth y.pri 0) with
      | fin => exact absurd hc hk
      | nan =>
        have hy' : ∀ c : Bool, F.isNaN (nth (if c = true then F.accum0 ((es.take T.nb).flatMap (fun a => [fabs a.1, fabs a.2])) y else y).pri 0) = true := by
          intro c; cases c
          · exact nan_of_kind hc
          · apply nan_of_kind; simp only [if_true]; rw [hacc, hc]; rfl
        rw [if_pos (hy' _)]
        dsimp only
        rw [nanres _ (hy' _)]
        · exact ⟨rfl, rfl⟩
        · split
          · rw [accum0_length]; omega
          · omega
      | inf t =>
        have hi := (inf_of_kind hc).2
        rw [hi, Bool.or_true]
        simp only [if_true]
        rw [hc] at hacc
        cases hk2 : F.kind (nth (F.accum0 ((es.take T.nb).flatMap (fun a => [fabs a.1, fabs a.2])) y).pri 0) with
        | fin =>
          rw [hk2] at hacc
          exact absurd hacc.symm (Kind.add_ne_fin (by simp))
        | nan =>
          rw [if_pos (nan_of_kind hk2)]
          dsimp only
          rw [nanres (by rw [accum0_length]; omega) (nan_of_kind hk2)]
          rw [hk2] at hacc
          rw [hkv, ← Kind.add_assoc, ← hacc]
          exact ⟨rfl, rfl⟩
        | inf u =>
          have hnt := inf_of_kind hk2
          rw [hnt.1, hnt.2]
          simp only [Bool.false_eq_true, if_false, if_true]
          have := ih (es.drop T.nb) (dep := dep) (by omega) (accum0_row (b := (es.take T.nb).flatMap (fun a => [fabs a.1, fabs a.2])) hy) (by rw [hk2]; simp)
          rw [this.1, this.2, hacc, hkv, Kind.add_assoc]
          exact ⟨rfl, rfl⟩

theorem zmdrescale_row {fold : Nat} {S S' : Flt} {s : Binned × Binned} (h : Row fold s.1 ∧ Row fold s.2) :
    Row fold (F.zmdrescale fold S S' s).1 ∧ Row fold (F.zmdrescale fold S S' s).2 := by
  unfold zmdrescale
  split
  · exact h
  · exact zr_len fold 0 (y := s) h (Nat.le_refl _)

/-- The loop on elements some parts of which are not finite. -/
theorem zssqLoop_mixed [F.OK] {T : Tune} (hT : T.OK F) {fold : Nat} (hfold : 2 ≤ fold) (hJ : F.ssqHi + fold ≤ F.ssqJ + 1) {y : Binned} (hy : Row fold y)
    (hyf : F.kind (nth y.pri 0) = .fin) (hyn : (nth y.pri 0).neg = false) {S' : Flt} :
    ∀ (fuel : Nat) (es : List (Flt × Flt)) {ps : List (Flt × Flt)} {d dep : Nat} {S : Flt} {s : Binned × Binned}, es.length ≤ fuel → ZState F fold d ps S s → d ≤ dep → dep ≤ F.endurance →
    ps.length + es.length ≤ F.capacity → F.kinds ((parts es).map fabs) ≠ .fin →
    (F.zssqLoop T fold S' fuel es dep S s y).1 = F.dscale F.one ∧
    (F.kind (nth (F.zssqLoop T fold S' fuel es dep S s y).2.pri 0) = F.kinds ((parts es).map fabs) ∨
      F.kind (nth (F.zssqLoop T fold S' fuel es dep S s y).2.pri 0) = .nan) ∧
    (S' = zero → F.kind (nth (F.zssqLoop T fold S' fuel es dep S s y).2.pri 0) = F.kinds ((parts es).map fabs)) := by
  have hyi := finite_not_inf (kind_fin.1 hyf)
  have hynn := finite_not_nan (kind_fin.1 hyf)
  have hyl := hy.1
  intro fuel
  induction fuel with
  | zero =>
    intro es ps d dep S s hlen _ _ _ _ hk
    have h0 : es = [] := List.eq_nil_of_length_eq_zero (by omega)
    subst h0; exact absurd rfl hk
  | succ fuel ih =>
    intro es ps d dep S s hlen hs hd hdep hN hk
    unfold zssqLoop
    have h0 : es ≠ [] := by intro h0; subst h0; exact hk rfl
    rw [if_neg h0]
    obtain ⟨w0, w1, k0, k1, hS⟩ := hs.facts hfold (by omega)
    obtain ⟨-, -, rk0, rk1, -⟩ := (hs.renorm hfold (by omega) (by omega)).facts hfold (Nat.zero_le _)
    have hnb1 := hT.nb1
    have hnb2 := hT.nb2
    have hpos : 1 ≤ es.length := List.length_pos_iff.2 h0
    have hbl : (es.take T.nb).length = min T.nb es.length := List.length_take
    have hbne : es.take T.nb ≠ [] := by intro hc; rw [hc] at hbl; simp at hbl; omega
    have hrl : (es.drop T.nb).length = es.length - T.nb := List.length_drop
    have hkv : F.kinds ((parts es).map fabs) = (F.kinds ((parts (es.take T.nb)).map fabs)).add (F.kinds ((parts (es.drop T.nb)).map fabs)) := by
      rw [← kinds_parts, List.take_append_drop]
    have n0 : F.isNaN (nth s.1.pri 0) = false := finite_not_nan (kind_fin.1 k0)
    have n1 : F.isNaN (nth s.2.pri 0) = false := finite_not_nan (kind_fin.1 k1)
    dsimp only
    rw [n0, n1]
    simp only [Bool.or_false]
    by_cases hkb : F.kinds ((parts (es.take T.nb)).map fabs) = .fin
    · have hbf : ∀ x ∈ parts (es.take T.nb), F.Finite x := fun x hx => kinds_fin.1 hkb (fabs x) (List.mem_map_of_mem hx)
      rw [hkb, Kind.fin_add] at hkv
      rw [hkv]
      have hk' : F.kinds ((parts (es.drop T.nb)).map fabs) ≠ .fin := by rw [← hkv]; exact hk
      have hmf := maxMag_finite (parts_ne hbne) hbf
      rw [amax_top hT hbf]
      have hc1 : (F.isInf (top (maxMag (parts (es.take T.nb)))) || F.isInf (nth y.pri 0)) = false := by
        rw [finite_not_inf hmf, hyi]; rfl
      rw [hc1]
      simp only [Bool.false_eq_true, if_false, hynn, hyi]
      by_cases hov : dep + (es.take T.nb).length > F.endurance
      · simp only [if_pos hov]
        have hst := ZState.step hT hfold hJ (hs.renorm hfold (by omega) (by omega)) hbne hbf (by omega)
        exact ih (es.drop T.nb) (by omega) hst (by omega) (by omega) (by rw [List.length_append]; omega) hk'
      · simp only [if_neg hov]
        have hst := ZState.step hT hfold hJ hs hbne hbf (by omega)
        exact ih (es.drop T.nb) (by omega) hst (by omega) (by omega) (by rw [List.length_append]; omega) hk'
    · by_cases hai : F.isInf (F.fmax (F.amaxZ T 1 zasumOp.fR zasumOp.zfill (es.take T.nb)) (F.amaxZ T 1 zasumOp.fI zasumOp.zfill (es.take T.nb))) = true
      · rw [hai]
        simp only [Bool.true_or, if_true]
        have hacc := accum0_pri0 (F := F) ((es.take T.nb).flatMap (fun a => [fabs a.1, fabs a.2])) (y := y) (by omega)
        have hsum := foldl_add_abs (F := F) ((es.take T.nb).flatMap (fun a => [fabs a.1, fabs a.2])) (m := nth y.pri 0) hyn (kind_fin.1 hyf) flat_nonneg
          (by rw [kinds_flat]; exact hkb)
        rw [← hacc, kinds_flat] at hsum
        cases hK : F.kinds ((parts (es.take T.nb)).map fabs) with
        | fin => exact absurd hK hkb
        | nan =>
          rw [hK] at hsum
          rw [if_pos (nan_of_kind hsum)]
          dsimp only
          rw [accum0_pri0 _ (by rw [accum0_length]; omega), hkv, hK]
          have key : F.kind (F.add (nth (F.accum0 ((es.take T.nb).flatMap (fun a => [fabs a.1, fabs a.2])) y).pri 0) (F.add (nth s.1.pri 0) (nth s.2.pri 0))) = .nan :=
            kind_nan.2 (add_nan_left (nan_of_kind hsum))
          exact ⟨rfl, Or.inr key, fun _ => key⟩
        | inf t =>
          rw [hK] at hsum
          have hi := inf_of_kind hsum
          rw [hi.1, hi.2]
          simp only [Bool.false_eq_true, if_false, if_true]
          have hrow := accum0_row (F := F) (b := (es.take T.nb).flatMap (fun a => [fabs a.1, fabs a.2])) hy
          have weak := zssqLoop_inf hT (by omega) (S := S) (S' := S') w0 k0 k1 fuel (es.drop T.nb) (dep := dep) (by omega) hrow (Or.inl hsum)
          rw [hsum] at weak
          rw [hkv, hK]
          refine ⟨weak.1, ?_, ?_⟩
          · rcases weak.2.1 with w | w
            · rcases inf_add_any t (F.kinds ((parts (es.drop T.nb)).map fabs)) with e | e
              · left; rw [e]; exact w
              · right; exact weak.2.2 e
            · exact Or.inr w
          · rintro rfl
            have := zssqLoop_special hT (by omega) w0 k0 k1 rk0 rk1 hS fuel (es.drop T.nb) (dep := dep) (by omega) hrow (by rw [hsum]; simp)
            rw [this.2, hsum]
      · have hnan : ∃ x ∈ parts (es.take T.nb), F.isNaN x = true := by
          by_contra hc
          exact hai (amax_pair_inf hT hkb hc)
        have hKn : F.kinds ((parts (es.take T.nb)).map fabs) = .nan := by rw [kinds_abs, if_pos hnan]
        simp only [Bool.not_eq_true] at hai
        rw [hai, hyi]
        simp only [Bool.or_self, Bool.false_eq_true, if_false, hynn, hyi]
        rw [hkv, hKn]
        have e3 : Kind.nan.add (F.kinds ((parts (es.drop T.nb)).map fabs)) = Kind.nan := rfl
        rw [e3]
        generalize F.fmax (F.amaxZ T 1 zasumOp.fR zasumOp.zfill (es.take T.nb)) (F.amaxZ T 1 zasumOp.fI zasumOp.zfill (es.take T.nb)) = a
        obtain ⟨x, hx, hxn⟩ := hnan
        obtain ⟨p, hp, hpx⟩ := mem_parts.1 hx
        -- the temporary after the rescaling that may be due
        have main : ∀ {t : Binned × Binned} {u Z : Flt} {dep' : Nat} {m0 m1 : Mode}, Row fold t.1 → Row fold t.2 →
            (F.zssqLoop T fold S' fuel (es.drop T.nb) dep' Z
              (⟨F.kernelZ T m0 1 (F.zssqOp Z).fR (F.zssqOp Z).zfill (es.take T.nb) (F.dmdupdate fold u t.1).pri, (F.dmdupdate fold u t.1).car⟩,
               ⟨F.kernelZ T m1 1 (F.zssqOp Z).fI (F.zssqOp Z).zfill (es.take T.nb) (F.dmdupdate fold u t.2).pri, (F.dmdupdate fold u t.2).car⟩) y).1 = F.dscale F.one ∧
            F.kind (nth (F.zssqLoop T fold S' fuel (es.drop T.nb) dep' Z
              (⟨F.kernelZ T m0 1 (F.zssqOp Z).fR (F.zssqOp Z).zfill (es.take T.nb) (F.dmdupdate fold u t.1).pri, (F.dmdupdate fold u t.1).car⟩,
               ⟨F.kernelZ T m1 1 (F.zssqOp Z).fI (F.zssqOp Z).zfill (es.take T.nb) (F.dmdupdate fold u t.2).pri, (F.dmdupdate fold u t.2).car⟩) y).2.pri 0) = .nan := by
          intro t u Z dep' m0 m1 t1 t2
          have u1 := update_row (F := F) (x := u) t1
          have u2 := update_row (F := F) (x := u) t2
          refine zssqLoop_nan (by omega) fuel _ ⟨⟨by dsimp only; rw [kernelZ_len]; exact u1.1, u1.2⟩, ⟨by dsimp only; rw [kernelZ_len]; exact u2.1, u2.2⟩⟩ hy ?_
          dsimp only
          rcases hpx with e | e
          · left
            refine kernelZ_nan hT (Nat.le_refl 1) (by rw [u1.1]; omega) (Or.inl ⟨F.sq Z p.1, ?_, ?_⟩)
            · rw [partNums_one]; exact List.mem_map.2 ⟨p, hp, rfl⟩
            · rw [← e]; exact sq_nan hxn
          · right
            refine kernelZ_nan hT (Nat.le_refl 1) (by rw [u2.1]; omega) (Or.inl ⟨F.sq Z p.2, ?_, ?_⟩)
            · rw [partNums_one]; exact List.mem_map.2 ⟨p, hp, rfl⟩
            · rw [← e]; exact sq_nan hxn
        have rows : ∀ c c' : Bool, ∀ u v : Flt, Row fold (if c' = true then F.zmdrescale fold u v (if c = true then (F.dmrenorm s.1, F.dmrenorm s.2) else s) else (if c = true then (F.dmrenorm s.1, F.dmrenorm s.2) else s)).1 ∧
            Row fold (if c' = true then F.zmdrescale fold u v (if c = true then (F.dmrenorm s.1, F.dmrenorm s.2) else s) else (if c = true then (F.dmrenorm s.1, F.dmrenorm s.2) else s)).2 := by
          intro c c' u v
          have r : Row fold (if c = true then (F.dmrenorm s.1, F.dmrenorm s.2) else s).1 ∧ Row fold (if c = true then (F.dmrenorm s.1, F.dmrenorm s.2) else s).2 := by
            cases c
            · exact ⟨w0, w1⟩
            · exact ⟨renorm_row w0, renorm_row w1⟩
          cases c'
          · exact r
          · exact zmdrescale_row r
        have rr := rows (decide (dep + (es.take T.nb).length > F.endurance)) (F.lt S (F.dscale a) && F.lt zero S) (F.dscale a) S
        simp only [decide_eq_true_eq] at rr
        have fin := fun {u Z : Flt} {dep' : Nat} {m0 m1 : Mode} => main (u := u) (Z := Z) (dep' := dep') (m0 := m0) (m1 := m1) rr.1 rr.2
        exact ⟨fin.1, Or.inr fin.2, fun _ => fin.2⟩

/-! ### The theorems -/

theorem exists_parts {X : Int → Flt × Flt} {incX : Int} {n : Nat} (P : Flt → Prop) :
    (∃ x ∈ parts (gatherZ X incX n), P x) ↔ ∃ i : Nat, i < n ∧ (P (X (i * incX)).1 ∨ P (X (i * incX)).2) := by
  constructor
  · rintro ⟨x, hx, hp⟩
    obtain ⟨a, ha, h⟩ := mem_parts.1 hx
    unfold gatherZ at ha
    obtain ⟨i, hi, rfl⟩ := List.mem_map.1 ha
    refine ⟨i, List.mem_range.1 hi, ?_⟩
    rcases h with rfl | rfl
    · exact Or.inl hp
    · exact Or.inr hp
  · rintro ⟨i, hi, hp⟩
    have hm : X (i * incX) ∈ gatherZ X incX n := by unfold gatherZ; exact List.mem_map.2 ⟨i, List.mem_range.2 hi, rfl⟩
    rcases hp with hp | hp
    · exact ⟨_, mem_parts.2 ⟨_, hm, Or.inl rfl⟩, hp⟩
    · exact ⟨_, mem_parts.2 ⟨_, hm, Or.inr rfl⟩, hp⟩

theorem kinds_abs_ne {xs : List Flt} (h : ∃ x ∈ xs, ¬ F.Finite x) : F.kinds (xs.map fabs) ≠ .fin := by
  obtain ⟨x, hx, hf⟩ := h
  intro hc
  exact hf (kinds_fin.1 hc (fabs x) (List.mem_map_of_mem hx))

theorem kinds_abs_inf {xs : List Flt} (h : ∃ x ∈ xs, ¬ F.Finite x) (hn : ¬ ∃ x ∈ xs, F.isNaN x = true) : F.kinds (xs.map fabs) = .inf false := by
  have hk := kinds_abs_ne h
  rw [kinds_abs, if_neg hn] at hk ⊢
  by_cases hi : ∃ x ∈ xs, F.isInf x = true
  · rw [if_pos hi]
  · rw [if_neg hi] at hk; exact absurd rfl hk

/-- **C52** (absolute sum): adding the absolute sum of a complex vector to a finite accumulator that any history made:
if a real or imaginary part is NaN the converted result is NaN; otherwise if a part is infinite, of either sign, it is `+Inf`.
For every order of the elements and every tuning. -/
theorem C52_asum [F.OK] {T : Tune} (hT : T.OK F) {fold : Nat} (hfold : 2 ≤ fold) {h : Hist} (hl : h.Legal F) (hh : h.nums.length ≤ F.capacity)
    {n : Nat} {X : Int → Flt × Flt} {incX : Int} (hN : n ≤ F.capacity)
    (hx : ∃ i : Nat, i < n ∧ (¬ F.Finite (X (i * incX)).1 ∨ ¬ F.Finite (X (i * incX)).2)) :
    ((∃ i : Nat, i < n ∧ (F.isNaN (X (i * incX)).1 = true ∨ F.isNaN (X (i * incX)).2 = true)) →
      F.isNaN (convert F fold (F.dmzasum T fold n X incX (h.eval F fold))) = true) ∧
    ((¬ ∃ i : Nat, i < n ∧ (F.isNaN (X (i * incX)).1 = true ∨ F.isNaN (X (i * incX)).2 = true)) →
      convert F fold (F.dmzasum T fold n X incX (h.eval F fold)) = F.inf false) := by
  have hy : (h.eval F fold).pri.length = fold ∧ F.kind (nth (h.eval F fold).pri 0) = .fin ∧ (nth (h.eval F fold).pri 0).neg = false := by
    have hm := hist_mid hfold h hl hh
    by_cases h0 : h.seen = []
    · rw [(hm.1 h0).1]
      have e : nth (dmsetzero fold).pri 0 = zero := by unfold dmsetzero; exact nth_setzero fold
      exact ⟨by simp [dmsetzero], by rw [e]; exact kind_fin.2 zero_finite, by rw [e]; rfl⟩
    · have hm := hm.2.1 h0
      refine ⟨Mid.len hm, isNaNInf_kind'.1 (hm.finite (by omega) (Nat.zero_le _)), ?_⟩
      obtain ⟨b, hw, he⟩ := hm.pri (by omega) (show 0 < fold by omega)
      rw [he]; rfl
  have hx' := (exists_parts (X := X) (incX := incX) (n := n) (fun x => ¬ F.Finite x)).2 hx
  have hm := zasumLoop_mixed hT hfold hy.1 hy.2.1 hy.2.2 n (gatherZ X incX n) (d := 0) (dep := 0) (N := 0) (s := (dmsetzero fold, dmsetzero fold))
    (by rw [gatherZ_length]) (Or.inl rfl) (Nat.le_refl _) (Nat.zero_le _) (by rw [gatherZ_length]; omega) (kinds_abs_ne hx')
  have hd : F.dmzasum T fold n X incX (h.eval F fold) = F.zasumLoop T fold n (gatherZ X incX n) 0 (dmsetzero fold, dmsetzero fold) (h.eval F fold) := rfl
  rw [← hd] at hm
  have hc := convert_special (F := F) (fold := fold) (y := F.dmzasum T fold n X incX (h.eval F fold)) (by rw [hm]; exact kinds_abs_ne hx')
  rw [hc]
  constructor
  · intro hn
    apply nan_of_kind
    rw [hm, kinds_abs, if_pos ((exists_parts (fun x => F.isNaN x = true)).2 hn)]
  · intro hn
    apply kind_inf.1
    rw [hm, kinds_abs_inf hx' (fun h => hn ((exists_parts (fun x => F.isNaN x = true)).1 h))]

/-- **C52** (norm): a complex vector with a NaN part has norm NaN; without NaN but with an infinite part, of either
sign, it has norm `+Inf`; the scale returned with the sum of squares is then 1. For every order and every tuning. -/
theorem C52_norm [F.OK] {T : Tune} (hT : T.OK F) {fold : Nat} (hfold : 2 ≤ fold) (hJ : F.ssqHi + fold ≤ F.ssqJ + 1)
    {n : Nat} {X : Int → Flt × Flt} {incX : Int} (hN : n ≤ F.capacity)
    (hx : ∃ i : Nat, i < n ∧ (¬ F.Finite (X (i * incX)).1 ∨ ¬ F.Finite (X (i * incX)).2)) :
    (F.dmzssq T fold n X incX zero (dmsetzero fold)).1 = F.dscale F.one ∧
    ((∃ i : Nat, i < n ∧ (F.isNaN (X (i * incX)).1 = true ∨ F.isNaN (X (i * incX)).2 = true)) → F.isNaN (rdznrm2 F T fold n X incX) = true) ∧
    ((¬ ∃ i : Nat, i < n ∧ (F.isNaN (X (i * incX)).1 = true ∨ F.isNaN (X (i * incX)).2 = true)) → rdznrm2 F T fold n X incX = F.inf false) := by
  have hx' := (exists_parts (X := X) (incX := incX) (n := n) (fun x => ¬ F.Finite x)).2 hx
  have e : nth (dmsetzero fold).pri 0 = zero := by unfold dmsetzero; exact nth_setzero fold
  have hm := zssqLoop_mixed hT hfold hJ (y := dmsetzero fold) ⟨by simp [dmsetzero], by simp [dmsetzero]⟩ (by rw [e]; exact kind_fin.2 zero_finite) (by rw [e]; rfl) (S' := zero)
    (gatherZ X incX n).length (gatherZ X incX n) (ps := []) (d := 0) (dep := 0) (S := zero) (s := (dmsetzero fold, dmsetzero fold))
    (Nat.le_refl _) (Or.inl ⟨rfl, rfl, rfl⟩) (Nat.le_refl _) (Nat.zero_le _) (by rw [gatherZ_length, List.length_nil]; omega) (kinds_abs_ne hx')
  have hd : F.dmzssq T fold n X incX zero (dmsetzero fold) =
      F.zssqLoop T fold zero (gatherZ X incX n).length (gatherZ X incX n) 0 zero (dmsetzero fold, dmsetzero fold) (dmsetzero fold) := rfl
  rw [← hd] at hm
  replace hm := And.intro hm.1 (hm.2.2 rfl)
  have hr : rdznrm2 F T fold n X incX = normOf F fold (F.dscale F.one, (F.dmzssq T fold n X incX zero (dmsetzero fold)).2) := by
    unfold rdznrm2
    rw [← hm.1]
  have hs := normOf_special (F := F) (fold := fold) (y := (F.dmzssq T fold n X incX zero (dmsetzero fold)).2) (by rw [hm.2]; exact kinds_abs_ne hx')
  rw [hr]
  refine ⟨hm.1, fun hn => ?_, fun hn => ?_⟩
  · apply hs.1
    rw [hm.2, kinds_abs, if_pos ((exists_parts (fun x => F.isNaN x = true)).2 hn)]
  · apply hs.2
    rw [hm.2, kinds_abs_inf hx' (fun h => hn ((exists_parts (fun x => F.isNaN x = true)).1 h))]

/-! ### C53: continuing a sum of squares -/

theorem spec_facts [F.OK] {fold : Nat} (hfold : 2 ≤ fold) {qs : List Flt} (hq : ∀ x ∈ qs, F.Finite x) :
    Row fold (ssqSpec F fold qs).2 ∧ F.kind (nth (ssqSpec F fold qs).2.pri 0) = .fin ∧ (nth (ssqSpec F fold qs).2.pri 0).neg = false ∧
    ((qs = [] ∧ (ssqSpec F fold qs).1 = zero ∧ (ssqSpec F fold qs).2 = dmsetzero fold) ∨ SsqState F fold 0 qs (ssqSpec F fold qs).1 (ssqSpec F fold qs).2) := by
  have hs : (qs = [] ∧ (ssqSpec F fold qs).1 = zero ∧ (ssqSpec F fold qs).2 = dmsetzero fold) ∨ SsqState F fold 0 qs (ssqSpec F fold qs).1 (ssqSpec F fold qs).2 := by
    by_cases h0 : qs = []
    · left; subst h0; rw [C29_start]; exact ⟨rfl, rfl, rfl⟩
    · right; exact SsqState.of_spec h0 hq
  have hf := state_pri0' hfold hs (Nat.zero_le _)
  exact ⟨⟨hf.1, hf.2.1⟩, kind_fin.2 hf.2.2.1, hf.2.2.2, hs⟩

/-- **C53** (real vectors): continuing any sum of squares of finite numbers with a vector that holds NaN gives NaN, with
one that holds infinities but no NaN gives `+Inf`, and the returned scale is 1. -/
theorem C53_real [F.OK] {T : Tune} (hT : T.OK F) {fold : Nat} (hfold : 2 ≤ fold) (hJ : F.ssqHi + fold ≤ F.ssqJ + 1)
    {qs xs : List Flt} (hq : ∀ x ∈ qs, F.Finite x) (hN : qs.length + xs.length ≤ F.capacity) (hx : ∃ x ∈ xs, ¬ F.Finite x) :
    let s := F.ssqList T fold xs (ssqSpec F fold qs).1 (ssqSpec F fold qs).2
    s.1 = F.dscale F.one ∧ ((∃ x ∈ xs, F.isNaN x = true) → F.isNaN (convert F fold s.2) = true) ∧
    ((¬ ∃ x ∈ xs, F.isNaN x = true) → convert F fold s.2 = F.inf false) := by
  obtain ⟨-, -, -, hs⟩ := spec_facts hfold hq
  have hm := ssqLoop_mixed hT hfold hJ xs.length xs (Nat.le_refl _) hs (Nat.le_refl 0) (Nat.zero_le _) (kinds_abs_ne hx) hN
  dsimp only
  unfold ssqList
  rw [convert_special (by rw [hm.2]; exact kinds_abs_ne hx)]
  refine ⟨hm.1, fun hn => ?_, fun hn => ?_⟩
  · apply nan_of_kind; rw [hm.2, kinds_abs, if_pos hn]
  · apply kind_inf.1; rw [hm.2, kinds_abs_inf hx hn]

/-- **C53** (complex vectors, partial): continuing any sum of squares of finite numbers with a complex vector that has a
NaN part gives NaN; with infinite parts but no NaN it gives `+Inf` or NaN, never a finite number; the returned scale is 1.
Missing: that it is `+Inf`, which is false (`C53_violated`) unless there is nothing to continue (`C52_norm`). -/
theorem C53_complex_partial [F.OK] {T : Tune} (hT : T.OK F) {fold : Nat} (hfold : 2 ≤ fold) (hJ : F.ssqHi + fold ≤ F.ssqJ + 1)
    {qs : List Flt} {es : List (Flt × Flt)} (hq : ∀ x ∈ qs, F.Finite x) (hN : es.length ≤ F.capacity) (hx : ∃ x ∈ parts es, ¬ F.Finite x) :
    let s := F.zssqList T fold es (ssqSpec F fold qs).1 (ssqSpec F fold qs).2
    s.1 = F.dscale F.one ∧ ((∃ x ∈ parts es, F.isNaN x = true) → F.isNaN (convert F fold s.2) = true) ∧
    ((¬ ∃ x ∈ parts es, F.isNaN x = true) → convert F fold s.2 = F.inf false ∨ F.isNaN (convert F fold s.2) = true) := by
  obtain ⟨hr, hk, hn, -⟩ := spec_facts (F := F) hfold hq
  have hm := zssqLoop_mixed hT hfold hJ hr hk hn (S' := (ssqSpec F fold qs).1) es.length es (ps := []) (d := 0) (dep := 0) (S := zero) (s := (dmsetzero fold, dmsetzero fold))
    (Nat.le_refl _) (Or.inl ⟨rfl, rfl, rfl⟩) (Nat.le_refl _) (Nat.zero_le _) (by rw [List.length_nil]; omega) (kinds_abs_ne hx)
  dsimp only
  unfold zssqList
  have hne : F.kind (nth (F.zssqLoop T fold (ssqSpec F fold qs).1 es.length es 0 zero (dmsetzero fold, dmsetzero fold) (ssqSpec F fold qs).2).2.pri 0) ≠ .fin := by
    rcases hm.2.1 with h | h
    · rw [h]; exact kinds_abs_ne hx
    · rw [h]; simp
  rw [convert_special hne]
  refine ⟨hm.1, fun hn => ?_, fun hn => ?_⟩
  · apply nan_of_kind
    rcases hm.2.1 with h | h
    · rw [h, kinds_abs, if_pos hn]
    · exact h
  · rcases hm.2.1 with h | h
    · left; apply kind_inf.1; rw [h, kinds_abs_inf hx hn]
    · right; exact nan_of_kind h

/-- **C53 is false** for complex vectors, and the result depends on the order. Continuing the sum of squares of a tiny
number with a vector that holds a huge number and, in a later block, an infinity gives NaN, with the infinity in the first
block `+Inf`: the factor between the scales overflows, and the infinite result is divided by it
(`src/binned/dmdmaddsq.c:27-30`, `src/binned/dmdrescale.c:28-31`). -/
theorem C53_violated :
    let s := ssqSpec f64 3 [f64.pow2 (-900)]
    f64.isNaN (convert f64 3 (f64.zssqList ⟨1, 1, 1, 1, 1, false⟩ 3 [(f64.pow2 900, zero), (f64.inf false, zero)] s.1 s.2).2) = true ∧
    convert f64 3 (f64.zssqList ⟨1, 1, 1, 1, 1, false⟩ 3 [(f64.inf false, zero), (f64.pow2 900, zero)] s.1 s.2).2 = f64.inf false := by
  decide +kernel

/-- The same in `binned_dmdmaddsq`, which the reduction of partial sums of squares of real vectors uses: an infinite sum of
squares (with its scale 1) merged with that of a huge number is NaN, in both orders. -/
theorem C53_merge_violated :
    let s := f64.ssqList ⟨1, 1, 1, 1, 1, false⟩ 3 [f64.inf false] zero (dmsetzero 3)
    let t := f64.ssqList ⟨1, 1, 1, 1, 1, false⟩ 3 [f64.pow2 900] zero (dmsetzero 3)
    convert f64 3 s.2 = f64.inf false ∧ s.1 = f64.one ∧
    f64.isNaN (convert f64 3 (f64.dmdmaddsq 3 t.1 t.2 s.1 s.2).2) = true ∧
    f64.isNaN (convert f64 3 (f64.dmdmaddsq 3 s.1 s.2 t.1 t.2).2) = true ∧
    convert f64 3 (f64.ssqList ⟨1, 1, 1, 1, 1, false⟩ 3 [f64.inf false, f64.pow2 900] zero (dmsetzero 3)).2 = f64.inf false := by
  decide +kernel

/-- Instances: blocks of two elements, an infinity in the second block; NaN and an infinity. -/
example : (∃ i : Nat, i < 4 ∧ (¬ f64.Finite ((fun i : Int => if i = 2 then (f64.ofInt 1, f64.inf true) else (f64.ofInt (3 - i), f64.ofInt 7)) (i * 1)).1 ∨
      ¬ f64.Finite ((fun i : Int => if i = 2 then (f64.ofInt 1, f64.inf true) else (f64.ofInt (3 - i), f64.ofInt 7)) (i * 1)).2)) ∧
    rdznrm2 f64 ⟨2, 1, 2, 1, 1, false⟩ 3 4 (fun i : Int => if i = 2 then (f64.ofInt 1, f64.inf true) else (f64.ofInt (3 - i), f64.ofInt 7)) 1 = f64.inf false :=
  ⟨⟨2, by decide, by decide +kernel⟩, by decide +kernel⟩

example : f64.rdzasum ⟨2, 1, 2, 1, 1, false⟩ 3 4 (fun i : Int => if i = 2 then (f64.ofInt 1, f64.inf true) else (f64.ofInt (3 - i), f64.ofInt 7)) 1 = f64.inf false ∧
    f64.isNaN (f64.rdzasum ⟨2, 1, 2, 1, 1, false⟩ 3 4 (fun i : Int => if i = 2 then (f64.nan, f64.inf true) else (f64.ofInt (3 - i), f64.ofInt 7)) 1) = true := by
  decide +kernel

end Repro
