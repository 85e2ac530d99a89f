import Verif.State
/-!
# Refinement: every operation of the library acts on exact integer totals

`Mid fold n N k A y` says that the binned value `y` has index `k`, holds the exact total `A j` in bin
`j`, has seen at most `n` deposits since it was last renormalised, and `N` numbers altogether.
-/

namespace Repro
namespace Fmt
variable {F : Fmt}

def Mid (F : Fmt) (fold n N k : Nat) (A : Nat → Int) (y : Binned) : Prop :=
  ∃ B C : Nat → Int, ∃ Z : Nat → Bool, y = F.midZ fold k B C Z ∧
    (∀ j, A j = B j + C j * 2 ^ (F.p - 3)) ∧
    (∀ j, (B j).natAbs < 2 ^ (F.p - 3) + n * 2 ^ (F.W - 1)) ∧
    (∀ j, j < k → B j = 0 ∧ C j = 0 ∧ Z j = false) ∧ k ≤ F.maxIndex ∧
    (∀ j, (A j).natAbs ≤ N * 2 ^ (F.W - 1))

theorem endurance_eq [F.OK] : F.endurance * 2 ^ (F.W - 1) = 2 ^ (F.p - 3) := by
  have ⟨hp, hW, hWp, _⟩ := F.facts
  unfold endurance
  rw [← Nat.pow_add]; congr 1; omega

theorem capacity_eq [F.OK] : F.capacity * 2 ^ (F.W - 1) = (2 ^ (F.p - 1) - 1) * 2 ^ (F.p - 3) := by
  unfold capacity
  rw [← endurance_eq]; ring

theorem endurance_pos [F.OK] : 1 ≤ F.endurance := Nat.one_le_two_pow

theorem win_of_bound [F.OK] {n : Nat} {b : Int} (hn : n ≤ F.endurance)
    (h : b.natAbs < 2 ^ (F.p - 3) + n * 2 ^ (F.W - 1)) : F.Win b := by
  have h1 : n * 2 ^ (F.W - 1) ≤ F.endurance * 2 ^ (F.W - 1) := Nat.mul_le_mul_right _ hn
  rw [endurance_eq] at h1
  have h2 := two_p2 (F := F)
  unfold Win
  have h3 := cast_pow (F.p - 2)
  omega

theorem car_of_bound [F.OK] {n N : Nat} {a b c : Int} (hn : n ≤ F.endurance) (hN : N ≤ F.capacity)
    (hb : b.natAbs < 2 ^ (F.p - 3) + n * 2 ^ (F.W - 1)) (ha : a.natAbs ≤ N * 2 ^ (F.W - 1))
    (h : a = b + c * 2 ^ (F.p - 3)) : c.natAbs ≤ 2 ^ (F.p - 1) := by
  have ⟨hp, hW, hWp, _⟩ := F.facts
  have h1 : n * 2 ^ (F.W - 1) ≤ F.endurance * 2 ^ (F.W - 1) := Nat.mul_le_mul_right _ hn
  rw [endurance_eq] at h1
  have h2 : N * 2 ^ (F.W - 1) ≤ F.capacity * 2 ^ (F.W - 1) := Nat.mul_le_mul_right _ hN
  rw [capacity_eq] at h2
  have h3 : c.natAbs * 2 ^ (F.p - 3) ≤ a.natAbs + b.natAbs := by
    have e : c * 2 ^ (F.p - 3) = a - b := by rw [h]; ring
    have e2 : (c * 2 ^ (F.p - 3)).natAbs = c.natAbs * 2 ^ (F.p - 3) := by
      rw [Int.natAbs_mul]; congr 1
    rw [← e2, e]; omega
  have hT := pow_pos' (F.p - 3)
  have h5 : c.natAbs * 2 ^ (F.p - 3) < (2 ^ (F.p - 1) + 1) * 2 ^ (F.p - 3) := by
    have : 1 ≤ 2 ^ (F.p - 1) := Nat.one_le_two_pow
    obtain ⟨m, hm⟩ : ∃ m, 2 ^ (F.p - 1) = m + 1 := ⟨2 ^ (F.p - 1) - 1, by omega⟩
    rw [hm] at h2 ⊢
    rw [Nat.add_sub_cancel] at h2
    have : (m + 1 + 1) * 2 ^ (F.p - 3) = m * 2 ^ (F.p - 3) + 2 ^ (F.p - 3) + 2 ^ (F.p - 3) := by ring
    omega
  have := Nat.lt_of_mul_lt_mul_right h5
  omega

theorem pow_p1_le [F.OK] : 2 ^ (F.p - 1) ≤ 2 ^ F.p := Nat.pow_le_pow_right (by omega) (by omega)

/-! ### the individual operations -/

theorem mid_canon [F.OK] {fold N k : Nat} {A : Nat → Int} (hk : k ≤ F.maxIndex)
    (hz : ∀ j, j < k → A j = 0) (hN : ∀ j, (A j).natAbs ≤ N * 2 ^ (F.W - 1)) :
    F.Mid fold 0 N k A (F.canon fold k A) := by
  have hT := ipow_pos (F.p - 3)
  have hcp := cast_pow (F.p - 3)
  refine ⟨fun j => A j % 2 ^ (F.p - 3), fun j => A j / 2 ^ (F.p - 3), fun _ => false, ?_, ?_, ?_, ?_, hk, hN⟩
  · unfold canon; exact mid_eq_midZ _ _ _ _
  · intro j; have := Int.mul_ediv_add_emod (A j) (2 ^ (F.p - 3)); rw [mul_comm] at this; dsimp only; omega
  · intro j
    have h1 := Int.emod_nonneg (A j) (ne_of_gt hT)
    have h2 := Int.emod_lt_of_pos (A j) hT
    dsimp only
    omega
  · intro j hj
    simp [hz j hj]

theorem Mid.mono {fold n n' N N' k : Nat} {A : Nat → Int} {y : Binned} (h : F.Mid fold n N k A y)
    (hn : n ≤ n') (hN : N ≤ N') : F.Mid fold n' N' k A y := by
  obtain ⟨B, C, Z, h1, h2, h3, h4, h5, h6⟩ := h
  refine ⟨B, C, Z, h1, h2, ?_, h4, h5, ?_⟩
  · intro j; have : n * 2 ^ (F.W - 1) ≤ n' * 2 ^ (F.W - 1) := Nat.mul_le_mul_right _ hn
    have := h3 j; omega
  · intro j; have : N * 2 ^ (F.W - 1) ≤ N' * 2 ^ (F.W - 1) := Nat.mul_le_mul_right _ hN
    have := h6 j; omega

theorem Mid.zeros [F.OK] {fold n N k : Nat} {A : Nat → Int} {y : Binned} (h : F.Mid fold n N k A y) :
    ∀ j, j < k → A j = 0 := by
  obtain ⟨B, C, Z, h1, h2, h3, h4, h5, h6⟩ := h
  intro j hj
  have := h4 j hj
  rw [h2 j, this.1, this.2.1]; simp

theorem Mid.renorm [F.OK] {fold n N k : Nat} {A : Nat → Int} {y : Binned} (hfold : 1 ≤ fold)
    (h : F.Mid fold n N k A y) (hn : n ≤ F.endurance) (hN : N ≤ F.capacity) :
    F.dmrenorm y = F.canon fold k A := by
  obtain ⟨B, C, Z, h1, h2, h3, h4, h5, h6⟩ := h
  rw [h1, dmrenorm_midZ hfold (fun j _ _ => win_of_bound hn (h3 j))
    (fun j _ _ => Nat.le_trans (car_of_bound hn hN (h3 j) (h6 j) (h2 j)) pow_p1_le)]
  congr 1; funext j; exact (h2 j).symm

theorem Mid.update [F.OK] {fold n N k : Nat} {A : Nat → Int} {y : Binned} {x : Flt} (hfold : 1 ≤ fold)
    (h : F.Mid fold n N k A y) (hn : n ≤ F.endurance) :
    F.Mid fold n N (min k (F.dindex x)) A (F.dmdupdate fold x y) := by
  obtain ⟨B, C, Z, h1, h2, h3, h4, h5, h6⟩ := h
  refine ⟨B, C, Z, ?_, h2, h3, fun j hj => h4 j (by omega), by omega, h6⟩
  rw [h1]; exact dmdupdate_midZ hfold h5 (win_of_bound hn (h3 k)) h4

theorem canon_zero [F.OK] {fold k : Nat} :
    F.canon fold k (fun _ => 0) = F.midZ fold k (fun _ => 0) (fun _ => 0) (fun _ => false) := by
  unfold canon; rw [mid_eq_midZ]; simp

/-- Updating the zero value gives the canonical empty accumulator. -/
theorem dmdupdate_setzero [F.OK] {fold : Nat} {x : Flt} :
    F.dmdupdate fold x (dmsetzero fold) = F.canon fold (F.dindex x) (fun _ => 0) := by
  rw [canon_zero]; exact dmdupdate_zero

theorem mid_empty [F.OK] {fold : Nat} {x : Flt} :
    F.Mid fold 0 0 (F.dindex x) (fun _ => 0) (F.dmdupdate fold x (dmsetzero fold)) := by
  rw [dmdupdate_setzero]
  exact mid_canon (dindex_le_max x) (fun _ _ => rfl) (fun _ => by simp)

/-- Updating a canonical value. -/
theorem update_canon [F.OK] {fold k : Nat} {A : Nat → Int} {x : Flt} (hfold : 1 ≤ fold)
    (hk : k ≤ F.maxIndex) (hz : ∀ j, j < k → A j = 0) :
    F.dmdupdate fold x (F.canon fold k A) = F.canon fold (min k (F.dindex x)) A := by
  have hT := ipow_pos (F.p - 3)
  unfold canon
  rw [mid_eq_midZ, mid_eq_midZ]
  apply dmdupdate_midZ hfold hk
  · have h1 := Int.emod_nonneg (A k) (ne_of_gt hT)
    have h2 := Int.emod_lt_of_pos (A k) hT
    have t1 : (2 : Int) ^ (F.p - 2) = 2 * 2 ^ (F.p - 3) := by exact_mod_cast two_p2 (F := F)
    unfold Win; omega
  · intro j hj; simp [hz j hj]

theorem Mid.deposit [F.OK] {fold n N k : Nat} {A : Nat → Int} {y : Binned} {x : Flt} (hfold : 2 ≤ fold)
    (h : F.Mid fold n N k A y) (hn : n + 1 ≤ F.endurance) (hx : F.Finite x) (hf : F.Fits (F.toInt x) k) :
    F.Mid fold (n + 1) (N + 1) k (fun j => A j + F.slice (F.toInt x) j) ⟨F.dmddeposit x y.pri, y.car⟩ := by
  obtain ⟨B, C, Z, h1, h2, h3, h4, h5, h6⟩ := h
  have hs := fun j => slice_le (F := F) (fits_mono (Nat.zero_le k) hf) j
  have h3' : ∀ j, (B j + F.slice (F.toInt x) j).natAbs < 2 ^ (F.p - 3) + (n + 1) * 2 ^ (F.W - 1) := by
    intro j; have := h3 j; have := hs j; rw [Nat.add_mul]; omega
  refine ⟨fun j => B j + F.slice (F.toInt x) j, C, Z, ?_, ?_, h3', ?_, h5, ?_⟩
  · rw [h1]
    unfold midZ
    dsimp only
    rw [dmddeposit_eq hfold h5 hx hf]
    intro j _ _
    exact ⟨win_of_bound (by omega) (h3 j), win_of_bound hn (h3' j)⟩
  · intro j; show _ = _; dsimp only; rw [h2 j]; ring
  · intro j hj
    have := slice_of_fits h5 hf j hj
    simp [h4 j hj, this]
  · intro j; have := h6 j; have := hs j; dsimp only; rw [Nat.add_mul]; omega

/-- Adding a number to a renormalised (or negated) value. -/
theorem Mid.add [F.OK] {fold N k : Nat} {A : Nat → Int} {y : Binned} {x : Flt} (hfold : 2 ≤ fold)
    (h : F.Mid fold 0 N k A y) (hN : N + 1 ≤ F.capacity) (hx : F.Finite x) :
    F.dmdadd fold x y = F.canon fold (min k (F.dindex x)) (fun j => A j + F.slice (F.toInt x) j) ∧
    F.Mid fold 0 (N + 1) (min k (F.dindex x)) (fun j => A j + F.slice (F.toInt x) j) (F.dmdadd fold x y) := by
  have e := endurance_pos (F := F)
  have h1 := h.update (x := x) (by omega) (by omega)
  have h2 := h1.deposit (x := x) hfold (by omega) hx (fits_mono (by omega) (fits_dindex hx))
  have h3 := h2.renorm (by omega) (by omega) hN
  have h4 : F.dmdadd fold x y = F.canon fold (min k (F.dindex x)) (fun j => A j + F.slice (F.toInt x) j) := h3
  refine ⟨h4, ?_⟩
  rw [h4]
  obtain ⟨_, _, _, _, _, _, _, h5, h6⟩ := h2
  exact mid_canon h5 (Mid.zeros (n := 0 + 1) (N := N + 1) ⟨_, _, _, by assumption, by assumption, by assumption, by assumption, h5, h6⟩) h6

theorem add_zero_value [F.OK] {fold : Nat} {x : Flt} (hfold : 2 ≤ fold) (hx : F.Finite x) :
    F.dmdadd fold x (dmsetzero fold) = F.canon fold (F.dindex x) (fun j => F.slice (F.toInt x) j) ∧
    F.Mid fold 0 1 (F.dindex x) (fun j => F.slice (F.toInt x) j) (F.dmdadd fold x (dmsetzero fold)) := by
  have e := endurance_pos (F := F)
  have hcap : 1 ≤ F.capacity := by
    unfold capacity
    have : 2 ^ 1 ≤ 2 ^ (F.p - 1) := Nat.pow_le_pow_right (by omega) (by have := F.facts; omega)
    exact Nat.mul_pos e (by omega)
  have h1 := mid_empty (F := F) (fold := fold) (x := x)
  have h2 := h1.deposit (x := x) hfold (by omega) hx (fits_dindex hx)
  have h3 := h2.renorm (by omega) (by omega) (by omega)
  simp only [Int.zero_add, Nat.zero_add] at h2 h3
  have h4 : F.dmdadd fold x (dmsetzero fold) = F.canon fold (F.dindex x) (fun j => F.slice (F.toInt x) j) := h3
  refine ⟨h4, ?_⟩
  rw [h4]
  have hz := h2.zeros
  obtain ⟨_, _, _, _, _, _, _, h5, h6⟩ := h2
  exact mid_canon h5 hz h6

/-- Merging two renormalised (or negated) values. -/
theorem Mid.merge [F.OK] {fold Nx Ny kx ky : Nat} {A A' : Nat → Int} {x y : Binned} (hfold : 2 ≤ fold)
    (hx : F.Mid fold 0 Nx kx A x) (hy : F.Mid fold 0 Ny ky A' y) (hN : Nx + Ny ≤ F.capacity) :
    F.dmdmadd fold x y = F.canon fold (min kx ky) (fun j => A j + A' j) ∧
    F.Mid fold 0 (Nx + Ny) (min kx ky) (fun j => A j + A' j) (F.dmdmadd fold x y) := by
  obtain ⟨B, C, Z, h1, h2, h3, h4, h5, h6⟩ := hx
  obtain ⟨B', C', Z', g1, g2, g3, g4, g5, g6⟩ := hy
  have hw : ∀ j, (B j + B' j).natAbs < 2 ^ (F.p - 3) + F.endurance * 2 ^ (F.W - 1) := by
    intro j; have := h3 j; have := g3 j; rw [endurance_eq]; omega
  have hA : ∀ j, (A j + A' j).natAbs ≤ (Nx + Ny) * 2 ^ (F.W - 1) := by
    intro j; have := h6 j; have := g6 j; rw [Nat.add_mul]; omega
  have hcx : ∀ j, (C j).natAbs ≤ 2 ^ F.p := fun j =>
    Nat.le_trans (car_of_bound (Nat.zero_le _) (show Nx ≤ F.capacity by omega) (h3 j) (h6 j) (h2 j)) pow_p1_le
  have hcy : ∀ j, (C' j).natAbs ≤ 2 ^ F.p := fun j =>
    Nat.le_trans (car_of_bound (Nat.zero_le _) (show Ny ≤ F.capacity by omega) (g3 j) (g6 j) (g2 j)) pow_p1_le
  have hAe : ∀ j, A j + A' j = (B j + B' j) + (C j + C' j) * 2 ^ (F.p - 3) := by
    intro j; rw [h2 j, g2 j]; ring
  obtain ⟨Z'', he⟩ := dmdmadd_midZ (F := F) (fold := fold) (kx := kx) (ky := ky) (Zx := Z) (Zy := Z')
    (by omega) h5 g5
    (fun j => win_of_bound (Nat.zero_le _) (h3 j)) (fun j => win_of_bound (Nat.zero_le _) (g3 j))
    (fun j => win_of_bound (Nat.le_refl _) (hw j)) hcx hcy
    (fun j hj => ⟨(h4 j hj).1, (h4 j hj).2.1⟩) (fun j hj => ⟨(g4 j hj).1, (g4 j hj).2.1⟩)
  have hc : F.dmdmadd fold x y = F.canon fold (min kx ky) (fun j => A j + A' j) := by
    rw [h1, g1, he, dmrenorm_midZ (by omega) (fun j _ _ => win_of_bound (Nat.le_refl _) (hw j))
      (fun j _ _ => Nat.le_trans (car_of_bound (Nat.le_refl _) hN (hw j) (hA j) (hAe j)) pow_p1_le)]
    congr 1; funext j; rw [hAe j]
  refine ⟨hc, ?_⟩
  rw [hc]
  refine mid_canon (by omega) ?_ hA
  intro j hj
  have a := h4 j (by omega); have b := g4 j (by omega)
  rw [hAe j, a.1, a.2.1, b.1, b.2.1]; simp

theorem Mid.negate [F.OK] {fold n N k : Nat} {A : Nat → Int} {y : Binned} (hfold : 2 ≤ fold)
    (h : F.Mid fold n N k A y) (hn : n ≤ F.endurance) :
    F.Mid fold n N k (fun j => - A j) (F.dmnegate fold y) := by
  obtain ⟨B, C, Z, h1, h2, h3, h4, h5, h6⟩ := h
  obtain ⟨Z', hz', he⟩ := dmnegate_midZ (F := F) (fold := fold) (k := k) (B := B) (C := C) (Z := Z) (by omega) h5
    (fun j => win_of_bound hn (h3 j)) (fun j hj => (h4 j hj).2.2)
  refine ⟨fun j => - B j, fun j => - C j, Z', ?_, ?_, ?_, ?_, h5, ?_⟩
  · rw [h1, he]
  · intro j; show _ = _; dsimp only; rw [h2 j]; ring
  · intro j; have := h3 j; simpa using this
  · intro j hj; have := h4 j hj; exact ⟨by simp [this.1], by simp [this.2.1], hz' j hj⟩
  · intro j; have := h6 j; simpa using this

theorem Mid.not_zero [F.OK] {fold n N k : Nat} {A : Nat → Int} {y : Binned} (hfold : 1 ≤ fold)
    (h : F.Mid fold n N k A y) (hn : n ≤ F.endurance) : isZero (nth y.pri 0) = false := by
  obtain ⟨B, C, Z, h1, h2, h3, h4, h5, h6⟩ := h
  rw [h1, nth_pri_midZ hfold]; exact mkPri_isZero (win_of_bound hn (h3 _))

theorem Mid.finite [F.OK] {fold n N k : Nat} {A : Nat → Int} {y : Binned} (hfold : 1 ≤ fold)
    (h : F.Mid fold n N k A y) (hn : n ≤ F.endurance) : F.isNaNInf (nth y.pri 0) = false := by
  obtain ⟨B, C, Z, h1, h2, h3, h4, h5, h6⟩ := h
  rw [h1, nth_pri_midZ hfold]; exact mkPri_isNaNInf (win_of_bound hn (h3 _))

theorem Mid.index [F.OK] {fold n N k : Nat} {A : Nat → Int} {y : Binned} (hfold : 1 ≤ fold)
    (h : F.Mid fold n N k A y) (hn : n ≤ F.endurance) : F.dmindex (nth y.pri 0) = k := by
  obtain ⟨B, C, Z, h1, h2, h3, h4, h5, h6⟩ := h
  rw [h1, nth_pri_midZ hfold]; exact dmindex_mkPri (win_of_bound hn (h3 _)) h5

theorem merge_zero_left {fold : Nat} (y : Binned) : F.dmdmadd fold (dmsetzero fold) y = y := by
  unfold dmdmadd dmsetzero
  dsimp only
  rw [nth_setzero]; rfl

theorem merge_zero_right {fold : Nat} (x : Binned) (hx : isZero (nth x.pri 0) = false) :
    F.dmdmadd fold x (dmsetzero fold) = x := by
  unfold dmdmadd dmsetzero
  dsimp only
  rw [nth_setzero, hx]; rfl

theorem negate_zero {fold : Nat} : F.dmnegate fold (dmsetzero fold) = dmsetzero fold := by
  unfold dmnegate dmsetzero
  dsimp only
  rw [nth_setzero]; rfl

/-! ### signs -/

theorem resid_neg [F.OK] (r : Int) (j : Nat) : F.resid (-r) j = - F.resid r j := by
  induction j with
  | zero => rfl
  | succ j ih =>
    unfold resid
    rw [ih, rha_neg _ _ (by have := uexp_ge (F := F) j; omega)]; ring

theorem slice_neg [F.OK] (r : Int) (j : Nat) : F.slice (-r) j = - F.slice r j := by
  unfold slice
  rw [resid_neg, rha_neg _ _ (by have := uexp_ge (F := F) j; omega)]

theorem dindex_fneg (x : Flt) : F.dindex (fneg x) = F.dindex x := rfl

theorem dindex_fabs (x : Flt) : F.dindex (fabs x) = F.dindex x := rfl

theorem total_nil (j : Nat) : F.total [] j = 0 := rfl

theorem total_cons (x : Flt) (xs : List Flt) (j : Nat) :
    F.total (x :: xs) j = F.slice (F.toInt x) j + F.total xs j := by
  unfold total; rw [List.map_cons, List.sum_cons]

theorem total_append (xs ys : List Flt) (j : Nat) : F.total (xs ++ ys) j = F.total xs j + F.total ys j := by
  unfold total; rw [List.map_append, List.sum_append]

theorem total_map_fneg [F.OK] (xs : List Flt) (j : Nat) : F.total (xs.map fneg) j = - F.total xs j := by
  induction xs with
  | nil => rfl
  | cons x xs ih => rw [List.map_cons, total_cons, total_cons, ih, toInt_fneg, slice_neg]; ring

theorem minIndex_append (xs ys : List Flt) :
    F.minIndex (xs ++ ys) = min (F.minIndex xs) (F.minIndex ys) := by
  unfold minIndex
  induction xs with
  | nil =>
    simp only [List.nil_append, List.foldr_nil]
    have : ∀ l : List Flt, l.foldr (fun x k => min (F.dindex x) k) F.maxIndex ≤ F.maxIndex := by
      intro l; induction l with
      | nil => exact Nat.le_refl _
      | cons a l ih => simp only [List.foldr_cons]; omega
    have := this ys; omega
  | cons x xs ih => simp only [List.cons_append, List.foldr_cons]; rw [ih]; omega

theorem minIndex_cons (x : Flt) (xs : List Flt) : F.minIndex (x :: xs) = min (F.dindex x) (F.minIndex xs) := rfl

theorem minIndex_le (xs : List Flt) : F.minIndex xs ≤ F.maxIndex := by
  induction xs with
  | nil => exact Nat.le_refl _
  | cons x xs ih => rw [minIndex_cons]; omega

theorem minIndex_le_mem {x : Flt} {xs : List Flt} (h : x ∈ xs) : F.minIndex xs ≤ F.dindex x := by
  induction xs with
  | nil => simp at h
  | cons y ys ih =>
    rw [minIndex_cons]
    rcases List.mem_cons.1 h with rfl | h
    · omega
    · have := ih h; omega

theorem minIndex_map_fneg (xs : List Flt) : F.minIndex (xs.map fneg) = F.minIndex xs := by
  induction xs with
  | nil => rfl
  | cons x xs ih => rw [List.map_cons, minIndex_cons, minIndex_cons, ih, dindex_fneg]

theorem total_perm {xs ys : List Flt} (h : xs.Perm ys) (j : Nat) : F.total xs j = F.total ys j := by
  induction h with
  | nil => rfl
  | cons x _ ih => rw [total_cons, total_cons, ih]
  | swap x y l => simp only [total_cons]; omega
  | trans _ _ h1 h2 => rw [h1, h2]

theorem minIndex_perm {xs ys : List Flt} (h : xs.Perm ys) : F.minIndex xs = F.minIndex ys := by
  induction h with
  | nil => rfl
  | cons x _ ih => rw [minIndex_cons, minIndex_cons, ih]
  | swap x y l => simp only [minIndex_cons]; omega
  | trans _ _ h1 h2 => rw [h1, h2]

theorem specSum_perm {fold : Nat} {xs ys : List Flt} (h : xs.Perm ys) : F.specSum fold xs = F.specSum fold ys := by
  unfold specSum
  have e : xs = [] ↔ ys = [] := by
    constructor
    · intro hh; subst hh; exact h.symm.eq_nil
    · intro hh; subst hh; exact h.eq_nil
  by_cases hx : xs = []
  · rw [if_pos hx, if_pos (e.1 hx)]
  · rw [if_neg hx, if_neg (fun hh => hx (e.2 hh)), minIndex_perm h]
    congr 1; funext j; exact total_perm h j

theorem total_natAbs [F.OK] {xs : List Flt} (hx : ∀ x ∈ xs, F.Finite x) (j : Nat) :
    (F.total xs j).natAbs ≤ xs.length * 2 ^ (F.W - 1) := by
  induction xs with
  | nil => simp [total_nil]
  | cons x xs ih =>
    have h1 := ih (fun y hy => hx y (List.mem_cons_of_mem _ hy))
    have h2 := slice_le (F := F) (fits0_finite (hx x List.mem_cons_self)) j
    rw [total_cons, List.length_cons, Nat.add_mul]; omega

theorem total_zero_below [F.OK] {xs : List Flt} (hx : ∀ x ∈ xs, F.Finite x) {k : Nat}
    (hk : k ≤ F.minIndex xs) : ∀ j, j < k → F.total xs j = 0 := by
  induction xs with
  | nil => intro j _; rfl
  | cons x xs ih =>
    intro j hj
    rw [minIndex_cons] at hk
    have h1 := ih (fun y hy => hx y (List.mem_cons_of_mem _ hy)) (by omega) j hj
    have h2 := slice_of_fits (F := F) (dindex_le_max x) (fits_dindex (hx x List.mem_cons_self)) j (by omega)
    rw [total_cons, h1, h2]; rfl

end Fmt
end Repro
