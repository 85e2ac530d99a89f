import Verif.ZSsq
import Verif.PropsAmax
import Verif.SsqNear
/-!
# Rescaling both parts of a complex sum of squares
-/

namespace Repro
open Fmt
namespace Fmt
variable {F : Fmt}

theorem nth_append_left {a b : List Flt} {i : Nat} (h : i < a.length) : nth (a ++ b) i = nth a i := by
  unfold nth
  simp [List.getD, List.getElem?_append_left h]

theorem nth_take {a : List Flt} {i j : Nat} (h : i < j) : nth (a.take j) i = nth a i := by
  unfold nth
  simp [List.getD, List.getElem?_take, h]

/-- Lengths of the parts. -/
def Len2 (fold : Nat) (y : Binned × Binned) : Prop :=
  (y.1.pri.length = fold ∧ y.1.car.length = fold) ∧ (y.2.pri.length = fold ∧ y.2.car.length = fold)

theorem tailUpdate_len {fold i : Nat} {y : Binned} (hi : i ≤ fold) (h1 : y.pri.length = fold) (h2 : y.car.length = fold) :
    (F.tailUpdate i y).pri.length = fold ∧ (F.tailUpdate i y).car.length = fold := by
  unfold tailUpdate
  have := update_len (F := F) (fold := y.pri.length - i) (x := zero) (y := ⟨y.pri.drop i, y.car.drop i⟩) (by simp) (by simp [h1, h2])
  dsimp only
  rw [List.length_append, List.length_append, List.length_take, List.length_take, this.1, this.2]
  omega

theorem tailUpdate_nth {fold i l : Nat} {y : Binned} (h1 : y.pri.length = fold) (h2 : y.car.length = fold) (hi : i ≤ fold) (hl : l < i) :
    nth (F.tailUpdate i y).pri l = nth y.pri l ∧ nth (F.tailUpdate i y).car l = nth y.car l := by
  unfold tailUpdate
  dsimp only
  rw [nth_append_left (by rw [List.length_take]; omega), nth_append_left (by rw [List.length_take]; omega), nth_take hl, nth_take hl]
  exact ⟨rfl, rfl⟩

theorem zr_len {fold : Nat} {r : Flt} : ∀ (n i : Nat) {y : Binned × Binned}, Len2 fold y → n + i ≤ fold → Len2 fold (F.zrescaleLoop r n i y) := by
  intro n
  induction n with
  | zero => intro i y h _; exact h
  | succ n ih =>
    intro i y h hi
    unfold zrescaleLoop
    dsimp only
    generalize (if i % 2 = 0 then nth (y.1.pri.set i (F.div (nth y.1.pri i) r)) (i / 2) else nth (y.2.pri.set i (F.div (nth y.2.pri i) r)) (i / 2)) = pr
    have h' : Len2 fold (⟨y.1.pri.set i (F.div (nth y.1.pri i) r), y.1.car⟩, ⟨y.2.pri.set i (F.div (nth y.2.pri i) r), y.2.car⟩) := by
      unfold Len2 at h ⊢; simpa using h
    split
    · exact ⟨tailUpdate_len (by omega) h'.1.1 h'.1.2, tailUpdate_len (by omega) h'.2.1 h'.2.2⟩
    · exact ih (i + 1) h' (by omega)

/-- Rounds from `i` on leave the entries before `i`. -/
theorem zr_keep {fold : Nat} {r : Flt} : ∀ (n i : Nat) {y : Binned × Binned} {l : Nat}, Len2 fold y → n + i ≤ fold → l < i →
    (nth (F.zrescaleLoop r n i y).1.pri l = nth y.1.pri l ∧ nth (F.zrescaleLoop r n i y).1.car l = nth y.1.car l) ∧
    (nth (F.zrescaleLoop r n i y).2.pri l = nth y.2.pri l ∧ nth (F.zrescaleLoop r n i y).2.car l = nth y.2.car l) := by
  intro n
  induction n with
  | zero => intro i y l _ _ _; exact ⟨⟨rfl, rfl⟩, rfl, rfl⟩
  | succ n ih =>
    intro i y l h hi hl
    unfold zrescaleLoop
    dsimp only
    generalize (if i % 2 = 0 then nth (y.1.pri.set i (F.div (nth y.1.pri i) r)) (i / 2) else nth (y.2.pri.set i (F.div (nth y.2.pri i) r)) (i / 2)) = pr
    have h' : Len2 fold (⟨y.1.pri.set i (F.div (nth y.1.pri i) r), y.1.car⟩, ⟨y.2.pri.set i (F.div (nth y.2.pri i) r), y.2.car⟩) := by
      unfold Len2 at h ⊢; simpa using h
    have e1 := nth_set_ne (m := y.1.pri) (i := i) (j := l) (by omega) (F.div (nth y.1.pri i) r)
    have e2 := nth_set_ne (m := y.2.pri) (i := i) (j := l) (by omega) (F.div (nth y.2.pri i) r)
    split
    · have a := tailUpdate_nth (F := F) h'.1.1 h'.1.2 (show i ≤ fold by omega) hl
      have b := tailUpdate_nth (F := F) h'.2.1 h'.2.2 (show i ≤ fold by omega) hl
      dsimp only at a b ⊢
      rw [a.1, a.2, b.1, b.2, e1, e2]
      exact ⟨⟨rfl, rfl⟩, rfl, rfl⟩
    · have a := ih (i + 1) (l := l) h' (by omega) (by omega)
      dsimp only at a ⊢
      rw [a.1.1, a.1.2, a.2.1, a.2.2, e1, e2]
      exact ⟨⟨rfl, rfl⟩, rfl, rfl⟩

/-- An entry is divided if no quotient up to there vanishes. -/
theorem zr_nth {fold : Nat} {r : Flt} : ∀ (n i : Nat) {y : Binned × Binned} {l : Nat}, Len2 fold y → n + i ≤ fold → i ≤ l → l < n + i →
    (∀ q, q < i → isZero (nth y.1.pri q) = false ∧ isZero (nth y.2.pri q) = false) →
    (∀ q, i ≤ q → q ≤ l → isZero (F.div (nth y.1.pri q) r) = false ∧ isZero (F.div (nth y.2.pri q) r) = false) →
    (nth (F.zrescaleLoop r n i y).1.pri l = F.div (nth y.1.pri l) r ∧ nth (F.zrescaleLoop r n i y).1.car l = nth y.1.car l) ∧
    (nth (F.zrescaleLoop r n i y).2.pri l = F.div (nth y.2.pri l) r ∧ nth (F.zrescaleLoop r n i y).2.car l = nth y.2.car l) := by
  intro n
  induction n with
  | zero => intro i y l _ _ _ h; omega
  | succ n ih =>
    intro i y l h hi hil hl hz hq
    unfold zrescaleLoop
    dsimp only
    have s1 := nth_set_self (m := y.1.pri) (i := i) (by rw [h.1.1]; omega) (F.div (nth y.1.pri i) r)
    have s2 := nth_set_self (m := y.2.pri) (i := i) (by rw [h.2.1]; omega) (F.div (nth y.2.pri i) r)
    have n1 : ∀ {j}, i ≠ j → _ := fun {j} hj => nth_set_ne (m := y.1.pri) (i := i) (j := j) hj (F.div (nth y.1.pri i) r)
    have n2 : ∀ {j}, i ≠ j → _ := fun {j} hj => nth_set_ne (m := y.2.pri) (i := i) (j := j) hj (F.div (nth y.2.pri i) r)
    have h' : Len2 fold (⟨y.1.pri.set i (F.div (nth y.1.pri i) r), y.1.car⟩, ⟨y.2.pri.set i (F.div (nth y.2.pri i) r), y.2.car⟩) := by
      unfold Len2 at h ⊢; simpa using h
    generalize y.1.pri.set i (F.div (nth y.1.pri i) r) = p0 at *
    generalize y.2.pri.set i (F.div (nth y.2.pri i) r) = p1 at *
    have z1 : ∀ q, q < i + 1 → isZero (nth p0 q) = false ∧ isZero (nth p1 q) = false := by
      intro q hqi
      by_cases hc : q = i
      · subst hc; rw [s1, s2]; exact hq q (le_refl _) hil
      · rw [n1 (by omega), n2 (by omega)]; exact hz q (by omega)
    have hi2 : i / 2 < i + 1 := by omega
    have hp : isZero (if i % 2 = 0 then nth p0 (i / 2) else nth p1 (i / 2)) = false := by
      split
      · exact (z1 _ hi2).1
      · exact (z1 _ hi2).2
    rw [hp]
    simp only [Bool.false_eq_true, if_false]
    by_cases hc : l = i
    · subst hc
      have a := zr_keep (F := F) (r := r) n (l + 1) (l := l) h' (by omega) (by omega)
      dsimp only at a
      rw [a.1.1, a.1.2, a.2.1, a.2.2, s1, s2]
      exact ⟨⟨rfl, rfl⟩, rfl, rfl⟩
    · have a := ih (i + 1) (l := l) h' (by omega) (by omega) (by omega) z1 (fun q h1 h2 => by
        dsimp only
        rw [n1 (by omega), n2 (by omega)]; exact hq q (by omega) h2)
      dsimp only at a
      rw [n1 (by omega), n2 (by omega)] at a
      exact a

/-- What rescaling leaves in the first entry of a part: the quotient, or what updating a value with that first entry by
zero leaves there. -/
theorem zr_head {fold : Nat} {r : Flt} {y : Binned × Binned} (h : Len2 fold y) (hf : 1 ≤ fold) :
    (nth (F.zrescaleLoop r fold 0 y).1.pri 0 = F.div (nth y.1.pri 0) r ∧ nth (F.zrescaleLoop r fold 0 y).2.pri 0 = F.div (nth y.2.pri 0) r) ∨
    ∃ y0 y1 : Binned, nth y0.pri 0 = F.div (nth y.1.pri 0) r ∧ nth y1.pri 0 = F.div (nth y.2.pri 0) r ∧
      F.zrescaleLoop r fold 0 y = (F.dmdupdate fold zero y0, F.dmdupdate fold zero y1) := by
  obtain ⟨n, rfl⟩ : ∃ n, fold = n + 1 := ⟨fold - 1, by omega⟩
  have s1 := nth_set_self (m := y.1.pri) (i := 0) (by rw [h.1.1]; omega) (F.div (nth y.1.pri 0) r)
  have s2 := nth_set_self (m := y.2.pri) (i := 0) (by rw [h.2.1]; omega) (F.div (nth y.2.pri 0) r)
  have h' : Len2 (n + 1) (⟨y.1.pri.set 0 (F.div (nth y.1.pri 0) r), y.1.car⟩, ⟨y.2.pri.set 0 (F.div (nth y.2.pri 0) r), y.2.car⟩) := by
    unfold Len2 at h ⊢; simpa using h
  unfold zrescaleLoop
  dsimp only
  generalize y.1.pri.set 0 (F.div (nth y.1.pri 0) r) = p0 at *
  generalize y.2.pri.set 0 (F.div (nth y.2.pri 0) r) = p1 at *
  generalize isZero (if 0 % 2 = 0 then nth p0 (0 / 2) else nth p1 (0 / 2)) = pr
  split
  · right
    refine ⟨⟨p0, y.1.car⟩, ⟨p1, y.2.car⟩, s1, s2, ?_⟩
    unfold tailUpdate
    dsimp only
    have l1 : p0.length = n + 1 := h'.1.1
    have l2 : p1.length = n + 1 := h'.2.1
    simp [l1, l2]
  · left
    have a := zr_keep (F := F) (r := r) n (0 + 1) (l := 0) h' (by omega) (by omega)
    exact ⟨a.1.1.trans s1, a.2.1.trans s2⟩

/-- Updating a value whose first entry is zero or lies in a bin after the window of `x` leaves an empty window. -/
theorem update_fresh {fold J : Nat} {x : Flt} {y y0 : Binned} (hx : F.dindex x + fold ≤ J + 1)
    (hs : F.isNaNInf (nth y.pri 0) = false) (hs0 : F.isNaNInf (nth y0.pri 0) = false)
    (hy : isZero (nth y.pri 0) = true ∨ J < F.dmindex (nth y.pri 0)) (hy0 : isZero (nth y0.pri 0) = true ∨ J < F.dmindex (nth y0.pri 0))
    (hf : 1 ≤ fold) : F.dmdupdate fold x y = F.dmdupdate fold x y0 := by
  have key : ∀ {y : Binned}, F.isNaNInf (nth y.pri 0) = false → (isZero (nth y.pri 0) = true ∨ J < F.dmindex (nth y.pri 0)) →
      F.dmdupdate fold x y = ⟨(List.range fold).map (fun i => F.bins (F.dindex x + i)), List.replicate fold zero⟩ := by
    intro y hs hy
    unfold dmdupdate
    dsimp only
    rw [hs]
    simp only [Bool.false_eq_true, if_false]
    split
    · rfl
    · next hz =>
      rcases hy with hy | hy
      · exact absurd hy hz
      · rw [if_pos (by omega)]
        congr 1
        · apply List.map_congr_left
          intro i hi
          rw [List.mem_range] at hi
          rw [if_pos (by omega)]
        · have e : ∀ i ∈ List.range fold, (if i < F.dmindex (nth y.pri 0) - F.dindex x then zero else nth y.car (i - (F.dmindex (nth y.pri 0) - F.dindex x))) = zero := by
            intro i hi
            rw [List.mem_range] at hi
            rw [if_pos (by omega)]
          rw [List.map_congr_left e, List.map_const', List.length_range]
  rw [key hs hy, key hs0 hy0]

/-- The first entry after an update by zero. -/
theorem update_zero_head [F.OK] {fold J : Nat} {y : Binned} (hf : 1 ≤ fold) (hJ : J < F.maxIndex) (hfin : F.Finite (nth y.pri 0))
    (hy : isZero (nth y.pri 0) = true ∨ J < F.dmindex (nth y.pri 0)) :
    F.isNaNInf (nth (F.dmdupdate fold zero y).pri 0) = false ∧ J < F.dmindex (nth (F.dmdupdate fold zero y).pri 0) := by
  have hd : F.dindex zero = F.maxIndex := by unfold dindex expo isZero zero; simp
  have hb : F.bins F.maxIndex = F.mkPri F.maxIndex 0 := bins_eq _
  have hw0 : F.Win 0 := by have h3' := pow_pos' (F.p - 3); exact win_of_bound (n := 0) (by omega) (by simp)
  have hbin : F.isNaNInf (F.bins F.maxIndex) = false ∧ J < F.dmindex (F.bins F.maxIndex) := by
    rw [hb, mkPri_isNaNInf hw0, dmindex_mkPri hw0 (le_refl _)]; exact ⟨rfl, hJ⟩
  obtain ⟨n, rfl⟩ : ∃ n, fold = n + 1 := ⟨fold - 1, by omega⟩
  unfold dmdupdate
  dsimp only
  rw [isNaNInf_false hfin, hd]
  simp only [Bool.false_eq_true, if_false]
  have e0 : ∀ f : Nat → Flt, nth ((List.range (n + 1)).map f) 0 = f 0 := by
    intro f; unfold nth; simp [List.getD]
  split
  · rw [e0, Nat.add_zero]; exact hbin
  · next hz =>
    split
    · rw [e0, if_pos (by omega), Nat.add_zero]; exact hbin
    · refine ⟨isNaNInf_false hfin, ?_⟩
      rcases hy with hy | hy
      · exact absurd hy hz
      · exact hy

end Fmt
end Repro
