import Verif.Int32Binned
import Verif.PropsInt32
import Verif.ThreadsOk
import Verif.Mpi
/-!
# C74: `int` overflow in the operations on one binned value
-/

namespace Repro
open Fmt
variable {F : Fmt}

/-- The stride `inc` and the subscript of the last of `fold` elements are representable. -/
structure StrideOK (fold : Nat) (inc : Int) : Prop where
  len : fold ≤ 2147483647
  str : InInt inc
  last : InInt (((fold : Int) - 1) * inc)

/-- Both vectors of a binned value. -/
structure Loc.StrideOK (fold : Nat) (l : Loc) : Prop where
  pri : Repro.StrideOK fold l.incpri
  car : Repro.StrideOK fold l.inccar

theorem StrideOK.mul {fold : Nat} {inc : Int} (h : StrideOK fold inc) {i : Nat} (hi : i < fold ∨ i ≤ 1) : InInt ((i : Int) * inc) := by
  obtain ⟨h1, h2, h3⟩ := h
  unfold InInt at *
  rcases Nat.eq_zero_or_pos i with rfl | h0
  · simp
  rcases Nat.lt_or_ge 1 i with h1' | h1'
  · have hi' : (i : Int) ≤ (fold : Int) - 1 := by omega
    rcases le_total 0 inc with hn | hn
    · have a := Int.mul_le_mul_of_nonneg_right hi' hn
      have b := Int.mul_nonneg (Int.natCast_nonneg i) hn
      omega
    · have a := Int.mul_le_mul_of_nonpos_right hi' hn
      have b := Int.mul_nonpos_of_nonneg_of_nonpos (Int.natCast_nonneg i) hn
      omega
  · have : i = 1 := by omega
    subst this
    simpa using h2

theorem Loc.StrideOK.subs {fold : Nat} {l : Loc} (h : l.StrideOK fold) {i : Nat} (hi : i < fold) : ∀ z ∈ l.subs i, InInt z := by
  intro z hz
  simp only [Loc.subs, List.mem_cons, List.not_mem_nil, or_false] at hz
  rcases hz with rfl | rfl
  · exact h.pri.mul (Or.inl hi)
  · exact h.car.mul (Or.inl hi)

theorem StrideOK.mono {n fold : Nat} {inc : Int} (h : StrideOK fold inc) (hn : 1 ≤ n) (hf : n ≤ fold) : StrideOK n inc := by
  refine ⟨hf.trans h.len, h.str, ?_⟩
  have := h.mul (i := n - 1) (Or.inl (by omega))
  rwa [Nat.cast_sub hn, Nat.cast_one] at this

theorem Loc.StrideOK.mono {n fold : Nat} {l : Loc} (h : l.StrideOK fold) (hn : 1 ≤ n) (hf : n ≤ fold) : l.StrideOK n := ⟨h.pri.mono hn hf, h.car.mono hn hf⟩

theorem roundsC_eq {is : List Nat} {es : Nat → List Int} (body : Mem → Nat → Mem) (m : Mem) (h : ∀ i ∈ is, ∀ z ∈ es i, InInt z) :
    roundsC is es body m = some (is.foldl body m) := by
  unfold roundsC
  induction is generalizing m with
  | nil => rfl
  | cons i is ih =>
    rw [List.foldl_cons, List.foldl_cons, Option.bind_some, chk_pos (h i (by simp))]
    exact ih _ (fun j hj => h j (by simp [hj]))

theorem InInt.of_le {z : Int} (h1 : -2147483648 ≤ z) (h2 : z ≤ 2147483647) : InInt z := ⟨h1, h2⟩

theorem forall_app {α : Type} {P : α → Prop} {l l' : List α} (h : ∀ z ∈ l, P z) (h' : ∀ z ∈ l', P z) : ∀ z ∈ l ++ l', P z := by
  intro z hz
  rcases List.mem_append.1 hz with hz | hz
  · exact h z hz
  · exact h' z hz

theorem forall_one {α : Type} {P : α → Prop} {a : α} (h : P a) : ∀ z ∈ [a], P z := by
  intro z hz; rw [List.mem_singleton.1 hz]; exact h

theorem forall_two {α : Type} {P : α → Prop} {a b : α} (h : P a) (h' : P b) : ∀ z ∈ [a, b], P z := forall_app (l := [a]) (l' := [b]) (forall_one h) (forall_one h')
theorem forall_three {α : Type} {P : α → Prop} {a b c : α} (h : P a) (h' : P b) (h'' : P c) : ∀ z ∈ [a, b, c], P z := forall_app (l := [a]) (l' := [b, c]) (forall_one h) (forall_two h' h'')

theorem dmsetzeroC_eq {fold : Nat} {l : Loc} (h : l.StrideOK fold) (m : Mem) : dmsetzeroC fold l m = some (dmsetzeroM fold l m) := by
  have hf := h.pri.len
  refine roundsC_eq _ _ (fun i hi => ?_)
  have hi := List.mem_range.1 hi
  exact forall_app (h.subs hi) (forall_one (P := InInt) (.of_le (by omega) (by omega)))

theorem dmdmsetC_eq {fold : Nat} {x y : Loc} (hx : x.StrideOK fold) (hy : y.StrideOK fold) (m : Mem) : dmdmsetC fold x y m = some (dmdmsetM fold x y m) := by
  have hf := hx.pri.len
  refine roundsC_eq _ _ (fun i hi => ?_)
  have hi := List.mem_range.1 hi
  exact forall_app (forall_app (hx.subs hi) (hy.subs hi)) (forall_one (P := InInt) (.of_le (by omega) (by omega)))

theorem maxIndex_small (hF : F = f64 ∨ F = f32) : F.maxIndex ≤ 100 := by rcases hF with rfl | rfl <;> decide +kernel

theorem dmdupdateC_eq (hF : F = f64 ∨ F = f32) {fold : Nat} {y : Loc} (h : y.StrideOK fold) (x : Flt) (m : Mem) : F.dmdupdateC fold x y m = some (F.dmdupdateM fold x y m) := by
  have hf := h.pri.len
  have h1 := dindex_le_max hF x
  have h2 := dmindex_le_max hF (m y.pri)
  have h3 := maxIndex_small hF
  unfold dmdupdateC dmdupdateM
  split
  · rfl
  dsimp only
  split
  · refine roundsC_eq _ _ (fun i hi => ?_)
    have hi := List.mem_range.1 hi
    exact forall_app (h.subs hi) (forall_one (P := InInt) (.of_le (by omega) (by omega)))
  rw [chk_pos (forall_one (P := InInt) (.of_le (by omega) (by omega)))]
  split
  · rw [chk_pos (forall_one (P := InInt) (.of_le (by omega) (by omega))), roundsC_eq, Option.bind_some, chk_pos (forall_one (P := InInt) (.of_le (by omega) (by omega))), roundsC_eq]
    · intro i hi
      have hi := List.mem_range.1 hi
      exact forall_app (h.subs (by omega)) (forall_one (P := InInt) (.of_le (by omega) (by omega)))
    · intro i hi
      have hi := mem_downTo hi
      exact forall_app (forall_app (forall_app (h.subs (by omega)) (forall_one (P := InInt) (.of_le (by omega) (by omega)))) (h.subs (by omega))) (forall_one (P := InInt) (.of_le (by omega) (by omega)))
  · rfl

theorem depositLoopC_eq {fold : Nat} {y : Loc} (h : StrideOK fold y.incpri) : ∀ (n i : Nat) (x : Flt) (m : Mem), (i + n < fold ∨ i + n ≤ 1) →
    F.depositLoopC fold y n i x m = some (F.depositLoopM y n i x m) := by
  have hf := h.len
  intro n
  induction n with
  | zero =>
    intro i x m hi
    unfold depositLoopC depositLoopM
    exact chk_pos (forall_two (P := InInt) (.of_le (by omega) (by omega)) (h.mul (by omega)))
  | succ n ih =>
    intro i x m hi
    unfold depositLoopC depositLoopM
    rw [chk_pos (forall_three (P := InInt) (.of_le (by omega) (by omega)) (h.mul (by omega)) (.of_le (by omega) (by omega)))]
    exact ih _ _ _ (by omega)

theorem dmddepositK_eq {fold : Nat} {y : Loc} (h : StrideOK fold y.incpri) (x : Flt) (m : Mem) : F.dmddepositK fold x y m = some (F.dmddepositM fold x y m) := by
  unfold dmddepositK dmddepositM
  split
  · rfl
  split
  · exact depositLoopC_eq h _ _ _ _ (by omega)
  · exact depositLoopC_eq h _ _ _ _ (by omega)

theorem dmrenormC_eq {fold : Nat} (hf : fold ≤ 2147483647) (y : Loc) (m : Mem) : F.dmrenormC fold y m = some (F.dmrenormM fold y m) := by
  unfold dmrenormC dmrenormM
  split
  · rfl
  · refine roundsC_eq _ _ (fun i hi => ?_)
    have hi := List.mem_range.1 hi
    exact forall_one (.of_le (by omega) (by omega))

theorem dmdaddC_eq (hF : F = f64 ∨ F = f32) {fold : Nat} {y : Loc} (h : y.StrideOK fold) (x : Flt) (m : Mem) : F.dmdaddC fold x y m = some (F.dmdaddM fold x y m) := by
  unfold dmdaddC dmdaddM
  rw [dmdupdateC_eq hF h, Option.bind_some, dmddepositK_eq h.pri, Option.bind_some, dmrenormC_eq h.pri.len]

theorem dmdconvC_eq (hF : F = f64 ∨ F = f32) {fold : Nat} {y : Loc} (h : y.StrideOK fold) (x : Flt) (m : Mem) : F.dmdconvC fold x y m = some (F.dmdconvM fold x y m) := by
  unfold dmdconvC dmdconvM
  rw [dmsetzeroC_eq h, Option.bind_some, dmdaddC_eq hF h]

theorem dmnegateC_eq {fold : Nat} {y : Loc} (h : y.StrideOK fold) (m : Mem) : F.dmnegateC fold y m = some (F.dmnegateM fold y m) := by
  have hf := h.pri.len
  unfold dmnegateC dmnegateM
  split
  · rfl
  · refine roundsC_eq _ _ (fun i hi => ?_)
    have hi := List.mem_range.1 hi
    exact forall_app (h.subs hi) (forall_one (P := InInt) (.of_le (by omega) (by omega)))

theorem dmdmaddC_eq (hF : F = f64 ∨ F = f32) {fold : Nat} {x y : Loc} (hx : x.StrideOK fold) (hy : y.StrideOK fold) (m : Mem) : F.dmdmaddC fold x y m = some (F.dmdmaddM fold x y m) := by
  have hf := hx.pri.len
  have h1 := dmindex_le_max hF (m x.pri)
  have h2 := dmindex_le_max hF (m y.pri)
  have h3 := maxIndex_small hF
  unfold dmdmaddC dmdmaddM
  split
  · rfl
  split
  · exact dmdmsetC_eq hx hy m
  split
  · rfl
  dsimp only
  rw [chk_pos (forall_one (P := InInt) (.of_le (by omega) (by omega)))]
  split
  · rw [chk_pos (forall_one (P := InInt) (.of_le (by omega) (by omega))), roundsC_eq, Option.bind_some, roundsC_eq, Option.bind_some, dmrenormC_eq hf]
    · intro i hi
      have hi := List.mem_range.1 hi
      exact forall_app (forall_app (hy.subs (by omega)) (hx.subs (by omega))) (forall_one (P := InInt) (.of_le (by omega) (by omega)))
    · intro i hi
      have hi := mem_downTo hi
      exact forall_app (forall_app (forall_app (forall_app (hy.subs (by omega)) (hx.subs (by omega))) (forall_one (P := InInt) (.of_le (by omega) (by omega)))) (hy.subs (by omega))) (forall_one (P := InInt) (.of_le (by omega) (by omega)))
  · rw [chk_pos (forall_one (P := InInt) (.of_le (by omega) (by omega))), roundsC_eq, Option.bind_some, dmrenormC_eq hf]
    intro i hi
    have hi := List.mem_range'_1.1 hi
    exact forall_app (forall_app (forall_app (hy.subs (by omega)) (forall_one (P := InInt) (.of_le (by omega) (by omega)))) (hx.subs (by omega))) (forall_one (P := InInt) (.of_le (by omega) (by omega)))

theorem convertK_eq {fold : Nat} (h1 : 1 ≤ fold) {l : Loc} (h : l.StrideOK fold) (m : Mem) : F.convertK fold l m = some (F.convertM fold l m) := by
  have hf := h.pri.len
  unfold convertK
  split
  · rfl
  refine chk_pos (forall_app ?_ ?_)
  · intro z hz
    obtain ⟨i, hi, hz⟩ := List.mem_flatMap.1 hz
    have hi := List.mem_range'_1.1 hi
    simp only [List.mem_cons, List.not_mem_nil, or_false] at hz
    rcases hz with rfl | rfl | rfl | rfl
    · exact h.car.mul (Or.inl (by omega))
    · exact .of_le (by omega) (by omega)
    · have := h.pri.mul (i := i - 1) (Or.inl (by omega))
      rwa [Nat.cast_sub (by omega), Nat.cast_one] at this
    · exact .of_le (by omega) (by omega)
  · exact forall_two (P := InInt) (.of_le (by omega) (by omega)) h.pri.last

theorem rescaleLoopK_eq (hF : F = f64 ∨ F = f32) (r : Flt) {fold : Nat} : ∀ (n i : Nat) {l : Loc}, l.StrideOK fold → i + n = fold → ∀ m : Mem,
    F.rescaleLoopK r fold n i l m = some (F.rescaleLoopM r n l m) := by
  intro n
  induction n with
  | zero => intros; rfl
  | succ n ih =>
    intro i l h hi m
    have hf := h.pri.len
    unfold rescaleLoopK rescaleLoopM
    rw [chk_pos (forall_app (h.subs (by omega)) (forall_two (P := InInt) (.of_le (by omega) (by omega)) (.of_le (by omega) (by omega))))]
    dsimp only
    split
    · exact dmdupdateC_eq hF (h.mono (by omega) (by omega)) _ _
    · exact ih (i + 1) (l := l.next) ⟨h.pri, h.car⟩ (by omega) _

theorem dmdrescaleC_eq (hF : F = f64 ∨ F = f32) {fold : Nat} {l : Loc} (h : l.StrideOK fold) (X S : Flt) (m : Mem) : F.dmdrescaleC fold X S l m = some (F.dmdrescaleM fold X S l m) := by
  unfold dmdrescaleC dmdrescaleM
  split
  · rfl
  · exact rescaleLoopK_eq hF _ fold 0 h (by omega) m

theorem strideOK_one {fold : Nat} (h : fold ≤ 2147483647) : StrideOK fold 1 := ⟨h, by unfold InInt; omega, by unfold InInt; omega⟩

theorem packed_strideOK {fold : Nat} (h : fold ≤ 2147483647) (X : Int) : (packed fold X).StrideOK fold := ⟨strideOK_one h, strideOK_one h⟩

theorem dmdmaddsqC_eq (hF : F = f64 ∨ F = f32) {fold : Nat} {x y : Loc} (hx : x.StrideOK fold) (hy : y.StrideOK fold) (tmp : Int) (sX sY : Flt) (m : Mem) :
    F.dmdmaddsqC fold tmp sX x sY y m = some (F.dmdmaddsqM fold tmp sX x sY y m) := by
  have ht := packed_strideOK hx.pri.len tmp
  unfold dmdmaddsqC dmdmaddsqM
  split
  · rw [dmdrescaleC_eq hF hy, Option.bind_some, dmdmaddC_eq hF hx hy]; rfl
  split
  · rw [dmdmaddC_eq hF hx hy]; rfl
  · dsimp only
    rw [dmdmsetC_eq hx ht, Option.bind_some, dmdrescaleC_eq hF ht, Option.bind_some, dmdmaddC_eq hF ht hy]; rfl

/-- A loop over calls that succeed. -/
theorem foldl_some {is : List Nat} {f : Mem → Nat → Option Mem} {g : Mem → Nat → Mem} (m : Mem) (h : ∀ i ∈ is, ∀ m, f m i = some (g m i)) :
    is.foldl (fun o i => o.bind fun m => f m i) (some m) = some (is.foldl g m) := by
  induction is generalizing m with
  | nil => rfl
  | cons i is ih =>
    rw [List.foldl_cons, List.foldl_cons, Option.bind_some, h i (by simp)]
    exact ih _ (fun j hj => h j (by simp [hj]))

theorem dbdbaddvC_eq (hF : F = f64 ∨ F = f32) {fold n : Nat} (hn : n ≤ 2147483647) {incX incY : Int} (hf : 2 * fold ≤ 2147483647) (hX : InInt (incX * (2 * fold))) (hY : InInt (incY * (2 * fold)))
    (X Y : Int) (m : Mem) : F.dbdbaddvC fold n X incX Y incY m = some (F.dbdbaddvM fold n X incX Y incY m) := by
  unfold dbdbaddvC dbdbaddvM
  refine foldl_some m (fun i hi m => ?_)
  have hi := List.mem_range.1 hi
  rw [dmdmaddC_eq hF (packed_strideOK (by omega) _) (packed_strideOK (by omega) _), Option.bind_some]
  refine chk_pos (fun z hz => ?_)
  simp only [List.mem_cons, List.not_mem_nil, or_false, dbnum] at hz
  rcases hz with rfl | rfl | rfl | rfl
  · exact .of_le (by omega) (by omega)
  · exact .of_le (by omega) (by omega)
  · exact hX
  · exact hY

/-! ### complex -/

/-- Both vectors of a complex binned value, with the strides doubled. -/
structure Loc.ZStrideOK (fold : Nat) (l : Loc) : Prop where
  pri : Repro.StrideOK fold (2 * l.incpri)
  car : Repro.StrideOK fold (2 * l.inccar)

theorem Loc.ZStrideOK.re {fold : Nat} {l : Loc} (h : l.ZStrideOK fold) : l.re.StrideOK fold := ⟨h.pri, h.car⟩
theorem Loc.ZStrideOK.im {fold : Nat} {l : Loc} (h : l.ZStrideOK fold) : l.im.StrideOK fold := ⟨h.pri, h.car⟩

theorem Loc.ZStrideOK.dbl {fold : Nat} {l : Loc} (h : l.ZStrideOK fold) : ∀ z ∈ Fmt.dbl l, InInt z :=
  forall_two (P := InInt) h.pri.str h.car.str

theorem zmC_eq {fold : Nat} {y : Loc} (h : y.ZStrideOK fold) {f : Loc → Mem → Option Mem} {g : Loc → Mem → Mem} (hf : ∀ l : Loc, l.StrideOK fold → ∀ m, f l m = some (g l m)) (m : Mem) :
    zmC f y m = some (g y.im (g y.re m)) := by
  unfold zmC
  rw [chk_pos h.dbl, hf _ h.re, Option.bind_some, chk_pos h.dbl, hf _ h.im]

theorem zmsetzeroC_eq {fold : Nat} {y : Loc} (h : y.ZStrideOK fold) (m : Mem) : zmsetzeroC fold y m = some (zmsetzeroM fold y m) := zmC_eq h (fun _ h m => dmsetzeroC_eq h m) m

theorem zmzmsetC_eq {fold : Nat} {x y : Loc} (hx : x.ZStrideOK fold) (hy : y.ZStrideOK fold) (m : Mem) : zmzmsetC fold x y m = some (zmzmsetM fold x y m) := by
  unfold zmzmsetC zmzmsetM
  rw [chk_pos (forall_app hx.dbl hy.dbl), dmdmsetC_eq hx.re hy.re, Option.bind_some, dmdmsetC_eq hx.im hy.im]

theorem zmdmsetC_eq {fold : Nat} {x y : Loc} (hx : x.StrideOK fold) (hy : y.ZStrideOK fold) (m : Mem) : zmdmsetC fold x y m = some (zmdmsetM fold x y m) := by
  unfold zmdmsetC zmdmsetM
  rw [chk_pos hy.dbl, dmdmsetC_eq hx hy.re, Option.bind_some, dmsetzeroC_eq hy.im]

theorem zmzupdateC_eq (hF : F = f64 ∨ F = f32) {fold : Nat} {y : Loc} (h : y.ZStrideOK fold) (xr xi : Flt) (m : Mem) : F.zmzupdateC fold xr xi y m = some (F.zmzupdateM fold xr xi y m) := by
  unfold zmzupdateC zmzupdateM
  rw [chk_pos h.dbl, dmdupdateC_eq hF h.re, Option.bind_some, dmdupdateC_eq hF h.im]

theorem zmdupdateC_eq (hF : F = f64 ∨ F = f32) {fold : Nat} {y : Loc} (h : y.ZStrideOK fold) (x : Flt) (m : Mem) : F.zmdupdateC fold x y m = some (F.zmdupdateM fold x y m) :=
  zmC_eq h (fun _ h m => dmdupdateC_eq hF h x m) m

theorem zdsubs_ok {fold : Nat} {y : Loc} (h : StrideOK fold (2 * y.incpri)) {i : Nat} (hi : i < fold ∨ i = 0) (h2 : 2 * fold ≤ 2147483647) : ∀ z ∈ zdsubs y i, InInt z := by
  have e : (i : Int) * 2 * y.incpri = i * (2 * y.incpri) := by ring
  have e2 : (i : Int) * 2 * y.incpri = 2 * (i * y.incpri) := by ring
  have hm := h.mul (i := i) (by omega)
  rw [← e] at hm
  intro z hz
  simp only [zdsubs, List.mem_cons, List.not_mem_nil, or_false] at hz
  rcases hz with rfl | rfl | rfl
  · exact .of_le (by omega) (by omega)
  · exact hm
  · unfold InInt at *; omega

theorem zdepositLoopK_eq {fold : Nat} {y : Loc} (h : StrideOK fold (2 * y.incpri)) (h2 : 2 * fold ≤ 2147483647) : ∀ (n i : Nat) (xR xI : Flt) (m : Mem), (i + n < fold ∨ i + n = 0) →
    F.zdepositLoopK fold y n i xR xI m = some (F.zdepositLoopM y n i xR xI m) := by
  intro n
  induction n with
  | zero =>
    intro i xR xI m hi
    unfold zdepositLoopK zdepositLoopM
    exact chk_pos (forall_app (forall_one (P := InInt) (.of_le (by omega) (by omega))) (zdsubs_ok h (by omega) h2))
  | succ n ih =>
    intro i xR xI m hi
    unfold zdepositLoopK zdepositLoopM
    rw [chk_pos (forall_app (forall_app (forall_one (P := InInt) (.of_le (by omega) (by omega))) (zdsubs_ok h (by omega) h2)) (forall_one (P := InInt) (.of_le (by omega) (by omega))))]
    exact ih _ _ _ _ (by omega)

theorem zmzdepositC_eq {fold : Nat} {y : Loc} (h : y.ZStrideOK fold) (h2 : 2 * fold ≤ 2147483647) (xR xI : Flt) (m : Mem) : F.zmzdepositC fold xR xI y m = some (F.zmzdepositM fold xR xI y m) := by
  unfold zmzdepositC zmzdepositM
  split
  · rw [chk_pos (forall_one h.pri.str), dmddepositK_eq h.im.pri]
  split
  · rw [chk_pos (forall_one h.pri.str), dmddepositK_eq h.re.pri]
  split
  · rw [chk_pos (forall_one h.pri.str), dmddepositK_eq h.re.pri, Option.bind_some, dmddepositK_eq h.im.pri]
  · exact zdepositLoopK_eq h.pri h2 _ _ _ _ _ (by omega)

theorem zmrenormC_eq {fold : Nat} {y : Loc} (h : y.ZStrideOK fold) (m : Mem) : F.zmrenormC fold y m = some (F.zmrenormM fold y m) :=
  zmC_eq h (fun l h m => dmrenormC_eq h.pri.len l m) m

theorem zmzaddC_eq (hF : F = f64 ∨ F = f32) {fold : Nat} {y : Loc} (h : y.ZStrideOK fold) (h2 : 2 * fold ≤ 2147483647) (xR xI : Flt) (m : Mem) : F.zmzaddC fold xR xI y m = some (F.zmzaddM fold xR xI y m) := by
  unfold zmzaddC zmzaddM
  rw [zmzupdateC_eq hF h, Option.bind_some, zmzdepositC_eq h h2, Option.bind_some, zmrenormC_eq h]

theorem zmzconvC_eq (hF : F = f64 ∨ F = f32) {fold : Nat} {y : Loc} (h : y.ZStrideOK fold) (xR xI : Flt) (m : Mem) : F.zmzconvC fold xR xI y m = some (F.zmzconvM fold xR xI y m) := by
  unfold zmzconvC zmzconvM
  rw [chk_pos h.dbl, dmdconvC_eq hF h.re, Option.bind_some, dmdconvC_eq hF h.im]

theorem zmnegateC_eq {fold : Nat} {y : Loc} (h : y.ZStrideOK fold) (m : Mem) : F.zmnegateC fold y m = some (F.zmnegateM fold y m) := zmC_eq h (fun _ h m => dmnegateC_eq h m) m

theorem zmzmaddC_eq (hF : F = f64 ∨ F = f32) {fold : Nat} {x y : Loc} (hx : x.ZStrideOK fold) (hy : y.ZStrideOK fold) (m : Mem) : F.zmzmaddC fold x y m = some (F.zmzmaddM fold x y m) := by
  unfold zmzmaddC zmzmaddM
  rw [chk_pos (forall_app hx.dbl hy.dbl), dmdmaddC_eq hF hx.re hy.re, Option.bind_some, dmdmaddC_eq hF hx.im hy.im]

theorem zzmconvC_eq {fold : Nat} (h1 : 1 ≤ fold) {l : Loc} (hp : StrideOK fold (2 * l.incpri)) (hc : StrideOK fold (l.inccar + 1)) (m : Mem) : F.zzmconvC fold l m = some (F.zzmconvM fold l m) := by
  rw [mul_comm] at hp
  unfold zzmconvC zzmconvM
  rw [chk_pos (forall_two (P := InInt) hp.str hc.str), convertK_eq h1 ⟨hp, hc⟩, Option.bind_some, convertK_eq h1 ⟨hp, hc⟩]
  rfl

theorem zrescaleLoopK_eq (hF : F = f64 ∨ F = f32) (r : Flt) {fold : Nat} {l : Loc} (h : l.ZStrideOK fold) (h2 : 2 * fold ≤ 2147483647) : ∀ (n i : Nat), i + n = fold → ∀ m : Mem,
    F.zrescaleLoopK r fold l n i m = some (F.zrescaleLoopM r fold l n i m) := by
  intro n
  induction n with
  | zero => intros; rfl
  | succ n ih =>
    intro i hi m
    have e : (i : Int) * 2 * l.incpri = i * (2 * l.incpri) := by ring
    have e2 : (i : Int) * 2 * l.inccar = i * (2 * l.inccar) := by ring
    have e3 : (i : Int) * (2 * l.incpri) = 2 * (i * l.incpri) := by ring
    have hp := h.pri.mul (i := i) (Or.inl (by omega))
    have hc := h.car.mul (i := i) (Or.inl (by omega))
    unfold zrescaleLoopK zrescaleLoopM
    rw [chk_pos]
    · dsimp only
      split
      · exact zmdupdateC_eq hF (y := ⟨l.pri + i * 2 * l.incpri, l.incpri, l.car + i * 2 * l.inccar, l.inccar⟩) ⟨h.pri.mono (n := fold - i) (by omega) (by omega), h.car.mono (n := fold - i) (by omega) (by omega)⟩ _ _
      · exact ih (i + 1) (by omega) _
    · refine forall_app (zdsubs_ok h.pri (by omega) h2) (fun z hz => ?_)
      simp only [List.mem_cons, List.not_mem_nil, or_false] at hz
      rcases hz with rfl | rfl | rfl | rfl
      · unfold InInt at *; omega
      · exact .of_le (by omega) (by omega)
      · rw [e2]; exact hc
      · exact .of_le (by omega) (by omega)

theorem zmdrescaleC_eq (hF : F = f64 ∨ F = f32) {fold : Nat} {l : Loc} (h : l.ZStrideOK fold) (h2 : 2 * fold ≤ 2147483647) (X S : Flt) (m : Mem) :
    F.zmdrescaleC fold X S l m = some (F.zmdrescaleM fold X S l m) := by
  unfold zmdrescaleC zmdrescaleM
  split
  · rfl
  · exact zrescaleLoopK_eq hF _ h h2 fold 0 (by omega) m

theorem zpacked_strideOK {fold : Nat} (h : 2 * fold ≤ 2147483647) (X : Int) : (zpacked fold X).ZStrideOK fold := by
  have : StrideOK fold (2 * 1) := ⟨by omega, by unfold InInt; omega, by unfold InInt; omega⟩
  exact ⟨this, this⟩

theorem zbzbaddvC_eq (hF : F = f64 ∨ F = f32) {fold n : Nat} (hn : n ≤ 2147483647) {incX incY : Int} (hf : 4 * fold ≤ 2147483647) (hX : InInt (incX * (4 * fold))) (hY : InInt (incY * (4 * fold)))
    (X Y : Int) (m : Mem) : F.zbzbaddvC fold n X incX Y incY m = some (F.zbzbaddvM fold n X incX Y incY m) := by
  unfold zbzbaddvC zbzbaddvM
  refine foldl_some m (fun i hi m => ?_)
  have hi := List.mem_range.1 hi
  rw [chk_pos (forall_one (P := InInt) (.of_le (by omega) (by omega))), zmzmaddC_eq hF (zpacked_strideOK (by omega) _) (zpacked_strideOK (by omega) _), Option.bind_some]
  refine chk_pos (fun z hz => ?_)
  simp only [List.mem_cons, List.not_mem_nil, or_false, zbnum] at hz
  rcases hz with rfl | rfl | rfl | rfl
  · exact .of_le (by omega) (by omega)
  · exact .of_le (by omega) (by omega)
  · exact hX
  · exact hY

/-- **C74**, the real operations on binned values with arbitrary strides: no `int` overflows if the strides and the subscript of the last element, `(fold - 1) * inc`, are representable. -/
theorem C74_binned (hF : F = f64 ∨ F = f32) {fold : Nat} (h1 : 1 ≤ fold) {x y : Loc} (hx : x.StrideOK fold) (hy : y.StrideOK fold) (a b : Flt) (tmp : Int) (m : Mem) :
    dmsetzeroC fold y m = some (dmsetzeroM fold y m) ∧ dmdmsetC fold x y m = some (dmdmsetM fold x y m) ∧
    F.dmdupdateC fold a y m = some (F.dmdupdateM fold a y m) ∧ F.dmddepositK fold a y m = some (F.dmddepositM fold a y m) ∧
    F.dmrenormC fold y m = some (F.dmrenormM fold y m) ∧ F.dmdaddC fold a y m = some (F.dmdaddM fold a y m) ∧
    F.dmdconvC fold a y m = some (F.dmdconvM fold a y m) ∧ F.dmnegateC fold y m = some (F.dmnegateM fold y m) ∧
    F.dmdmaddC fold x y m = some (F.dmdmaddM fold x y m) ∧ F.convertK fold y m = some (F.convertM fold y m) ∧
    F.dmdrescaleC fold a b y m = some (F.dmdrescaleM fold a b y m) ∧ F.dmdmaddsqC fold tmp a x b y m = some (F.dmdmaddsqM fold tmp a x b y m) :=
  ⟨dmsetzeroC_eq hy m, dmdmsetC_eq hx hy m, dmdupdateC_eq hF hy a m, dmddepositK_eq hy.pri a m, dmrenormC_eq hy.pri.len y m, dmdaddC_eq hF hy a m, dmdconvC_eq hF hy a m, dmnegateC_eq hy m,
    dmdmaddC_eq hF hx hy m, convertK_eq h1 hy m, dmdrescaleC_eq hF hy a b m, dmdmaddsqC_eq hF hx hy tmp a b m⟩

/-- **C74**, the complex operations: the doubled strides and `(fold - 1) * 2 * inc` must be representable; for the conversion to a complex number also `(fold - 1) * (inccar + 1)`, the code's stride. -/
theorem C74_zbinned (hF : F = f64 ∨ F = f32) {fold : Nat} (h1 : 1 ≤ fold) (h2 : 2 * fold ≤ 2147483647) {x y r : Loc} (hx : x.ZStrideOK fold) (hy : y.ZStrideOK fold) (hr : r.StrideOK fold)
    (hc : StrideOK fold (y.inccar + 1)) (a b : Flt) (m : Mem) :
    zmsetzeroC fold y m = some (zmsetzeroM fold y m) ∧ zmzmsetC fold x y m = some (zmzmsetM fold x y m) ∧ zmdmsetC fold r y m = some (zmdmsetM fold r y m) ∧
    F.zmzupdateC fold a b y m = some (F.zmzupdateM fold a b y m) ∧ F.zmdupdateC fold a y m = some (F.zmdupdateM fold a y m) ∧
    F.zmzdepositC fold a b y m = some (F.zmzdepositM fold a b y m) ∧ F.zmrenormC fold y m = some (F.zmrenormM fold y m) ∧
    F.zmzaddC fold a b y m = some (F.zmzaddM fold a b y m) ∧ F.zmzconvC fold a b y m = some (F.zmzconvM fold a b y m) ∧
    F.zmnegateC fold y m = some (F.zmnegateM fold y m) ∧ F.zmzmaddC fold x y m = some (F.zmzmaddM fold x y m) ∧
    F.zzmconvC fold y m = some (F.zzmconvM fold y m) ∧ F.zmdrescaleC fold a b y m = some (F.zmdrescaleM fold a b y m) :=
  ⟨zmsetzeroC_eq hy m, zmzmsetC_eq hx hy m, zmdmsetC_eq hr hy m, zmzupdateC_eq hF hy a b m, zmdupdateC_eq hF hy a m, zmzdepositC_eq hy h2 a b m, zmrenormC_eq hy m, zmzaddC_eq hF hy h2 a b m,
    zmzconvC_eq hF hy a b m, zmnegateC_eq hy m, zmzmaddC_eq hF hx hy m, zzmconvC_eq h1 hy.pri hc m, zmdrescaleC_eq hF hy h2 a b m⟩

/-- **C74**, `binned_dbdbaddv`, `binned_zbzbaddv` (used by the MPI reductions): the distances between elements must be representable. -/
theorem C74_addv (hF : F = f64 ∨ F = f32) {fold n : Nat} (hn : n ≤ 2147483647) {incX incY : Int} (X Y : Int) (m : Mem) :
    (2 * fold ≤ 2147483647 → InInt (incX * (2 * fold)) → InInt (incY * (2 * fold)) → F.dbdbaddvC fold n X incX Y incY m = some (F.dbdbaddvM fold n X incX Y incY m)) ∧
    (4 * fold ≤ 2147483647 → InInt (incX * (4 * fold)) → InInt (incY * (4 * fold)) → F.zbzbaddvC fold n X incX Y incY m = some (F.zbzbaddvM fold n X incX Y incY m)) :=
  ⟨fun h1 h2 h3 => dbdbaddvC_eq hF hn h1 h2 h3 X Y m, fun h1 h2 h3 => zbzbaddvC_eq hF hn h1 h2 h3 X Y m⟩

/-- **C74**: the packed types satisfy the conditions for every fold up to 1073741823. -/
theorem C74_packed {fold : Nat} (h : 2 * fold ≤ 2147483647) (X : Int) :
    (packed fold X).StrideOK fold ∧ (zpacked fold X).ZStrideOK fold ∧ StrideOK fold ((zpacked fold X).inccar + 1) :=
  ⟨packed_strideOK (by omega) X, zpacked_strideOK h X, ⟨by omega, by show InInt (1 + 1); unfold InInt; omega, by show InInt (((fold : Int) - 1) * (1 + 1)); unfold InInt; omega⟩⟩

/-- **C74**, the condition is sharp: where the last subscript is not representable, already setting the value to zero overflows. -/
theorem C74_binned_sharp {fold : Nat} (h1 : 1 ≤ fold) {y : Loc} (h : ¬ InInt (((fold : Int) - 1) * y.incpri) ∨ ¬ InInt (((fold : Int) - 1) * y.inccar)) (m : Mem) : dmsetzeroC fold y m = none := by
  obtain ⟨n, rfl⟩ : ∃ n, fold = n + 1 := ⟨fold - 1, by omega⟩
  have e : (((n + 1 : Nat) : Int) - 1) = n := by push_cast; ring
  rw [e] at h
  unfold dmsetzeroC roundsC
  rw [List.range_succ, List.foldl_append, List.foldl_cons, List.foldl_nil]
  have : ∀ m : Mem, chk (y.subs n ++ [(n : Int) + 1]) (some ((m.set (y.P n) zero).set (y.C n) zero)) = none := by
    intro m
    rcases h with h | h
    · exact chk_neg (z := (n : Int) * y.incpri) (by simp [Loc.subs]) h
    · exact chk_neg (z := (n : Int) * y.inccar) (by simp [Loc.subs]) h
  simp only [this, bind_none']

/-- **C74**: filling the table of bins overflows nowhere. -/
theorem C74_bins (hF : F = f64 ∨ F = f32) : ∀ z ∈ F.dmbinsInts, InInt z := by
  have h : ∀ p w e i f : Nat, p ≤ 100 → w ≤ 100 → e ≤ 2000 → i ≤ 100 → f ≤ 101 → F.p = p → F.W = w → F.maxExp = e → F.maxIndex = i → F.maxFold = f → ∀ z ∈ F.dmbinsInts, InInt z := by
    rintro p w e i f h1 h2 h3 h4 h5 rfl rfl rfl rfl rfl z hz
    unfold dmbinsInts at hz
    rcases List.mem_append.1 hz with hz | hz
    · rcases List.mem_append.1 hz with hz | hz
      · simp only [List.mem_cons, List.not_mem_nil, or_false] at hz
        rcases hz with rfl | rfl <;> (unfold InInt; omega)
      · obtain ⟨k, hk, hz⟩ := List.mem_flatMap.1 hz
        have hk := List.mem_range'_1.1 hk
        have hkw : k * F.W ≤ 100 * 100 := Nat.mul_le_mul (by omega) h2
        have hkw' : (k : Int) * F.W ≤ 10000 := by exact_mod_cast hkw
        have hk0 : 0 ≤ (k : Int) * F.W := Int.mul_nonneg (Int.natCast_nonneg _) (Int.natCast_nonneg _)
        simp only [List.mem_cons, List.not_mem_nil, or_false] at hz
        rcases hz with rfl | rfl | rfl | rfl | rfl | rfl <;> (unfold InInt; omega)
    · obtain ⟨k, hk, hz⟩ := List.mem_flatMap.1 hz
      have hk := List.mem_range'_1.1 hk
      simp only [List.mem_cons, List.not_mem_nil, or_false] at hz
      rcases hz with rfl | rfl <;> (unfold InInt; omega)
  rcases hF with rfl | rfl <;> exact h _ _ _ _ _ (by decide +kernel) (by decide +kernel) (by decide +kernel) (by decide +kernel) (by decide +kernel) rfl rfl rfl rfl rfl

/-- **C74**: the operations registered with MPI, on segments of any length. -/
theorem C74_mpi (hF : F = f64 ∨ F = f32) {fold len : Nat} (hn : len ≤ 2147483647) (invec inoutvec : Int) (m : Mem) :
    (2 * fold ≤ 2147483647 → F.mpiAddC fold len invec inoutvec m = some ((F.mpiAdd fold).op invec inoutvec len m)) ∧
    (4 * fold ≤ 2147483647 → F.mpiCAddC fold len invec inoutvec m = some ((F.mpiCAdd fold).op invec inoutvec len m)) :=
  ⟨fun h => dbdbaddvC_eq hF hn h (by unfold InInt; omega) (by unfold InInt; omega) _ _ m, fun h => zbzbaddvC_eq hF hn h (by unfold InInt; omega) (by unfold InInt; omega) _ _ m⟩

/-- **C74**: the words of a packed value, `2 * fold` and `4 * fold` (`binned_dbnum`, `binned_zbnum`; the same products, times `sizeof`, in `binned_dbsize`, `binned_zbsize`) overflow exactly beyond folds of
1073741823 and 536870911. -/
theorem C74_num (fold : Nat) : (InInt (dbnum fold) ↔ fold ≤ 1073741823) ∧ (InInt (zbnum fold) ↔ fold ≤ 536870911) := by
  unfold InInt dbnum zbnum
  omega

/-- A value of fold 4 with strides 3 and -500000000. -/
example : (⟨10, 3, 4000, -500000000⟩ : Loc).StrideOK 4 := by
  refine ⟨⟨by decide, ?_, ?_⟩, ⟨by decide, ?_, ?_⟩⟩ <;> (unfold InInt; decide)

/-- Adding 5 to a zero value of fold 3 with strides 2 and 3, with checked arithmetic, and converting it. -/
example : ((f32.dmdaddC 3 (f32.ofInt 5) ⟨0, 2, 100, 3⟩ (fun _ => zero)).bind fun m => f32.convertK 3 ⟨0, 2, 100, 3⟩ m) = some (f32.ofInt 5) := by decide +kernel

/-- With a stride of 2^30, a third bin is too many. -/
example (m : Mem) : dmsetzeroC 3 ⟨0, 1, 100, 1073741824⟩ m = none := C74_binned_sharp (by decide) (Or.inr (by unfold InInt; decide)) m

end Repro
