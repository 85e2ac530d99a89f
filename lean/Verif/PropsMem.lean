import Verif.MemLemmas
import Verif.PropsSum
/-!
# C31, C32, C35, C22, C23: strides, the packed layout, arrays of binned values, complex values
-/

namespace Repro
open Fmt
variable {F : Fmt}

/-! ## C31: strided access -/

/-- The operations on one binned value. -/
inductive Op where
  | setzero
  | update (x : Flt)
  | deposit (x : Flt)
  | renorm
  | add (x : Flt)
  | ofNum (x : Flt)
  | negate
deriving DecidableEq, Repr

/-- Their meaning on lists (`Verif/Binned.lean`). -/
def Op.run (F : Fmt) (n : Nat) : Op → Binned → Binned
  | .setzero, _ => dmsetzero n
  | .update x, y => F.dmdupdate n x y
  | .deposit x, y => ⟨F.dmddeposit x y.pri, y.car⟩
  | .renorm, y => F.dmrenorm y
  | .add x, y => F.dmdadd n x y
  | .ofNum x, _ => F.dmdconv n x
  | .negate, y => F.dmnegate n y

/-- Their execution in memory (`Verif/Memory.lean`). -/
def Op.exec (F : Fmt) (n : Nat) (l : Loc) : Op → Mem → Mem
  | .setzero, m => dmsetzeroM n l m
  | .update x, m => F.dmdupdateM n x l m
  | .deposit x, m => F.dmddepositM n x l m
  | .renorm, m => F.dmrenormM n l m
  | .add x, m => F.dmdaddM n x l m
  | .ofNum x, m => F.dmdconvM n x l m
  | .negate, m => F.dmnegateM n l m

/-- **C31**, one operation: executed on a value stored with any strides, it leaves there the value the operation
has on lists (in particular the one it leaves with unit strides), and writes nowhere else. -/
theorem C31_operation {n : Nat} (hn : 2 ≤ n) {l : Loc} (hs : Sep n l) (o : Op) (m : Mem) :
    view n l (o.exec F n l m) = o.run F n (view n l m) ∧ ∀ a, ¬ l.In n a → o.exec F n l m a = m a := by
  cases o with
  | setzero => exact dmsetzeroM_refines hs m
  | update x => exact dmdupdateM_refines (by omega) hs x m
  | deposit x => exact dmddepositM_refines hn hs x m
  | renorm => exact dmrenormM_refines (by omega) hs m
  | add x => exact dmdaddM_refines hn hs x m
  | ofNum x => exact dmdconvM_refines hn hs x m
  | negate => exact dmnegateM_refines (by omega) hs m

/-- Merging a value into itself in place. -/
theorem dmdmaddM_self {n : Nat} (hn : 1 ≤ n) {y : Loc} (hs : Sep n y) (m : Mem) :
    view n y (F.dmdmaddM n y y m) = F.dmdmadd n (view n y m) (view n y m) ∧
    ∀ a, ¬ y.In n a → F.dmdmaddM n y y m a = m a := by
  unfold dmdmaddM dmdmadd
  rw [nth_view_pri y m (by omega : 0 < n), Loc.P0]
  split
  · exact ⟨rfl, fun _ _ => rfl⟩
  split
  · have h := set0_refines hn hs m (F.add (m y.pri) (m y.pri))
    rw [h.1, view_pri_cons hn]
    refine ⟨rfl, fun a ha => h.2 a (fun e => ha ?_)⟩
    rw [e, ← Loc.P0]; exact y.inP (by omega)
  dsimp only
  generalize F.dmindex (m y.pri) = k
  rw [if_neg (by omega), if_neg (by omega), Nat.sub_self, Nat.sub_zero, ← List.range_eq_range']
  have h1 := loop_up (m0 := m) hs
    (f := fun i m => F.add (m (y.P i)) (F.sub (m (y.P (i - 0))) (F.bins (k + (i - 0)))))
    (g := fun i m => F.add (m (y.C i)) (m (y.C (i - 0))))
    (fun i hi m' hm => by
      show F.add (m' (y.P i)) (F.sub (m' (y.P i)) _) = F.add (m (y.P i)) (F.sub (m (y.P i)) _)
      rw [hm (y.P i) (fun j hj => ⟨fun e => by have := hs.pp i hi j (by omega) e; omega, hs.pc i hi j (by omega)⟩)])
    (fun i hi m' hm => by
      show F.add (m' (y.C i)) (m' (y.C i)) = F.add (m (y.C i)) (m (y.C i))
      rw [hm (y.C i) (fun e => hs.pc i hi i hi e.symm) (fun j hj => ⟨fun e => hs.pc j (by omega) i hi e.symm, fun e => by have := hs.cc i hi j (by omega) e; omega⟩)])
  have h3 := dmrenormM_refines (F := F) hn hs (loop2 y.P y.C
    (fun i m => F.add (m (y.P i)) (F.sub (m (y.P (i - 0))) (F.bins (k + (i - 0)))))
    (fun i m => F.add (m (y.C i)) (m (y.C (i - 0)))) (List.range n) m)
  refine ⟨h3.1.trans ?_, fun a ha => (h3.2 a ha).trans (h1.2 a ha)⟩
  congr 1
  refine view_eq (fun i hi => ?_)
  rw [if_neg (by omega), if_neg (by omega)]
  simp only [Nat.sub_zero]
  rw [nth_view_pri y m hi, nth_view_car y m hi]
  exact h1.1 i hi

/-- Copying a value onto itself changes nothing. -/
theorem dmdmsetM_self {n : Nat} {y : Loc} (hs : Sep n y) (m : Mem) :
    view n y (dmdmsetM n y y m) = view n y m ∧ ∀ a, ¬ y.In n a → dmdmsetM n y y m a = m a := by
  have h := loop_up (m0 := m) hs (f := fun i m => m (y.P i)) (g := fun i m => m (y.C i))
    (fun i hi m' hm => hm _ (fun j hj => ⟨fun e => by have := hs.pp i hi j (by omega) e; omega, hs.pc i hi j (by omega)⟩))
    (fun i hi m' hm => hm _ (fun e => hs.pc i hi i hi e.symm)
      (fun j hj => ⟨fun e => hs.pc j (by omega) i hi e.symm, fun e => by have := hs.cc i hi j (by omega) e; omega⟩))
  exact ⟨view_eq h.1, h.2⟩

/-- Commands on several values: an operation on value `v`, `v += u`, `v := u`. -/
inductive Cmd where
  | op (v : Nat) (o : Op)
  | merge (u v : Nat)
  | set (u v : Nat)
deriving DecidableEq, Repr

/-- The values a command refers to are among the first `N`. -/
def Cmd.below (N : Nat) : Cmd → Prop
  | .op v _ => v < N
  | .merge u v => u < N ∧ v < N
  | .set u v => u < N ∧ v < N

/-- Replace the value number `v`. -/
def upd (s : Nat → Binned) (v : Nat) (b : Binned) : Nat → Binned := fun w => if w = v then b else s w

/-- Meaning of a command on a family of separate values. -/
def Cmd.run (F : Fmt) (n : Nat) (s : Nat → Binned) : Cmd → (Nat → Binned)
  | .op v o => upd s v (o.run F n (s v))
  | .merge u v => upd s v (F.dmdmadd n (s u) (s v))
  | .set u v => upd s v (s u)

/-- Execution of a command in memory, value `v` being stored at `loc v`. -/
def Cmd.exec (F : Fmt) (n : Nat) (loc : Nat → Loc) (m : Mem) : Cmd → Mem
  | .op v o => o.exec F n (loc v) m
  | .merge u v => F.dmdmaddM n (loc u) (loc v) m
  | .set u v => dmdmsetM n (loc u) (loc v) m

/-- **C31.** Whatever sequence of operations is executed on binned values stored without overlap at arbitrary
places and strides, each value is what the operations make of separate values, and no other word of memory
changes. -/
theorem C31_programs {n : Nat} (hn : 2 ≤ n) {N : Nat} {loc : Nat → Loc} (hs : ∀ v < N, Sep n (loc v))
    (ha : ∀ u < N, ∀ v < N, u ≠ v → Apart n (loc u) (loc v)) (prog : List Cmd) (hp : ∀ c ∈ prog, c.below N)
    (m : Mem) :
    (∀ v < N, view n (loc v) (prog.foldl (Cmd.exec F n loc) m) = prog.foldl (Cmd.run F n) (fun v => view n (loc v) m) v) ∧
    (∀ a, (∀ v < N, ¬ (loc v).In n a) → prog.foldl (Cmd.exec F n loc) m a = m a) := by
  have step : ∀ (m : Mem) (s : Nat → Binned) (c : Cmd), c.below N → (∀ v < N, view n (loc v) m = s v) →
      (∀ v < N, view n (loc v) (c.exec F n loc m) = c.run F n s v) ∧
      (∀ a, (∀ v < N, ¬ (loc v).In n a) → c.exec F n loc m a = m a) := by
    intro m s c hc hv
    have key : ∀ (v : Nat) (b : Binned) (m' : Mem), v < N → view n (loc v) m' = b → (∀ a, ¬ (loc v).In n a → m' a = m a) →
        (∀ w < N, view n (loc w) m' = upd s v b w) ∧ (∀ a, (∀ v < N, ¬ (loc v).In n a) → m' a = m a) := by
      intro v b m' hvN hb hf
      refine ⟨fun w hw => ?_, fun a h => hf a (h v hvN)⟩
      unfold upd
      split
      · next e => rw [e]; exact hb
      · next e => rw [view_frame (ha w hw v hvN e) hf]; exact hv w hw
    cases c with
    | op v o =>
      have h := C31_operation (F := F) hn (hs v hc) o m
      exact key v _ _ hc (h.1.trans (by rw [hv v hc])) h.2
    | merge u v =>
      have h : view n (loc v) (F.dmdmaddM n (loc u) (loc v) m) = F.dmdmadd n (view n (loc u) m) (view n (loc v) m) ∧
          ∀ a, ¬ (loc v).In n a → F.dmdmaddM n (loc u) (loc v) m a = m a := by
        by_cases e : u = v
        · subst e; exact dmdmaddM_self (by omega) (hs u hc.1) m
        · exact dmdmaddM_refines (by omega) (hs v hc.2) (ha u hc.1 v hc.2 e) m
      exact key v _ _ hc.2 (h.1.trans (by rw [hv v hc.2, hv u hc.1])) h.2
    | set u v =>
      have h : view n (loc v) (dmdmsetM n (loc u) (loc v) m) = view n (loc u) m ∧
          ∀ a, ¬ (loc v).In n a → dmdmsetM n (loc u) (loc v) m a = m a := by
        by_cases e : u = v
        · subst e; exact dmdmsetM_self (hs u hc.1) m
        · exact dmdmsetM_refines (hs v hc.2) (ha u hc.1 v hc.2 e) m
      exact key v _ _ hc.2 (h.1.trans (hv u hc.1)) h.2
  have main : ∀ (prog : List Cmd) (m : Mem) (s : Nat → Binned), (∀ c ∈ prog, c.below N) → (∀ v < N, view n (loc v) m = s v) →
      (∀ v < N, view n (loc v) (prog.foldl (Cmd.exec F n loc) m) = prog.foldl (Cmd.run F n) s v) ∧
      (∀ a, (∀ v < N, ¬ (loc v).In n a) → prog.foldl (Cmd.exec F n loc) m a = m a) := by
    intro prog
    induction prog with
    | nil => intro m s _ h; exact ⟨h, fun _ _ => rfl⟩
    | cons c cs ih =>
      intro m s hp h
      have h1 := step m s c (hp c (by simp)) h
      have h2 := ih (c.exec F n loc m) (c.run F n s) (fun c hc => hp c (by simp [hc])) h1.1
      exact ⟨h2.1, fun a ha' => (h2.2 a ha').trans (h1.2 a ha')⟩
  exact main prog m _ hp (fun _ _ => rfl)

/-- Conversion reads only the addressed elements. -/
theorem C31_convert {n : Nat} (hn : 2 ≤ n) (l : Loc) (m : Mem) : F.convertM n l m = convert F n (view n l m) := by
  unfold convertM; rw [Nat.max_eq_left hn]

/-- **C31** with C01: numbers accumulated at any place and stride give the specified bits. -/
theorem C31_sum_in_memory [F.OK] {n : Nat} (hn : 2 ≤ n) {l : Loc} (hs : Sep n l) {xs : List Flt}
    (hx : ∀ x ∈ xs, F.Finite x) (hc : xs.length ≤ F.capacity) (m : Mem) :
    view n l (xs.foldl (fun m x => F.dmdaddM n x l m) (dmsetzeroM n l m)) = F.specSum n xs := by
  have h : ∀ (xs : List Flt) (m : Mem), view n l (xs.foldl (fun m x => F.dmdaddM n x l m) m) = F.sumSeq n xs (view n l m) := by
    intro xs
    induction xs with
    | nil => intro m; rfl
    | cons x xs ih => intro m; rw [List.foldl_cons, ih, (dmdaddM_refines hn hs x m).1]; rfl
  rw [h, (dmsetzeroM_refines hs m).1]
  exact C01_sum_is_spec hn hx hc

/-- A value with stride 3 for primaries and -2 for carries meets the hypotheses. -/
example : Sep 4 ⟨0, 3, 100, -2⟩ := by
  refine ⟨?_, ?_, ?_⟩ <;> intro i hi j hj <;> simp only [Loc.P, Loc.C] <;> omega

/-! ## C32: the packed layout -/

theorem packed_sep (n : Nat) (X : Int) : Sep n (packed n X) := by
  refine ⟨?_, ?_, ?_⟩ <;> intro i hi j hj <;> simp only [Loc.P, Loc.C, packed] <;> omega

/-- The addresses of a packed value are the `dbnum` words from its start. -/
theorem packed_in {n : Nat} {X a : Int} : (packed n X).In n a ↔ X ≤ a ∧ a < X + dbnum n := by
  unfold Loc.In Loc.P Loc.C packed dbnum
  dsimp only
  constructor
  · rintro ⟨i, hi, h | h⟩ <;> omega
  · intro h
    by_cases hc : a < X + n
    · exact ⟨(a - X).toNat, by omega, Or.inl (by omega)⟩
    · exact ⟨(a - X - n).toNat, by omega, Or.inr (by omega)⟩

theorem mul_gap {i j : Nat} {d n : Int} (hd : n ≤ d.natAbs) (h : i ≠ j) : n ≤ ((i : Int) * d - j * d).natAbs := by
  have e : (i : Int) * d - j * d = (i - j) * d := by rw [Int.sub_mul]
  rw [e, Int.natAbs_mul]
  have : 1 ≤ ((i : Int) - j).natAbs := by omega
  have h2 : 1 * d.natAbs ≤ ((i : Int) - j).natAbs * d.natAbs := Nat.mul_le_mul_right _ this
  omega

/-- Packed values at distance at least `dbnum` do not overlap. -/
theorem packed_apart {n : Nat} {X Y : Int} (h : dbnum n ≤ (X - Y).natAbs) : Apart n (packed n X) (packed n Y) := by
  intro a h1 h2
  rw [packed_in] at h1 h2
  omega

/-- **C32.** An array of `N` packed values, one after the other: every program of operations on them acts on each
as on a separate value and changes no word outside the `N * dbnum` words of the array. -/
theorem C32_packed_array {n : Nat} (hn : 2 ≤ n) (N : Nat) (X : Int) (prog : List Cmd) (hp : ∀ c ∈ prog, c.below N) (m : Mem) :
    let loc := fun v : Nat => packed n (X + v * dbnum n)
    (∀ v < N, view n (loc v) (prog.foldl (Cmd.exec F n loc) m) = prog.foldl (Cmd.run F n) (fun v => view n (loc v) m) v) ∧
    (∀ a, a < X ∨ X + N * dbnum n ≤ a → prog.foldl (Cmd.exec F n loc) m a = m a) := by
  intro loc
  have hd : dbnum n = 2 * n := rfl
  have h := C31_programs (F := F) hn (N := N) (loc := loc) (fun v _ => packed_sep n _)
    (fun u _ v _ huv => packed_apart (by
      have := mul_gap (d := dbnum n) (n := dbnum n) (by omega) huv
      have e : X + (u : Int) * dbnum n - (X + v * dbnum n) = u * dbnum n - v * dbnum n := by omega
      rw [e]; exact this)) prog hp m
  refine ⟨h.1, fun a ha => h.2 a (fun v hv hin => ?_)⟩
  have hin := packed_in.1 hin
  have : (v : Int) * dbnum n + dbnum n ≤ N * dbnum n := by
    have : ((v : Int) + 1) * dbnum n ≤ N * dbnum n := Int.mul_le_mul_of_nonneg_right (by omega) (by omega)
    rw [Int.add_mul, Int.one_mul] at this; exact this
  have : 0 ≤ (v : Int) * dbnum n := Int.mul_nonneg (by omega) (by omega)
  omega

/-- The read side: what is left in the array depends only on what was in the array. -/
theorem C32_reads {n : Nat} (hn : 2 ≤ n) (N : Nat) (X : Int) (prog : List Cmd) (hp : ∀ c ∈ prog, c.below N) (m m' : Mem)
    (h : ∀ a, X ≤ a → a < X + N * dbnum n → m a = m' a) :
    let loc := fun v : Nat => packed n (X + v * dbnum n)
    ∀ v < N, view n (loc v) (prog.foldl (Cmd.exec F n loc) m) = view n (loc v) (prog.foldl (Cmd.exec F n loc) m') ∧
      F.convertM n (loc v) m = F.convertM n (loc v) m' := by
  intro loc v hv
  have hd : dbnum n = 2 * n := rfl
  have e : ∀ v < N, view n (loc v) m = view n (loc v) m' := by
    intro v hv
    refine view_congr (fun a ha => ?_)
    have ha := packed_in.1 ha
    have h1 : (v : Int) * dbnum n + dbnum n ≤ N * dbnum n := by
      have : ((v : Int) + 1) * dbnum n ≤ N * dbnum n := Int.mul_le_mul_of_nonneg_right (by omega) (by omega)
      rw [Int.add_mul, Int.one_mul] at this; exact this
    have : 0 ≤ (v : Int) * dbnum n := Int.mul_nonneg (by omega) (by omega)
    exact h a (by omega) (by omega)
  refine ⟨?_, by rw [C31_convert hn, C31_convert hn, e v hv]⟩
  rw [(C32_packed_array (F := F) hn N X prog hp m).1 v hv, (C32_packed_array (F := F) hn N X prog hp m').1 v hv]
  -- the abstract runs agree below N
  have : ∀ (prog : List Cmd), (∀ c ∈ prog, c.below N) → ∀ (s s' : Nat → Binned), (∀ v < N, s v = s' v) →
      ∀ v < N, prog.foldl (Cmd.run F n) s v = prog.foldl (Cmd.run F n) s' v := by
    intro prog
    induction prog with
    | nil => intro _ s s' h; exact h
    | cons c cs ih =>
      intro hp s s' h
      refine ih (fun c hc => hp c (by simp [hc])) _ _ (fun w hw => ?_)
      have hc := hp c (by simp)
      cases c with
      | op v o => simp only [Cmd.run, upd]; split <;> [rw [h v hc]; exact h w hw]
      | merge u v => simp only [Cmd.run, upd]; split <;> [rw [h v hc.2, h u hc.1]; exact h w hw]
      | set u v => simp only [Cmd.run, upd]; split <;> [rw [h u hc.1]; exact h w hw]
  exact this prog hp _ _ e v hv

/-- A program that is not trivial. -/
example : ∀ c ∈ [Cmd.op 0 .setzero, .op 1 (.ofNum (f64.ofInt 7)), .op 0 (.add (f64.ofInt 3)), .merge 1 0, .set 0 2, .merge 2 2],
    c.below 3 := by simp [Cmd.below]

/-- **C32 is false for fold 1**: adding a number of the top bin to a packed value of fold 1 deposits into
`pri[1]`, which is outside the primary vector (in the packed layout it is the carry); with a primary vector of one
element and its carry elsewhere the word after the primary vector is overwritten. -/
theorem C32_fold_one_violated :
    (∃ (x : Flt) (m : Mem), f64.Finite x ∧
      view 1 (packed 1 0) (f64.dmdconvM 1 x (packed 1 0) m) ≠ f64.dmdconv 1 x) ∧
    (∃ (x : Flt) (m : Mem) (l : Loc) (a : Int), f64.Finite x ∧ Sep 1 l ∧ ¬ l.In 1 a ∧ f64.dmdconvM 1 x l m a ≠ m a) := by
  have hb : ∀ i < 1, i = 0 := by omega
  refine ⟨⟨f64.pow2 1000, fun _ => zero, by decide +kernel, by decide +kernel⟩,
    ⟨f64.add (f64.pow2 1000) (f64.pow2 960), fun _ => f64.ofInt 1, ⟨0, 1, 10, 1⟩, 1, by decide +kernel, ?_, ?_, by decide +kernel⟩⟩
  · refine ⟨?_, ?_, ?_⟩ <;> intro i hi j hj <;> simp only [Loc.P, Loc.C] <;> omega
  · rintro ⟨i, hi, h | h⟩ <;> simp only [Loc.P, Loc.C] at h <;> omega

/-! ## C35: elementwise addition of arrays -/

/-- **C35.** `Y[i] += X[i]` for two strided arrays of packed values that do not overlap: corresponding values are
merged, and nothing else in memory changes. -/
theorem C35_addv {n : Nat} (hn : 1 ≤ n) (N : Nat) (X incX Y incY : Int) (hY : incY ≠ 0)
    (hXY : ∀ i < N, ∀ j < N, Apart n (packed n (X + i * (incX * dbnum n))) (packed n (Y + j * (incY * dbnum n)))) (m : Mem) :
    (∀ i < N, view n (packed n (Y + i * (incY * dbnum n))) (F.dbdbaddvM n N X incX Y incY m) =
      F.dmdmadd n (view n (packed n (X + i * (incX * dbnum n))) m) (view n (packed n (Y + i * (incY * dbnum n))) m)) ∧
    (∀ a, (∀ i < N, ¬ (packed n (Y + i * (incY * dbnum n))).In n a) → F.dbdbaddvM n N X incX Y incY m a = m a) := by
  induction N with
  | zero => exact ⟨fun i hi => absurd hi (by omega), fun a _ => rfl⟩
  | succ N ih =>
    have ih := ih (fun i hi j hj => hXY i (by omega) j (by omega))
    have e : F.dbdbaddvM n (N + 1) X incX Y incY m =
        F.dmdmaddM n (packed n (X + N * (incX * dbnum n))) (packed n (Y + N * (incY * dbnum n))) (F.dbdbaddvM n N X incX Y incY m) := by
      unfold dbdbaddvM
      rw [List.range_succ, List.foldl_append]; rfl
    have h := dmdmaddM_refines (F := F) hn (packed_sep n (Y + N * (incY * dbnum n))) (hXY N (by omega) N (by omega)) (F.dbdbaddvM n N X incX Y incY m)
    have hapart : ∀ i < N, Apart n (packed n (Y + i * (incY * dbnum n))) (packed n (Y + N * (incY * dbnum n))) := by
      intro i hi
      apply packed_apart
      have hd : dbnum n = 2 * n := rfl
      have h1 := mul_gap (i := i) (j := N) (d := incY * dbnum n) (n := dbnum n) (by
        rw [Int.natAbs_mul]
        have : 1 * (dbnum n).natAbs ≤ incY.natAbs * (dbnum n).natAbs := Nat.mul_le_mul_right _ (by omega)
        omega) (by omega)
      have e2 : Y + (i : Int) * (incY * dbnum n) - (Y + N * (incY * dbnum n)) = i * (incY * dbnum n) - N * (incY * dbnum n) := by omega
      rw [e2]; exact h1
    rw [e]
    refine ⟨fun i hi => ?_, fun a ha => ?_⟩
    · by_cases hiN : i = N
      · subst hiN
        rw [h.1]
        congr 1
        · exact view_congr (fun a ha => ih.2 a (fun j hj hin => hXY i (by omega) j (by omega) a ha hin))
        · exact view_congr (fun a ha => ih.2 a (fun j hj hin => hapart j hj a hin ha))
      · rw [view_frame (hapart i (by omega)) h.2]
        exact ih.1 i (by omega)
    · rw [h.2 a (ha N (by omega)), ih.2 a (fun i hi => ha i (by omega))]

/-- Contiguous arrays that follow each other meet the hypothesis. -/
example : ∀ i : Nat, i < 4 → ∀ j : Nat, j < 4 → Apart 3 (packed 3 (0 + i * (1 * dbnum 3))) (packed 3 (100 + j * (2 * dbnum 3))) := by
  intro i hi j hj
  apply packed_apart
  unfold dbnum
  omega

/-! ## C22: complex values -/

/-- A complex value whose words do not overlap. -/
structure CSep (n : Nat) (l : Loc) : Prop where
  re : Sep n l.re
  im : Sep n l.im
  ap : Apart n l.re l.im

/-- The two parts of the complex value in memory. -/
def cview (n : Nat) (l : Loc) (m : Mem) : Binned × Binned := (view n l.re m, view n l.im m)

/-- The addresses of a complex value. -/
def Loc.CIn (n : Nat) (l : Loc) (a : Int) : Prop := l.re.In n a ∨ l.im.In n a

/-- Doing one thing to the real part and another to the imaginary part, one after the other. -/
theorem both_parts {n : Nat} {l : Loc} (hs : CSep n l) {f g : Binned → Binned} {fM gM : Mem → Mem}
    (hf : Refines n l.re f fM) (hg : Refines n l.im g gM) (m : Mem) :
    cview n l (gM (fM m)) = (f (view n l.re m), g (view n l.im m)) ∧ ∀ a, ¬ l.CIn n a → gM (fM m) a = m a := by
  refine ⟨?_, fun a ha => ?_⟩
  · unfold cview
    rw [view_frame hs.ap (hg (fM m)).2, (hf m).1, (hg (fM m)).1, view_frame hs.ap.symm (hf m).2]
  · rw [(hg _).2 a (fun h => ha (Or.inr h)), (hf _).2 a (fun h => ha (Or.inl h))]

theorem both_parts' {n : Nat} {l : Loc} (hs : CSep n l) {f g : Binned → Binned} {fM gM : Mem → Mem}
    (hf : Refines n l.re f fM) (hg : Refines n l.im g gM) (m : Mem) :
    cview n l (fM (gM m)) = (f (view n l.re m), g (view n l.im m)) ∧ ∀ a, ¬ l.CIn n a → fM (gM m) a = m a := by
  refine ⟨?_, fun a ha => ?_⟩
  · unfold cview
    rw [view_frame hs.ap.symm (hf (gM m)).2, (hg m).1, (hf (gM m)).1, view_frame hs.ap (hg m).2]
  · rw [(hf _).2 a (fun h => ha (Or.inl h)), (hg _).2 a (fun h => ha (Or.inr h))]

theorem depositLoopM_set {l : Loc} (r : Nat) : ∀ (i : Nat) (x : Flt) (m : Mem) (b : Int) (v : Flt), (∀ j, i ≤ j → j ≤ i + r → b ≠ l.P j) →
    F.depositLoopM l r i x (m.set b v) = (F.depositLoopM l r i x m).set b v := by
  have comm : ∀ (m : Mem) (a b : Int) (u v : Flt), a ≠ b → (m.set a u).set b v = (m.set b v).set a u := by
    intro m a b u v h
    funext c
    unfold Mem.set
    by_cases h1 : c = b
    · subst h1; rw [if_pos rfl, if_neg (Ne.symm h), if_pos rfl]
    · rw [if_neg h1]; by_cases h2 : c = a
      · rw [if_pos h2, if_pos h2]
      · rw [if_neg h2, if_neg h2, if_neg h1]
  induction r with
  | zero =>
    intro i x m b v hb
    have h := hb i (Nat.le_refl _) (by omega)
    unfold depositLoopM
    rw [Mem.set_ne _ _ (Ne.symm h), comm _ _ _ _ _ h]
  | succ r ih =>
    intro i x m b v hb
    have h := hb i (Nat.le_refl _) (by omega)
    unfold depositLoopM
    dsimp only
    rw [Mem.set_ne _ _ (Ne.symm h), comm _ _ _ _ _ h, ih _ _ _ _ _ (fun j h1 h2 => hb j (by omega) (by omega))]

/-- The interleaved loop is the two loops one after the other. -/
theorem zdepositLoopM_eq {n : Nat} {l : Loc} (hs : CSep n l) (r : Nat) : ∀ (i : Nat) (xR xI : Flt) (m : Mem), i + r + 1 ≤ n →
    F.zdepositLoopM l r i xR xI m = F.depositLoopM l.im r i xI (F.depositLoopM l.re r i xR m) := by
  have hne : ∀ i < n, ∀ j < n, l.im.P i ≠ l.re.P j := fun i hi j hj e => hs.ap _ (l.re.inP hj) (e ▸ l.im.inP hi)
  induction r with
  | zero =>
    intro i xR xI m hi
    unfold zdepositLoopM depositLoopM
    rfl
  | succ r ih =>
    intro i xR xI m hi
    unfold zdepositLoopM depositLoopM
    dsimp only
    rw [ih _ _ _ _ (by omega)]
    have hfr : F.depositLoopM l.re r (i + 1) (F.add xR (F.sub (m (l.re.P i)) (F.add (or1 xR) (m (l.re.P i))))) (m.set (l.re.P i) (F.add (or1 xR) (m (l.re.P i)))) (l.im.P i) = m (l.im.P i) := by
      have hsub : Sep (i + 1 + r + 1) l.re := ⟨fun a ha b hb => hs.re.pp a (by omega) b (by omega),
        fun a ha b hb => hs.re.cc a (by omega) b (by omega), fun a ha b hb => hs.re.pc a (by omega) b (by omega)⟩
      rw [(depositLoopM_spec (F := F) hsub r (i + 1) _ _ rfl).2 _ (fun j h1 h2 => hne i (by omega) j (by omega)),
        Mem.set_ne _ _ (hne i (by omega) i (by omega))]
    have hun : F.depositLoopM l.re (r + 1) i xR m = F.depositLoopM l.re r (i + 1) (F.add xR (F.sub (m (l.re.P i)) (F.add (or1 xR) (m (l.re.P i))))) (m.set (l.re.P i) (F.add (or1 xR) (m (l.re.P i)))) := rfl
    rw [hun, hfr, depositLoopM_set r (i + 1) _ _ (l.im.P i) _ (fun j h1 h2 => hne i (by omega) j (by omega))]

/-- Complex deposit. -/
theorem zmzdepositM_parts {n : Nat} (hn : 2 ≤ n) {l : Loc} (hs : CSep n l) (xR xI : Flt) (m : Mem) :
    cview n l (F.zmzdepositM n xR xI l m) = (⟨F.dmddeposit xR (view n l.re m).pri, (view n l.re m).car⟩, ⟨F.dmddeposit xI (view n l.im m).pri, (view n l.im m).car⟩) ∧
    ∀ a, ¬ l.CIn n a → F.zmzdepositM n xR xI l m a = m a := by
  have hre := dmddepositM_refines (F := F) hn hs.re xR
  have him := dmddepositM_refines (F := F) hn hs.im xI
  have b := both_parts hs hre him m
  have b' := both_parts' hs hre him m
  have hpne : (l.pri + 1 : Int) ≠ l.pri := by omega
  unfold zmzdepositM
  split
  · next h =>
    have e : F.dmddepositM n xR l.re m = m.set l.pri (F.add (m l.pri) xR) := by
      unfold dmddepositM; rw [if_pos]; rfl; exact h
    rw [← e]; exact b
  · next h1 =>
    split
    · next h =>
      have e : F.dmddepositM n xI l.im m = m.set (l.pri + 1) (F.add (m (l.pri + 1)) xI) := by
        unfold dmddepositM; rw [if_pos]; rfl; exact h
      rw [← e]; exact b'
    · next h2 =>
      split
      · exact b
      · next h3 =>
        rw [zdepositLoopM_eq hs _ _ _ _ _ (by omega)]
        have h3a : F.dmindex0 (m l.pri) = false := by
          cases h : F.dmindex0 (m l.pri) <;> simp_all
        have h3b : F.dmindex0 (m (l.pri + 1)) = false := by
          cases h : F.dmindex0 (m (l.pri + 1)) <;> simp_all
        have e1 : F.dmddepositM n xR l.re m = F.depositLoopM l.re (n - 1) 0 xR m := by
          unfold dmddepositM
          rw [if_neg (show ¬ (F.isNaNInf xR || F.isNaNInf (m l.re.pri)) = true from h1), if_neg (by rw [show F.dmindex0 (m l.re.pri) = false from h3a]; simp)]
        have e3 : F.depositLoopM l.re (n - 1) 0 xR m l.im.pri = m l.im.pri := by
          have : l.im.In n l.im.pri := by have := l.im.inP (n := n) (i := 0) (by omega); rwa [Loc.P0] at this
          rw [← e1, (hre m).2 _ (fun h => hs.ap _ h this)]
        have e2 : F.dmddepositM n xI l.im (F.depositLoopM l.re (n - 1) 0 xR m) = F.depositLoopM l.im (n - 1) 0 xI (F.depositLoopM l.re (n - 1) 0 xR m) := by
          unfold dmddepositM
          rw [e3]
          rw [if_neg (show ¬ (F.isNaNInf xI || F.isNaNInf (m l.im.pri)) = true from h2), if_neg (by rw [show F.dmindex0 (m l.im.pri) = false from h3b]; simp)]
        rw [e1, e2] at b
        exact b

/-- The operations on a complex binned value with complex arguments; `update1` is the update with a real bound. -/
inductive COp where
  | setzero
  | update (xR xI : Flt)
  | update1 (x : Flt)
  | deposit (xR xI : Flt)
  | renorm
  | add (xR xI : Flt)
  | ofNum (xR xI : Flt)
  | negate
deriving DecidableEq, Repr

/-- What a complex operation does to the real part ... -/
def COp.onRe : COp → Op
  | .setzero => .setzero
  | .update xR _ => .update xR
  | .update1 x => .update x
  | .deposit xR _ => .deposit xR
  | .renorm => .renorm
  | .add xR _ => .add xR
  | .ofNum xR _ => .ofNum xR
  | .negate => .negate

/-- ... and to the imaginary part. -/
def COp.onIm : COp → Op
  | .setzero => .setzero
  | .update _ xI => .update xI
  | .update1 x => .update x
  | .deposit _ xI => .deposit xI
  | .renorm => .renorm
  | .add _ xI => .add xI
  | .ofNum _ xI => .ofNum xI
  | .negate => .negate

/-- Execution of the complex routines (`Verif/Memory.lean`). -/
def COp.exec (F : Fmt) (n : Nat) (l : Loc) : COp → Mem → Mem
  | .setzero, m => zmsetzeroM n l m
  | .update xR xI, m => F.zmzupdateM n xR xI l m
  | .update1 x, m => F.zmdupdateM n x l m
  | .deposit xR xI, m => F.zmzdepositM n xR xI l m
  | .renorm, m => F.zmrenormM n l m
  | .add xR xI, m => F.zmzaddM n xR xI l m
  | .ofNum xR xI, m => F.zmzconvM n xR xI l m
  | .negate, m => F.zmnegateM n l m

/-- **C22**, one operation: the real and the imaginary part are treated by the real operation, and nothing outside
the complex value is written. -/
theorem C22_operation {n : Nat} (hn : 2 ≤ n) {l : Loc} (hs : CSep n l) (o : COp) (m : Mem) :
    cview n l (o.exec F n l m) = (o.onRe.run F n (view n l.re m), o.onIm.run F n (view n l.im m)) ∧
    ∀ a, ¬ l.CIn n a → o.exec F n l m a = m a := by
  have hr : ∀ o : Op, Refines n l.re (o.run F n) (o.exec F n l.re) := fun o m => C31_operation hn hs.re o m
  have hi : ∀ o : Op, Refines n l.im (o.run F n) (o.exec F n l.im) := fun o m => C31_operation hn hs.im o m
  cases o with
  | setzero => exact both_parts hs (hr .setzero) (hi .setzero) m
  | update xR xI => exact both_parts hs (hr (.update xR)) (hi (.update xI)) m
  | update1 x => exact both_parts hs (hr (.update x)) (hi (.update x)) m
  | deposit xR xI => exact zmzdepositM_parts hn hs xR xI m
  | renorm => exact both_parts hs (hr .renorm) (hi .renorm) m
  | ofNum xR xI => exact both_parts hs (hr (.ofNum xR)) (hi (.ofNum xI)) m
  | negate => exact both_parts hs (hr .negate) (hi .negate) m
  | add xR xI =>
    have h1 := both_parts hs (hr (.update xR)) (hi (.update xI)) m
    have h2 := zmzdepositM_parts (F := F) hn hs xR xI (F.zmzupdateM n xR xI l m)
    have h3 := both_parts hs (hr .renorm) (hi .renorm) (F.zmzdepositM n xR xI l (F.zmzupdateM n xR xI l m))
    have e1 : view n l.re (F.zmzupdateM n xR xI l m) = F.dmdupdate n xR (view n l.re m) := congrArg Prod.fst h1.1
    have e2 : view n l.im (F.zmzupdateM n xR xI l m) = F.dmdupdate n xI (view n l.im m) := congrArg Prod.snd h1.1
    rw [e1, e2] at h2
    have e3 := congrArg Prod.fst h2.1
    have e4 := congrArg Prod.snd h2.1
    unfold cview at e3 e4
    dsimp only at e3 e4
    rw [e3, e4] at h3
    exact ⟨h3.1, fun a ha => (h3.2 a ha).trans ((h2.2 a ha).trans (h1.2 a ha))⟩

/-- **C22**, merging: each part is merged with the corresponding part. -/
theorem C22_merge {n : Nat} (hn : 1 ≤ n) {x y : Loc} (hs : CSep n y) (ha : ∀ a, x.CIn n a → ¬ y.CIn n a) (m : Mem) :
    cview n y (F.zmzmaddM n x y m) = (F.dmdmadd n (view n x.re m) (view n y.re m), F.dmdmadd n (view n x.im m) (view n y.im m)) ∧
    ∀ a, ¬ y.CIn n a → F.zmzmaddM n x y m a = m a := by
  have arr : Apart n x.re y.re := fun a h1 h2 => ha a (Or.inl h1) (Or.inl h2)
  have ari : Apart n x.im y.re := fun a h1 h2 => ha a (Or.inr h1) (Or.inl h2)
  have aii : Apart n x.im y.im := fun a h1 h2 => ha a (Or.inr h1) (Or.inr h2)
  have h1 := dmdmaddM_refines (F := F) hn hs.re arr m
  have h2 := dmdmaddM_refines (F := F) hn hs.im aii (F.dmdmaddM n x.re y.re m)
  unfold zmzmaddM
  refine ⟨?_, fun a ha => ?_⟩
  · unfold cview
    rw [view_frame hs.ap h2.2, h1.1, h2.1, view_frame ari h1.2, view_frame hs.ap.symm h1.2]
  · rw [h2.2 a (fun h => ha (Or.inr h)), h1.2 a (fun h => ha (Or.inl h))]

/-- **C22**, copying a complex value. -/
theorem C22_set {n : Nat} {x y : Loc} (hs : CSep n y) (ha : ∀ a, x.CIn n a → ¬ y.CIn n a) (m : Mem) :
    cview n y (zmzmsetM n x y m) = cview n x m ∧ ∀ a, ¬ y.CIn n a → zmzmsetM n x y m a = m a := by
  have arr : Apart n x.re y.re := fun a h1 h2 => ha a (Or.inl h1) (Or.inl h2)
  have ari : Apart n x.im y.re := fun a h1 h2 => ha a (Or.inr h1) (Or.inl h2)
  have aii : Apart n x.im y.im := fun a h1 h2 => ha a (Or.inr h1) (Or.inr h2)
  have h1 := dmdmsetM_refines hs.re arr m
  have h2 := dmdmsetM_refines hs.im aii (dmdmsetM n x.re y.re m)
  unfold zmzmsetM
  refine ⟨?_, fun a ha => ?_⟩
  · unfold cview
    rw [view_frame hs.ap h2.2, h1.1, h2.1, view_frame ari h1.2]
  · rw [h2.2 a (fun h => ha (Or.inr h)), h1.2 a (fun h => ha (Or.inl h))]

/-- **C22**, setting a complex value to a real one: the imaginary part becomes zero. -/
theorem C22_set_real {n : Nat} {x y : Loc} (hs : CSep n y) (ha : Apart n x y.re) (m : Mem) :
    cview n y (zmdmsetM n x y m) = (view n x m, dmsetzero n) ∧ ∀ a, ¬ y.CIn n a → zmdmsetM n x y m a = m a := by
  have h1 := dmdmsetM_refines hs.re ha m
  have h2 := dmsetzeroM_refines hs.im (dmdmsetM n x y.re m)
  unfold zmdmsetM
  refine ⟨?_, fun a ha => ?_⟩
  · unfold cview
    rw [view_frame hs.ap h2.2, h1.1, h2.1]
  · rw [h2.2 a (fun h => ha (Or.inr h)), h1.2 a (fun h => ha (Or.inl h))]

/-- The packed complex layout meets the hypotheses, and its addresses are the `zbnum` words from its start. -/
theorem zpacked_csep (n : Nat) (X : Int) : CSep n (zpacked n X) := by
  refine ⟨⟨?_, ?_, ?_⟩, ⟨?_, ?_, ?_⟩, ?_⟩
  · intro i hi j hj; simp only [Loc.P, Loc.re, zpacked]; omega
  · intro i hi j hj; simp only [Loc.C, Loc.re, zpacked]; omega
  · intro i hi j hj; simp only [Loc.P, Loc.C, Loc.re, zpacked]; omega
  · intro i hi j hj; simp only [Loc.P, Loc.im, zpacked]; omega
  · intro i hi j hj; simp only [Loc.C, Loc.im, zpacked]; omega
  · intro i hi j hj; simp only [Loc.P, Loc.C, Loc.im, zpacked]; omega
  · rintro a ⟨i, hi, h | h⟩ ⟨j, hj, h' | h'⟩ <;> simp only [Loc.P, Loc.C, Loc.im, Loc.re, zpacked] at h h' <;> omega

theorem zpacked_in {n : Nat} {X a : Int} : (zpacked n X).CIn n a ↔ X ≤ a ∧ a < X + zbnum n := by
  unfold Loc.CIn Loc.In Loc.P Loc.C Loc.re Loc.im zpacked zbnum
  dsimp only
  constructor
  · rintro (⟨i, hi, h | h⟩ | ⟨i, hi, h | h⟩) <;> omega
  · intro h
    rcases (by omega : (a - X) % 2 = 0 ∨ (a - X) % 2 = 1) with hp | hp
    · left
      by_cases hc : a < X + 2 * n
      · exact ⟨((a - X) / 2).toNat, by omega, Or.inl (by omega)⟩
      · exact ⟨((a - X - 2 * n) / 2).toNat, by omega, Or.inr (by omega)⟩
    · right
      by_cases hc : a < X + 2 * n
      · exact ⟨((a - X) / 2).toNat, by omega, Or.inl (by omega)⟩
      · exact ⟨((a - X - 2 * n) / 2).toNat, by omega, Or.inr (by omega)⟩

/-- **C35** for complex values. -/
theorem C35_zaddv {n : Nat} (hn : 1 ≤ n) (N : Nat) (X incX Y incY : Int) (hY : incY ≠ 0)
    (hXY : ∀ i < N, ∀ j < N, ∀ a, (zpacked n (X + i * (incX * zbnum n))).CIn n a → ¬ (zpacked n (Y + j * (incY * zbnum n))).CIn n a) (m : Mem) :
    (∀ i < N, cview n (zpacked n (Y + i * (incY * zbnum n))) (F.zbzbaddvM n N X incX Y incY m) =
      (F.dmdmadd n (view n (zpacked n (X + i * (incX * zbnum n))).re m) (view n (zpacked n (Y + i * (incY * zbnum n))).re m),
       F.dmdmadd n (view n (zpacked n (X + i * (incX * zbnum n))).im m) (view n (zpacked n (Y + i * (incY * zbnum n))).im m))) ∧
    (∀ a, (∀ i < N, ¬ (zpacked n (Y + i * (incY * zbnum n))).CIn n a) → F.zbzbaddvM n N X incX Y incY m a = m a) := by
  have cview_frame : ∀ {y z : Loc} {m m' : Mem}, (∀ a, y.CIn n a → ¬ z.CIn n a) → (∀ a, ¬ z.CIn n a → m' a = m a) → cview n y m' = cview n y m := by
    intro y z m m' h1 h2
    unfold cview
    rw [view_congr (m := m') (m' := m) (fun a ha => h2 a (h1 a (Or.inl ha))), view_congr (m := m') (m' := m) (fun a ha => h2 a (h1 a (Or.inr ha)))]
  induction N with
  | zero => exact ⟨fun i hi => absurd hi (by omega), fun a _ => rfl⟩
  | succ N ih =>
    have ih := ih (fun i hi j hj => hXY i (by omega) j (by omega))
    have e : F.zbzbaddvM n (N + 1) X incX Y incY m =
        F.zmzmaddM n (zpacked n (X + N * (incX * zbnum n))) (zpacked n (Y + N * (incY * zbnum n))) (F.zbzbaddvM n N X incX Y incY m) := by
      unfold zbzbaddvM
      rw [List.range_succ, List.foldl_append]; rfl
    have h := C22_merge (F := F) hn (zpacked_csep n (Y + N * (incY * zbnum n))) (hXY N (by omega) N (by omega)) (F.zbzbaddvM n N X incX Y incY m)
    have hapart : ∀ i < N, ∀ a, (zpacked n (Y + i * (incY * zbnum n))).CIn n a → ¬ (zpacked n (Y + N * (incY * zbnum n))).CIn n a := by
      intro i hi a h1 h2
      rw [zpacked_in] at h1 h2
      have hd : zbnum n = 4 * n := rfl
      have h3 := mul_gap (i := i) (j := N) (d := incY * zbnum n) (n := zbnum n) (by
        rw [Int.natAbs_mul]
        have : 1 * (zbnum n).natAbs ≤ incY.natAbs * (zbnum n).natAbs := Nat.mul_le_mul_right _ (by omega)
        omega) (by omega)
      omega
    rw [e]
    refine ⟨fun i hi => ?_, fun a ha => ?_⟩
    · by_cases hiN : i = N
      · subst hiN
        rw [h.1]
        have e1 := cview_frame (y := zpacked n (X + i * (incX * zbnum n))) (m := m) (m' := F.zbzbaddvM n i X incX Y incY m) (z := zpacked n (X + i * (incX * zbnum n)))
        have hx : ∀ a, (zpacked n (X + i * (incX * zbnum n))).CIn n a → F.zbzbaddvM n i X incX Y incY m a = m a :=
          fun a ha => ih.2 a (fun j hj hin => hXY i (by omega) j (by omega) a ha hin)
        have hy : ∀ a, (zpacked n (Y + i * (incY * zbnum n))).CIn n a → F.zbzbaddvM n i X incX Y incY m a = m a :=
          fun a ha => ih.2 a (fun j hj hin => hapart j hj a hin ha)
        rw [view_congr (fun a ha => hx a (Or.inl ha)), view_congr (fun a ha => hx a (Or.inr ha)),
          view_congr (fun a ha => hy a (Or.inl ha)), view_congr (fun a ha => hy a (Or.inr ha))]
      · rw [cview_frame (hapart i (by omega)) h.2]
        exact ih.1 i (by omega)
    · rw [h.2 a (ha N (by omega)), ih.2 a (fun i hi => ha i (by omega))]

/-! ## C23: complex conversion -/

/-- **C23**, what holds: with unit stride of the carry vector, as in the packed layout, conversion gives the pair of
real conversions of the two parts. Missing: other carry strides, where it is false (`C23_violated`). -/
theorem C23_conversion_partial {n : Nat} (hn : 2 ≤ n) (l : Loc) (hl : l.inccar = 1) (m : Mem) :
    F.zzmconvM n l m = (convert F n (view n l.re m), convert F n (view n l.im m)) := by
  have e1 : (⟨l.pri, l.incpri * 2, l.car, l.inccar + 1⟩ : Loc) = l.re := by
    unfold Loc.re; rw [hl, Int.mul_comm]; rfl
  have e2 : (⟨l.pri + 1, l.incpri * 2, l.car + 1, l.inccar + 1⟩ : Loc) = l.im := by
    unfold Loc.im; rw [hl, Int.mul_comm]; rfl
  unfold zzmconvM
  rw [e1, e2, C31_convert hn, C31_convert hn]

/-- The packed conversion `binned_zzbconv_sub` (`src/binned/zzbconv_sub.c:14-16`) is right for every fold. -/
theorem C23_packed {n : Nat} (hn : 2 ≤ n) (X : Int) (m : Mem) :
    F.zzmconvM n (zpacked n X) m = (convert F n (view n (zpacked n X).re m), convert F n (view n (zpacked n X).im m)) :=
  C23_conversion_partial hn _ rfl m

/-- **C23 is false of the code** for carry stride 2: after storing `1 - 2^-20` (in both parts) at a place with `incpri = 1`, `inccar = 2`,
the conversion of the complex value is not the pair of conversions of its parts. -/
theorem C23_violated : ∃ (l : Loc) (x : Flt) (m : Mem), CSep 3 l ∧
    (f64.zzmconvM 3 l (f64.zmzconvM 3 x x l m)) ≠
      (x, x) ∧
    (convert f64 3 (view 3 l.re (f64.zmzconvM 3 x x l m)),
      convert f64 3 (view 3 l.im (f64.zmzconvM 3 x x l m))) = (x, x) := by
  refine ⟨⟨0, 1, 10, 2⟩, f64.sub (f64.ofInt 1) (f64.pow2 (-20)), fun _ => zero, ⟨⟨?_, ?_, ?_⟩, ⟨?_, ?_, ?_⟩, ?_⟩, by decide +kernel, by decide +kernel⟩
  · intro i hi j hj; simp only [Loc.P, Loc.re]; omega
  · intro i hi j hj; simp only [Loc.C, Loc.re]; omega
  · intro i hi j hj; simp only [Loc.P, Loc.C, Loc.re]; omega
  · intro i hi j hj; simp only [Loc.P, Loc.im]; omega
  · intro i hi j hj; simp only [Loc.C, Loc.im]; omega
  · intro i hi j hj; simp only [Loc.P, Loc.C, Loc.im]; omega
  · rintro a ⟨i, hi, h | h⟩ ⟨j, hj, h' | h'⟩ <;> simp only [Loc.P, Loc.C, Loc.im, Loc.re] at h h' <;> omega

end Repro
