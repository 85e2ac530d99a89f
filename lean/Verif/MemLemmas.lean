import Verif.Memory
import Mathlib.Data.List.Induction
import Mathlib.Tactic.Conv
/-!
# The memory-level operations refine the list-level operations
-/

namespace Repro

theorem Mem.set_same (m : Mem) (a : Int) (v : Flt) : m.set a v a = v := if_pos rfl
theorem Mem.set_ne (m : Mem) {a b : Int} (v : Flt) (h : b ≠ a) : m.set a v b = m b := if_neg h

/-- A loop whose body stores to `P i` and then to `C i`. -/
def loop2 (P C : Nat → Int) (f g : Nat → Mem → Flt) (is : List Nat) (m : Mem) : Mem :=
  is.foldl (fun m i => (m.set (P i) (f i m)).set (C i) (g i (m.set (P i) (f i m)))) m

theorem loop2_snoc (P C : Nat → Int) (f g : Nat → Mem → Flt) (is : List Nat) (i : Nat) (m : Mem) :
    loop2 P C f g (is ++ [i]) m =
      ((loop2 P C f g is m).set (P i) (f i (loop2 P C f g is m))).set (C i)
        (g i ((loop2 P C f g is m).set (P i) (f i (loop2 P C f g is m)))) := by
  unfold loop2; rw [List.foldl_append]; rfl

/-- What such a loop leaves, if no store is to a place that is read or written later. `B j i`: round `j` is
executed before round `i`. -/
theorem loop2_spec {P C : Nat → Int} {f g : Nat → Mem → Flt} (B : Nat → Nat → Prop) {m0 : Mem} (is : List Nat)
    (hB : is.Pairwise B)
    (hP : ∀ i ∈ is, ∀ j ∈ is, P i = P j → i = j) (hC : ∀ i ∈ is, ∀ j ∈ is, C i = C j → i = j)
    (hPC : ∀ i ∈ is, ∀ j ∈ is, P i ≠ C j) (hne : is.Nodup)
    (hf : ∀ i ∈ is, ∀ m' : Mem, (∀ a, (∀ j ∈ is, B j i → a ≠ P j ∧ a ≠ C j) → m' a = m0 a) → f i m' = f i m0)
    (hg : ∀ i ∈ is, ∀ m' : Mem, (∀ a, a ≠ P i → (∀ j ∈ is, B j i → a ≠ P j ∧ a ≠ C j) → m' a = m0 a) → g i m' = g i m0) :
    (∀ i ∈ is, loop2 P C f g is m0 (P i) = f i m0 ∧ loop2 P C f g is m0 (C i) = g i m0) ∧
    (∀ a, (∀ i ∈ is, a ≠ P i ∧ a ≠ C i) → loop2 P C f g is m0 a = m0 a) := by
  induction is using List.reverseRecOn with
  | nil => exact ⟨by simp, fun a _ => rfl⟩
  | append_singleton is i ih =>
    have hB' := List.pairwise_append.1 hB
    have hbi : ∀ j ∈ is, B j i := fun j hj => hB'.2.2 j hj i (by simp)
    have hn' := List.nodup_append.1 hne
    have hni : i ∉ is := fun h => hn'.2.2 i h i (by simp) rfl
    have ih' := ih hB'.1 (fun a ha b hb => hP a (by simp [ha]) b (by simp [hb]))
      (fun a ha b hb => hC a (by simp [ha]) b (by simp [hb])) (fun a ha b hb => hPC a (by simp [ha]) b (by simp [hb])) hn'.1
      (fun a ha m' h => hf a (by simp [ha]) m' (fun c hc => h c (fun j hj => hc j (by simp [hj]))))
      (fun a ha m' h => hg a (by simp [ha]) m' (fun c h1 hc => h c h1 (fun j hj => hc j (by simp [hj]))))
    have hmem : i ∈ is ++ [i] := by simp
    have e1 : f i (loop2 P C f g is m0) = f i m0 := hf i hmem _ (fun a ha =>
      ih'.2 a (fun j hj => ha j (by simp [hj]) (hbi j hj)))
    have e2 : g i ((loop2 P C f g is m0).set (P i) (f i m0)) = g i m0 := hg i hmem _ (fun a hne ha => by
      rw [Mem.set_ne _ _ hne]; exact ih'.2 a (fun j hj => ha j (by simp [hj]) (hbi j hj)))
    rw [loop2_snoc, e1, e2]
    constructor
    · intro j hj
      rcases List.mem_append.1 hj with hj' | hj'
      · have hji : j ≠ i := fun h => hni (h ▸ hj')
        rw [Mem.set_ne _ _ (hPC j hj i hmem), Mem.set_ne _ _ (fun h => hji (hP j hj i hmem h)),
          Mem.set_ne _ _ (fun h => hji (hC j hj i hmem h)), Mem.set_ne _ _ (fun h => hPC i hmem j hj h.symm)]
        exact ih'.1 j hj'
      · have : j = i := by simpa using hj'
        subst this
        rw [Mem.set_ne _ _ (hPC j hj j hj), Mem.set_same, Mem.set_same]
        exact ⟨rfl, rfl⟩
    · intro a ha
      rw [Mem.set_ne _ _ (ha i hmem).2, Mem.set_ne _ _ (ha i hmem).1]
      exact ih'.2 a (fun j hj => ha j (by simp [hj]))

/-- The places of a binned value do not overlap. -/
structure Sep (n : Nat) (l : Loc) : Prop where
  pp : ∀ i < n, ∀ j < n, l.P i = l.P j → i = j
  cc : ∀ i < n, ∀ j < n, l.C i = l.C j → i = j
  pc : ∀ i < n, ∀ j < n, l.P i ≠ l.C j

/-- The addresses of a binned value. -/
def Loc.In (n : Nat) (l : Loc) (a : Int) : Prop := ∃ i < n, a = l.P i ∨ a = l.C i

/-- Two binned values do not overlap. -/
def Apart (n : Nat) (x y : Loc) : Prop := ∀ a, x.In n a → ¬ y.In n a

theorem Loc.P0 (l : Loc) : l.P 0 = l.pri := by simp [Loc.P]
theorem Loc.C0 (l : Loc) : l.C 0 = l.car := by simp [Loc.C]

theorem Loc.inP {n : Nat} (l : Loc) {i : Nat} (h : i < n) : l.In n (l.P i) := ⟨i, h, Or.inl rfl⟩
theorem Loc.inC {n : Nat} (l : Loc) {i : Nat} (h : i < n) : l.In n (l.C i) := ⟨i, h, Or.inr rfl⟩

theorem nth_view_pri {n i : Nat} (l : Loc) (m : Mem) (h : i < n) : nth (view n l m).pri i = m (l.P i) := by
  unfold nth view; simp [h]
theorem nth_view_car {n i : Nat} (l : Loc) (m : Mem) (h : i < n) : nth (view n l m).car i = m (l.C i) := by
  unfold nth view; simp [h]

theorem view_eq {n : Nat} {l : Loc} {m : Mem} {f g : Nat → Flt} (h : ∀ i < n, m (l.P i) = f i ∧ m (l.C i) = g i) :
    view n l m = ⟨(List.range n).map f, (List.range n).map g⟩ := by
  unfold view
  congr 1
  · exact List.map_congr_left (fun i hi => (h i (List.mem_range.1 hi)).1)
  · exact List.map_congr_left (fun i hi => (h i (List.mem_range.1 hi)).2)

theorem view_congr {n : Nat} {l : Loc} {m m' : Mem} (h : ∀ a, l.In n a → m a = m' a) : view n l m = view n l m' :=
  view_eq (fun i hi => ⟨h _ (l.inP hi), h _ (l.inC hi)⟩)

theorem view_frame {n : Nat} {x y : Loc} {m m' : Mem} (ha : Apart n x y) (h : ∀ a, ¬ y.In n a → m' a = m a) :
    view n x m' = view n x m := view_congr (fun a hi => h a (ha a hi))

theorem Apart.symm {n : Nat} {x y : Loc} (h : Apart n x y) : Apart n y x := fun a h1 h2 => h a h2 h1

/-- `opM` refines `op` on the value at `l` and touches nothing else. -/
def Refines (n : Nat) (l : Loc) (op : Binned → Binned) (opM : Mem → Mem) : Prop :=
  ∀ m, view n l (opM m) = op (view n l m) ∧ ∀ a, ¬ l.In n a → opM m a = m a

theorem Refines.comp {n : Nat} {l : Loc} {f g : Binned → Binned} {fM gM : Mem → Mem} (hf : Refines n l f fM)
    (hg : Refines n l g gM) : Refines n l (fun y => g (f y)) (fun m => gM (fM m)) := by
  intro m
  refine ⟨?_, fun a ha => ?_⟩
  · exact (hg _).1.trans (congrArg g (hf _).1)
  · exact ((hg _).2 a ha).trans ((hf _).2 a ha)

/-- A `loop2` over `0 .. n-1`, for bodies that only read the current entry of the value itself. -/
theorem loop_up {n : Nat} {l : Loc} (hs : Sep n l) {f g : Nat → Mem → Flt} {m0 : Mem}
    (hf : ∀ i < n, ∀ m' : Mem, (∀ a, (∀ j < i, a ≠ l.P j ∧ a ≠ l.C j) → m' a = m0 a) → f i m' = f i m0)
    (hg : ∀ i < n, ∀ m' : Mem, (∀ a, a ≠ l.P i → (∀ j < i, a ≠ l.P j ∧ a ≠ l.C j) → m' a = m0 a) → g i m' = g i m0) :
    (∀ i < n, loop2 l.P l.C f g (List.range n) m0 (l.P i) = f i m0 ∧ loop2 l.P l.C f g (List.range n) m0 (l.C i) = g i m0) ∧
    (∀ a, ¬ l.In n a → loop2 l.P l.C f g (List.range n) m0 a = m0 a) := by
  have h := loop2_spec (P := l.P) (C := l.C) (f := f) (g := g) (m0 := m0) (fun j i => j < i) (List.range n) List.pairwise_lt_range
    (fun i hi j hj => hs.pp i (List.mem_range.1 hi) j (List.mem_range.1 hj))
    (fun i hi j hj => hs.cc i (List.mem_range.1 hi) j (List.mem_range.1 hj))
    (fun i hi j hj => hs.pc i (List.mem_range.1 hi) j (List.mem_range.1 hj)) List.nodup_range
    (fun i hi m' hm => hf i (List.mem_range.1 hi) m' (fun a ha => hm a (fun j _ hji => ha j hji)))
    (fun i hi m' hm => hg i (List.mem_range.1 hi) m' (fun a h1 ha => hm a h1 (fun j _ hji => ha j hji)))
  exact ⟨fun i hi => h.1 i (List.mem_range.2 hi), fun a ha => h.2 a (fun i hi =>
    ⟨fun e => ha ⟨i, List.mem_range.1 hi, Or.inl e⟩, fun e => ha ⟨i, List.mem_range.1 hi, Or.inr e⟩⟩)⟩

namespace Fmt
variable {F : Fmt}

theorem dmsetzeroM_refines {n : Nat} {l : Loc} (hs : Sep n l) :
    Refines n l (fun _ => dmsetzero n) (dmsetzeroM n l) := by
  intro m
  have h := loop_up (m0 := m) hs (f := fun _ _ => zero) (g := fun _ _ => zero) (fun _ _ _ _ => rfl) (fun _ _ _ _ => rfl)
  refine ⟨?_, h.2⟩
  refine (view_eq (f := fun _ => zero) (g := fun _ => zero) h.1).trans ?_
  unfold dmsetzero
  simp [List.map_const']

/-- Copying leaves the value of `x` at `y`. -/
theorem dmdmsetM_refines {n : Nat} {x y : Loc} (hs : Sep n y) (ha : Apart n x y) (m : Mem) :
    view n y (dmdmsetM n x y m) = view n x m ∧ ∀ a, ¬ y.In n a → dmdmsetM n x y m a = m a := by
  have hne : ∀ b, x.In n b → ∀ j < n, b ≠ y.P j ∧ b ≠ y.C j := fun b hb j hj =>
    ⟨fun e => ha b hb ⟨j, hj, Or.inl e⟩, fun e => ha b hb ⟨j, hj, Or.inr e⟩⟩
  have h := loop_up (m0 := m) hs (f := fun i m => m (x.P i)) (g := fun i m => m (x.C i))
    (fun i hi m' hm => hm _ (fun j hj => hne _ (x.inP hi) j (by omega)))
    (fun i hi m' hm => hm _ (hne _ (x.inC hi) i hi).1 (fun j hj => hne _ (x.inC hi) j (by omega)))
  refine ⟨?_, h.2⟩
  exact view_eq (f := fun i => m (x.P i)) (g := fun i => m (x.C i)) h.1

theorem dmrenormM_refines {n : Nat} (hn : 1 ≤ n) {l : Loc} (hs : Sep n l) :
    Refines n l F.dmrenorm (F.dmrenormM n l) := by
  intro m
  unfold dmrenormM dmrenorm
  rw [nth_view_pri l m (by omega : 0 < n), Loc.P0]
  split
  · exact ⟨rfl, fun _ _ => rfl⟩
  · -- the carry is stored first
    have hs' : Sep n ⟨l.car, l.inccar, l.pri, l.incpri⟩ := ⟨hs.cc, hs.pp, fun i hi j hj e => hs.pc j hj i hi e.symm⟩
    have h := loop_up (m0 := m) hs' (f := fun i m => F.renormCar (m (l.P i)) (m (l.C i))) (g := fun i m => F.renormPri (m (l.P i)))
      (fun i hi m' hm => by
        show _ = _
        rw [hm (l.P i) (fun j hj => ⟨hs.pc i hi j (by omega), fun e => by have := hs.pp i hi j (by omega) e; omega⟩),
          hm (l.C i) (fun j hj => ⟨fun e => by have := hs.cc i hi j (by omega) e; omega, fun e => hs.pc j (by omega) i hi e.symm⟩)])
      (fun i hi m' hm => by
        show _ = _
        rw [hm (l.P i) (hs.pc i hi i hi) (fun j hj => ⟨hs.pc i hi j (by omega), fun e => by have := hs.pp i hi j (by omega) e; omega⟩)])
    have e : ∀ (is : List Nat) (m : Mem), (∀ i ∈ is, i < n) → is.foldl (fun m i => (m.set (l.C i) (F.renormCar (m (l.P i)) (m (l.C i)))).set (l.P i) (F.renormPri (m (l.P i)))) m =
        loop2 l.C l.P (fun i m => F.renormCar (m (l.P i)) (m (l.C i))) (fun i m => F.renormPri (m (l.P i))) is m := by
      intro is
      induction is with
      | nil => intro m _; rfl
      | cons i is ih =>
        intro m hi
        unfold loop2
        rw [List.foldl_cons, List.foldl_cons]
        rw [ih _ (fun j hj => hi j (by simp [hj]))]
        have : (m.set (l.C i) (F.renormCar (m (l.P i)) (m (l.C i)))) (l.P i) = m (l.P i) :=
          Mem.set_ne _ _ (hs.pc i (hi i (by simp)) i (hi i (by simp)))
        dsimp only
        rw [this]
        rfl
    have e' := e (List.range n) m (fun i hi => List.mem_range.1 hi)
    dsimp only
    rw [e']
    refine ⟨?_, fun a ha => h.2 a (fun ⟨i, hi, hc⟩ => ha ⟨i, hi, hc.symm⟩)⟩
    refine (view_eq (f := fun i => F.renormPri (m (l.P i))) (g := fun i => F.renormCar (m (l.P i)) (m (l.C i))) (fun i hi => ⟨(h.1 i hi).2, (h.1 i hi).1⟩)).trans ?_
    unfold view
    congr 1
    · simp
    · rw [List.zipWith_map_left, List.zipWith_map_right]; simp [List.zipWith_self]

theorem dmnegateM_refines {n : Nat} (hn : 1 ≤ n) {l : Loc} (hs : Sep n l) :
    Refines n l (F.dmnegate n) (F.dmnegateM n l) := by
  intro m
  unfold dmnegateM dmnegate
  rw [nth_view_pri l m (by omega : 0 < n), Loc.P0]
  split
  · exact ⟨rfl, fun _ _ => rfl⟩
  · generalize F.dmindex (m l.pri) = k
    have h := loop_up (m0 := m) hs (f := fun i m => F.sub (F.bins (k + i)) (F.sub (m (l.P i)) (F.bins (k + i)))) (g := fun i m => fneg (m (l.C i)))
      (fun i hi m' hm => by
        show _ = _
        rw [hm (l.P i) (fun j hj => ⟨fun e => by have := hs.pp i hi j (by omega) e; omega, hs.pc i hi j (by omega)⟩)])
      (fun i hi m' hm => by
        show _ = _
        rw [hm (l.C i) (fun e => hs.pc i hi i hi e.symm) (fun j hj => ⟨fun e => hs.pc j (by omega) i hi e.symm, fun e => by have := hs.cc i hi j (by omega) e; omega⟩)])
    refine ⟨?_, h.2⟩
    refine (view_eq h.1).trans ?_
    dsimp only
    congr 1
    · exact List.map_congr_left (fun i hi => by rw [nth_view_pri l m (List.mem_range.1 hi)])
    · exact List.map_congr_left (fun i hi => by rw [nth_view_car l m (List.mem_range.1 hi)])

/-- Moving a value up by `s` entries, from the last entry down to entry `s`. -/
theorem shift_down {n s : Nat} {l : Loc} (hs : Sep n l) {f g : Nat → Mem → Flt} {m0 : Mem}
    (hf : ∀ i < n, s ≤ i → ∀ m' : Mem, (∀ a, (∀ j < n, i < j → a ≠ l.P j ∧ a ≠ l.C j) → m' a = m0 a) → f i m' = f i m0)
    (hg : ∀ i < n, s ≤ i → ∀ m' : Mem, (∀ a, a ≠ l.P i → (∀ j < n, i < j → a ≠ l.P j ∧ a ≠ l.C j) → m' a = m0 a) → g i m' = g i m0) :
    (∀ i < n, s ≤ i → loop2 l.P l.C f g (downTo n s) m0 (l.P i) = f i m0 ∧ loop2 l.P l.C f g (downTo n s) m0 (l.C i) = g i m0) ∧
    (∀ i < n, i < s → loop2 l.P l.C f g (downTo n s) m0 (l.P i) = m0 (l.P i) ∧ loop2 l.P l.C f g (downTo n s) m0 (l.C i) = m0 (l.C i)) ∧
    (∀ a, ¬ l.In n a → loop2 l.P l.C f g (downTo n s) m0 a = m0 a) := by
  have hm : ∀ i, i ∈ downTo n s ↔ s ≤ i ∧ i < n := by
    intro i; unfold downTo
    rw [List.mem_reverse, List.mem_range'_1]; omega
  have h := loop2_spec (P := l.P) (C := l.C) (f := f) (g := g) (m0 := m0) (fun j i => i < j) (downTo n s)
    (by unfold downTo; rw [List.pairwise_reverse]; exact List.pairwise_lt_range')
    (fun i hi j hj => hs.pp i ((hm i).1 hi).2 j ((hm j).1 hj).2)
    (fun i hi j hj => hs.cc i ((hm i).1 hi).2 j ((hm j).1 hj).2)
    (fun i hi j hj => hs.pc i ((hm i).1 hi).2 j ((hm j).1 hj).2) (by unfold downTo; rw [List.Nodup, List.pairwise_reverse]; exact (List.pairwise_lt_range' (s := s) (n := n - s)).imp (fun h => by omega))
    (fun i hi m' hm' => hf i ((hm i).1 hi).2 ((hm i).1 hi).1 m' (fun a ha => hm' a (fun j hj hji => ha j ((hm j).1 hj).2 hji)))
    (fun i hi m' hm' => hg i ((hm i).1 hi).2 ((hm i).1 hi).1 m' (fun a h1 ha => hm' a h1 (fun j hj hji => ha j ((hm j).1 hj).2 hji)))
  refine ⟨fun i hi hsi => h.1 i ((hm i).2 ⟨hsi, hi⟩), fun i hi hsi => ⟨h.2 _ ?_, h.2 _ ?_⟩, fun a ha => h.2 a (fun i hi =>
    ⟨fun e => ha ⟨i, ((hm i).1 hi).2, Or.inl e⟩, fun e => ha ⟨i, ((hm i).1 hi).2, Or.inr e⟩⟩)⟩
  · intro j hj
    have := (hm j).1 hj
    exact ⟨fun e => by have := hs.pp i hi j this.2 e; omega, hs.pc i hi j this.2⟩
  · intro j hj
    have := (hm j).1 hj
    exact ⟨fun e => hs.pc j this.2 i hi e.symm, fun e => by have := hs.cc i hi j this.2 e; omega⟩

theorem Sep.mono {n k : Nat} {l : Loc} (h : Sep n l) (hk : k ≤ n) : Sep k l :=
  ⟨fun i hi j hj => h.pp i (by omega) j (by omega), fun i hi j hj => h.cc i (by omega) j (by omega),
   fun i hi j hj => h.pc i (by omega) j (by omega)⟩

theorem dmdupdateM_refines {n : Nat} (hn : 1 ≤ n) {l : Loc} (hs : Sep n l) (x : Flt) :
    Refines n l (F.dmdupdate n x) (F.dmdupdateM n x l) := by
  intro m
  unfold dmdupdateM dmdupdate
  rw [nth_view_pri l m (by omega : 0 < n), Loc.P0]
  split
  · exact ⟨rfl, fun _ _ => rfl⟩
  · dsimp only
    split
    · have h := loop_up (m0 := m) hs (f := fun i _ => F.bins (F.dindex x + i)) (g := fun _ _ => zero) (fun _ _ _ _ => rfl) (fun _ _ _ _ => rfl)
      refine ⟨?_, h.2⟩
      refine (view_eq h.1).trans ?_
      simp [List.map_const']
    · generalize F.dmindex (m l.pri) - F.dindex x = s
      split
      · have h1 := shift_down (s := s) (m0 := m) hs (f := fun i m => m (l.P (i - s))) (g := fun i m => m (l.C (i - s)))
          (fun i hi hsi m' hm => hm _ (fun j hj hij => ⟨fun e => by have := hs.pp (i - s) (by omega) j hj e; omega, hs.pc _ (by omega) j hj⟩))
          (fun i hi hsi m' hm => hm _ (fun e => hs.pc i hi (i - s) (by omega) e.symm)
            (fun j hj hij => ⟨fun e => hs.pc j hj (i - s) (by omega) e.symm, fun e => by have := hs.cc (i - s) (by omega) j hj e; omega⟩))
        have h2 := loop_up (n := min n s) (m0 := loop2 l.P l.C (fun i m => m (l.P (i - s))) (fun i m => m (l.C (i - s))) (downTo n s) m)
          (Sep.mono hs (Nat.min_le_left _ _)) (f := fun i _ => F.bins (F.dindex x + i)) (g := fun _ _ => zero) (fun _ _ _ _ => rfl) (fun _ _ _ _ => rfl)
        refine ⟨?_, fun a ha => ?_⟩
        · refine view_eq (fun i hi => ?_)
          by_cases hsi : i < s
          · rw [if_pos hsi, if_pos hsi]
            exact h2.1 i (by omega)
          · rw [if_neg hsi, if_neg hsi, nth_view_pri l m (by omega), nth_view_car l m (by omega)]
            have h3 := h1.1 i hi (by omega)
            refine ⟨(h2.2 (l.P i) ?_).trans h3.1, (h2.2 (l.C i) ?_).trans h3.2⟩
            · rintro ⟨j, hj, e | e⟩
              · have := hs.pp i hi j (by omega) e; omega
              · exact hs.pc i hi j (by omega) e
            · rintro ⟨j, hj, e | e⟩
              · exact hs.pc j (by omega) i hi e.symm
              · have := hs.cc i hi j (by omega) e; omega
        · refine (h2.2 a (fun ⟨j, hj, e⟩ => ha ⟨j, by omega, e⟩)).trans (h1.2.2 a ha)
      · exact ⟨rfl, fun _ _ => rfl⟩

/-- The deposit loop from entry `i`: entries `i ..` of the primary vector become those of the list version. -/
theorem depositLoopM_spec {n : Nat} {l : Loc} (hs : Sep n l) (r : Nat) :
    ∀ i (x : Flt) (m : Mem), i + r + 1 = n →
      (List.range' i (r + 1)).map (fun j => F.depositLoopM l r i x m (l.P j)) = F.depositLoop x ((List.range' i (r + 1)).map (fun j => m (l.P j))) ∧
      (∀ a, (∀ j, i ≤ j → j < n → a ≠ l.P j) → F.depositLoopM l r i x m a = m a) := by
  induction r with
  | zero =>
    intro i x m hi
    unfold depositLoopM
    refine ⟨?_, fun a ha => Mem.set_ne _ _ (ha i (Nat.le_refl _) (by omega))⟩
    simp only [Nat.zero_add, List.range'_one, List.map_cons, List.map_nil, Mem.set_same]
    rfl
  | succ r ih =>
    intro i x m hi
    unfold depositLoopM
    dsimp only
    have h := ih (i + 1) (F.add x (F.sub (m (l.P i)) (F.add (or1 x) (m (l.P i))))) (m.set (l.P i) (F.add (or1 x) (m (l.P i)))) (by omega)
    constructor
    · rw [List.range'_succ, List.map_cons, List.map_cons, h.1]
      have e1 := h.2 (l.P i) (fun j h1 h2 e => by have := hs.pp i (by omega) j h2 e; omega)
      rw [e1, Mem.set_same]
      have e2 : (List.range' (i + 1) (r + 1)).map (fun j => (m.set (l.P i) (F.add (or1 x) (m (l.P i)))) (l.P j)) = (List.range' (i + 1) (r + 1)).map (fun j => m (l.P j)) := by
        apply List.map_congr_left
        intro j hj
        have := List.mem_range'_1.1 hj
        exact Mem.set_ne _ _ (fun e => by have := hs.pp j (by omega) i (by omega) e; omega)
      rw [e2]
      rw [List.range'_succ, List.map_cons]
      rfl
    · intro a ha
      rw [h.2 a (fun j h1 h2 => ha j (by omega) h2), Mem.set_ne _ _ (ha i (Nat.le_refl _) (by omega))]

theorem view_pri_cons {n : Nat} (hn : 1 ≤ n) (l : Loc) (m : Mem) : (view n l m).pri = m l.pri :: (List.range' 1 (n - 1)).map (fun j => m (l.P j)) := by
  unfold view
  dsimp only
  rw [List.range_eq_range']
  have e : n = (n - 1) + 1 := by omega
  conv_lhs => rw [e, List.range'_succ, List.map_cons, Loc.P0]

theorem view_mk {n : Nat} (l : Loc) (m m' : Mem) {ps : List Flt} (h1 : (List.range n).map (fun i => m' (l.P i)) = ps)
    (h2 : ∀ i < n, m' (l.C i) = m (l.C i)) : view n l m' = ⟨ps, (view n l m).car⟩ := by
  unfold view
  rw [h1]
  congr 1
  exact List.map_congr_left (fun i hi => h2 i (List.mem_range.1 hi))

theorem set0_refines {n : Nat} (hn : 1 ≤ n) {l : Loc} (hs : Sep n l) (m : Mem) (v : Flt) :
    view n l (m.set l.pri v) = ⟨v :: (List.range' 1 (n - 1)).map (fun j => m (l.P j)), (view n l m).car⟩ ∧
    ∀ a, a ≠ l.pri → m.set l.pri v a = m a := by
  refine ⟨view_mk l m _ ?_ (fun i hi => ?_), fun a ha => Mem.set_ne _ _ ha⟩
  · have := view_pri_cons hn l (m.set l.pri v)
    unfold view at this; dsimp only at this
    rw [this, Mem.set_same]
    congr 1
    apply List.map_congr_left
    intro j hj
    have hj := List.mem_range'_1.1 hj
    refine Mem.set_ne _ _ (fun e => ?_)
    rw [← Loc.P0] at e
    have := hs.pp j (by omega) 0 (by omega) e
    omega
  · refine Mem.set_ne _ _ (fun e => ?_)
    rw [← Loc.P0] at e
    exact hs.pc 0 (by omega) i hi e.symm

theorem dmddepositM_refines {n : Nat} (hn : 2 ≤ n) {l : Loc} (hs : Sep n l) (x : Flt) :
    Refines n l (fun y => ⟨F.dmddeposit x y.pri, y.car⟩) (F.dmddepositM n x l) := by
  intro m
  unfold dmddepositM dmddeposit
  dsimp only
  rw [nth_view_pri l m (by omega : 0 < n), Loc.P0]
  have hin : l.In n l.pri := by have := l.inP (n := n) (i := 0) (by omega); rwa [Loc.P0] at this
  split
  · have h := set0_refines (by omega) hs m (F.add (m l.pri) x)
    rw [h.1, view_pri_cons (by omega)]
    exact ⟨rfl, fun a ha => h.2 a (fun e => ha (e ▸ hin))⟩
  · split
    · generalize hq : F.add (or1 (F.mul x F.compression)) (m l.pri) = q
      generalize hx : F.add (F.add x (F.mul (F.sub (m l.pri) q) F.halfExpansion)) (F.mul (F.sub (m l.pri) q) F.halfExpansion) = x'
      have h := set0_refines (by omega) hs m q
      have hd := depositLoopM_spec (F := F) hs (n - 1 - 1) 1 x' (m.set l.pri q) (by omega)
      have e1 : n - 1 - 1 + 1 = n - 1 := by omega
      rw [e1] at hd
      refine ⟨?_, fun a ha => ?_⟩
      · have hP : ∀ j, 1 ≤ j → j < n → l.P j ≠ l.pri := fun j h1 h2 e => by
          rw [← Loc.P0] at e; have := hs.pp j h2 0 (by omega) e; omega
        rw [view_pri_cons (by omega) l m]
        dsimp only
        rw [hq, hx]
        refine view_mk l m _ ?_ (fun i hi => ?_)
        · have := view_pri_cons (n := n) (by omega) l (F.depositLoopM l (n - 1 - 1) 1 x' (m.set l.pri q))
          unfold view at this; dsimp only at this
          rw [this, hd.1]
          have e2 : (List.range' 1 (n - 1)).map (fun j => (m.set l.pri q) (l.P j)) = (List.range' 1 (n - 1)).map (fun j => m (l.P j)) :=
            List.map_congr_left (fun j hj => by
              have := List.mem_range'_1.1 hj
              exact Mem.set_ne _ _ (hP j (by omega) (by omega)))
          rw [e2, hd.2 l.pri (fun j h1 h2 e => hP j h1 h2 e.symm), Mem.set_same]
        · rw [hd.2 (l.C i) (fun j h1 h2 e => hs.pc j h2 i hi e.symm)]
          refine Mem.set_ne _ _ (fun e => ?_)
          rw [← Loc.P0] at e
          exact hs.pc 0 (by omega) i hi e.symm
      · rw [hd.2 a (fun j h1 h2 e => ha ⟨j, h2, Or.inl e⟩)]
        exact h.2 a (fun e => ha (e ▸ hin))
    · have hd := depositLoopM_spec (F := F) hs (n - 1) 0 x m (by omega)
      have e1 : n - 1 + 1 = n := by omega
      rw [e1, ← List.range_eq_range'] at hd
      refine ⟨view_mk l m _ hd.1 (fun i hi => hd.2 _ (fun j h1 h2 e => hs.pc j h2 i hi e.symm)), fun a ha => hd.2 a (fun j h1 h2 e => ha ⟨j, h2, Or.inl e⟩)⟩

theorem dmdaddM_refines {n : Nat} (hn : 2 ≤ n) {l : Loc} (hs : Sep n l) (x : Flt) :
    Refines n l (F.dmdadd n x) (F.dmdaddM n x l) :=
  have h1 := Refines.comp (dmdupdateM_refines (F := F) (by omega) hs x) (dmddepositM_refines (F := F) hn hs x)
  have h2 := Refines.comp h1 (dmrenormM_refines (F := F) (by omega) hs)
  h2

theorem dmdconvM_refines {n : Nat} (hn : 2 ≤ n) {l : Loc} (hs : Sep n l) (x : Flt) :
    Refines n l (fun _ => F.dmdconv n x) (F.dmdconvM n x l) :=
  have h := Refines.comp (dmsetzeroM_refines hs) (dmdaddM_refines (F := F) hn hs x)
  h

/-- Merging two values that do not overlap: `y` becomes the sum, nothing else changes (in particular not `x`). -/
theorem dmdmaddM_refines {n : Nat} (hn : 1 ≤ n) {x y : Loc} (hs : Sep n y) (ha : Apart n x y) (m : Mem) :
    view n y (F.dmdmaddM n x y m) = F.dmdmadd n (view n x m) (view n y m) ∧
    ∀ a, ¬ y.In n a → F.dmdmaddM n x y m a = m a := by
  have hne : ∀ b, x.In n b → ∀ j < n, b ≠ y.P j ∧ b ≠ y.C j := fun b hb j hj =>
    ⟨fun e => ha b hb ⟨j, hj, Or.inl e⟩, fun e => ha b hb ⟨j, hj, Or.inr e⟩⟩
  unfold dmdmaddM dmdmadd
  rw [nth_view_pri x m (by omega : 0 < n), nth_view_pri y m (by omega : 0 < n), Loc.P0, Loc.P0]
  split
  · exact ⟨rfl, fun _ _ => rfl⟩
  split
  · exact dmdmsetM_refines hs ha m
  split
  · have h := set0_refines hn hs m (F.add (m y.pri) (m x.pri))
    rw [h.1, view_pri_cons hn]
    refine ⟨rfl, fun a ha => h.2 a (fun e => ha ?_)⟩
    rw [e, ← Loc.P0]; exact y.inP (by omega)
  dsimp only
  generalize F.dmindex (m x.pri) = xi
  generalize F.dmindex (m y.pri) = yi
  split
  · generalize yi - xi = s
    have h1 := shift_down (s := s) (m0 := m) hs
      (f := fun i m => F.add (m (x.P i)) (F.sub (m (y.P (i - s))) (F.bins (yi + (i - s)))))
      (g := fun i m => F.add (m (x.C i)) (m (y.C (i - s))))
      (fun i hi hsi m' hm => by
        show _ = _
        rw [hm (x.P i) (fun j hj _ => hne _ (x.inP hi) j hj),
          hm (y.P (i - s)) (fun j hj hij => ⟨fun e => by have := hs.pp (i - s) (by omega) j hj e; omega, hs.pc _ (by omega) j hj⟩)])
      (fun i hi hsi m' hm => by
        show _ = _
        rw [hm (x.C i) (hne _ (x.inC hi) i hi).1 (fun j hj _ => hne _ (x.inC hi) j hj),
          hm (y.C (i - s)) (fun e => hs.pc i hi (i - s) (by omega) e.symm)
            (fun j hj hij => ⟨fun e => hs.pc j hj (i - s) (by omega) e.symm, fun e => by have := hs.cc (i - s) (by omega) j hj e; omega⟩)])
    generalize hm1 : loop2 y.P y.C (fun i m => F.add (m (x.P i)) (F.sub (m (y.P (i - s))) (F.bins (yi + (i - s)))))
      (fun i m => F.add (m (x.C i)) (m (y.C (i - s)))) (downTo n s) m = m1 at h1
    have h2 := loop_up (n := min s n) (m0 := m1) (Sep.mono hs (Nat.min_le_right _ _)) (f := fun i m => m (x.P i)) (g := fun i m => m (x.C i))
      (fun i hi m' hm => hm _ (fun j hj => hne _ (x.inP (by omega)) j (by omega)))
      (fun i hi m' hm => hm _ (hne _ (x.inC (by omega)) i (by omega)).1 (fun j hj => hne _ (x.inC (by omega)) j (by omega)))
    generalize hm2 : loop2 y.P y.C (fun i m => m (x.P i)) (fun i m => m (x.C i)) (List.range (min s n)) m1 = m2 at h2
    have h3 := dmrenormM_refines (F := F) hn hs m2
    have e : F.dmrenormM n y m2 = F.dmrenormM n y ((List.range (min s n)).foldl (fun m i => (m.set (y.P i) (m (x.P i))).set (y.C i) ((m.set (y.P i) (m (x.P i))) (x.C i)))
        ((downTo n s).foldl (fun m i => (m.set (y.P i) (F.add (m (x.P i)) (F.sub (m (y.P (i - s))) (F.bins (yi + (i - s)))))).set (y.C i)
          (F.add ((m.set (y.P i) (F.add (m (x.P i)) (F.sub (m (y.P (i - s))) (F.bins (yi + (i - s)))))) (x.C i))
            ((m.set (y.P i) (F.add (m (x.P i)) (F.sub (m (y.P (i - s))) (F.bins (yi + (i - s)))))) (y.C (i - s))))) m)) := by
      rw [← hm2, ← hm1]; rfl
    rw [← e]
    refine ⟨?_, fun a ha => ?_⟩
    · rw [h3.1]
      congr 1
      refine view_eq (fun i hi => ?_)
      by_cases hsi : i < s
      · rw [if_pos hsi, if_pos hsi, nth_view_pri x m hi, nth_view_car x m hi]
        have h4 := h2.1 i (by omega)
        rw [h4.1, h4.2, h1.2.2 _ (ha _ (x.inP hi)), h1.2.2 _ (ha _ (x.inC hi))]
        exact ⟨rfl, rfl⟩
      · rw [if_neg hsi, if_neg hsi, nth_view_pri x m hi, nth_view_car x m hi, nth_view_pri y m (by omega), nth_view_car y m (by omega)]
        have h4 := h1.1 i hi (by omega)
        refine ⟨(h2.2 (y.P i) ?_).trans h4.1, (h2.2 (y.C i) ?_).trans h4.2⟩
        · rintro ⟨j, hj, e | e⟩
          · have := hs.pp i hi j (by omega) e; omega
          · exact hs.pc i hi j (by omega) e
        · rintro ⟨j, hj, e | e⟩
          · exact hs.pc j (by omega) i hi e.symm
          · have := hs.cc i hi j (by omega) e; omega
    · rw [h3.2 a ha, h2.2 a (fun ⟨j, hj, e⟩ => ha ⟨j, by omega, e⟩), h1.2.2 a ha]
  · generalize xi - yi = s
    have hmem : ∀ i, i ∈ List.range' s (n - s) ↔ s ≤ i ∧ i < n := by intro i; rw [List.mem_range'_1]; omega
    have h1 := loop2_spec (P := y.P) (C := y.C) (m0 := m)
      (f := fun i m => F.add (m (y.P i)) (F.sub (m (x.P (i - s))) (F.bins (xi + (i - s)))))
      (g := fun i m => F.add (m (y.C i)) (m (x.C (i - s)))) (fun j i => j < i) (List.range' s (n - s)) List.pairwise_lt_range'
      (fun i hi j hj => hs.pp i ((hmem i).1 hi).2 j ((hmem j).1 hj).2)
      (fun i hi j hj => hs.cc i ((hmem i).1 hi).2 j ((hmem j).1 hj).2)
      (fun i hi j hj => hs.pc i ((hmem i).1 hi).2 j ((hmem j).1 hj).2) List.nodup_range'
      (fun i hi m' hm => by
        have hi := (hmem i).1 hi
        show _ = _
        rw [hm (y.P i) (fun j hj hji => ⟨fun e => by have := hs.pp i hi.2 j ((hmem j).1 hj).2 e; omega, hs.pc i hi.2 j ((hmem j).1 hj).2⟩),
          hm (x.P (i - s)) (fun j hj _ => hne _ (x.inP (by omega)) j ((hmem j).1 hj).2)])
      (fun i hi m' hm => by
        have hi := (hmem i).1 hi
        show _ = _
        rw [hm (y.C i) (fun e => hs.pc i hi.2 i hi.2 e.symm) (fun j hj hji => ⟨fun e => hs.pc j ((hmem j).1 hj).2 i hi.2 e.symm, fun e => by have := hs.cc i hi.2 j ((hmem j).1 hj).2 e; omega⟩),
          hm (x.C (i - s)) (hne _ (x.inC (by omega)) i hi.2).1 (fun j hj _ => hne _ (x.inC (by omega)) j ((hmem j).1 hj).2)])
    have h3 := dmrenormM_refines (F := F) hn hs (loop2 y.P y.C (fun i m => F.add (m (y.P i)) (F.sub (m (x.P (i - s))) (F.bins (xi + (i - s)))))
      (fun i m => F.add (m (y.C i)) (m (x.C (i - s)))) (List.range' s (n - s)) m)
    refine ⟨h3.1.trans ?_, fun a ha => (h3.2 a ha).trans (h1.2 a (fun i hi => ⟨fun e => ha ⟨i, ((hmem i).1 hi).2, Or.inl e⟩, fun e => ha ⟨i, ((hmem i).1 hi).2, Or.inr e⟩⟩))⟩
    congr 1
    refine view_eq (fun i hi => ?_)
    by_cases hsi : i < s
    · rw [if_pos hsi, if_pos hsi, nth_view_pri y m hi, nth_view_car y m hi]
      refine ⟨h1.2 _ (fun j hj => ?_), h1.2 _ (fun j hj => ?_)⟩
      · have hj := (hmem j).1 hj
        exact ⟨fun e => by have := hs.pp i hi j hj.2 e; omega, hs.pc i hi j hj.2⟩
      · have hj := (hmem j).1 hj
        exact ⟨fun e => hs.pc j hj.2 i hi e.symm, fun e => by have := hs.cc i hi j hj.2 e; omega⟩
    · rw [if_neg hsi, if_neg hsi, nth_view_pri y m hi, nth_view_car y m hi, nth_view_pri x m (by omega), nth_view_car x m (by omega)]
      exact h1.1 i ((hmem i).2 ⟨by omega, hi⟩)

end Fmt
end Repro
