import Verif.ThreadsOk
import Verif.PropsSum
/-!
# C67, C68: threads

C67: the table of bins, filled by whichever thread comes first - or by several at once.
C68: threads working on their own accumulators, with shared data they only read, at the granularity of single memory accesses.
-/

namespace Repro
open Fmt Prog
variable {F : Fmt}

/-! ## C67 -/

/-- The use of `binned_dmbins(X)` in `src/binned`: call it, then read entry `i` of what it points to. -/
def lookupP (F : Fmt) (X i : Nat) : Prog Flt := do
  F.dmbinsP
  bin (X + i)

/-- **C67.** Any number of threads call `binned_dmbins` (`binned_smbins`) for the first time at the same time and read from the table it returns. Whatever the order of the individual accesses, and whatever
the table contained before, every thread reads the value of the specification; and every thread is done after a number of own accesses that does not depend on the schedule. -/
theorem C67_first_use (hF : F = f64 ∨ F = f32) {ι : Type} [DecidableEq ι] (X i : ι → Nat) (hX : ∀ t, X t ≤ F.maxIndex) (hi : ∀ t, i t < F.maxFold) (m : Mem) (junk : Nat → Flt) :
    (∀ sched : List ι, ∀ t v, ((System.mk (fun t => lookupP F (X t) (i t)) ⟨m, false, junk⟩).run sched).prog t = .ret v → v = F.bins (X t + i t)) ∧
    (∀ t, ∃ n, ∀ sched : List ι, n ≤ sched.count t → ∃ v, ((System.mk (fun t => lookupP F (X t) (i t)) ⟨m, false, junk⟩).run sched).prog t = .ret v) := by
  have hp : ∀ t, Within F (fun _ => False) (fun _ => False) (lookupP F (X t) (i t)) := fun t =>
    (Ok.dmbins hF (Ok.bin (Or.inr (full_of (le_refl _) (hX t) (hi t))))).within
  have h := fun sched => interleave (F := F) (ι := ι) (W := fun _ _ => False) (R := fun _ _ => False) (fun _ _ h => h) (fun _ _ _ _ h => h.elim) hp m junk sched
  exact ⟨fun sched t v hv => ((h sched).1 t v hv).1, fun t => ⟨_, fun sched hn => (h sched).2.1 t hn⟩⟩

/-- **C67.** No index computed from a number, or from any word taken for the first word of a binned value, leads outside the table, which has `binned_DBMAXINDEX + binned_DBMAXFOLD` entries. -/
theorem C67_in_bounds (hF : F = f64 ∨ F = f32) {fold : Nat} (hm : fold ≤ F.maxFold) (x : Flt) {i : Nat} (hi : i < fold) :
    F.dindex x + i < F.maxIndex + F.maxFold ∧ F.dmindex x + i < F.maxIndex + F.maxFold :=
  ⟨full_of hm (dindex_le_max hF x) hi, full_of hm (dmindex_le_max hF x) hi⟩

/-- The same function with the assignment to `bins_initialized` moved to the front, as a compiler might, since nothing in the code orders the assignments. -/
def dmbinsReordered (F : Fmt) : Prog Unit :=
  getFlag (fun b => if b then ret () else setFlag (do
    wrBin 0 F.firstBin
    loop (fun i => wrBin i (F.ldexp75 ((F.maxExp : Int) + F.p - F.W + 1 - i * F.W))) (List.range' 1 F.maxIndex)
    loop (fun i => do let v ← bin (i - 1); wrBin i v) (List.range' (F.maxIndex + 1) (F.maxFold - 1))))

/-- The order of the assignments matters: with the flag set first, a second thread can read an entry that has not been written. (C67 rests on the machine keeping the order of the source.) -/
theorem C67_order_matters : ∃ v, ((System.mk (fun _ : Bool => do dmbinsReordered f64; bin 0) ⟨fun _ => zero, false, fun _ => zero⟩).run [false, false, true, true]).prog true = .ret v ∧ v ≠ f64.bins 0 :=
  ⟨zero, rfl, by decide +kernel⟩

/-! ## C68 -/

/-- A call of the library, as a thread makes it. -/
inductive TCall where
  /-- `binned_dmsetzero` -/
  | setzero (l : Loc)
  /-- `binned_dmdadd` of a number -/
  | add (x : Flt) (l : Loc)
  /-- `binned_dmdadd(fold, X[a], ...)` -/
  | addWord (a : Int) (l : Loc)
  /-- `binned_dmdmadd` of `x` into `y` -/
  | merge (x y : Loc)
  /-- `binned_dmdmset` of `y` to `x` -/
  | copy (x y : Loc)
  /-- `binned_dmnegate` -/
  | negate (l : Loc)
  /-- `X[a] = binned_ddmconv(fold, ...)` -/
  | conv (l : Loc) (a : Int)

/-- The accesses of a call. -/
def TCall.prog (F : Fmt) (fold : Nat) : TCall → Prog Unit
  | setzero l => dmsetzeroP fold l
  | add x l => F.dmdaddP fold x l
  | addWord a l => do let x ← rd a; F.dmdaddP fold x l
  | merge x y => F.dmdmaddP fold x y
  | copy x y => dmdmsetP fold x y
  | negate l => F.dmnegateP fold l
  | conv l a => do let v ← convertP F fold l; wr a v

/-- What the call does to memory when nothing else happens (the functions of `Verif/Memory.lean`). -/
def TCall.alone (F : Fmt) (fold : Nat) : TCall → Mem → Mem
  | setzero l, m => dmsetzeroM fold l m
  | add x l, m => F.dmdaddM fold x l m
  | addWord a l, m => F.dmdaddM fold (m a) l m
  | merge x y, m => F.dmdmaddM fold x y m
  | copy x y, m => dmdmsetM fold x y m
  | negate l, m => F.dmnegateM fold l m
  | conv l a, m => m.set a (F.convertM fold l m)

/-- The words a call may change: the value it updates, or the word it writes. -/
def TCall.Writes (fold : Nat) : TCall → Int → Prop
  | setzero l, a => l.In fold a
  | add _ l, a => l.In fold a
  | addWord _ l, a => l.In fold a
  | merge _ y, a => y.In fold a
  | copy _ y, a => y.In fold a
  | negate l, a => l.In fold a
  | conv _ b, a => a = b

/-- The words a call may depend on, besides the ones it writes: the operands. -/
def TCall.Reads (fold : Nat) : TCall → Int → Prop
  | setzero _, _ => False
  | add _ _, _ => False
  | addWord b _, a => a = b
  | merge x _, a => x.In fold a
  | copy x _, a => x.In fold a
  | negate _, _ => False
  | conv l _, a => l.In fold a

/-- A thread: its calls, one after the other. -/
def threadP (F : Fmt) (fold : Nat) : List TCall → Prog Unit
  | [] => ret ()
  | c :: cs => (c.prog F fold).bind (fun _ => threadP F fold cs)

theorem TCall.eval_prog {fold : Nat} (hf : 2 ≤ fold) (c : TCall) (m : Mem) : (c.prog F fold).eval F m = ((), c.alone F fold m) := by
  cases c with
  | setzero l => exact eval_setzero fold l m
  | add x l => exact eval_dmdadd fold x l m
  | addWord a l => exact eval_dmdadd fold (m a) l m
  | merge x y => exact eval_dmdmadd fold x y m
  | copy x y => exact eval_dmdmset fold x y m
  | negate l => exact eval_dmnegate fold l m
  | conv l a =>
    show (Prog.bind (convertP F fold l) (fun v => wr a v)).eval F m = _
    rw [eval_bind, eval_convert hf]
    rfl

theorem eval_thread {fold : Nat} (hf : 2 ≤ fold) (cs : List TCall) (m : Mem) : (threadP F fold cs).eval F m = ((), cs.foldl (fun m c => c.alone F fold m) m) := by
  induction cs generalizing m with
  | nil => rfl
  | cons c cs ih => unfold threadP; rw [eval_bind, c.eval_prog hf]; exact ih _

theorem TCall.ok (hF : F = f64 ∨ F = f32) {fold : Nat} (hf : 2 ≤ fold) (hm : fold ≤ F.maxFold) {W R : Int → Prop} {s : Nat → Prop} (hWR : ∀ a, W a → R a) {c : TCall}
    (hw : ∀ a, c.Writes fold a → W a) (hr : ∀ a, c.Reads fold a → R a) : Ok F W R s (c.prog F fold) := by
  cases c with
  | setzero l => exact Ok.setzero hw
  | add x l => exact Ok.dmdadd hF hf hm x (fun a h => hWR a (hw a h)) hw
  | addWord a l => exact Ok.bind (Ok.rd (hr a rfl)) (fun x => Ok.dmdadd hF hf hm x (fun a h => hWR a (hw a h)) hw)
  | merge x y => exact Ok.dmdmadd hF hf hm hr (fun a h => hWR a (hw a h)) hw
  | copy x y => exact Ok.dmdmset hr hw
  | negate l => exact Ok.dmnegate hF hf hm (fun a h => hWR a (hw a h)) hw
  | conv l a => exact Ok.bind (Ok.convert hF hf hm hr) (fun v => Ok.wr v (hw a rfl))

theorem thread_ok (hF : F = f64 ∨ F = f32) {fold : Nat} (hf : 2 ≤ fold) (hm : fold ≤ F.maxFold) {W R : Int → Prop} {s : Nat → Prop} (hWR : ∀ a, W a → R a) {cs : List TCall}
    (h : ∀ c ∈ cs, (∀ a, c.Writes fold a → W a) ∧ ∀ a, c.Reads fold a → R a) : Ok F W R s (threadP F fold cs) := by
  induction cs with
  | nil => exact Ok.ret ()
  | cons c cs ih => exact Ok.bind (TCall.ok hF hf hm hWR (h c (by simp)).1 (h c (by simp)).2) (fun _ => ih (fun c' hc => h c' (by simp [hc])))

/-- The words a thread may change. -/
def TWrites (fold : Nat) (cs : List TCall) (a : Int) : Prop := ∃ c ∈ cs, c.Writes fold a
/-- The words a thread uses. -/
def TUses (fold : Nat) (cs : List TCall) (a : Int) : Prop := ∃ c ∈ cs, c.Writes fold a ∨ c.Reads fold a

/-- **C68.** Any number of threads, each making its own sequence of calls, no thread writing words another thread uses; the table of bins not filled yet. In every interleaving of the individual memory accesses of all
threads: a thread that is done has left in all words it uses exactly what its calls leave there when it runs alone from the initial memory; each thread is done after a number of own accesses that does not
depend on the schedule; and words no thread writes are unchanged. -/
theorem C68_threads (hF : F = f64 ∨ F = f32) {fold : Nat} (hf : 2 ≤ fold) (hm : fold ≤ F.maxFold) {ι : Type} [DecidableEq ι] (calls : ι → List TCall)
    (hd : ∀ t u, t ≠ u → ∀ a, TWrites fold (calls t) a → ¬ TUses fold (calls u) a) (m : Mem) (junk : Nat → Flt) :
    let start : System ι Unit := ⟨fun t => threadP F fold (calls t), ⟨m, false, junk⟩⟩
    (∀ sched : List ι, ∀ t, (start.run sched).prog t = .ret () → ∀ a, TUses fold (calls t) a → (start.run sched).shared.mem a = (calls t).foldl (fun m c => c.alone F fold m) m a) ∧
    (∀ t, ∃ n, ∀ sched : List ι, n ≤ sched.count t → (start.run sched).prog t = .ret ()) ∧
    (∀ sched : List ι, ∀ a, (∀ t, ¬ TWrites fold (calls t) a) → (start.run sched).shared.mem a = m a) := by
  intro start
  have hWR : ∀ t a, TWrites fold (calls t) a → TUses fold (calls t) a := fun t a ⟨c, hc, h⟩ => ⟨c, hc, Or.inl h⟩
  have hp : ∀ t, Within F (TWrites fold (calls t)) (TUses fold (calls t)) (threadP F fold (calls t)) := fun t =>
    (thread_ok hF hf hm (hWR t) (fun c hc => ⟨fun a h => ⟨c, hc, h⟩, fun a h => ⟨c, hc, Or.inr h⟩⟩)).within
  have h := fun sched => interleave (F := F) hWR hd hp m junk sched
  refine ⟨fun sched t hv a ha => ?_, fun t => ⟨_, fun sched hn => ((h sched).2.1 t hn).elim (fun v hv => hv)⟩, fun sched => (h sched).2.2⟩
  rw [((h sched).1 t () hv).2 a ha, eval_thread hf]

/-- Summing `n` numbers found in memory at `X, X + inc, ...`. -/
def sumCalls (l : Loc) (X inc : Int) (n : Nat) : List TCall := .setzero l :: (List.range n).map (fun i : Nat => .addWord (X + i * inc) l)

theorem sumCalls_alone {fold : Nat} (hf : 2 ≤ fold) {l : Loc} (hs : Sep fold l) {X inc : Int} {n : Nat} (hX : ∀ i : Nat, i < n → ¬ l.In fold (X + i * inc)) (m : Mem) :
    view fold l ((sumCalls l X inc n).foldl (fun m c => c.alone F fold m) m) = F.sumSeq fold ((List.range n).map (fun i : Nat => m (X + i * inc))) (dmsetzero fold) := by
  unfold sumCalls
  rw [List.foldl_cons, List.foldl_map]
  have h0 := dmsetzeroM_refines hs m
  suffices h : view fold l ((List.range n).foldl (fun m (i : Nat) => TCall.alone F fold (.addWord (X + i * inc) l) m) (dmsetzeroM fold l m)) =
      F.sumSeq fold ((List.range n).map (fun i : Nat => m (X + i * inc))) (dmsetzero fold) ∧
      ∀ a, ¬ l.In fold a → (List.range n).foldl (fun m (i : Nat) => TCall.alone F fold (.addWord (X + i * inc) l) m) (dmsetzeroM fold l m) a = m a from h.1
  induction n with
  | zero => exact ⟨h0.1, h0.2⟩
  | succ n ih =>
    obtain ⟨h1, h2⟩ := ih (fun i hi => hX i (by omega))
    rw [List.range_succ, List.foldl_append, List.map_append]
    unfold sumSeq at *
    rw [List.foldl_append, ← h1]
    generalize (List.range n).foldl (fun m (i : Nat) => TCall.alone F fold (.addWord (X + i * inc) l) m) (dmsetzeroM fold l m) = m' at *
    have h3 := dmdaddM_refines (F := F) hf hs (m' (X + n * inc)) m'
    refine ⟨?_, fun a ha => (h3.2 a ha).trans (h2 a ha)⟩
    refine h3.1.trans ?_
    rw [h2 _ (hX n (by omega))]
    rfl

theorem sumCalls_uses {fold : Nat} {l : Loc} {X inc : Int} {n : Nat} {a : Int} :
    (TWrites fold (sumCalls l X inc n) a ↔ l.In fold a) ∧ (TUses fold (sumCalls l X inc n) a ↔ l.In fold a ∨ ∃ i : Nat, i < n ∧ a = X + i * inc) := by
  constructor
  · constructor
    · rintro ⟨c, hc, h⟩
      rcases List.mem_cons.1 hc with rfl | hc
      · exact h
      · obtain ⟨i, _, rfl⟩ := List.mem_map.1 hc; exact h
    · exact fun h => ⟨_, List.mem_cons_self, h⟩
  · constructor
    · rintro ⟨c, hc, h⟩
      rcases List.mem_cons.1 hc with rfl | hc
      · exact Or.inl (h.elim id False.elim)
      · obtain ⟨i, hi, rfl⟩ := List.mem_map.1 hc
        exact h.imp id (fun e => ⟨i, List.mem_range.1 hi, e⟩)
    · rintro (h | ⟨i, hi, rfl⟩)
      · exact ⟨_, List.mem_cons_self, Or.inl h⟩
      · exact ⟨.addWord (X + i * inc) l, List.mem_cons_of_mem _ (List.mem_map.2 ⟨i, List.mem_range.2 hi, rfl⟩), Or.inr rfl⟩

/-- **C68.** Threads sum parts of a shared array, each into its own accumulator: in every schedule each finished accumulator is the reproducible sum of its part. -/
theorem C68_parallel_sums [F.OK] (hF : F = f64 ∨ F = f32) {fold : Nat} (hf : 2 ≤ fold) (hm : fold ≤ F.maxFold) {ι : Type} [DecidableEq ι] (l : ι → Loc) (X inc : ι → Int) (n : ι → Nat)
    (hs : ∀ t, Sep fold (l t)) (ha : ∀ t u, t ≠ u → Apart fold (l t) (l u)) (hX : ∀ t u (i : Nat), i < n u → ¬ (l t).In fold (X u + i * inc u)) (m : Mem) (junk : Nat → Flt)
    (hfin : ∀ t (i : Nat), i < n t → F.Finite (m (X t + i * inc t))) (hcap : ∀ t, n t ≤ F.capacity) (sched : List ι) :
    let σ := (System.mk (fun t => threadP F fold (sumCalls (l t) (X t) (inc t) (n t))) ⟨m, false, junk⟩).run sched
    ∀ t, σ.prog t = .ret () → view fold (l t) σ.shared.mem = F.specSum fold ((List.range (n t)).map (fun i : Nat => m (X t + i * inc t))) := by
  intro σ t ht
  have h := (C68_threads hF hf hm (fun t => sumCalls (l t) (X t) (inc t) (n t)) (fun t u htu a hw hu => by
    rw [sumCalls_uses.1] at hw
    rw [sumCalls_uses.2] at hu
    rcases hu with hu | ⟨i, hi, rfl⟩
    · exact ha t u htu a hw hu
    · exact hX t u i hi hw) m junk).1 sched t ht
  rw [view_congr (fun a hin => h a (sumCalls_uses.2.2 (Or.inl hin))), sumCalls_alone hf (hs t) (fun i hi => hX t t i hi), C01_sum_is_spec hf]
  · intro x hx
    obtain ⟨i, hi, rfl⟩ := List.mem_map.1 hx
    exact hfin t i (List.mem_range.1 hi)
  · rw [List.length_map, List.length_range]; exact hcap t

/-- The main thread collects the accumulators `l t`, for `t` in `ts`, in `D`, and writes the result to `out`. -/
def collectCalls {ι : Type} (l : ι → Loc) (ts : List ι) (D : Loc) (out : Int) : List TCall := .setzero D :: (ts.map (fun t => .merge (l t) D) ++ [.conv D out])

theorem collect_alone {fold : Nat} (hf : 2 ≤ fold) {ι : Type} (l : ι → Loc) (xs : ι → List Flt) {D : Loc} (hD : Sep fold D) (m : Mem) (ts : List ι) (ha : ∀ t ∈ ts, Apart fold (l t) D)
    (hv : ∀ t ∈ ts, view fold (l t) m = F.sumSeq fold (xs t) (dmsetzero fold)) :
    ∃ T : Tree, T.nums.Perm (ts.flatMap xs) ∧ view fold D (ts.foldl (fun m t => F.dmdmaddM fold (l t) D m) (dmsetzeroM fold D m)) = T.eval F fold := by
  have h0 := dmsetzeroM_refines hD m
  suffices h : ∀ (us vs : List ι) (m' : Mem) (T : Tree), us ++ vs = ts → T.nums.Perm (us.flatMap xs) → view fold D m' = T.eval F fold → (∀ a, ¬ D.In fold a → m' a = m a) →
      ∃ T : Tree, T.nums.Perm (ts.flatMap xs) ∧ view fold D (vs.foldl (fun m t => F.dmdmaddM fold (l t) D m) m') = T.eval F fold from
    h [] ts _ (.leaf []) rfl (List.Perm.refl _) h0.1 h0.2
  intro us vs
  induction vs generalizing us with
  | nil => intro m' T he hp hm _; rw [List.append_nil] at he; subst he; exact ⟨T, hp, hm⟩
  | cons v vs ih =>
    intro m' T he hp hm hfr
    have hvm : v ∈ ts := by rw [← he]; simp
    have hr := dmdmaddM_refines (F := F) (by omega : 1 ≤ fold) hD (ha v hvm) m'
    rw [List.foldl_cons]
    refine ih (us ++ [v]) _ (.node (.leaf (xs v)) T) (by rw [← he]; simp) ?_ ?_ (fun a hna => (hr.2 a hna).trans (hfr a hna))
    · rw [List.flatMap_append]
      refine (List.perm_append_comm.trans ?_)
      exact List.Perm.append hp (by simp [Tree.nums])
    · rw [hr.1, hm, view_frame (ha v hvm) hfr, hv v hvm]
      rfl

/-- Collecting accumulators that hold the sums of their parts. -/
theorem collect_total [F.OK] {fold : Nat} (hf : 2 ≤ fold) {ι : Type} (l : ι → Loc) (xs : ι → List Flt) {D : Loc} (hD : Sep fold D) (hDl : ∀ t, Apart fold (l t) D) (out : Int) (ts : List ι) {ys : List Flt}
    (hxs : (ts.flatMap xs).Perm ys) (hfin : ∀ x ∈ ys, F.Finite x) (hcap : ys.length ≤ F.capacity) (m : Mem) (hv : ∀ t ∈ ts, view fold (l t) m = F.sumSeq fold (xs t) (dmsetzero fold)) :
    (collectCalls l ts D out).foldl (fun m c => c.alone F fold m) m out = convert F fold (F.specSum fold ys) := by
  obtain ⟨T, hT, he⟩ := collect_alone hf l _ hD m ts (fun t _ => hDl t) hv
  unfold collectCalls
  rw [List.foldl_cons, List.foldl_append, List.foldl_map]
  show Mem.set _ out (F.convertM fold D _) out = _
  rw [Mem.set_same]
  unfold convertM
  rw [Nat.max_eq_left hf]
  show convert F fold (view fold D (ts.foldl (fun m t => F.dmdmaddM fold (l t) D m) (dmsetzeroM fold D m))) = _
  rw [he, C02_reduction_tree hf T (hT.trans hxs) hfin hcap, C01_sum_is_spec hf hfin hcap]

/-- **C68.** The parallel sum. Threads sum parts of a shared array into their own accumulators, under any schedule; when all are done, the main thread collects the accumulators in any order and converts. The word it
writes depends only on the multiset of the summands: not on the number of threads, the partition, the schedule or the order of collection. -/
theorem C68_parallel_total [F.OK] (hF : F = f64 ∨ F = f32) {fold : Nat} (hf : 2 ≤ fold) (hm : fold ≤ F.maxFold) {ι : Type} [DecidableEq ι] (l : ι → Loc) (X inc : ι → Int) (n : ι → Nat)
    (hs : ∀ t, Sep fold (l t)) (ha : ∀ t u, t ≠ u → Apart fold (l t) (l u)) (hX : ∀ t u (i : Nat), i < n u → ¬ (l t).In fold (X u + i * inc u)) (m : Mem) (junk : Nat → Flt)
    {D : Loc} (hD : Sep fold D) (hDl : ∀ t, Apart fold (l t) D) (out : Int) (ts : List ι) {xs : List Flt}
    (hxs : (ts.flatMap (fun t => (List.range (n t)).map (fun i : Nat => m (X t + i * inc t)))).Perm xs) (hfin : ∀ x ∈ xs, F.Finite x) (hcap : xs.length ≤ F.capacity) (sched : List ι) :
    let σ := (System.mk (fun t => threadP F fold (sumCalls (l t) (X t) (inc t) (n t))) ⟨m, false, junk⟩).run sched
    (∀ t ∈ ts, σ.prog t = .ret ()) →
    (collectCalls l ts D out).foldl (fun m c => c.alone F fold m) σ.shared.mem out = convert F fold (F.specSum fold xs) := by
  intro σ hdone
  have hth := (C68_threads hF hf hm (fun t => sumCalls (l t) (X t) (inc t) (n t)) (fun t u htu a hw hu => by
    rw [sumCalls_uses.1] at hw
    rw [sumCalls_uses.2] at hu
    rcases hu with hu | ⟨i, hi, rfl⟩
    · exact ha t u htu a hw hu
    · exact hX t u i hi hw) m junk).1 sched
  have hv : ∀ t ∈ ts, view fold (l t) σ.shared.mem = F.sumSeq fold ((List.range (n t)).map (fun i : Nat => m (X t + i * inc t))) (dmsetzero fold) := fun t ht => by
    rw [view_congr (fun a hin => hth t (hdone t ht) a (sumCalls_uses.2.2 (Or.inl hin))), sumCalls_alone hf (hs t) (fun i hi => hX t t i hi)]
  exact collect_total hf l _ hD hDl out ts hxs hfin hcap σ.shared.mem hv

/-! Concrete cases. -/

/-- Three threads, accumulators of fold 2 at 0, 10, 20, the array at 100, four numbers each. -/
example : (∀ t : Fin 3, Sep 2 (packed 2 (10 * t.val))) ∧ (∀ t u : Fin 3, t ≠ u → Apart 2 (packed 2 (10 * t.val)) (packed 2 (10 * u.val))) ∧
    (∀ t u : Fin 3, ∀ i : Nat, i < 4 → ¬ (packed 2 (10 * t.val)).In 2 (100 + 4 * u.val + i * 1)) := by
  refine ⟨fun t => ⟨?_, ?_, ?_⟩, fun t u htu a => ?_, fun t u i hi => ?_⟩
  · intro i _ j _; simp only [packed, Loc.P]; omega
  · intro i _ j _; simp only [packed, Loc.C]; omega
  · intro i _ j _; simp only [packed, Loc.C, Loc.P]; omega
  · rintro ⟨i, hi, h⟩ ⟨j, hj, h'⟩
    have : t.val ≠ u.val := fun e => htu (Fin.ext e)
    simp only [packed, Loc.C, Loc.P] at h h'
    omega
  · rintro ⟨j, hj, h⟩
    have := t.isLt
    simp only [packed, Loc.C, Loc.P] at h
    omega

/-- Two threads fill the table at the same time, step by step in turn, and add 1 and 2 to their accumulators: both are done after 110 accesses each, and have what they get alone. -/
example : let σ := (System.mk (fun t : Bool => threadP f32 2 [.setzero (packed 2 (if t then 10 else 0)), .add (f32.ofInt (if t then 2 else 1)) (packed 2 (if t then 10 else 0))])
      ⟨fun _ => zero, false, fun _ => zero⟩).run ((List.replicate 110 [false, true]).flatten)
    view 2 (packed 2 0) σ.shared.mem = f32.dmdadd 2 (f32.ofInt 1) (dmsetzero 2) ∧ view 2 (packed 2 10) σ.shared.mem = f32.dmdadd 2 (f32.ofInt 2) (dmsetzero 2) := by decide +kernel

end Repro
