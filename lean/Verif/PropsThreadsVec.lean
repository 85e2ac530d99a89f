import Verif.ThreadsVecZ
import Verif.PropsTso
import Verif.PropsRoutineSq
/-!
# C73: threads calling the vector routines

Any number of threads calling the vector routines of binnedBLAS (and the operations of C68), at the granularity of single memory accesses, under every
interleaving and on a machine with store buffers. Each call is a program of memory accesses (`Verif/ThreadsVec.lean`, `Verif/ThreadsVecZ.lean`); what it does
alone is what the emitted statements do (`C73_alone`).
-/

namespace Repro
open Fmt Prog
variable {F : Fmt}

/-- A call of the library, as a thread makes it. `T` is the tuning the routine was compiled with, `l` the accumulator, `n` the number of elements. -/
inductive VCall where
  /-- an operation on binned values (C68) -/
  | base (c : TCall)
  /-- `binnedBLAS_dmdsum(fold, n, X, incX, ...)` -/
  | sum (T : Tune) (l : Loc) (n : Nat) (X incX : Int)
  /-- `binnedBLAS_dmdasum` -/
  | asum (T : Tune) (l : Loc) (n : Nat) (X incX : Int)
  /-- `binnedBLAS_dmddot` -/
  | dot (T : Tune) (l : Loc) (n : Nat) (X incX Y incY : Int)
  /-- `binnedBLAS_zmzsum` -/
  | zsum (T : Tune) (l : Loc) (n : Nat) (X incX : Int)
  /-- `binnedBLAS_zmzdotu` -/
  | zdotu (T : Tune) (l : Loc) (n : Nat) (X incX Y incY : Int)
  /-- `binnedBLAS_zmzdotc` -/
  | zdotc (T : Tune) (l : Loc) (n : Nat) (X incX Y incY : Int)
  /-- `binnedBLAS_dmzasum`, the temporary value being allocated at `tmp` -/
  | zasum (T : Tune) (tmp : Int) (l : Loc) (n : Nat) (X incX : Int)
  /-- `*sc = binnedBLAS_dmdssq(fold, n, X, incX, *sc, ...)` -/
  | ssq (T : Tune) (l : Loc) (sc : Int) (n : Nat) (X incX : Int)
  /-- `*sc = binnedBLAS_dmzssq(fold, n, X, incX, *sc, ...)`, the temporary values being allocated at `tmp`, `t0`, `t1` -/
  | zssq (T : Tune) (tmp t0 t1 : Int) (l : Loc) (sc : Int) (n : Nat) (X incX : Int)

/-- The accesses of a call. -/
def VCall.prog (F : Fmt) (fold : Nat) : VCall → Prog Unit
  | base c => c.prog F fold
  | sum T l n X incX => F.rvecP T .sum fold l n X incX X incX
  | asum T l n X incX => F.rvecP T .asum fold l n X incX X incX
  | dot T l n X incX Y incY => F.rvecP T .dot fold l n X incX Y incY
  | zsum T l n X incX => F.zloopP T .sum zsumOp (fun x _ => x) fold l incX incX n n X X 0
  | zdotu T l n X incX Y incY => F.zloopP T .dotu (F.dotuOp T) Prod.mk fold l incX incY n n X Y 0
  | zdotc T l n X incX Y incY => F.zloopP T .dotc (F.dotcOp T) Prod.mk fold l incX incY n n X Y 0
  | zasum T tmp l n X incX => F.zasumVecP T fold tmp l n X incX
  | ssq T l sc n X incX => (rd sc).bind fun s => (F.ssqVecP T fold l n X incX s).bind fun v => wr sc v
  | zssq T tmp t0 t1 l sc n X incX => (rd sc).bind fun s => (F.zssqVecP T fold tmp t0 t1 l n X incX s).bind fun v => wr sc v

/-- What the statements of the routine do to memory when nothing else happens (`Verif/GenRun.lean`, `Verif/GenRunSq.lean`); `jA`, `jD` are the contents of the registers at the start of the kernels. -/
def VCall.stmts (F : Fmt) (fold : Nat) (expand : Bool) (jA jD : Nat → Regs) : VCall → Mem → Mem
  | base c, m => c.alone F fold m
  | sum T l n X incX, m => F.rvecM T .sum expand fold l n X incX X incX jA jD m
  | asum T l n X incX, m => F.rvecM T .asum expand fold l n X incX X incX jA jD m
  | dot T l n X incX Y incY, m => F.rvecM T .dot expand fold l n X incX Y incY jA jD m
  | zsum T l n X incX, m => F.zvecM T .sum expand fold l n X incX X incX jA jD m
  | zdotu T l n X incX Y incY, m => F.zvecM T .dotu expand fold l n X incX Y incY jA jD m
  | zdotc T l n X incX Y incY, m => F.zvecM T .dotc expand fold l n X incX Y incY jA jD m
  | zasum T tmp l n X incX, m => F.zasumVecM T expand fold tmp l n X incX jA jD m
  | ssq T l sc n X incX, m => (F.ssqVecM T expand fold l n X incX (m sc) jA jD m).2.set sc (F.ssqVecM T expand fold l n X incX (m sc) jA jD m).1
  | zssq T tmp t0 t1 l sc n X incX, m => (F.zssqVecM T expand fold tmp t0 t1 l n X incX (m sc) jA jD m).2.set sc (F.zssqVecM T expand fold tmp t0 t1 l n X incX (m sc) jA jD m).1

/-- The routine has been compiled with a valid tuning. -/
def VCall.Tuned (F : Fmt) : VCall → Prop
  | base _ => True
  | sum T .. | asum T .. | dot T .. | zsum T .. | zdotu T .. | zdotc T .. | zasum T .. | ssq T .. | zssq T .. => T.OK F

/-- For `binnedBLAS_dmdssq`: the scale is one the library can have returned, and the vector lies outside the accumulator and consists of numbers of the format. -/
def VCall.Sound (F : Fmt) (fold : Nat) : VCall → Mem → Prop
  | ssq _ l sc n X incX, m => Sep fold l ∧ ScaleOK F (m sc) ∧ ∀ i : Nat, i < n → ¬ l.In fold (X + i * incX) ∧ F.Word (m (X + i * incX))
  | _, _ => True

/-- **C73.** The programs are the routines: run alone, the accesses of a call have exactly the effect of the statements the generators emit, whatever the registers contain. -/
theorem C73_alone [F.OK] {fold : Nat} (hf : 2 ≤ fold) {expand : Bool} (jA jD : Nat → Regs) (c : VCall) (hT : c.Tuned F) (m : Mem) (hc : c.Sound F fold m) :
    (c.prog F fold).eval F m = ((), c.stmts F fold expand jA jD m) := by
  have h1 : 1 ≤ fold := by omega
  have he : expand = true → 2 ≤ fold := fun _ => hf
  cases c with
  | base c => exact c.eval_prog hf m
  | sum T l n X incX => exact eval_rloop hT (Or.inl rfl) h1 he l incX incX jA jD n n X X 0 m
  | asum T l n X incX => exact eval_rloop hT (Or.inr (Or.inl rfl)) h1 he l incX incX jA jD n n X X 0 m
  | dot T l n X incX Y incY => exact eval_rloop hT (Or.inr (Or.inr rfl)) h1 he l incX incY jA jD n n X Y 0 m
  | zsum T l n X incX => exact eval_zloop hT (zlink_sum hT) h1 he l incX incX jA jD (fun _ _ _ _ _ => rfl) n n X X 0 m
  | zdotu T l n X incX Y incY => exact eval_zloop hT (zlink_dotu hT) h1 he l incX incY jA jD (fun h => nomatch h) n n X Y 0 m
  | zdotc T l n X incX Y incY => exact eval_zloop hT (zlink_dotc hT) h1 he l incX incY jA jD (fun h => nomatch h) n n X Y 0 m
  | zasum T tmp l n X incX =>
    show (F.zasumVecP T fold tmp l n X incX).eval F m = _
    unfold zasumVecP
    rw [eval_bind, eval_zmsetzero]
    exact eval_zasumLoop hT h1 he _ l incX jA jD n n X 0 _
  | ssq T l sc n X incX =>
    show ((rd sc).bind fun s => (F.ssqVecP T fold l n X incX s).bind fun v => wr sc v).eval F m = _
    obtain ⟨hs, hS, hX⟩ := hc
    rw [eval_rdB, eval_bind, show (F.ssqVecP T fold l n X incX (m sc)).eval F m = F.ssqVecM T expand fold l n X incX (m sc) jA jD m from
      eval_ssqLoop hT h1 he hs incX jA jD n n X 0 (m sc) m hS (fun i hi => (hX i hi).1) (fun i hi => (hX i hi).2)]
    rfl
  | zssq T tmp t0 t1 l sc n X incX =>
    show ((rd sc).bind fun s => (F.zssqVecP T fold tmp t0 t1 l n X incX s).bind fun v => wr sc v).eval F m = _
    rw [eval_rdB, eval_bind, show (F.zssqVecP T fold tmp t0 t1 l n X incX (m sc)).eval F m = F.zssqVecM T expand fold tmp t0 t1 l n X incX (m sc) jA jD m from by
      unfold zssqVecP
      rw [eval_bind, eval_zmsetzero]
      exact eval_zssqLoop hT h1 he t0 t1 _ l incX (m sc) jA jD n n X 0 zero _]
    rfl

/-! ## What a call uses -/

/-- The words of a real vector. -/
def RVec (X incX : Int) (n : Nat) (a : Int) : Prop := ∃ i : Nat, i < n ∧ a = X + i * incX
/-- The words of a complex vector. -/
def ZVec (X incX : Int) (n : Nat) (a : Int) : Prop := ∃ i : Nat, i < n ∧ (a = X + i * 2 * incX ∨ a = X + i * 2 * incX + 1)

/-- The words a call may change: the accumulator, its temporary values, the scale. -/
def VCall.Writes (fold : Nat) : VCall → Int → Prop
  | base c, a => c.Writes fold a
  | sum _ l _ _ _, a | asum _ l _ _ _, a | dot _ l _ _ _ _ _, a => l.In fold a
  | zsum _ l _ _ _, a | zdotu _ l _ _ _ _ _, a | zdotc _ l _ _ _ _ _, a => l.CIn fold a
  | zasum _ tmp l _ _ _, a => l.In fold a ∨ (zpacked fold tmp).CIn fold a
  | ssq _ l sc _ _ _, a => l.In fold a ∨ a = sc
  | zssq _ tmp t0 t1 l sc _ _ _, a => l.In fold a ∨ (zpacked fold tmp).CIn fold a ∨ (packed fold t0).In fold a ∨ (packed fold t1).In fold a ∨ a = sc

/-- The words a call may depend on, besides the ones it writes: the vectors. -/
def VCall.Reads (fold : Nat) : VCall → Int → Prop
  | base c, a => c.Reads fold a
  | sum _ _ n X incX, a | asum _ _ n X incX, a | ssq _ _ _ n X incX, a => RVec X incX n a
  | dot _ _ n X incX Y incY, a => RVec X incX n a ∨ RVec Y incY n a
  | zsum _ _ n X incX, a | zasum _ _ _ n X incX, a | zssq _ _ _ _ _ _ n X incX, a => ZVec X incX n a
  | zdotu _ _ n X incX Y incY, a | zdotc _ _ n X incX Y incY, a => ZVec X incX n a ∨ ZVec Y incY n a

/-- A thread: its calls, one after the other. -/
def vthreadP (F : Fmt) (fold : Nat) : List VCall → Prog Unit
  | [] => ret ()
  | c :: cs => (c.prog F fold).bind (fun _ => vthreadP F fold cs)

/-- What a call does to memory alone. -/
def VCall.alone (F : Fmt) (fold : Nat) (c : VCall) (m : Mem) : Mem := ((c.prog F fold).eval F m).2

theorem eval_vthread {fold : Nat} (cs : List VCall) (m : Mem) : (vthreadP F fold cs).eval F m = ((), cs.foldl (fun m c => c.alone F fold m) m) := by
  induction cs generalizing m with
  | nil => rfl
  | cons c cs ih => unfold vthreadP; rw [eval_bind]; exact ih _

theorem VCall.ok (hF : F = f64 ∨ F = f32) {fold : Nat} (hf : 2 ≤ fold) (hm : fold ≤ F.maxFold) {W R : Int → Prop} {s : Nat → Prop} (hWR : ∀ a, W a → R a) {c : VCall}
    (hw : ∀ a, c.Writes fold a → W a) (hr : ∀ a, c.Reads fold a → R a) : Ok F W R s (c.prog F fold) := by
  have hwr : ∀ a, c.Writes fold a → R a := fun a h => hWR a (hw a h)
  cases c with
  | base c => exact TCall.ok hF hf hm hWR hw hr
  | sum T l n X incX => exact Ok.rloop hF hf hm T .sum hwr hw incX incX n n X X 0 (fun i hi => ⟨hr _ ⟨i, hi, rfl⟩, fun h => nomatch h⟩)
  | asum T l n X incX => exact Ok.rloop hF hf hm T .asum hwr hw incX incX n n X X 0 (fun i hi => ⟨hr _ ⟨i, hi, rfl⟩, fun h => nomatch h⟩)
  | dot T l n X incX Y incY => exact Ok.rloop hF hf hm T .dot hwr hw incX incY n n X Y 0 (fun i hi => ⟨hr _ (Or.inl ⟨i, hi, rfl⟩), fun _ => hr _ (Or.inr ⟨i, hi, rfl⟩)⟩)
  | zsum T l n X incX => exact Ok.zloop hF hf hm T .sum zsumOp _ hwr hw incX incX n n X X 0 (fun i hi => ⟨⟨hr _ ⟨i, hi, Or.inl rfl⟩, hr _ ⟨i, hi, Or.inr rfl⟩⟩, fun h => nomatch h⟩)
  | zdotu T l n X incX Y incY => exact Ok.zloop hF hf hm T .dotu _ _ hwr hw incX incY n n X Y 0 (fun i hi =>
      ⟨⟨hr _ (Or.inl ⟨i, hi, Or.inl rfl⟩), hr _ (Or.inl ⟨i, hi, Or.inr rfl⟩)⟩, fun _ => ⟨hr _ (Or.inr ⟨i, hi, Or.inl rfl⟩), hr _ (Or.inr ⟨i, hi, Or.inr rfl⟩)⟩⟩)
  | zdotc T l n X incX Y incY => exact Ok.zloop hF hf hm T .dotc _ _ hwr hw incX incY n n X Y 0 (fun i hi =>
      ⟨⟨hr _ (Or.inl ⟨i, hi, Or.inl rfl⟩), hr _ (Or.inl ⟨i, hi, Or.inr rfl⟩)⟩, fun _ => ⟨hr _ (Or.inr ⟨i, hi, Or.inl rfl⟩), hr _ (Or.inr ⟨i, hi, Or.inr rfl⟩)⟩⟩)
  | zasum T tmp l n X incX =>
    exact Ok.bind (Ok.zmsetzero (fun a h => hw a (Or.inr h))) (fun _ => Ok.zasumLoop hF hf hm T (fun a h => hwr a (Or.inr h)) (fun a h => hw a (Or.inr h)) (fun a h => hwr a (Or.inl h)) (fun a h => hw a (Or.inl h)) incX n n X 0
      (fun i hi => ⟨⟨hr _ ⟨i, hi, Or.inl rfl⟩, hr _ ⟨i, hi, Or.inr rfl⟩⟩, fun h => nomatch h⟩))
  | ssq T l sc n X incX =>
    exact Ok.bind (Ok.rd (hwr _ (Or.inr rfl))) (fun v => Ok.bind (Ok.ssqLoop hF hf hm T (fun a h => hwr a (Or.inl h)) (fun a h => hw a (Or.inl h)) incX n n X 0 v
      (fun i hi => ⟨hr _ ⟨i, hi, rfl⟩, fun h => nomatch h⟩)) (fun _ => Ok.wr _ (hw _ (Or.inr rfl))))
  | zssq T tmp t0 t1 l sc n X incX =>
    exact Ok.bind (Ok.rd (hwr _ (Or.inr (Or.inr (Or.inr (Or.inr rfl)))))) (fun v => Ok.bind (Ok.bind (Ok.zmsetzero (fun a h => hw a (Or.inr (Or.inl h)))) (fun _ =>
      Ok.zssqLoop hF hf hm T (fun a h => hwr a (Or.inr (Or.inl h))) (fun a h => hw a (Or.inr (Or.inl h))) (fun i hi => hwr _ (Or.inr (Or.inl (zpacked_word hi)))) (fun a h => hwr a (Or.inl h)) (fun a h => hw a (Or.inl h))
        (fun a h => hwr a (Or.inr (Or.inr (Or.inl h)))) (fun a h => hw a (Or.inr (Or.inr (Or.inl h)))) (fun a h => hwr a (Or.inr (Or.inr (Or.inr (Or.inl h))))) (fun a h => hw a (Or.inr (Or.inr (Or.inr (Or.inl h)))))
        incX v n n X 0 zero (fun i hi => ⟨⟨hr _ ⟨i, hi, Or.inl rfl⟩, hr _ ⟨i, hi, Or.inr rfl⟩⟩, fun h => nomatch h⟩))) (fun _ => Ok.wr _ (hw _ (Or.inr (Or.inr (Or.inr (Or.inr rfl)))))))

theorem vthread_ok (hF : F = f64 ∨ F = f32) {fold : Nat} (hf : 2 ≤ fold) (hm : fold ≤ F.maxFold) {W R : Int → Prop} {s : Nat → Prop} (hWR : ∀ a, W a → R a) {cs : List VCall}
    (h : ∀ c ∈ cs, (∀ a, c.Writes fold a → W a) ∧ ∀ a, c.Reads fold a → R a) : Ok F W R s (vthreadP F fold cs) := by
  induction cs with
  | nil => exact Ok.ret ()
  | cons c cs ih => exact Ok.bind (VCall.ok hF hf hm hWR (h c (by simp)).1 (h c (by simp)).2) (fun _ => ih (fun c' hc => h c' (by simp [hc])))

/-- The words a thread may change. -/
def VWrites (fold : Nat) (cs : List VCall) (a : Int) : Prop := ∃ c ∈ cs, c.Writes fold a
/-- The words a thread uses. -/
def VUses (fold : Nat) (cs : List VCall) (a : Int) : Prop := ∃ c ∈ cs, c.Writes fold a ∨ c.Reads fold a

/-- **C73.** Any number of threads, each making its own sequence of calls of the vector routines and of the operations on binned values, no thread writing words another thread uses; the table of bins not filled yet. In every
interleaving of the individual memory accesses of all threads: a thread that is done has left in all words it uses exactly what its calls leave there alone, from the initial memory; each thread is done after a number of
own accesses that does not depend on the schedule; and words no thread writes are unchanged. Nothing is assumed about the numbers in the vectors, nor about what the accumulators contain. -/
theorem C73_threads (hF : F = f64 ∨ F = f32) {fold : Nat} (hf : 2 ≤ fold) (hm : fold ≤ F.maxFold) {ι : Type} [DecidableEq ι] (calls : ι → List VCall)
    (hd : ∀ t u, t ≠ u → ∀ a, VWrites fold (calls t) a → ¬ VUses fold (calls u) a) (m : Mem) (junk : Nat → Flt) :
    let start : System ι Unit := ⟨fun t => vthreadP F fold (calls t), ⟨m, false, junk⟩⟩
    (∀ sched : List ι, ∀ t, (start.run sched).prog t = .ret () → ∀ a, VUses fold (calls t) a → (start.run sched).shared.mem a = (calls t).foldl (fun m c => c.alone F fold m) m a) ∧
    (∀ t, ∃ n, ∀ sched : List ι, n ≤ sched.count t → (start.run sched).prog t = .ret ()) ∧
    (∀ sched : List ι, ∀ a, (∀ t, ¬ VWrites fold (calls t) a) → (start.run sched).shared.mem a = m a) := by
  intro start
  have hWR : ∀ t a, VWrites fold (calls t) a → VUses fold (calls t) a := fun t a ⟨c, hc, h⟩ => ⟨c, hc, Or.inl h⟩
  have hp : ∀ t, Within F (VWrites fold (calls t)) (VUses fold (calls t)) (vthreadP F fold (calls t)) := fun t =>
    (vthread_ok hF hf hm (hWR t) (fun c hc => ⟨fun a h => ⟨c, hc, h⟩, fun a h => ⟨c, hc, Or.inr h⟩⟩)).within
  have h := fun sched => interleave (F := F) hWR hd hp m junk sched
  refine ⟨fun sched t hv a ha => ?_, fun t => ⟨_, fun sched hn => ((h sched).2.1 t hn).elim (fun v hv => hv)⟩, fun sched => (h sched).2.2⟩
  rw [((h sched).1 t () hv).2 a ha, eval_vthread]

/-- **C73.** The same on a machine with store buffers: a thread that is done and whose writes have reached memory has left what its calls leave alone; each thread is done, and its writes have reached memory, after numbers of own
accesses and flushes that do not depend on the schedule. -/
theorem C73_tso (hF : F = f64 ∨ F = f32) {fold : Nat} (hf : 2 ≤ fold) (hm : fold ≤ F.maxFold) {ι : Type} [DecidableEq ι] (calls : ι → List VCall)
    (hd : ∀ t u, t ≠ u → ∀ a, VWrites fold (calls t) a → ¬ VUses fold (calls u) a) (m : Mem) (junk : Nat → Flt) :
    let start := tsoStart (fun t => vthreadP F fold (calls t)) m junk
    (∀ sched t, (start.run sched).prog t = .ret () → (start.run sched).queue t = [] →
      ∀ a, VUses fold (calls t) a → (start.run sched).shared.mem a = (calls t).foldl (fun m c => c.alone F fold m) m a) ∧
    (∀ t, ∃ n, ∀ s1 s2 : List (TsoEvent ι), n ≤ s1.count (.access t) →
      (start.run s1).prog t = .ret () ∧ (n ≤ s2.count (.flush t) → (start.run (s1 ++ s2)).prog t = .ret () ∧ (start.run (s1 ++ s2)).queue t = [])) ∧
    (∀ sched a, (∀ t, ¬ VWrites fold (calls t) a) → (start.run sched).shared.mem a = m a) := by
  intro start
  have hWR : ∀ t a, VWrites fold (calls t) a → VUses fold (calls t) a := fun t a ⟨c, hc, h⟩ => ⟨c, hc, Or.inl h⟩
  have hp : ∀ t, Within F (VWrites fold (calls t)) (VUses fold (calls t)) (vthreadP F fold (calls t)) := fun t =>
    (vthread_ok hF hf hm (hWR t) (fun c hc => ⟨fun a h => ⟨c, hc, h⟩, fun a h => ⟨c, hc, Or.inr h⟩⟩)).within
  obtain ⟨h1, h2, h3, h4⟩ := interleaveTso (F := F) hWR hd hp m junk
  refine ⟨fun sched t hv hq a ha => ?_, fun t => ⟨_, fun s1 s2 hn => ⟨(h2 t s1 hn).elim (fun v hv => hv), fun hk => ⟨?_, h3 t s1 s2 hn hk⟩⟩⟩, h4⟩
  · exact ((h1 sched t () hv).2 hq a ha).trans (by rw [eval_vthread])
  · obtain ⟨v, hv⟩ := h2 t s1 hn
    have := (TsoSystem.run_done s2 hv).1
    unfold TsoSystem.run
    rw [List.foldl_append]
    exact this

/-! ## The parallel dot product -/

/-- `reproBLAS_rdsum`, `rdasum`, `rddot` up to the conversion, on the part of the vectors a thread has been given. -/
def partCalls (op : DepOp) (T : Tune) (l : Loc) (n : Nat) (X incX Y incY : Int) : List VCall :=
  [.base (.setzero l), match op with | .dot => .dot T l n X incX Y incY | .asum => .asum T l n X incX | _ => .sum T l n X incX]

theorem rvec_alone [F.OK] {T : Tune} (hT : T.OK F) {op : DepOp} (hop : op = .sum ∨ op = .asum ∨ op = .dot) {fold : Nat} (hf : 2 ≤ fold) {l : Loc} (hs : Sep fold l) {n : Nat} (X incX Z incZ : Int)
    (hr : RReads op X Z incX incZ n (fun a => ¬ l.In fold a)) (m : Mem) (hfin : ∀ x ∈ rvals F op m X Z incX incZ n, F.Finite x) (hcap : n ≤ F.capacity) :
    view fold l ((F.rvecP T op fold l n X incX Z incZ).eval F (dmsetzeroM fold l m)).2 = F.sumSeq fold (rvals F op m X Z incX incZ n) (dmsetzero fold) := by
  have h0 := dmsetzeroM_refines hs m
  unfold rvecP
  rw [eval_rloop hT hop (expand := false) (by omega) (fun h => nomatch h) l incX incZ (fun _ _ _ => zero) (fun _ _ _ => zero) n n X Z 0 _]
  dsimp only
  rw [(rloopM_spec hT hop (expand := false) (by omega) (fun h => nomatch h) hs incX incZ _ _ n n X Z 0 _ hr).1, h0.1,
    rvals_congr hop (m' := dmsetzeroM fold l m) (m := m) (fun i hi => ⟨h0.2 _ (hr i hi).1, fun hp => h0.2 _ ((hr i hi).2 hp)⟩)]
  have := vecSum_eq hT hf (h := .zero) trivial (vs := rvals F op m X Z incX incZ n) (fun _ => trivial) hfin (by rw [rvals_length]; exact hcap)
  unfold vecSum at this
  rw [rvals_length] at this
  exact this

theorem part_alone [F.OK] {T : Tune} (hT : T.OK F) {op : DepOp} (hop : op = .sum ∨ op = .asum ∨ op = .dot) {fold : Nat} (hf : 2 ≤ fold) {l : Loc} (hs : Sep fold l) {n : Nat} (X incX Y incY : Int)
    (hr : RReads op X Y incX incY n (fun a => ¬ l.In fold a)) (m : Mem) (hfin : ∀ x ∈ rvals F op m X Y incX incY n, F.Finite x) (hcap : n ≤ F.capacity) :
    view fold l ((partCalls op T l n X incX Y incY).foldl (fun m c => c.alone F fold m) m) = F.sumSeq fold (rvals F op m X Y incX incY n) (dmsetzero fold) := by
  have h0 : VCall.alone F fold (.base (.setzero l)) m = dmsetzeroM fold l m := by
    unfold VCall.alone
    exact congrArg Prod.snd (eval_setzero fold l m)
  unfold partCalls
  rw [List.foldl_cons, List.foldl_cons, List.foldl_nil, h0]
  rcases hop with rfl | rfl | rfl
  · have e : rvals F .sum m X Y incX incY n = rvals F .sum m X X incX incX n := rfl
    rw [e] at *
    exact rvec_alone hT (Or.inl rfl) hf hs X incX X incX (fun i hi => ⟨(hr i hi).1, fun h => nomatch h⟩) m hfin hcap
  · have e : rvals F .asum m X Y incX incY n = rvals F .asum m X X incX incX n := rfl
    rw [e] at *
    exact rvec_alone hT (Or.inr (Or.inl rfl)) hf hs X incX X incX (fun i hi => ⟨(hr i hi).1, fun h => nomatch h⟩) m hfin hcap
  · exact rvec_alone hT (Or.inr (Or.inr rfl)) hf hs X incX Y incY hr m hfin hcap

theorem part_uses {op : DepOp} (hop : op = .sum ∨ op = .asum ∨ op = .dot) {fold : Nat} {T : Tune} {l : Loc} {n : Nat} {X incX Y incY : Int} {a : Int} :
    (VWrites fold (partCalls op T l n X incX Y incY) a ↔ l.In fold a) ∧
    (VUses fold (partCalls op T l n X incX Y incY) a → l.In fold a ∨ RVec X incX n a ∨ op.prod = true ∧ RVec Y incY n a) := by
  constructor
  · constructor
    · rintro ⟨c, hc, h⟩
      rcases List.mem_cons.1 hc with rfl | hc
      · exact h
      · rw [List.mem_singleton] at hc
        subst hc
        rcases hop with rfl | rfl | rfl <;> exact h
    · exact fun h => ⟨_, List.mem_cons_self, h⟩
  · rintro ⟨c, hc, h⟩
    rcases List.mem_cons.1 hc with rfl | hc
    · exact Or.inl (h.elim id False.elim)
    · rw [List.mem_singleton] at hc
      subst hc
      rcases hop with rfl | rfl | rfl
      · exact h.imp id Or.inl
      · exact h.imp id Or.inl
      · exact h.imp id (fun h => h.imp id (fun h => ⟨rfl, h⟩))

theorem part_total [F.OK] (hF : F = f64 ∨ F = f32) {fold : Nat} (hf : 2 ≤ fold) (hm : fold ≤ F.maxFold) {op : DepOp} (hop : op = .sum ∨ op = .asum ∨ op = .dot) {ι : Type} [DecidableEq ι] (T : ι → Tune) (hT : ∀ t, (T t).OK F)
    (l : ι → Loc) (n : ι → Nat) (X incX Y incY : ι → Int) (hs : ∀ t, Sep fold (l t)) (ha : ∀ t u, t ≠ u → Apart fold (l t) (l u))
    (hX : ∀ t u, RReads op (X u) (Y u) (incX u) (incY u) (n u) (fun a => ¬ (l t).In fold a)) (m : Mem) (junk : Nat → Flt)
    {D : Loc} (hD : Sep fold D) (hDl : ∀ t, Apart fold (l t) D) (out : Int) (ts : List ι) {xs : List Flt}
    (hxs : (ts.flatMap (fun t => rvals F op m (X t) (Y t) (incX t) (incY t) (n t))).Perm xs) (hfin : ∀ x ∈ xs, F.Finite x) (hcap : xs.length ≤ F.capacity) :
    (∀ sched : List ι, let σ := (System.mk (fun t => vthreadP F fold (partCalls op (T t) (l t) (n t) (X t) (incX t) (Y t) (incY t))) ⟨m, false, junk⟩).run sched
      (∀ t ∈ ts, σ.prog t = .ret ()) → (collectCalls l ts D out).foldl (fun m c => c.alone F fold m) σ.shared.mem out = convert F fold (F.specSum fold xs)) ∧
    (∀ sched : List (TsoEvent ι), let σ := (tsoStart (fun t => vthreadP F fold (partCalls op (T t) (l t) (n t) (X t) (incX t) (Y t) (incY t))) m junk).run sched
      (∀ t ∈ ts, σ.prog t = .ret () ∧ σ.queue t = []) → (collectCalls l ts D out).foldl (fun m c => c.alone F fold m) σ.shared.mem out = convert F fold (F.specSum fold xs)) := by
  have hd : ∀ t u, t ≠ u → ∀ a, VWrites fold (partCalls op (T t) (l t) (n t) (X t) (incX t) (Y t) (incY t)) a → ¬ VUses fold (partCalls op (T u) (l u) (n u) (X u) (incX u) (Y u) (incY u)) a := by
    intro t u htu a hw hu
    rw [(part_uses hop).1] at hw
    rcases (part_uses hop).2 hu with hu | ⟨i, hi, rfl⟩ | ⟨hp, i, hi, rfl⟩
    · exact ha t u htu a hw hu
    · exact (hX t u i hi).1 hw
    · exact (hX t u i hi).2 hp hw
  have hv : ∀ t ∈ ts, view fold (l t) ((partCalls op (T t) (l t) (n t) (X t) (incX t) (Y t) (incY t)).foldl (fun m c => c.alone F fold m) m)
      = F.sumSeq fold (rvals F op m (X t) (Y t) (incX t) (incY t) (n t)) (dmsetzero fold) := fun t ht => by
    have hmem : ∀ x ∈ rvals F op m (X t) (Y t) (incX t) (incY t) (n t), x ∈ xs := fun x hx => hxs.mem_iff.1 (List.mem_flatMap.2 ⟨t, ht, hx⟩)
    refine part_alone (hT t) hop hf (hs t) _ _ _ _ (hX t t) m (fun x hx => hfin x (hmem x hx)) ?_
    refine le_trans ?_ hcap
    rw [← hxs.length_eq]
    obtain ⟨as, bs, rfl⟩ := List.append_of_mem ht
    rw [List.flatMap_append, List.flatMap_cons, List.length_append, List.length_append, rvals_length]
    omega
  have hin : ∀ t a, (l t).In fold a → VUses fold (partCalls op (T t) (l t) (n t) (X t) (incX t) (Y t) (incY t)) a := fun t a h => ⟨_, List.mem_cons_self, Or.inl h⟩
  constructor
  · intro sched σ hdone
    have hth := (C73_threads hF hf hm _ hd m junk).1 sched
    refine collect_total hf l _ hD hDl out ts hxs hfin hcap σ.shared.mem (fun t ht => ?_)
    rw [view_congr (fun a h => hth t (hdone t ht) a (hin t a h)), hv t ht]
  · intro sched σ hdone
    have hth := (C73_tso hF hf hm _ hd m junk).1 sched
    refine collect_total hf l _ hD hDl out ts hxs hfin hcap σ.shared.mem (fun t ht => ?_)
    rw [view_congr (fun a h => hth t (hdone t ht).1 (hdone t ht).2 a (hin t a h)), hv t ht]

section
variable [F.OK] (hF : F = f64 ∨ F = f32) {fold : Nat} (hf : 2 ≤ fold) (hm : fold ≤ F.maxFold) {ι : Type} [DecidableEq ι] (T : ι → Tune) (hT : ∀ t, (T t).OK F)
  (l : ι → Loc) (n : ι → Nat) (X incX Y incY : ι → Int) (hs : ∀ t, Sep fold (l t)) (ha : ∀ t u, t ≠ u → Apart fold (l t) (l u))
  (hX : ∀ t u (i : Nat), i < n u → ¬ (l t).In fold (X u + i * incX u)) (m : Mem) (junk : Nat → Flt)
  {D : Loc} (hD : Sep fold D) (hDl : ∀ t, Apart fold (l t) D) (out : Int) (ts : List ι) {xs : List Flt} (hfin : ∀ x ∈ xs, F.Finite x) (hcap : xs.length ≤ F.capacity)
include hF hf hm hT hs ha hX hD hDl hfin hcap

/-- **C73.** The parallel dot product: threads run `binnedBLAS_dmddot`, each on its own accumulator and its own part of two shared vectors, possibly with different tunings; when all are done (and, with store buffers, their writes have
reached memory), the main thread collects the accumulators in any order and converts. The word it writes depends only on the multiset of the products: not on the number of threads, the partition, the strides, the blocking, the
schedule or the order of collection. -/
theorem C73_parallel_dot (hY : ∀ t u (i : Nat), i < n u → ¬ (l t).In fold (Y u + i * incY u))
    (hxs : (ts.flatMap (fun t => (List.range (n t)).map (fun i : Nat => F.mul (m (X t + i * incX t)) (m (Y t + i * incY t))))).Perm xs) :
    (∀ sched : List ι, let σ := (System.mk (fun t => vthreadP F fold [.base (.setzero (l t)), .dot (T t) (l t) (n t) (X t) (incX t) (Y t) (incY t)]) ⟨m, false, junk⟩).run sched
      (∀ t ∈ ts, σ.prog t = .ret ()) → (collectCalls l ts D out).foldl (fun m c => c.alone F fold m) σ.shared.mem out = convert F fold (F.specSum fold xs)) ∧
    (∀ sched : List (TsoEvent ι), let σ := (tsoStart (fun t => vthreadP F fold [.base (.setzero (l t)), .dot (T t) (l t) (n t) (X t) (incX t) (Y t) (incY t)]) m junk).run sched
      (∀ t ∈ ts, σ.prog t = .ret () ∧ σ.queue t = []) → (collectCalls l ts D out).foldl (fun m c => c.alone F fold m) σ.shared.mem out = convert F fold (F.specSum fold xs)) :=
  part_total hF hf hm (op := .dot) (Or.inr (Or.inr rfl)) T hT l n X incX Y incY hs ha (fun t u i hi => ⟨hX t u i hi, fun _ => hY t u i hi⟩) m junk hD hDl out ts hxs hfin hcap

/-- **C73.** The parallel sum by `binnedBLAS_dmdsum`. -/
theorem C73_parallel_sum (hxs : (ts.flatMap (fun t => (List.range (n t)).map (fun i : Nat => m (X t + i * incX t)))).Perm xs) :
    (∀ sched : List ι, let σ := (System.mk (fun t => vthreadP F fold [.base (.setzero (l t)), .sum (T t) (l t) (n t) (X t) (incX t)]) ⟨m, false, junk⟩).run sched
      (∀ t ∈ ts, σ.prog t = .ret ()) → (collectCalls l ts D out).foldl (fun m c => c.alone F fold m) σ.shared.mem out = convert F fold (F.specSum fold xs)) ∧
    (∀ sched : List (TsoEvent ι), let σ := (tsoStart (fun t => vthreadP F fold [.base (.setzero (l t)), .sum (T t) (l t) (n t) (X t) (incX t)]) m junk).run sched
      (∀ t ∈ ts, σ.prog t = .ret () ∧ σ.queue t = []) → (collectCalls l ts D out).foldl (fun m c => c.alone F fold m) σ.shared.mem out = convert F fold (F.specSum fold xs)) :=
  part_total hF hf hm (op := .sum) (Or.inl rfl) T hT l n X incX X incX hs ha (fun t u i hi => ⟨hX t u i hi, fun h => nomatch h⟩) m junk hD hDl out ts hxs hfin hcap

/-- **C73.** The parallel sum of absolute values by `binnedBLAS_dmdasum`. -/
theorem C73_parallel_asum (hxs : (ts.flatMap (fun t => (List.range (n t)).map (fun i : Nat => fabs (m (X t + i * incX t))))).Perm xs) :
    (∀ sched : List ι, let σ := (System.mk (fun t => vthreadP F fold [.base (.setzero (l t)), .asum (T t) (l t) (n t) (X t) (incX t)]) ⟨m, false, junk⟩).run sched
      (∀ t ∈ ts, σ.prog t = .ret ()) → (collectCalls l ts D out).foldl (fun m c => c.alone F fold m) σ.shared.mem out = convert F fold (F.specSum fold xs)) ∧
    (∀ sched : List (TsoEvent ι), let σ := (tsoStart (fun t => vthreadP F fold [.base (.setzero (l t)), .asum (T t) (l t) (n t) (X t) (incX t)]) m junk).run sched
      (∀ t ∈ ts, σ.prog t = .ret () ∧ σ.queue t = []) → (collectCalls l ts D out).foldl (fun m c => c.alone F fold m) σ.shared.mem out = convert F fold (F.specSum fold xs)) :=
  part_total hF hf hm (op := .asum) (Or.inr (Or.inl rfl)) T hT l n X incX X incX hs ha (fun t u i hi => ⟨hX t u i hi, fun h => nomatch h⟩) m junk hD hDl out ts hxs hfin hcap

end

/-! ## The hypothesis is needed -/

/-- Two threads use the same accumulator. -/
def sharedStart : System Bool Unit := ⟨fun t => vthreadP f32 2 [.sum ⟨2, 1, 2, 1, 1, false⟩ (packed 2 0) 1 (if t then 10 else 20) 1],
  ⟨(fun a => if a = 10 then f32.ofInt 3 else if a = 20 then f32.ofInt 5 else zero : Mem), false, fun _ => zero⟩⟩

/-- **C73.** Without disjointness the claim is false: two threads calling `binnedBLAS_smssum` with the same accumulator can lose a summand. One summand is 3, the other 5; run one after the other the accumulator holds 8 whichever
thread goes first, run in turns it holds 5. -/
theorem C73_shared_violated :
    let one := sharedStart.run (List.replicate 200 false ++ List.replicate 200 true)
    let two := sharedStart.run (List.replicate 200 true ++ List.replicate 200 false)
    let turns := sharedStart.run ((List.replicate 200 [true, false]).flatten)
    (one.prog true = .ret () ∧ one.prog false = .ret ()) ∧ (two.prog true = .ret () ∧ two.prog false = .ret ()) ∧ (turns.prog true = .ret () ∧ turns.prog false = .ret ()) ∧
    convert f32 2 (view 2 (packed 2 0) one.shared.mem) = f32.ofInt 8 ∧ convert f32 2 (view 2 (packed 2 0) two.shared.mem) = f32.ofInt 8 ∧
    convert f32 2 (view 2 (packed 2 0) turns.shared.mem) = f32.ofInt 5 :=
  ⟨⟨Prog.of_result? (by decide +kernel), Prog.of_result? (by decide +kernel)⟩, ⟨Prog.of_result? (by decide +kernel), Prog.of_result? (by decide +kernel)⟩,
    ⟨Prog.of_result? (by decide +kernel), Prog.of_result? (by decide +kernel)⟩, by decide +kernel, by decide +kernel, by decide +kernel⟩

/-! Concrete cases. -/

/-- Two threads, accumulators at 0 and 10, vectors of 6 numbers at 100 and 200 with strides 1 and 2, three elements each: the hypotheses of the parallel dot product. -/
example : (∀ t : Fin 2, Sep 2 (packed 2 (10 * t.val))) ∧ (∀ t u : Fin 2, t ≠ u → Apart 2 (packed 2 (10 * t.val)) (packed 2 (10 * u.val))) ∧
    (∀ t u : Fin 2, ∀ i : Nat, i < 3 → ¬ (packed 2 (10 * t.val)).In 2 (100 + 3 * u.val + i * 1)) ∧ (∀ t u : Fin 2, ∀ i : Nat, i < 3 → ¬ (packed 2 (10 * t.val)).In 2 (200 + 6 * u.val + i * 2)) := by
  refine ⟨fun t => ⟨?_, ?_, ?_⟩, fun t u htu a => ?_, fun t u i hi => ?_, fun t u i hi => ?_⟩
  · intro i _ j _; simp only [packed, Loc.P]; omega
  · intro i _ j _; simp only [packed, Loc.C]; omega
  · intro i _ j _; simp only [packed, Loc.C, Loc.P]; omega
  · rintro ⟨i, hi, h⟩ ⟨j, hj, h'⟩
    have : t.val ≠ u.val := fun e => htu (Fin.ext e)
    simp only [packed, Loc.C, Loc.P] at h h'
    omega
  all_goals
    rintro ⟨j, hj, h⟩
    have := t.isLt
    simp only [packed, Loc.C, Loc.P] at h
    omega

/-- The words `100, 101, ...` contain `1, 2, ...`, all other words zero. -/
def countMem : Mem := fun a => if 100 ≤ a ∧ a < 120 then f32.ofInt (a - 99) else zero

/-- Two threads fill the table at the same time, step by step in turn, and compute `1*4 + 2*5 + 3*6` and the sum of the squares of 4, 5, 6 (with the scale of these numbers) in blocks of two. -/
example : let σ := (System.mk (fun t : Bool => vthreadP f32 2 (if t then [.base (.setzero (packed 2 10)), .ssq ⟨2, 1, 2, 1, 1, false⟩ (packed 2 10) 20 3 103 1] else
        [.base (.setzero (packed 2 0)), .dot ⟨2, 1, 2, 1, 1, false⟩ (packed 2 0) 3 100 1 103 1, .base (.conv (packed 2 0) 30)])) ⟨countMem, false, fun _ => zero⟩).run ((List.replicate 300 [false, true]).flatten)
    (σ.prog false).result? = some () ∧ (σ.prog true).result? = some () ∧ σ.shared.mem 30 = f32.ofInt 32 ∧
    f32.mul (σ.shared.mem 20) (f32.mul (σ.shared.mem 20) (convert f32 2 (view 2 (packed 2 10) σ.shared.mem))) = f32.ofInt 77 := by decide +kernel

end Repro
