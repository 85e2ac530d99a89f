import Verif.Tso
import Verif.PropsThreads
/-!
# C69: threads on a machine with store buffers

C67 and C68 again, on the memory model of x86 processors (total store order), and the proof that a weaker machine breaks them.
-/

namespace Repro
open Fmt Prog
variable {F : Fmt}

/-- The threads at the start: nothing in the queues, the table not filled. -/
def tsoStart {ι α : Type} (p : ι → Prog α) (m : Mem) (junk : Nat → Flt) : TsoSystem ι α := ⟨p, fun _ => [], ⟨m, false, junk⟩⟩

/-- **C69.** First use of the table of bins by any number of threads on a machine with store buffers: every thread reads the value of the specification, and is done after a number of own accesses
that does not depend on the others or on the buffers. -/
theorem C69_first_use (hF : F = f64 ∨ F = f32) {ι : Type} [DecidableEq ι] (X i : ι → Nat) (hX : ∀ t, X t ≤ F.maxIndex) (hi : ∀ t, i t < F.maxFold) (m : Mem) (junk : Nat → Flt) :
    (∀ sched : List (TsoEvent ι), ∀ t v, ((tsoStart (fun t => lookupP F (X t) (i t)) m junk).run sched).prog t = .ret v → v = F.bins (X t + i t)) ∧
    (∀ t, ∃ n, ∀ sched : List (TsoEvent ι), n ≤ sched.count (.access t) → ∃ v, ((tsoStart (fun t => lookupP F (X t) (i t)) m junk).run sched).prog t = .ret v) := by
  have hp : ∀ t, Within F (fun _ => False) (fun _ => False) (lookupP F (X t) (i t)) := fun t =>
    (Ok.dmbins hF (Ok.bin (Or.inr (full_of (le_refl _) (hX t) (hi t))))).within
  have h := interleaveTso (F := F) (ι := ι) (W := fun _ _ => False) (R := fun _ _ => False) (fun _ _ h => h) (fun _ _ _ _ h => h.elim) hp m junk
  exact ⟨fun sched t v hv => (h.1 sched t v hv).1, fun t => ⟨_, fun sched hn => h.2.1 t sched hn⟩⟩

/-- **C69.** Any number of threads, each making its own sequence of calls, no thread writing words another thread uses, the table of bins not filled yet, on a machine with store buffers. In every execution: a thread that
is done and whose writes have reached memory has left in all words it uses exactly what its calls leave there when it runs alone; each thread is done after a number of own accesses, and its writes have
reached memory after a number of further flushes, that do not depend on the schedule; and words no thread writes are unchanged. -/
theorem C69_threads (hF : F = f64 ∨ F = f32) {fold : Nat} (hf : 2 ≤ fold) (hm : fold ≤ F.maxFold) {ι : Type} [DecidableEq ι] (calls : ι → List TCall)
    (hd : ∀ t u, t ≠ u → ∀ a, TWrites fold (calls t) a → ¬ TUses fold (calls u) a) (m : Mem) (junk : Nat → Flt) :
    let start := tsoStart (fun t => threadP F fold (calls t)) m junk
    (∀ sched t, (start.run sched).prog t = .ret () → (start.run sched).queue t = [] →
      ∀ a, TUses fold (calls t) a → (start.run sched).shared.mem a = (calls t).foldl (fun m c => c.alone F fold m) m a) ∧
    (∀ t, ∃ n, ∀ s1 s2 : List (TsoEvent ι), n ≤ s1.count (.access t) →
      (start.run s1).prog t = .ret () ∧ (n ≤ s2.count (.flush t) → (start.run (s1 ++ s2)).prog t = .ret () ∧ (start.run (s1 ++ s2)).queue t = [])) ∧
    (∀ sched a, (∀ t, ¬ TWrites fold (calls t) a) → (start.run sched).shared.mem a = m a) := by
  intro start
  have hWR : ∀ t a, TWrites fold (calls t) a → TUses fold (calls t) a := fun t a ⟨c, hc, h⟩ => ⟨c, hc, Or.inl h⟩
  have hp : ∀ t, Within F (TWrites fold (calls t)) (TUses fold (calls t)) (threadP F fold (calls t)) := fun t =>
    (thread_ok hF hf hm (hWR t) (fun c hc => ⟨fun a h => ⟨c, hc, h⟩, fun a h => ⟨c, hc, Or.inr h⟩⟩)).within
  obtain ⟨h1, h2, h3, h4⟩ := interleaveTso (F := F) hWR hd hp m junk
  refine ⟨fun sched t hv hq a ha => ?_, fun t => ⟨_, fun s1 s2 hn => ⟨(h2 t s1 hn).elim (fun v hv => hv), fun hk => ⟨?_, h3 t s1 s2 hn hk⟩⟩⟩, h4⟩
  · exact ((h1 sched t () hv).2 hq a ha).trans (by rw [eval_thread hf])
  · obtain ⟨v, hv⟩ := h2 t s1 hn
    have := (TsoSystem.run_done s2 hv).1
    unfold TsoSystem.run
    rw [List.foldl_append]
    exact this

/-- **C69.** The parallel sum of C68 on a machine with store buffers: once the summing threads are done and their writes have reached memory, collecting the accumulators in any order gives the bits that only depend on
the multiset of the summands. -/
theorem C69_parallel_total [F.OK] (hF : F = f64 ∨ F = f32) {fold : Nat} (hf : 2 ≤ fold) (hm : fold ≤ F.maxFold) {ι : Type} [DecidableEq ι] (l : ι → Loc) (X inc : ι → Int) (n : ι → Nat)
    (hs : ∀ t, Sep fold (l t)) (ha : ∀ t u, t ≠ u → Apart fold (l t) (l u)) (hX : ∀ t u (i : Nat), i < n u → ¬ (l t).In fold (X u + i * inc u)) (m : Mem) (junk : Nat → Flt)
    {D : Loc} (hD : Sep fold D) (hDl : ∀ t, Apart fold (l t) D) (out : Int) (ts : List ι) {xs : List Flt}
    (hxs : (ts.flatMap (fun t => (List.range (n t)).map (fun i : Nat => m (X t + i * inc t)))).Perm xs) (hfin : ∀ x ∈ xs, F.Finite x) (hcap : xs.length ≤ F.capacity) (sched : List (TsoEvent ι)) :
    let σ := (tsoStart (fun t => threadP F fold (sumCalls (l t) (X t) (inc t) (n t))) m junk).run sched
    (∀ t ∈ ts, σ.prog t = .ret () ∧ σ.queue t = []) →
    (collectCalls l ts D out).foldl (fun m c => c.alone F fold m) σ.shared.mem out = convert F fold (F.specSum fold xs) := by
  intro σ hdone
  have hth := (C69_threads hF hf hm (fun t => sumCalls (l t) (X t) (inc t) (n t)) (fun t u htu a hw hu => by
    rw [sumCalls_uses.1] at hw
    rw [sumCalls_uses.2] at hu
    rcases hu with hu | ⟨i, hi, rfl⟩
    · exact ha t u htu a hw hu
    · exact hX t u i hi hw) m junk).1 sched
  refine collect_total hf l _ hD hDl out ts hxs hfin hcap σ.shared.mem (fun t ht => ?_)
  rw [view_congr (fun a hin => hth t (hdone t ht).1 (hdone t ht).2 a (sumCalls_uses.2.2 (Or.inl hin))), sumCalls_alone hf (hs t) (fun i hi => hX t t i hi)]

/-! ## A weaker machine -/

/-- Thread `false` fills the table, with all its writes still in its queue. -/
def filled : TsoSystem Bool Flt := (tsoStart (fun _ => lookupP f32 0 0) (fun _ => zero) (fun _ => zero)).run (List.replicate 200 (.access false))

/-- The result of a program that is done. -/
def Prog.result? {α : Type} : Prog α → Option α
  | ret v => some v
  | _ => none

theorem Prog.of_result? {α : Type} {p : Prog α} {v : α} (h : p.result? = some v) : p = ret v := by
  cases p with
  | ret w => exact congrArg ret (Option.some.inj h)
  | _ => exact nomatch h

/-- **C69.** On a machine that lets writes to different places reach memory in any order, the same program fails: the write to `bins_initialized` overtakes the table, and the second thread reads an entry that has not
been written. -/
theorem C69_unordered_violated : ∃ k v, (filled.queue false)[k]? = some .flag ∧ (((filled.flushAt false k).step (.access true)).step (.access true)).prog true = .ret v ∧ v ≠ f32.bins 0 :=
  ⟨(filled.queue false).length - 1, zero, by decide +kernel, Prog.of_result? (by decide +kernel), by decide +kernel⟩

/-! Concrete cases. -/

/-- Two threads on the machine with store buffers, all writes of the first reaching memory last: both are done and have what they get alone. -/
example : let σ := (tsoStart (fun t : Bool => threadP f32 2 [.setzero (packed 2 (if t then 10 else 0)), .add (f32.ofInt (if t then 2 else 1)) (packed 2 (if t then 10 else 0))])
      (fun _ => zero) (fun _ => zero)).run ((List.replicate 110 [.access false, .access true, .flush true]).flatten ++ List.replicate 110 (.flush false))
    σ.queue false = [] ∧ σ.queue true = [] ∧
    view 2 (packed 2 0) σ.shared.mem = f32.dmdadd 2 (f32.ofInt 1) (dmsetzero 2) ∧ view 2 (packed 2 10) σ.shared.mem = f32.dmdadd 2 (f32.ofInt 2) (dmsetzero 2) := by decide +kernel

end Repro
