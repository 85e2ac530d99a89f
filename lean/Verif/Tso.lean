import Verif.ThreadsLemmas
/-!
# Threads on a machine with store buffers

The machines the vector code is written for (x86 with SSE or AVX) are not sequentially consistent: what a thread writes waits in a queue and reaches the memory shared with the others later, in the order in
which it was written (total store order). A thread that reads a word sees its own last write to it that is still in the queue, otherwise shared memory. Programs are those of
`Verif/Threads.lean`; the code of `src/binned` contains no fences and no atomic operations.
-/

namespace Repro
open Fmt Prog
variable {F : Fmt} {α : Type}

/-- A write on its way to shared memory. -/
inductive Write where
  | word (a : Int) (v : Flt)
  /-- `bins_initialized = 1` -/
  | flag
  /-- `bins[i] = v` -/
  | bin (i : Nat) (v : Flt)
deriving DecidableEq

/-- The write reaches memory. -/
def Write.apply : Write → Shared → Shared
  | word a v, s => { s with mem := s.mem.set a v }
  | flag, s => { s with flag := true }
  | bin i v, s => { s with tab := fun j => if j = i then v else s.tab j }

/-- Memory after the writes of a queue. -/
def drain (ws : List Write) (s : Shared) : Shared := ws.foldl (fun s w => w.apply s) s

/-- The next access of a program that sees `s`: the rest of the program and what it writes. -/
def Prog.issue : Prog α → Shared → Prog α × List Write
  | ret v, _ => (ret v, [])
  | load a k, s => (k (s.mem a), [])
  | store a v k, _ => (k, [.word a v])
  | getFlag k, s => (k s.flag, [])
  | setFlag k, _ => (k, [.flag])
  | getBin i k, s => (k (s.tab i), [])
  | setBin i v k, _ => (k, [.bin i v])

/-- Threads, their queues (oldest write first) and what they share. -/
structure TsoSystem (ι α : Type) where
  prog : ι → Prog α
  queue : ι → List Write
  shared : Shared

/-- What thread `t` sees. -/
def TsoSystem.sees {ι : Type} (σ : TsoSystem ι α) (t : ι) : Shared := drain (σ.queue t) σ.shared

/-- What can happen next. -/
inductive TsoEvent (ι : Type) where
  /-- thread `t` performs its next access -/
  | access (t : ι)
  /-- the oldest write of `t` reaches memory -/
  | flush (t : ι)
deriving DecidableEq

/-- A step of the machine. -/
def TsoSystem.step {ι : Type} [DecidableEq ι] (σ : TsoSystem ι α) : TsoEvent ι → TsoSystem ι α
  | .access t =>
    let r := (σ.prog t).issue (σ.sees t)
    ⟨fun u => if u = t then r.1 else σ.prog u, fun u => if u = t then σ.queue u ++ r.2 else σ.queue u, σ.shared⟩
  | .flush t =>
    match σ.queue t with
    | [] => σ
    | w :: ws => ⟨σ.prog, fun u => if u = t then ws else σ.queue u, w.apply σ.shared⟩

/-- A sequence of steps. -/
def TsoSystem.run {ι : Type} [DecidableEq ι] (σ : TsoSystem ι α) (sched : List (TsoEvent ι)) : TsoSystem ι α := sched.foldl TsoSystem.step σ

/-- A machine that lets writes to different places reach memory in any order (as ARM or POWER): the write number `k` in the queue of `t` reaches memory. -/
def TsoSystem.flushAt {ι : Type} [DecidableEq ι] (σ : TsoSystem ι α) (t : ι) (k : Nat) : TsoSystem ι α :=
  match (σ.queue t)[k]? with
  | none => σ
  | some w => ⟨σ.prog, fun u => if u = t then (σ.queue u).eraseIdx k else σ.queue u, w.apply σ.shared⟩

/-! ## The queue -/

theorem drain_append (ws vs : List Write) (s : Shared) : drain (ws ++ vs) s = drain vs (drain ws s) := List.foldl_append ..

/-- Writes that are allowed when they reach memory `s`. -/
def Write.Ok (F : Fmt) (W : Int → Prop) (s : Shared) : Write → Prop
  | word a _ => W a
  | flag => ∀ i, i < F.binsSize → s.tab i = F.bins i
  | bin i v => v = F.bins i

/-- A queue of writes that are allowed when they reach memory, one after the other. -/
def QueueOk (F : Fmt) (W : Int → Prop) : List Write → Shared → Prop
  | [], _ => True
  | w :: ws, s => w.Ok F W s ∧ QueueOk F W ws (w.apply s)

theorem QueueOk.append {W : Int → Prop} {ws vs : List Write} {s : Shared} (h : QueueOk F W ws s) (hv : QueueOk F W vs (drain ws s)) : QueueOk F W (ws ++ vs) s := by
  induction ws generalizing s with
  | nil => exact hv
  | cons w ws ih => exact ⟨h.1, ih h.2 hv⟩

/-- Every right entry of the table stays right. -/
theorem Write.Ok.tab {W : Int → Prop} {s s' : Shared} {w : Write} (h : w.Ok F W s) (hs : ∀ i, s.tab i = F.bins i → s'.tab i = F.bins i) {i : Nat} (hi : (w.apply s).tab i = F.bins i) :
    (w.apply s').tab i = F.bins i := by
  cases w with
  | word a v => exact hs i hi
  | flag => exact hs i hi
  | bin j v =>
    simp only [Write.apply] at hi ⊢
    by_cases e : i = j
    · rw [if_pos e, e]; exact h
    · rw [if_neg e] at hi ⊢; exact hs i hi

theorem Write.Ok.keep {W : Int → Prop} {s : Shared} {w : Write} (h : w.Ok F W s) {i : Nat} (hi : s.tab i = F.bins i) : (w.apply s).tab i = F.bins i := by
  cases w with
  | word a v => exact hi
  | flag => exact hi
  | bin j v =>
    simp only [Write.apply]
    by_cases e : i = j
    · rw [if_pos e, e]; exact h
    · rw [if_neg e]; exact hi

theorem QueueOk.mono {W : Int → Prop} {ws : List Write} {s s' : Shared} (h : QueueOk F W ws s) (hs : ∀ i, s.tab i = F.bins i → s'.tab i = F.bins i) :
    QueueOk F W ws s' ∧ ∀ i, (drain ws s).tab i = F.bins i → (drain ws s').tab i = F.bins i := by
  induction ws generalizing s s' with
  | nil => exact ⟨trivial, hs⟩
  | cons w ws ih =>
    obtain ⟨h1, h2⟩ := ih h.2 (s' := w.apply s') (fun i hi => h.1.tab hs hi)
    refine ⟨⟨?_, h1⟩, h2⟩
    cases w with
    | word a v => exact h.1
    | flag => exact fun i hi => hs i (h.1 i hi)
    | bin j v => exact h.1

/-- A word seen depends on that word of memory only. -/
theorem drain_mem (ws : List Write) {s s' : Shared} {a : Int} (h : s.mem a = s'.mem a) : (drain ws s).mem a = (drain ws s').mem a := by
  induction ws generalizing s s' with
  | nil => exact h
  | cons w ws ih =>
    refine ih ?_
    cases w with
    | word b v => simp only [Write.apply, Mem.set]; split <;> [rfl; exact h]
    | flag => exact h
    | bin i v => exact h

/-- A thread that sees the flag sees a table that has been filled. -/
theorem QueueOk.flag {W : Int → Prop} {ws : List Write} {s : Shared} (h : QueueOk F W ws s) (hs : s.flag = true → ∀ i, i < F.binsSize → s.tab i = F.bins i) (hf : (drain ws s).flag = true) :
    ∀ i, i < F.binsSize → (drain ws s).tab i = F.bins i := by
  induction ws generalizing s with
  | nil => exact hs hf
  | cons w ws ih =>
    refine ih h.2 (fun hf i hi => ?_) hf
    refine h.1.keep ?_
    cases w with
    | word a v => exact hs hf i hi
    | flag => exact h.1 i hi
    | bin j v => exact hs hf i hi

/-! ## The invariant -/

structure TsoInv (F : Fmt) {ι : Type} (W R : ι → Int → Prop) (p0 : ι → Prog α) (m0 : Mem) (n : ι → Nat) (σ : TsoSystem ι α) : Prop where
  flag : σ.shared.flag = true → ∀ i, i < F.binsSize → σ.shared.tab i = F.bins i
  queue : ∀ t, QueueOk F (W t) (σ.queue t) σ.shared
  safe : ∀ t, Safe F (W t) (R t) (fun i => (σ.sees t).tab i = F.bins i) (σ.prog t) (fun _ _ => True)
  same : ∀ t, ((σ.prog t).eval F (σ.sees t).mem).1 = ((p0 t).eval F m0).1 ∧ ∀ a, R t a → ((σ.prog t).eval F (σ.sees t).mem).2 a = ((p0 t).eval F m0).2 a
  cost : ∀ t, (∃ v, σ.prog t = ret v) ∨ (σ.prog t).cost F (σ.sees t).mem + n t ≤ (p0 t).cost F m0
  size : ∀ t, (σ.prog t).cost F (σ.sees t).mem + (σ.queue t).length ≤ (p0 t).cost F m0
  frame : ∀ a, (∀ t, ¬ W t a) → σ.shared.mem a = m0 a

theorem TsoInv.flush {ι : Type} [DecidableEq ι] {W R : ι → Int → Prop} (hWR : ∀ t a, W t a → R t a) (hd : ∀ t u, t ≠ u → ∀ a, W t a → ¬ R u a) {p0 : ι → Prog α} {m0 : Mem} {n : ι → Nat}
    {σ : TsoSystem ι α} (h : TsoInv F W R p0 m0 n σ) (t : ι) : TsoInv F W R p0 m0 n (σ.step (.flush t)) := by
  obtain ⟨h1, h2, h3, h4, h5, h6, h7⟩ := h
  simp only [TsoSystem.step]
  cases hq : σ.queue t with
  | nil => exact ⟨h1, h2, h3, h4, h5, h6, h7⟩
  | cons w ws =>
    have hQ := h2 t
    rw [hq] at hQ
    have et : drain ws (w.apply σ.shared) = σ.sees t := by unfold TsoSystem.sees; rw [hq]; rfl
    have htab : ∀ i, σ.shared.tab i = F.bins i → (w.apply σ.shared).tab i = F.bins i := fun i hi => hQ.1.keep hi
    have hmem : ∀ u, u ≠ t → ∀ b, R u b → (w.apply σ.shared).mem b = σ.shared.mem b := fun u hu b hb => by
      cases w with
      | word a v => exact Mem.set_ne _ _ (fun e => hd t u (Ne.symm hu) a hQ.1 (e ▸ hb))
      | flag => rfl
      | bin i v => rfl
    have hc := fun u (hu : u ≠ t) => (h3 u).congr (hWR u) (m := (drain (σ.queue u) (w.apply σ.shared)).mem) (m' := (σ.sees u).mem) (fun b hb => drain_mem _ (hmem u hu b hb))
    refine ⟨?_, fun u => ?_, fun u => ?_, fun u => ?_, fun u => ?_, fun u => ?_, fun a ha => ?_⟩
    · intro hf i hi
      refine htab i ?_
      cases w with
      | word a v => exact h1 hf i hi
      | flag => exact hQ.1 i hi
      | bin j v => exact h1 hf i hi
    · by_cases hu : u = t
      · subst hu; simp only [if_true]; exact hQ.2
      · simp only [if_neg hu]; exact ((h2 u).mono htab).1
    · unfold TsoSystem.sees
      by_cases hu : u = t
      · subst hu; simp only [if_true]; rw [et]; exact h3 u
      · simp only [if_neg hu]; exact (h3 u).mono (((h2 u).mono htab).2) (fun _ h => h) (fun _ h => h) (fun _ _ _ _ _ => trivial)
    · unfold TsoSystem.sees
      by_cases hu : u = t
      · subst hu; simp only [if_true]; rw [et]; exact h4 u
      · simp only [if_neg hu]; exact ⟨(hc u hu).1.trans (h4 u).1, fun b hb => ((hc u hu).2.1 b hb).trans ((h4 u).2 b hb)⟩
    · unfold TsoSystem.sees
      by_cases hu : u = t
      · subst hu; simp only [if_true]; rw [et]; exact h5 u
      · simp only [if_neg hu]; rw [(hc u hu).2.2]; exact h5 u
    · unfold TsoSystem.sees
      by_cases hu : u = t
      · subst hu; simp only [if_true]; rw [et]; have := h6 u; rw [hq, List.length_cons] at this; omega
      · simp only [if_neg hu]; rw [(hc u hu).2.2]; exact h6 u
    · refine Eq.trans ?_ (h7 a ha)
      cases w with
      | word b v => exact Mem.set_ne (a := b) (b := a) _ _ (fun e => ha t (by rw [e]; exact hQ.1))
      | flag => rfl
      | bin i v => rfl

/-- What an access does to the thread that makes it. -/
theorem Prog.issue_ok {W R : Int → Prop} {p : Prog α} {s : Shared} (h : Safe F W R (fun i => s.tab i = F.bins i) p (fun _ _ => True)) (hf : s.flag = true → ∀ i, i < F.binsSize → s.tab i = F.bins i) :
    QueueOk F W (p.issue s).2 s ∧ Safe F W R (fun i => (drain (p.issue s).2 s).tab i = F.bins i) (p.issue s).1 (fun _ _ => True) ∧
    (p.issue s).1.eval F (drain (p.issue s).2 s).mem = p.eval F s.mem ∧
    ((∃ v, p = ret v ∧ p.issue s = (ret v, [])) ∨ (p.issue s).1.cost F (drain (p.issue s).2 s).mem + 1 ≤ p.cost F s.mem) ∧ (p.issue s).2.length ≤ 1 := by
  cases p with
  | ret v => exact ⟨trivial, trivial, rfl, Or.inl ⟨v, rfl, rfl⟩, Nat.zero_le _⟩
  | load a k => exact ⟨trivial, h.2 _, rfl, Or.inr (Nat.le_refl _), Nat.zero_le _⟩
  | store a v k => exact ⟨⟨h.1, trivial⟩, h.2, rfl, Or.inr (Nat.le_refl _), Nat.le_refl _⟩
  | getFlag k =>
    cases e : s.flag
    · simp only [Prog.issue, e, Prog.eval, Prog.cost]
      exact ⟨trivial, h.1, h.2.2 _, Or.inr (by show _ + 1 ≤ _; have := Nat.le_max_right ((k true).cost F s.mem) ((k false).cost F s.mem); exact Nat.succ_le_succ this), Nat.zero_le _⟩
    · simp only [Prog.issue, e, Prog.eval, Prog.cost]
      refine ⟨trivial, h.2.1.mono (fun i hi => hi.elim id (fun hi => hf e i hi)) (fun _ h => h) (fun _ h => h) (fun _ _ _ _ _ => trivial), rfl, Or.inr ?_, Nat.zero_le _⟩
      have := Nat.le_max_left ((k true).cost F s.mem) ((k false).cost F s.mem); exact Nat.succ_le_succ this
  | setFlag k => exact ⟨⟨h.1, trivial⟩, h.2, rfl, Or.inr (Nat.le_refl _), Nat.le_refl _⟩
  | getBin i k =>
    have e : s.tab i = F.bins i := h.1
    simp only [Prog.issue, e, Prog.eval, Prog.cost]
    exact ⟨trivial, h.2, rfl, Or.inr (Nat.le_refl _), Nat.zero_le _⟩
  | setBin i v k =>
    refine ⟨⟨h.1, trivial⟩, h.2.mono (fun j hj => ?_) (fun _ h => h) (fun _ h => h) (fun _ _ _ _ _ => trivial), rfl, Or.inr (Nat.le_refl _), Nat.le_refl _⟩
    show (if j = i then v else s.tab j) = _
    by_cases e : j = i
    · rw [if_pos e, e]; exact h.1
    · rw [if_neg e]; exact hj.resolve_right e

theorem TsoInv.access {ι : Type} [DecidableEq ι] {W R : ι → Int → Prop} {p0 : ι → Prog α} {m0 : Mem} {n : ι → Nat}
    {σ : TsoSystem ι α} (h : TsoInv F W R p0 m0 n σ) (t : ι) : TsoInv F W R p0 m0 (fun u => if u = t then n u + 1 else n u) (σ.step (.access t)) := by
  obtain ⟨h1, h2, h3, h4, h5, h6, h7⟩ := h
  obtain ⟨g1, g2, g3, g4, g5⟩ := Prog.issue_ok (h3 t) (fun hf => (h2 t).flag h1 hf)
  have e : ∀ u, (σ.step (.access t)).sees u = if u = t then drain ((σ.prog t).issue (σ.sees t)).2 (σ.sees t) else σ.sees u := fun u => by
    simp only [TsoSystem.step, TsoSystem.sees]
    by_cases hu : u = t
    · subst hu; simp only [if_true]; rw [drain_append]
    · simp only [if_neg hu]
  refine ⟨h1, fun u => ?_, fun u => ?_, fun u => ?_, fun u => ?_, fun u => ?_, h7⟩
  · simp only [TsoSystem.step]
    by_cases hu : u = t
    · subst hu; simp only [if_true]; exact (h2 u).append g1
    · simp only [if_neg hu]; exact h2 u
  all_goals
    rw [e u]
    simp only [TsoSystem.step]
    by_cases hu : u = t
    on_goal 2 => simp only [if_neg hu]; first | exact h3 u | exact h4 u | exact h5 u | exact h6 u
    subst hu; simp only [if_true]
  · exact g2
  · rw [g3]; exact h4 u
  · rcases g4 with ⟨v, hv, hi⟩ | hc
    · exact Or.inl ⟨v, by rw [hi]⟩
    · right
      rcases h5 u with ⟨v, hv⟩ | hc'
      · rw [hv] at hc; simp only [Prog.cost] at hc; omega
      · omega
  · rw [List.length_append]
    have := h6 u
    rcases g4 with ⟨v, hv, hi⟩ | hc
    · rw [hi]; rw [hv] at this; exact this
    · omega

theorem TsoInv.run {ι : Type} [DecidableEq ι] {W R : ι → Int → Prop} (hWR : ∀ t a, W t a → R t a) (hd : ∀ t u, t ≠ u → ∀ a, W t a → ¬ R u a) {p0 : ι → Prog α} {m0 : Mem} (sched : List (TsoEvent ι)) {n : ι → Nat}
    {σ : TsoSystem ι α} (h : TsoInv F W R p0 m0 n σ) : TsoInv F W R p0 m0 (fun u => n u + sched.count (.access u)) (σ.run sched) := by
  induction sched generalizing n σ with
  | nil => exact h
  | cons ev es ih =>
    cases ev with
    | access t =>
      refine Eq.mp (congrArg (fun f => TsoInv F W R p0 m0 f _) (funext fun u => ?_)) (ih (h.access t))
      rw [List.count_cons]
      by_cases hu : u = t
      · subst hu; simp only [beq_self_eq_true, if_true]; omega
      · have : ¬ ((TsoEvent.access t : TsoEvent ι) == .access u) = true := fun e => hu (TsoEvent.access.inj (eq_of_beq e)).symm
        simp only [if_neg hu, if_neg this]; omega
    | flush t =>
      refine Eq.mp (congrArg (fun f => TsoInv F W R p0 m0 f _) (funext fun u => ?_)) (ih (h.flush hWR hd t))
      rw [List.count_cons]
      have : ¬ ((TsoEvent.flush t : TsoEvent ι) == .access u) = true := fun e => nomatch (eq_of_beq e)
      simp only [if_neg this]; omega

/-- A thread that is done stays so, and its queue empties. -/
theorem TsoSystem.run_done {ι : Type} [DecidableEq ι] (sched : List (TsoEvent ι)) {σ : TsoSystem ι α} {t : ι} {v : α} (h : σ.prog t = ret v) :
    (σ.run sched).prog t = ret v ∧ ((σ.run sched).queue t).length = (σ.queue t).length - sched.count (.flush t) := by
  induction sched generalizing σ with
  | nil => exact ⟨h, rfl⟩
  | cons ev es ih =>
    have hs : (σ.step ev).prog t = ret v ∧ ((σ.step ev).queue t).length = (σ.queue t).length - if ev = .flush t then 1 else 0 := by
      cases ev with
      | access u =>
        rw [if_neg (fun e => nomatch e)]
        simp only [TsoSystem.step]
        by_cases hu : t = u
        · subst hu; simp only [if_true, h, Prog.issue, List.append_nil]; exact ⟨trivial, rfl⟩
        · simp only [if_neg hu]; exact ⟨h, rfl⟩
      | flush u =>
        simp only [TsoSystem.step]
        by_cases hu : t = u
        · subst hu
          rw [if_pos rfl]
          cases hq : σ.queue t with
          | nil => exact ⟨h, by simp [hq]⟩
          | cons w ws => simp only [if_true, List.length_cons]; exact ⟨h, rfl⟩
        · rw [if_neg (fun e => hu (TsoEvent.flush.inj e).symm)]
          cases hq : σ.queue u with
          | nil => exact ⟨h, rfl⟩
          | cons w ws => simp only [if_neg hu]; exact ⟨h, rfl⟩
    obtain ⟨h1, h2⟩ := ih hs.1
    refine ⟨h1, ?_⟩
    show ((TsoSystem.run (σ.step ev) es).queue t).length = _
    rw [h2, hs.2, List.count_cons]
    by_cases e : ev = .flush t
    · rw [if_pos e, if_pos (by rw [e]; exact beq_self_eq_true _)]; omega
    · rw [if_neg e, if_neg (fun he => e (eq_of_beq he))]; omega

/-- On a machine with store buffers, a program does what it does alone. -/
theorem interleaveTso {ι : Type} [DecidableEq ι] {W R : ι → Int → Prop} (hWR : ∀ t a, W t a → R t a) (hd : ∀ t u, t ≠ u → ∀ a, W t a → ¬ R u a) {p : ι → Prog α}
    (hp : ∀ t, Within F (W t) (R t) (p t)) (m : Mem) (junk : Nat → Flt) :
    let start : TsoSystem ι α := ⟨p, fun _ => [], ⟨m, false, junk⟩⟩
    (∀ sched t v, (start.run sched).prog t = ret v → v = ((p t).eval F m).1 ∧ ((start.run sched).queue t = [] → ∀ a, R t a → (start.run sched).shared.mem a = ((p t).eval F m).2 a)) ∧
    (∀ t sched, (p t).cost F m ≤ sched.count (.access t) → ∃ v, (start.run sched).prog t = ret v) ∧
    (∀ t s1 s2, (p t).cost F m ≤ s1.count (.access t) → (p t).cost F m ≤ s2.count (.flush t) → (start.run (s1 ++ s2)).queue t = []) ∧
    (∀ sched a, (∀ t, ¬ W t a) → (start.run sched).shared.mem a = m a) := by
  intro start
  have h0 : TsoInv F W R p m (fun _ => 0) start := by
    refine ⟨fun h => ?_, fun _ => trivial, fun t => (hp t).mono (fun _ h => h.elim) (fun _ h => h) (fun _ h => h) (fun _ _ _ _ _ => trivial), fun t => ⟨rfl, fun _ _ => rfl⟩,
      fun t => Or.inr (Nat.le_refl _), fun t => Nat.le_refl _, fun _ _ => rfl⟩
    simp only [start, Bool.false_eq_true] at h
  have h := fun sched => h0.run hWR hd sched
  have hdone : ∀ t sched, (p t).cost F m ≤ sched.count (.access t) → ∃ v, (start.run sched).prog t = ret v := fun t sched hn => by
    rcases (h sched).cost t with hr | hc
    · exact hr
    · cases hq : (start.run sched).prog t with
      | ret v => exact ⟨v, rfl⟩
      | _ => rw [hq] at hc; simp only [Prog.cost] at hc; omega
  refine ⟨fun sched t v hv => ?_, hdone, fun t s1 s2 h1 h2 => ?_, fun sched => (h sched).frame⟩
  · have hs := (h sched).same t
    rw [hv] at hs
    refine ⟨hs.1, fun hq a ha => ?_⟩
    have := hs.2 a ha
    unfold TsoSystem.sees at this
    rw [hq] at this
    exact this
  · obtain ⟨v, hv⟩ := hdone t s1 h1
    have hd := TsoSystem.run_done s2 hv
    have hsz := (h s1).size t
    unfold TsoSystem.run
    rw [List.foldl_append]
    refine List.eq_nil_of_length_eq_zero ?_
    refine hd.2.trans ?_
    omega

end Repro
