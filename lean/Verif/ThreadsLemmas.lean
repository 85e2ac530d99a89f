import Verif.Threads
import Verif.MemLemmas
import Verif.PropsMem
import Mathlib.Data.List.Count
/-!
# Programs run alone, and programs interleaved with others
-/

namespace Repro
open Fmt Prog
variable {F : Fmt} {α β : Type}

/-- The result and the memory when the program runs alone and the table has been filled. -/
def Prog.eval (F : Fmt) : Prog α → Mem → α × Mem
  | ret v, m => (v, m)
  | load a k, m => (k (m a)).eval F m
  | store a v k, m => k.eval F (m.set a v)
  | getFlag k, m => (k true).eval F m
  | setFlag k, m => k.eval F m
  | getBin i k, m => (k (F.bins i)).eval F m
  | setBin _ _ k, m => k.eval F m

/-- A bound for the number of accesses. -/
def Prog.cost (F : Fmt) : Prog α → Mem → Nat
  | ret _, _ => 0
  | load a k, m => (k (m a)).cost F m + 1
  | store a v k, m => k.cost F (m.set a v) + 1
  | getFlag k, m => max ((k true).cost F m) ((k false).cost F m) + 1
  | setFlag k, m => k.cost F m + 1
  | getBin i k, m => (k (F.bins i)).cost F m + 1
  | setBin _ _ k, m => k.cost F m + 1

theorem Prog.pure_eq (v : α) : (pure v : Prog α) = ret v := rfl
theorem Prog.bind_eq (p : Prog α) (f : α → Prog β) : (p >>= f) = p.bind f := rfl

theorem Prog.eval_bind (p : Prog α) (f : α → Prog β) (m : Mem) : (p.bind f).eval F m = (f (p.eval F m).1).eval F (p.eval F m).2 := by
  induction p generalizing m with
  | ret v => rfl
  | load a k ih => exact ih _ _
  | store a v k ih => exact ih _
  | getFlag k ih => exact ih _ _
  | setFlag k ih => exact ih _
  | getBin i k ih => exact ih _ _
  | setBin i v k ih => exact ih _

/-- `Safe W R s p Q`: knowing that the entries `s` of the table are right, the program reads words in `R` and writes words in `W`, uses only entries of the table that have been
filled, writes only right entries, says that the table has been filled only if this is so, and does the same whether or not it finds the table filled; at the end, `Q` holds of the
entries known to be right and the result. -/
def Safe (F : Fmt) (W R : Int → Prop) : (Nat → Prop) → Prog α → ((Nat → Prop) → α → Prop) → Prop
  | s, ret v, Q => Q s v
  | s, load a k, Q => R a ∧ ∀ v, Safe F W R s (k v) Q
  | s, store a _ k, Q => W a ∧ Safe F W R s k Q
  | s, getFlag k, Q => Safe F W R s (k false) Q ∧ Safe F W R (fun i => s i ∨ i < F.binsSize) (k true) Q ∧ ∀ m, (k false).eval F m = (k true).eval F m
  | s, setFlag k, Q => (∀ i, i < F.binsSize → s i) ∧ Safe F W R s k Q
  | s, getBin i k, Q => s i ∧ Safe F W R s (k (F.bins i)) Q
  | s, setBin i v k, Q => v = F.bins i ∧ Safe F W R (fun j => s j ∨ j = i) k Q

theorem Safe.bind {W R : Int → Prop} {p : Prog α} {f : α → Prog β} {s : Nat → Prop} {Q : (Nat → Prop) → β → Prop}
    (h : Safe F W R s p (fun s v => Safe F W R s (f v) Q)) : Safe F W R s (p.bind f) Q := by
  induction p generalizing s with
  | ret v => exact h
  | load a k ih => exact ⟨h.1, fun v => ih v (h.2 v)⟩
  | store a v k ih => exact ⟨h.1, ih h.2⟩
  | getFlag k ih =>
    refine ⟨ih _ h.1, ih _ h.2.1, fun m => ?_⟩
    rw [eval_bind, eval_bind, h.2.2]
  | setFlag k ih => exact ⟨h.1, ih h.2⟩
  | getBin i k ih => exact ⟨h.1, ih _ h.2⟩
  | setBin i v k ih => exact ⟨h.1, ih h.2⟩

/-- More entries known, weaker conclusion, larger areas. -/
theorem Safe.mono {W R W' R' : Int → Prop} {p : Prog α} {s s' : Nat → Prop} {Q Q' : (Nat → Prop) → α → Prop} (h : Safe F W R s p Q) (hs : ∀ i, s i → s' i)
    (hW : ∀ a, W a → W' a) (hR : ∀ a, R a → R' a) (hQ : ∀ s s' v, (∀ i, s i → s' i) → Q s v → Q' s' v) : Safe F W' R' s' p Q' := by
  induction p generalizing s s' with
  | ret v => exact hQ _ _ _ hs h
  | load a k ih => exact ⟨hR _ h.1, fun v => ih v (h.2 v) hs⟩
  | store a v k ih => exact ⟨hW _ h.1, ih h.2 hs⟩
  | getFlag k ih => exact ⟨ih _ h.1 hs, ih _ h.2.1 (fun i hi => hi.imp (hs i) id), h.2.2⟩
  | setFlag k ih => exact ⟨fun i hi => hs i (h.1 i hi), ih h.2 hs⟩
  | getBin i k ih => exact ⟨hs _ h.1, ih _ h.2 hs⟩
  | setBin i v k ih => exact ⟨h.1, ih h.2 (fun i hi => hi.imp (hs i) id)⟩

/-- The areas used, whatever the result and the table. -/
abbrev Within (F : Fmt) (W R : Int → Prop) (p : Prog α) : Prop := Safe F W R (fun _ => False) p (fun _ _ => True)

/-- A program only depends on what it may read. -/
theorem Safe.congr {W R : Int → Prop} (hWR : ∀ a, W a → R a) {p : Prog α} {s : Nat → Prop} {Q : (Nat → Prop) → α → Prop} (h : Safe F W R s p Q) {m m' : Mem} (hm : ∀ a, R a → m a = m' a) :
    (p.eval F m).1 = (p.eval F m').1 ∧ (∀ a, R a → (p.eval F m).2 a = (p.eval F m').2 a) ∧ p.cost F m = p.cost F m' := by
  induction p generalizing s m m' with
  | ret v => exact ⟨rfl, hm, rfl⟩
  | load a k ih =>
    unfold Prog.eval Prog.cost
    rw [hm a h.1]
    obtain ⟨h1, h2, h3⟩ := ih (m' a) (h.2 _) hm
    exact ⟨h1, h2, by rw [h3]⟩
  | store a v k ih =>
    obtain ⟨h1, h2, h3⟩ := ih h.2 (m := m.set a v) (m' := m'.set a v) (fun b hb => by unfold Mem.set; split <;> [rfl; exact hm b hb])
    exact ⟨h1, h2, congrArg (· + 1) h3⟩
  | getFlag k ih =>
    obtain ⟨h1, h2, h3⟩ := ih true h.2.1 hm
    refine ⟨h1, h2, ?_⟩
    unfold Prog.cost
    rw [h3, (ih false h.1 hm).2.2]
  | setFlag k ih => obtain ⟨h1, h2, h3⟩ := ih h.2 hm; exact ⟨h1, h2, congrArg (· + 1) h3⟩
  | getBin i k ih => obtain ⟨h1, h2, h3⟩ := ih _ h.2 hm; exact ⟨h1, h2, congrArg (· + 1) h3⟩
  | setBin i v k ih => obtain ⟨h1, h2, h3⟩ := ih h.2 hm; exact ⟨h1, h2, congrArg (· + 1) h3⟩

/-- A program only writes where it may. -/
theorem Safe.frame {W R : Int → Prop} {p : Prog α} {s : Nat → Prop} {Q : (Nat → Prop) → α → Prop} (h : Safe F W R s p Q) (m : Mem) {a : Int} (ha : ¬ W a) : (p.eval F m).2 a = m a := by
  induction p generalizing s m with
  | ret v => rfl
  | load b k ih => exact ih _ (h.2 _) m
  | store b v k ih => exact (ih h.2 _).trans (Mem.set_ne _ _ (fun e => ha (e ▸ h.1)))
  | getFlag k ih => exact ih _ h.2.1 m
  | setFlag k ih => exact ih h.2 m
  | getBin i k ih => exact ih _ h.2 m
  | setBin i v k ih => exact ih h.2 m

/-- The state of the system after any number of steps. -/
structure Inv (F : Fmt) {ι : Type} (W R : ι → Int → Prop) (p0 : ι → Prog α) (m0 : Mem) (n : ι → Nat) (σ : System ι α) : Prop where
  flag : σ.shared.flag = true → ∀ i, i < F.binsSize → σ.shared.tab i = F.bins i
  safe : ∀ t, Safe F (W t) (R t) (fun i => σ.shared.tab i = F.bins i) (σ.prog t) (fun _ _ => True)
  same : ∀ t, ((σ.prog t).eval F σ.shared.mem).1 = ((p0 t).eval F m0).1 ∧ ∀ a, R t a → ((σ.prog t).eval F σ.shared.mem).2 a = ((p0 t).eval F m0).2 a
  cost : ∀ t, (∃ v, σ.prog t = ret v) ∨ (σ.prog t).cost F σ.shared.mem + n t ≤ (p0 t).cost F m0
  frame : ∀ a, (∀ t, ¬ W t a) → σ.shared.mem a = m0 a

theorem Inv.step {ι : Type} [DecidableEq ι] {W R : ι → Int → Prop} (hWR : ∀ t a, W t a → R t a) (hd : ∀ t u, t ≠ u → ∀ a, W t a → ¬ R u a) {p0 : ι → Prog α} {m0 : Mem} {n : ι → Nat}
    {σ : System ι α} (h : Inv F W R p0 m0 n σ) (t : ι) : Inv F W R p0 m0 (fun u => if u = t then n u + 1 else n u) (σ.step t) := by
  obtain ⟨h1, h2, h3, h4, h5⟩ := h
  have st := h2 t
  have sm := h3 t
  have sc := h4 t
  cases hp : σ.prog t with
  | ret v =>
    have e : σ.step t = σ := by
      unfold System.step
      rw [hp]
      cases σ with | mk pr sh =>
      simp only [Prog.step]
      congr 1
      funext u
      by_cases hu : u = t
      · rw [if_pos hu, hu]; exact hp.symm
      · rw [if_neg hu]
    rw [e]
    refine ⟨h1, h2, h3, fun u => ?_, h5⟩
    by_cases hu : u = t
    · exact Or.inl ⟨v, hu ▸ hp⟩
    · simp only [if_neg hu]; exact h4 u
  | load a k =>
    rw [hp] at st sm sc
    have sc := sc.resolve_left (fun ⟨v, hv⟩ => nomatch hv)
    unfold System.step
    rw [hp]
    refine ⟨h1, fun u => ?_, fun u => ?_, fun u => ?_, h5⟩ <;> rcases eq_or_ne u t with rfl | hu <;> first | simp only [Prog.step, if_neg hu] | simp only [Prog.step, ↓reduceIte]
    · exact st.2 _
    · exact h2 u
    · exact sm
    · exact h3 u
    · right; simp only [Prog.cost] at sc; omega
    · exact h4 u
  | store a v k =>
    rw [hp] at st sm sc
    have sc := sc.resolve_left (fun ⟨v, hv⟩ => nomatch hv)
    unfold System.step
    rw [hp]
    have hag : ∀ u, u ≠ t → ∀ b, R u b → (σ.shared.mem.set a v) b = σ.shared.mem b := fun u hu b hb =>
      Mem.set_ne _ _ (fun e => hd t u (Ne.symm hu) a st.1 (e ▸ hb))
    refine ⟨h1, fun u => ?_, fun u => ?_, fun u => ?_, ?_⟩
    on_goal 4 => exact fun b hb => (Mem.set_ne (a := a) (b := b) _ _ (fun e => hb t (by rw [e]; exact st.1))).trans (h5 b hb)
    all_goals
      rcases eq_or_ne u t with rfl | hu <;> first | simp only [Prog.step, if_neg hu] | simp only [Prog.step, ↓reduceIte]
    · exact st.2
    · exact h2 u
    · exact sm
    · have hc := (h2 u).congr (hWR u) (hag u hu)
      refine ⟨hc.1.trans (h3 u).1, fun b hb => (hc.2.1 b hb).trans ((h3 u).2 b hb)⟩
    · right; simp only [Prog.cost] at sc; omega
    · have hc := (h2 u).congr (hWR u) (hag u hu)
      rw [hc.2.2]; exact h4 u
  | getFlag k =>
    rw [hp] at st sm sc
    have sc := sc.resolve_left (fun ⟨v, hv⟩ => nomatch hv)
    simp only [Prog.cost] at sc
    unfold System.step
    rw [hp]
    refine ⟨h1, fun u => ?_, fun u => ?_, fun u => ?_, h5⟩ <;> rcases eq_or_ne u t with rfl | hu <;> first | simp only [Prog.step, if_neg hu] | simp only [Prog.step, ↓reduceIte]
    · cases hf : σ.shared.flag
      · exact st.1
      · exact st.2.1.mono (fun i hi => hi.elim id (fun hi => h1 hf i hi)) (fun _ h => h) (fun _ h => h) (fun _ _ _ _ _ => trivial)
    · exact h2 u
    · cases hf : σ.shared.flag
      · rw [st.2.2]; exact sm
      · exact sm
    · exact h3 u
    · right
      cases hf : σ.shared.flag <;> omega
    · exact h4 u
  | setFlag k =>
    rw [hp] at st sm sc
    have sc := sc.resolve_left (fun ⟨v, hv⟩ => nomatch hv)
    unfold System.step
    rw [hp]
    refine ⟨fun _ => st.1, fun u => ?_, fun u => ?_, fun u => ?_, h5⟩ <;> rcases eq_or_ne u t with rfl | hu <;> first | simp only [Prog.step, if_neg hu] | simp only [Prog.step, ↓reduceIte]
    · exact st.2
    · exact h2 u
    · exact sm
    · exact h3 u
    · right; simp only [Prog.cost] at sc; omega
    · exact h4 u
  | getBin i k =>
    rw [hp] at st sm sc
    have sc := sc.resolve_left (fun ⟨v, hv⟩ => nomatch hv)
    unfold System.step
    rw [hp]
    refine ⟨h1, fun u => ?_, fun u => ?_, fun u => ?_, h5⟩ <;> rcases eq_or_ne u t with rfl | hu <;> first | simp only [Prog.step, if_neg hu] | simp only [Prog.step, ↓reduceIte]
    · rw [st.1]; exact st.2
    · exact h2 u
    · rw [st.1]; exact sm
    · exact h3 u
    · right; simp only [Prog.cost] at sc; rw [st.1]; omega
    · exact h4 u
  | setBin i v k =>
    rw [hp] at st sm sc
    have sc := sc.resolve_left (fun ⟨v, hv⟩ => nomatch hv)
    unfold System.step
    rw [hp]
    have hm : ∀ j, σ.shared.tab j = F.bins j → (if j = i then v else σ.shared.tab j) = F.bins j := fun j hj => by
      by_cases e : j = i
      · rw [if_pos e, e]; exact st.1
      · rw [if_neg e]; exact hj
    refine ⟨fun hf j hj => hm j (h1 hf j hj), fun u => ?_, fun u => ?_, fun u => ?_, h5⟩ <;> rcases eq_or_ne u t with rfl | hu <;> first | simp only [Prog.step, if_neg hu] | simp only [Prog.step, ↓reduceIte]
    · refine st.2.mono (fun j hj => hj.elim (hm j) (fun e => by rw [if_pos e, e]; exact st.1)) (fun _ h => h) (fun _ h => h) (fun _ _ _ _ _ => trivial)
    · exact (h2 u).mono hm (fun _ h => h) (fun _ h => h) (fun _ _ _ _ _ => trivial)
    · exact sm
    · exact h3 u
    · right; simp only [Prog.cost] at sc; omega
    · exact h4 u

theorem Inv.run {ι : Type} [DecidableEq ι] {W R : ι → Int → Prop} (hWR : ∀ t a, W t a → R t a) (hd : ∀ t u, t ≠ u → ∀ a, W t a → ¬ R u a) {p0 : ι → Prog α} {m0 : Mem} (sched : List ι) {n : ι → Nat}
    {σ : System ι α} (h : Inv F W R p0 m0 n σ) : Inv F W R p0 m0 (fun u => n u + sched.count u) (σ.run sched) := by
  induction sched generalizing n σ with
  | nil => exact h
  | cons t ts ih =>
    have := ih (h.step hWR hd t)
    refine Eq.mp (congrArg (fun f => Inv F W R p0 m0 f _) (funext fun u => ?_)) this
    rw [List.count_cons]
    by_cases hu : u = t
    · subst hu; simp only [beq_self_eq_true, if_true]; omega
    · have : ¬ (t == u) = true := fun e => hu (eq_of_beq e).symm
      simp only [if_neg hu, if_neg this]; omega

/-- Interleaved with any other threads, at the level of single accesses, starting from a table that has not been filled, a program does what it does alone. -/
theorem interleave {ι : Type} [DecidableEq ι] {W R : ι → Int → Prop} (hWR : ∀ t a, W t a → R t a) (hd : ∀ t u, t ≠ u → ∀ a, W t a → ¬ R u a) {p : ι → Prog α}
    (hp : ∀ t, Within F (W t) (R t) (p t)) (m : Mem) (junk : Nat → Flt) (sched : List ι) :
    let σ := (System.mk p ⟨m, false, junk⟩).run sched
    (∀ t v, σ.prog t = ret v → v = ((p t).eval F m).1 ∧ ∀ a, R t a → σ.shared.mem a = ((p t).eval F m).2 a) ∧
    (∀ t, (p t).cost F m ≤ sched.count t → ∃ v, σ.prog t = ret v) ∧ (∀ a, (∀ t, ¬ W t a) → σ.shared.mem a = m a) := by
  intro σ
  have h0 : Inv F W R p m (fun _ => 0) (System.mk p ⟨m, false, junk⟩) := by
    refine ⟨fun h => ?_, fun t => (hp t).mono (fun _ h => h.elim) (fun _ h => h) (fun _ h => h) (fun _ _ _ _ _ => trivial), fun t => ⟨rfl, fun _ _ => rfl⟩,
    fun t => Or.inr (Nat.le_refl _), fun _ _ => rfl⟩
    simp only [Bool.false_eq_true] at h
  have h := h0.run hWR hd sched
  refine ⟨fun t v hv => ?_, fun t ht => ?_, h.frame⟩
  · have hs := h.same t
    have e : σ.prog t = ret v := hv
    rw [e] at hs
    exact hs
  · rcases h.cost t with hr | hc
    · exact hr
    · have e : ((System.mk p ⟨m, false, junk⟩).run sched).prog t = σ.prog t := rfl
      rw [e] at hc
      cases hq : σ.prog t with
      | ret v => exact ⟨v, rfl⟩
      | _ => rw [hq] at hc; simp only [Prog.cost] at hc; omega

end Repro
