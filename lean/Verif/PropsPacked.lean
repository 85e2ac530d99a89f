import Verif.Packed
import Verif.PropsConv
/-!
# C59: programs of public calls on packed values

Specification: a state of separate abstract values (`PState`), on which a call acts by the list operations
(`Op.run`), and on top of it the protocol: which history of additions a value holds (`Track`).
-/

namespace Repro
open Fmt
variable {F : Fmt}

/-- The abstract values. -/
structure PState where
  real : Nat → Binned
  cplx : Nat → Binned × Binned

/-- Replace one value. -/
def put {α : Type} (s : Nat → α) (v : Nat) (b : α) : Nat → α := fun w => if w = v then b else s w

/-- What a call does to the abstract values. -/
def Call.run (F : Fmt) (n : Nat) (s : PState) : Call → PState
  | .real v o => { s with real := put s.real v (o.run F n (s.real v)) }
  | .realAdd u v => { s with real := put s.real v (F.dmdmadd n (s.real u) (s.real v)) }
  | .realSet u v => { s with real := put s.real v (s.real u) }
  | .cplx v o => { s with cplx := put s.cplx v (o.onRe.run F n (s.cplx v).1, o.onIm.run F n (s.cplx v).2) }
  | .cplxAdd u v => { s with cplx := put s.cplx v (F.dmdmadd n (s.cplx u).1 (s.cplx v).1, F.dmdmadd n (s.cplx u).2 (s.cplx v).2) }
  | .cplxSet u v => { s with cplx := put s.cplx v (s.cplx u) }
  | .cplxOfReal u v => { s with cplx := put s.cplx v (s.real u, dmsetzero n) }

/-- The values found in memory. -/
def Layout.state (n : Nat) (L : Layout) (m : Mem) : PState :=
  ⟨fun v => view n (packed n (L.real v)) m, fun v => cview n (zpacked n (L.cplx v)) m⟩

/-- The memory `m` holds the first `Nr` real and `Nc` complex values of the state `s`. -/
def Holds (n : Nat) (L : Layout) (Nr Nc : Nat) (s : PState) (m : Mem) : Prop :=
  (∀ v < Nr, view n (packed n (L.real v)) m = s.real v) ∧ (∀ v < Nc, cview n (zpacked n (L.cplx v)) m = s.cplx v)

/-- The words of the values. -/
def Layout.Uses (n : Nat) (L : Layout) (Nr Nc : Nat) (a : Int) : Prop :=
  (∃ v < Nr, L.real v ≤ a ∧ a < L.real v + dbnum n) ∨ (∃ v < Nc, L.cplx v ≤ a ∧ a < L.cplx v + zbnum n)

theorem view_packed (n : Nat) (X : Int) (m : Mem) :
    view n (packed n X) m = ⟨(List.range n).map (fun i : Nat => m (X + i)), (List.range n).map (fun i : Nat => m (X + n + i))⟩ := by
  refine view_eq (fun i _ => ⟨?_, ?_⟩) <;> simp [Loc.P, Loc.C, packed]

theorem dbsetzero_refines (n : Nat) (X : Int) (m : Mem) :
    view n (packed n X) (dbsetzero n X m) = dmsetzero n ∧ ∀ a, ¬ (packed n X).In n a → dbsetzero n X m a = m a := by
  have h : ∀ a, (packed n X).In n a → dbsetzero n X m a = zero := by
    intro a ha
    unfold dbsetzero memset0
    rw [if_pos (packed_in.1 ha)]
  refine ⟨?_, fun a ha => ?_⟩
  · rw [view_eq (f := fun _ => zero) (g := fun _ => zero) (fun i hi => ⟨h _ ((packed n X).inP hi), h _ ((packed n X).inC hi)⟩)]
    unfold dmsetzero
    rw [List.map_const', List.length_range]
  · unfold dbsetzero memset0
    rw [if_neg (fun h => ha (packed_in.2 h))]

theorem zbsetzero_refines (n : Nat) (X : Int) (m : Mem) :
    cview n (zpacked n X) (zbsetzero n X m) = (dmsetzero n, dmsetzero n) ∧ ∀ a, ¬ (zpacked n X).CIn n a → zbsetzero n X m a = m a := by
  have h : ∀ a, (zpacked n X).CIn n a → zbsetzero n X m a = zero := by
    intro a ha
    unfold zbsetzero memset0
    rw [if_pos (zpacked_in.1 ha)]
  have hz : dmsetzero n = ⟨(List.range n).map (fun _ => zero), (List.range n).map (fun _ => zero)⟩ := by
    unfold dmsetzero; rw [List.map_const', List.length_range]
  refine ⟨?_, fun a ha => ?_⟩
  · unfold cview
    rw [view_eq (l := (zpacked n X).re) (f := fun _ => zero) (g := fun _ => zero) (fun i hi => ⟨h _ (Or.inl (Loc.inP _ hi)), h _ (Or.inl (Loc.inC _ hi))⟩),
      view_eq (l := (zpacked n X).im) (f := fun _ => zero) (g := fun _ => zero) (fun i hi => ⟨h _ (Or.inr (Loc.inP _ hi)), h _ (Or.inr (Loc.inC _ hi))⟩), hz]
  · unfold zbsetzero memset0
    rw [if_neg (fun h => ha (zpacked_in.2 h))]

theorem dbdbset_refines (n : Nat) {X Y : Int} (m : Mem) :
    view n (packed n Y) (dbdbset n X Y m) = view n (packed n X) m ∧ ∀ a, ¬ (packed n Y).In n a → dbdbset n X Y m a = m a := by
  have h : ∀ a, (packed n Y).In n a → dbdbset n X Y m a = m (X + (a - Y)) := by
    intro a ha
    unfold dbdbset memcpyW
    rw [if_pos (packed_in.1 ha)]
  refine ⟨view_eq (fun i hi => ⟨?_, ?_⟩), fun a ha => ?_⟩
  · rw [h _ (Loc.inP _ hi)]; congr 1; simp [Loc.P, packed]
  · rw [h _ (Loc.inC _ hi)]; congr 1; simp [Loc.C, packed]; omega
  · unfold dbdbset memcpyW
    rw [if_neg (fun h => ha (packed_in.2 h))]

theorem zbzbset_refines (n : Nat) {X Y : Int} (m : Mem) :
    cview n (zpacked n Y) (zbzbset n X Y m) = cview n (zpacked n X) m ∧ ∀ a, ¬ (zpacked n Y).CIn n a → zbzbset n X Y m a = m a := by
  have h : ∀ a, (zpacked n Y).CIn n a → zbzbset n X Y m a = m (X + (a - Y)) := by
    intro a ha
    unfold zbzbset memcpyW
    rw [if_pos (zpacked_in.1 ha)]
  refine ⟨?_, fun a ha => ?_⟩
  · unfold cview
    congr 1
    · refine view_eq (fun i hi => ⟨?_, ?_⟩)
      · rw [h _ (Or.inl (Loc.inP _ hi))]; congr 1; simp [Loc.P, zpacked, Loc.re]
      · rw [h _ (Or.inl (Loc.inC _ hi))]; congr 1; simp [Loc.C, zpacked, Loc.re]; omega
    · refine view_eq (fun i hi => ⟨?_, ?_⟩)
      · rw [h _ (Or.inr (Loc.inP _ hi))]; congr 1; simp [Loc.P, zpacked, Loc.im]; omega
      · rw [h _ (Or.inr (Loc.inC _ hi))]; congr 1; simp [Loc.C, zpacked, Loc.im]; omega
  · unfold zbzbset memcpyW
    rw [if_neg (fun h => ha (zpacked_in.2 h))]

/-- Merging a complex value into itself. -/
theorem zmzmaddM_self {n : Nat} (hn : 1 ≤ n) {y : Loc} (hs : CSep n y) (m : Mem) :
    cview n y (F.zmzmaddM n y y m) = (F.dmdmadd n (view n y.re m) (view n y.re m), F.dmdmadd n (view n y.im m) (view n y.im m)) ∧
    ∀ a, ¬ y.CIn n a → F.zmzmaddM n y y m a = m a :=
  both_parts hs (f := fun b => F.dmdmadd n b b) (g := fun b => F.dmdmadd n b b) (fun m => dmdmaddM_self hn hs.re m) (fun m => dmdmaddM_self hn hs.im m) m

theorem cview_frame {n : Nat} {x : Loc} {m m' : Mem} (h : ∀ a, x.CIn n a → m' a = m a) : cview n x m' = cview n x m := by
  unfold cview
  rw [view_congr (m := m') (m' := m) (fun a ha => h a (Or.inl ha)), view_congr (m := m') (m' := m) (fun a ha => h a (Or.inr ha))]

/-- One call. -/
theorem call_step {n : Nat} (hn : 2 ≤ n) {L : Layout} {Nr Nc : Nat} (hL : L.OK n Nr Nc) (c : Call) (hc : c.ok Nr Nc) {s : PState} {m : Mem}
    (hm : Holds n L Nr Nc s m) : Holds n L Nr Nc (c.run F n s) (c.exec F n L m) ∧ ∀ a, ¬ L.Uses n Nr Nc a → c.exec F n L m a = m a := by
  have realKey : ∀ (v : Nat) (b : Binned) (m' : Mem), v < Nr → view n (packed n (L.real v)) m' = b →
      (∀ a, ¬ (packed n (L.real v)).In n a → m' a = m a) →
      Holds n L Nr Nc { s with real := put s.real v b } m' ∧ ∀ a, ¬ L.Uses n Nr Nc a → m' a = m a := by
    intro v b m' hv hb hf
    refine ⟨⟨fun w hw => ?_, fun w hw => ?_⟩, fun a ha => hf a (fun h => ha (Or.inl ⟨v, hv, packed_in.1 h⟩))⟩
    · show _ = put s.real v b w
      unfold put
      split
      · next e => rw [e]; exact hb
      · next e =>
        rw [← hm.1 w hw]
        refine view_congr (fun a ha => hf a (fun h => ?_))
        have h1 := packed_in.1 ha
        have h2 := packed_in.1 h
        rcases hL.rr w hw v hv e with h3 | h3 <;> omega
    · show _ = s.cplx w
      rw [← hm.2 w hw]
      refine cview_frame (fun a ha => hf a (fun h => ?_))
      have h1 := zpacked_in.1 ha
      have h2 := packed_in.1 h
      rcases hL.rc v hv w hw with h3 | h3 <;> omega
  have cplxKey : ∀ (v : Nat) (b : Binned × Binned) (m' : Mem), v < Nc → cview n (zpacked n (L.cplx v)) m' = b →
      (∀ a, ¬ (zpacked n (L.cplx v)).CIn n a → m' a = m a) →
      Holds n L Nr Nc { s with cplx := put s.cplx v b } m' ∧ ∀ a, ¬ L.Uses n Nr Nc a → m' a = m a := by
    intro v b m' hv hb hf
    refine ⟨⟨fun w hw => ?_, fun w hw => ?_⟩, fun a ha => hf a (fun h => ha (Or.inr ⟨v, hv, zpacked_in.1 h⟩))⟩
    · show _ = s.real w
      rw [← hm.1 w hw]
      refine view_congr (fun a ha => hf a (fun h => ?_))
      have h1 := packed_in.1 ha
      have h2 := zpacked_in.1 h
      rcases hL.rc w hw v hv with h3 | h3 <;> omega
    · show _ = put s.cplx v b w
      unfold put
      split
      · next e => rw [e]; exact hb
      · next e =>
        rw [← hm.2 w hw]
        refine cview_frame (fun a ha => hf a (fun h => ?_))
        have h1 := zpacked_in.1 ha
        have h2 := zpacked_in.1 h
        rcases hL.cc w hw v hv e with h3 | h3 <;> omega
  have zr : ∀ v < Nc, view n (zpacked n (L.cplx v)).re m = (s.cplx v).1 := fun v hv => congrArg Prod.fst (hm.2 v hv)
  have zi : ∀ v < Nc, view n (zpacked n (L.cplx v)).im m = (s.cplx v).2 := fun v hv => congrArg Prod.snd (hm.2 v hv)
  cases c with
  | real v o =>
    have hs := packed_sep n (L.real v)
    have h := C31_operation (F := F) hn hs o m
    rw [hm.1 v hc] at h
    have h' : view n (packed n (L.real v)) (Call.exec F n L m (.real v o)) = o.run F n (s.real v) ∧
        ∀ a, ¬ (packed n (L.real v)).In n a → Call.exec F n L m (.real v o) a = m a := by
      cases o with
      | setzero => exact dbsetzero_refines n _ m
      | _ => exact h
    exact realKey v _ _ hc h'.1 h'.2
  | realAdd u v =>
    have h : view n (packed n (L.real v)) (F.dbdbadd n (L.real u) (L.real v) m) = F.dmdmadd n (s.real u) (s.real v) ∧
        ∀ a, ¬ (packed n (L.real v)).In n a → F.dbdbadd n (L.real u) (L.real v) m a = m a := by
      rw [← hm.1 u hc.1, ← hm.1 v hc.2]
      by_cases e : u = v
      · subst e; exact dmdmaddM_self (by omega) (packed_sep n _) m
      · refine dmdmaddM_refines (by omega) (packed_sep n _) (fun a h1 h2 => ?_) m
        have h1 := packed_in.1 h1
        have h2 := packed_in.1 h2
        rcases hL.rr u hc.1 v hc.2 e with h3 | h3 <;> omega
    exact realKey v _ _ hc.2 h.1 h.2
  | realSet u v =>
    have h := dbdbset_refines n (X := L.real u) (Y := L.real v) m
    rw [hm.1 u hc.1] at h
    exact realKey v _ _ hc.2.1 h.1 h.2
  | cplx v o =>
    have hs := zpacked_csep n (L.cplx v)
    have h := C22_operation (F := F) hn hs o m
    rw [zr v hc, zi v hc] at h
    have h' : cview n (zpacked n (L.cplx v)) (Call.exec F n L m (.cplx v o)) = (o.onRe.run F n (s.cplx v).1, o.onIm.run F n (s.cplx v).2) ∧
        ∀ a, ¬ (zpacked n (L.cplx v)).CIn n a → Call.exec F n L m (.cplx v o) a = m a := by
      cases o with
      | setzero => exact zbsetzero_refines n _ m
      | _ => exact h
    exact cplxKey v _ _ hc h'.1 h'.2
  | cplxAdd u v =>
    have h : cview n (zpacked n (L.cplx v)) (F.zbzbadd n (L.cplx u) (L.cplx v) m) = (F.dmdmadd n (s.cplx u).1 (s.cplx v).1, F.dmdmadd n (s.cplx u).2 (s.cplx v).2) ∧
        ∀ a, ¬ (zpacked n (L.cplx v)).CIn n a → F.zbzbadd n (L.cplx u) (L.cplx v) m a = m a := by
      rw [← zr u hc.1, ← zr v hc.2, ← zi u hc.1, ← zi v hc.2]
      by_cases e : u = v
      · subst e; exact zmzmaddM_self (by omega) (zpacked_csep n _) m
      · refine C22_merge (by omega) (zpacked_csep n _) (fun a h1 h2 => ?_) m
        have h1 := zpacked_in.1 h1
        have h2 := zpacked_in.1 h2
        rcases hL.cc u hc.1 v hc.2 e with h3 | h3 <;> omega
    exact cplxKey v _ _ hc.2 h.1 h.2
  | cplxSet u v =>
    have h := zbzbset_refines n (X := L.cplx u) (Y := L.cplx v) m
    rw [hm.2 u hc.1] at h
    exact cplxKey v _ _ hc.2.1 h.1 h.2
  | cplxOfReal u v =>
    have h := C22_set_real (zpacked_csep n (L.cplx v)) (x := packed n (L.real u)) (fun a h1 h2 => by
      have h1 := packed_in.1 h1
      have h2 := zpacked_in.1 (Or.inl h2)
      rcases hL.rc u hc.1 v hc.2 with h3 | h3 <;> omega) m
    rw [hm.1 u hc.1] at h
    exact cplxKey v _ _ hc.2 h.1 h.2

/-- **C59** (memory). Whatever sequence of public calls is made on packed real and complex values stored anywhere without
overlap, each value is what the calls make of separate abstract values, the conversions return the conversions of these, and no
word outside the values (each `binned_dbnum` or `binned_zbnum` words long) changes. -/
theorem C59_programs {n : Nat} (hn : 2 ≤ n) {L : Layout} {Nr Nc : Nat} (hL : L.OK n Nr Nc) (prog : List Call)
    (hp : ∀ c ∈ prog, c.ok Nr Nc) (m : Mem) :
    let s := prog.foldl (Call.run F n) (L.state n m)
    let m' := prog.foldl (Call.exec F n L) m
    Holds n L Nr Nc s m' ∧ (∀ v < Nr, F.ddbconv n (L.real v) m' = convert F n (s.real v)) ∧
    (∀ v < Nc, F.zzbconv n (L.cplx v) m' = (convert F n (s.cplx v).1, convert F n (s.cplx v).2)) ∧
    ∀ a, ¬ L.Uses n Nr Nc a → m' a = m a := by
  have main : ∀ (prog : List Call) (s : PState) (m : Mem), (∀ c ∈ prog, c.ok Nr Nc) → Holds n L Nr Nc s m →
      Holds n L Nr Nc (prog.foldl (Call.run F n) s) (prog.foldl (Call.exec F n L) m) ∧
      ∀ a, ¬ L.Uses n Nr Nc a → prog.foldl (Call.exec F n L) m a = m a := by
    intro prog
    induction prog with
    | nil => intro s m _ h; exact ⟨h, fun _ _ => rfl⟩
    | cons c cs ih =>
      intro s m hp h
      have h1 := call_step (F := F) hn hL c (hp c List.mem_cons_self) h
      have h2 := ih _ _ (fun d hd => hp d (List.mem_cons_of_mem _ hd)) h1.1
      exact ⟨h2.1, fun a ha => (h2.2 a ha).trans (h1.2 a ha)⟩
  have h := main prog (L.state n m) m hp ⟨fun _ _ => rfl, fun _ _ => rfl⟩
  refine ⟨h.1, fun v hv => ?_, fun v hv => ?_, h.2⟩
  · unfold ddbconv
    rw [C31_convert hn, h.1.1 v hv]
  · unfold zzbconv
    rw [C23_packed hn]
    have := h.1.2 v hv
    have e1 := congrArg Prod.fst this
    have e2 := congrArg Prod.snd this
    unfold cview at e1 e2
    dsimp only at e1 e2
    rw [e1, e2]

/-! ### The protocol: which numbers a value holds the sum of -/

/-- What is known of a value: nothing (never initialised, or used against the protocol), the history it results from, or that it
is inside a batch: updated with the bound `b` and then given the deposits `xs`, the renormalisation pending. -/
inductive Track where
  | unknown
  | done (h : Hist)
  | opened (h : Hist) (b : Flt) (xs : List Flt)

/-- The history of a value that is not inside a batch (an update alone opens none). -/
def Track.close : Track → Option Hist
  | .unknown => none
  | .done h => some h
  | .opened h b [] => some (.update b h)
  | .opened _ _ (_ :: _) => none

/-- Apply a step to the history of a value that is not inside a batch. -/
def Track.step (t : Track) (f : Hist → Track) : Track :=
  match t.close with
  | some h => f h
  | none => .unknown

/-- How a call changes what is known of the value it is applied to. -/
def Op.track : Op → Track → Track
  | .setzero, _ => .done .zero
  | .ofNum x, _ => .done (.add x .zero)
  | .update b, t => t.step fun h => .opened h b []
  | .deposit x, .opened h b xs => .opened h b (xs ++ [x])
  | .deposit _, _ => .unknown
  | .renorm, .opened h b xs => .done (.batch b xs h)
  | .renorm, .done h => .done (.renorm h)
  | .renorm, .unknown => .unknown
  | .add x, t => t.step fun h => .done (.add x h)
  | .negate, t => t.step fun h => .done (.negate h)

/-- Merging: `v += u`. -/
def Track.merge (u v : Track) : Track := u.step fun g => v.step fun h => .done (.merge g h)

/-- What is known of all values. -/
structure TState where
  real : Nat → Track
  cplx : Nat → Track × Track

/-- Nothing is known of memory before the first call. -/
def TState.start : TState := ⟨fun _ => .unknown, fun _ => (.unknown, .unknown)⟩

/-- How a call changes it. -/
def Call.track (t : TState) : Call → TState
  | .real v o => { t with real := put t.real v (o.track (t.real v)) }
  | .realAdd u v => { t with real := put t.real v ((t.real u).merge (t.real v)) }
  | .realSet u v => { t with real := put t.real v (t.real u) }
  | .cplx v o => { t with cplx := put t.cplx v (o.onRe.track (t.cplx v).1, o.onIm.track (t.cplx v).2) }
  | .cplxAdd u v => { t with cplx := put t.cplx v ((t.cplx u).1.merge (t.cplx v).1, (t.cplx u).2.merge (t.cplx v).2) }
  | .cplxSet u v => { t with cplx := put t.cplx v (t.cplx u) }
  | .cplxOfReal u v => { t with cplx := put t.cplx v (t.real u, .done .zero) }

/-- The history that the program leaves in the real value `v`, if it kept to the protocol. -/
def realHist (prog : List Call) (v : Nat) : Option Hist := ((prog.foldl Call.track TState.start).real v).close

/-- The histories of the real and imaginary parts of the complex value `v`. -/
def cplxHist (prog : List Call) (v : Nat) : Option Hist × Option Hist :=
  (((prog.foldl Call.track TState.start).cplx v).1.close, ((prog.foldl Call.track TState.start).cplx v).2.close)

/-- The value is what is known of it. -/
def Track.Is (F : Fmt) (n : Nat) : Track → Binned → Prop
  | .unknown, _ => True
  | .done h, y => y = h.eval F n
  | .opened h b xs, y => y = F.deposits xs (F.dmdupdate n b (h.eval F n))

theorem Track.Is.close {n : Nat} {t : Track} {y : Binned} (h : t.Is F n y) {g : Hist} (hg : t.close = some g) : y = g.eval F n := by
  match t, h, hg with
  | .done _, h, hg => obtain rfl := Option.some.inj hg; exact h
  | .opened _ _ [], h, hg => obtain rfl := Option.some.inj hg; exact h
  | .unknown, _, hg => cases hg
  | .opened _ _ (_ :: _), _, hg => cases hg

theorem Track.Is.step {n : Nat} {t : Track} {y y' : Binned} (h : t.Is F n y) {f : Hist → Track}
    (hf : ∀ g, y = g.eval F n → (f g).Is F n y') : (t.step f).Is F n y' := by
  unfold Track.step
  split
  · next g hg => exact hf g (h.close hg)
  · trivial

theorem Op.track_is {n : Nat} (o : Op) {t : Track} {y : Binned} (h : t.Is F n y) : (o.track t).Is F n (o.run F n y) := by
  cases o with
  | setzero => rfl
  | ofNum x => rfl
  | update b => exact h.step (fun g hg => by subst hg; rfl)
  | add x => exact h.step (fun g hg => by subst hg; rfl)
  | negate => exact h.step (fun g hg => by subst hg; rfl)
  | deposit x =>
    cases t with
    | unknown => trivial
    | done _ => trivial
    | opened g b xs =>
      have h : y = _ := h
      subst h
      show _ = _
      unfold deposits
      rw [List.foldl_append]
      rfl
  | renorm =>
    cases t with
    | unknown => trivial
    | done g => have h : y = _ := h; subst h; rfl
    | opened g b xs => have h : y = _ := h; subst h; rfl

theorem Track.merge_is {n : Nat} {t u : Track} {x y : Binned} (ht : t.Is F n x) (hu : u.Is F n y) :
    (t.merge u).Is F n (F.dmdmadd n x y) :=
  ht.step (fun g hg => hu.step (fun h hh => by subst hg; subst hh; rfl))

/-- All values are what is known of them. -/
def TState.Is (F : Fmt) (n : Nat) (t : TState) (s : PState) : Prop :=
  (∀ v, (t.real v).Is F n (s.real v)) ∧ ∀ v, (t.cplx v).1.Is F n (s.cplx v).1 ∧ (t.cplx v).2.Is F n (s.cplx v).2

theorem Call.track_is {n : Nat} (c : Call) {t : TState} {s : PState} (h : t.Is F n s) : (c.track t).Is F n (c.run F n s) := by
  have rk : ∀ v (k : Track) (b : Binned), k.Is F n b → TState.Is F n { t with real := put t.real v k } { s with real := put s.real v b } := by
    intro v k b hk
    refine ⟨fun w => ?_, h.2⟩
    show (put t.real v k w).Is F n (put s.real v b w)
    unfold put
    split
    · exact hk
    · exact h.1 w
  have ck : ∀ v (k : Track × Track) (b : Binned × Binned), k.1.Is F n b.1 ∧ k.2.Is F n b.2 →
      TState.Is F n { t with cplx := put t.cplx v k } { s with cplx := put s.cplx v b } := by
    intro v k b hk
    refine ⟨h.1, fun w => ?_⟩
    show (put t.cplx v k w).1.Is F n (put s.cplx v b w).1 ∧ (put t.cplx v k w).2.Is F n (put s.cplx v b w).2
    unfold put
    split
    · exact hk
    · exact h.2 w
  cases c with
  | real v o => exact rk v _ _ (o.track_is (h.1 v))
  | realAdd u v => exact rk v _ _ (Track.merge_is (h.1 u) (h.1 v))
  | realSet u v => exact rk v _ _ (h.1 u)
  | cplx v o => exact ck v _ _ ⟨o.onRe.track_is (h.2 v).1, o.onIm.track_is (h.2 v).2⟩
  | cplxAdd u v => exact ck v _ _ ⟨Track.merge_is (h.2 u).1 (h.2 v).1, Track.merge_is (h.2 u).2 (h.2 v).2⟩
  | cplxSet u v => exact ck v _ _ (h.2 u)
  | cplxOfReal u v => exact ck v _ _ ⟨h.1 u, rfl⟩

theorem track_run {n : Nat} (prog : List Call) (s : PState) :
    (prog.foldl Call.track TState.start).Is F n (prog.foldl (Call.run F n) s) := by
  have : ∀ (prog : List Call) (t : TState) (s : PState), t.Is F n s → (prog.foldl Call.track t).Is F n (prog.foldl (Call.run F n) s) := by
    intro prog
    induction prog with
    | nil => intro t s h; exact h
    | cons c cs ih => intro t s h; exact ih _ _ (c.track_is h)
  exact this prog _ _ ⟨fun _ => trivial, fun _ => ⟨trivial, trivial⟩⟩

/-- **C59** (histories). After any program, a real value on which the program kept to the protocol holds the value of its
history, and so does each part of a complex value, whatever was in memory before. -/
theorem C59_history {n : Nat} (hn : 2 ≤ n) {L : Layout} {Nr Nc : Nat} (hL : L.OK n Nr Nc) (prog : List Call)
    (hp : ∀ c ∈ prog, c.ok Nr Nc) (m : Mem) :
    let m' := prog.foldl (Call.exec F n L) m
    (∀ v < Nr, ∀ h, realHist prog v = some h → view n (packed n (L.real v)) m' = h.eval F n) ∧
    ∀ v < Nc, (∀ h, (cplxHist prog v).1 = some h → (cview n (zpacked n (L.cplx v)) m').1 = h.eval F n) ∧
      ∀ h, (cplxHist prog v).2 = some h → (cview n (zpacked n (L.cplx v)) m').2 = h.eval F n := by
  have h1 := (C59_programs (F := F) hn hL prog hp m).1
  have h2 := track_run (F := F) (n := n) prog (L.state n m)
  refine ⟨fun v hv h hh => ?_, fun v hv => ⟨fun h hh => ?_, fun h hh => ?_⟩⟩
  · rw [h1.1 v hv]; exact (h2.1 v).close hh
  · rw [h1.2 v hv]; exact (h2.2 v).1.close hh
  · rw [h1.2 v hv]; exact (h2.2 v).2.close hh

theorem view_words {n : Nat} {l l' : Loc} {m m' : Mem} (h : view n l m = view n l' m') {i : Nat} (hi : i < n) :
    m (l.P i) = m' (l'.P i) ∧ m (l.C i) = m' (l'.C i) := by
  have e := h
  unfold view at e
  have e1 := congrArg Binned.pri e
  have e2 := congrArg Binned.car e
  have f : ∀ {f g : Nat → Flt}, (List.range n).map f = (List.range n).map g → f i = g i := by
    intro f g hfg
    have := congrArg (fun l => l[i]?) hfg
    simpa [hi] using this
  exact ⟨f e1, f e2⟩

/-- Two histories that the library must not distinguish: both respect the protocol (finite numbers, batches within their bound
and within the endurance, no more numbers than the capacity, no negation at the end), they add the same numbers, and the largest
number or bound they have seen falls into the same bin. -/
structure SameSum (F : Fmt) (h g : Hist) : Prop where
  legal : h.Legal F ∧ g.Legal F
  settled : h.Settled ∧ g.Settled
  capacity : h.nums.length ≤ F.capacity
  nums : h.nums.Perm g.nums
  seen : h.seen = [] ↔ g.seen = []
  index : F.minIndex h.seen = F.minIndex g.seen

theorem SameSum.eval [F.OK] {n : Nat} (hn : 2 ≤ n) {h g : Hist} (s : SameSum F h g) : h.eval F n = g.eval F n := by
  rw [hist_spec hn s.legal.1 s.capacity s.settled.1, hist_spec hn s.legal.2 (by rw [← s.nums.length_eq]; exact s.capacity) s.settled.2]
  unfold Hist.spec
  by_cases e : h.seen = []
  · rw [if_pos e, if_pos (s.seen.1 e)]
  · rw [if_neg e, if_neg (fun h => e (s.seen.2 h)), s.index]
    congr 1; funext j; exact total_perm s.nums j

/-- **C59** (reproducibility). Two programs of public calls, each on its own values at its own places and starting from its own
memory, that leave the same sum in a real value `u` of the one and `v` of the other, leave the same words there and convert to
the same number. -/
theorem C59_reproducible [F.OK] {n : Nat} (hn : 2 ≤ n) {L K : Layout} {Nr Nc Mr Mc : Nat} (hL : L.OK n Nr Nc) (hK : K.OK n Mr Mc)
    {P Q : List Call} (hP : ∀ c ∈ P, c.ok Nr Nc) (hQ : ∀ c ∈ Q, c.ok Mr Mc) (m k : Mem)
    {u v : Nat} (hu : u < Nr) (hv : v < Mr) {h g : Hist} (hh : realHist P u = some h) (hg : realHist Q v = some g) (hs : SameSum F h g) :
    let m' := P.foldl (Call.exec F n L) m
    let k' := Q.foldl (Call.exec F n K) k
    (∀ i : Nat, i < 2 * n → m' (L.real u + i) = k' (K.real v + i)) ∧ F.ddbconv n (L.real u) m' = F.ddbconv n (K.real v) k' := by
  intro m' k'
  have e : view n (packed n (L.real u)) m' = view n (packed n (K.real v)) k' := by
    rw [(C59_history (F := F) hn hL P hP m).1 u hu h hh, (C59_history (F := F) hn hK Q hQ k).1 v hv g hg]
    exact hs.eval hn
  refine ⟨fun i hi => ?_, ?_⟩
  · by_cases h : i < n
    · simpa [Loc.P, packed] using (view_words e h).1
    · have := (view_words e (i := i - n) (by omega)).2
      simp only [Loc.C, packed] at this
      have a1 : L.real u + (n : Int) + ((i - n : Nat) : Int) * 1 = L.real u + i := by omega
      have a2 : K.real v + (n : Int) + ((i - n : Nat) : Int) * 1 = K.real v + i := by omega
      rw [a1, a2] at this
      exact this
  · unfold ddbconv
    rw [C31_convert hn, C31_convert hn, e]

/-- **C59** (reproducibility, complex values): the same for both parts of complex values. -/
theorem C59_reproducible_complex [F.OK] {n : Nat} (hn : 2 ≤ n) {L K : Layout} {Nr Nc Mr Mc : Nat} (hL : L.OK n Nr Nc) (hK : K.OK n Mr Mc)
    {P Q : List Call} (hP : ∀ c ∈ P, c.ok Nr Nc) (hQ : ∀ c ∈ Q, c.ok Mr Mc) (m k : Mem)
    {u v : Nat} (hu : u < Nc) (hv : v < Mc) {h g h' g' : Hist} (hh : cplxHist P u = (some h, some h')) (hg : cplxHist Q v = (some g, some g'))
    (hs : SameSum F h g) (hs' : SameSum F h' g') :
    let m' := P.foldl (Call.exec F n L) m
    let k' := Q.foldl (Call.exec F n K) k
    (∀ i : Nat, i < 4 * n → m' (L.cplx u + i) = k' (K.cplx v + i)) ∧ F.zzbconv n (L.cplx u) m' = F.zzbconv n (K.cplx v) k' := by
  intro m' k'
  have a := (C59_history (F := F) hn hL P hP m).2 u hu
  have b := (C59_history (F := F) hn hK Q hQ k).2 v hv
  have e1 : view n (zpacked n (L.cplx u)).re m' = view n (zpacked n (K.cplx v)).re k' := by
    have e := a.1 h (by rw [hh])
    have e' := b.1 g (by rw [hg])
    rw [hs.eval hn, ← e'] at e
    exact e
  have e2 : view n (zpacked n (L.cplx u)).im m' = view n (zpacked n (K.cplx v)).im k' := by
    have e := a.2 h' (by rw [hh])
    have e' := b.2 g' (by rw [hg])
    rw [hs'.eval hn, ← e'] at e
    exact e
  refine ⟨fun i hi => ?_, ?_⟩
  · have key : ∀ j : Nat, j < n → (m' (L.cplx u + j * 2) = k' (K.cplx v + j * 2) ∧ m' (L.cplx u + 1 + j * 2) = k' (K.cplx v + 1 + j * 2)) ∧
        m' (L.cplx u + 2 * n + j * 2) = k' (K.cplx v + 2 * n + j * 2) ∧ m' (L.cplx u + 2 * n + 1 + j * 2) = k' (K.cplx v + 2 * n + 1 + j * 2) := by
      intro j hj
      have h1 := view_words e1 hj
      have h2 := view_words e2 hj
      simp only [Loc.P, Loc.C, Loc.re, Loc.im, zpacked] at h1 h2
      refine ⟨⟨?_, ?_⟩, ?_, ?_⟩
      · simpa using h1.1
      · simpa using h2.1
      · simpa using h1.2
      · simpa using h2.2
    have at_ : ∀ a b : Int, m' (L.cplx u + a) = k' (K.cplx v + a) → a = b → m' (L.cplx u + b) = k' (K.cplx v + b) := by
      intro a b h e; subst e; exact h
    have k1 := key (i / 2)
    have k2 := key ((i - 2 * n) / 2)
    by_cases h1 : i < 2 * n
    · have k1 := (k1 (by omega)).1
      rcases Nat.mod_two_eq_zero_or_one i with h2 | h2
      · exact at_ _ _ k1.1 (by omega)
      · have k := k1.2
        rw [Int.add_assoc, Int.add_assoc] at k
        exact at_ _ _ k (by omega)
    · have k2 := (k2 (by omega)).2
      rcases Nat.mod_two_eq_zero_or_one i with h2 | h2
      · have k := k2.1
        rw [Int.add_assoc, Int.add_assoc] at k
        exact at_ _ _ k (by omega)
      · have k := k2.2
        rw [Int.add_assoc, Int.add_assoc, Int.add_assoc, Int.add_assoc] at k
        exact at_ _ _ k (by omega)
  · unfold zzbconv
    rw [C23_packed hn, C23_packed hn, e1, e2]

/-! ### The hypotheses are met -/

/-- One value: `1`, `2^60`, `-2^60` added one by one. -/
def progA : List Call := [.real 0 .setzero, .real 0 (.add (f64.pow2 0)), .real 0 (.add (f64.pow2 60)), .real 0 (.add (fneg (f64.pow2 60)))]

/-- Two values, one filled by a batch, a copy through a third, and a merge. -/
def progB : List Call := [.real 0 (.ofNum (f64.pow2 (-5))), .real 1 .setzero, .real 1 (.update (f64.pow2 60)), .real 1 (.deposit (f64.pow2 60)),
  .real 1 (.deposit (f64.pow2 0)), .real 1 .renorm, .real 0 .setzero, .real 0 (.add (f64.pow2 60)), .real 0 .negate, .realAdd 0 1, .realSet 1 2]

/-- The values of `progA` at address 0, those of `progB` in an array. -/
def layoutA : Layout := ⟨fun _ => 0, fun _ => 1000⟩
def layoutB : Layout := ⟨fun v => 6 * v, fun v => 1000 + 12 * v⟩

example : layoutA.OK 3 1 1 ∧ layoutB.OK 3 3 2 := by
  refine ⟨⟨?_, ?_, ?_⟩, ⟨?_, ?_, ?_⟩⟩ <;> intro u hu v hv <;> simp only [Disjoint2, layoutA, layoutB, dbnum, zbnum] <;> omega

example : (∀ c ∈ progA, c.ok 1 0) ∧ ∀ c ∈ progB, c.ok 3 0 := by
  unfold progA progB
  constructor <;> simp [Call.ok]

example : ∃ h g, realHist progA 0 = some h ∧ realHist progB 2 = some g ∧ SameSum f64 h g :=
  ⟨_, _, rfl, rfl,
    { legal := by
        have h : f64.Finite (f64.pow2 60) ∧ f64.Finite (f64.pow2 0) ∧ f64.Finite (fneg (f64.pow2 60)) ∧
          ∀ x ∈ [] ++ [f64.pow2 60] ++ [f64.pow2 0], f64.Finite x ∧ f64.dindex (f64.pow2 60) ≤ f64.dindex x := by decide +kernel
        exact ⟨⟨h.2.2.1, h.1, h.2.1, trivial⟩, ⟨h.1, trivial⟩, h.2.2.2, by decide, trivial⟩
      settled := ⟨trivial, (fun h => nomatch h), (fun h => nomatch h)⟩
      capacity := by show 3 ≤ _; decide +kernel
      nums := by
        show [fneg (f64.pow2 60), f64.pow2 60, f64.pow2 0].Perm [fneg (f64.pow2 60), f64.pow2 60, f64.pow2 0]
        exact List.Perm.refl _
      seen := ⟨(fun h => nomatch h), (fun h => nomatch h)⟩
      index := by
        show f64.minIndex [fneg (f64.pow2 60), f64.pow2 60, f64.pow2 0] = f64.minIndex [f64.pow2 60, f64.pow2 60, f64.pow2 60, f64.pow2 0]
        decide +kernel }⟩

end Repro
