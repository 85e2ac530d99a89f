import Verif.ThreadsLemmas
/-!
# The programs of `Verif/Threads.lean`: what they do alone, and what they access
-/

namespace Repro
open Fmt Prog
variable {F : Fmt} {α β : Type}

/-! ## Alone -/

theorem Prog.eval_ite (c : Prop) [Decidable c] (p q : Prog α) (m : Mem) : (if c then p else q).eval F m = if c then p.eval F m else q.eval F m := by
  split <;> rfl

theorem Prog.eval_ret (v : α) (m : Mem) : (ret v).eval F m = (v, m) := rfl
theorem Prog.eval_wr (a : Int) (v : Flt) (m : Mem) : (wr a v).eval F m = ((), m.set a v) := rfl
theorem Prog.eval_rdB (a : Int) (f : Flt → Prog α) (m : Mem) : ((rd a).bind f).eval F m = (f (m a)).eval F m := rfl
theorem Prog.eval_wrB (a : Int) (v : Flt) (f : Unit → Prog α) (m : Mem) : ((wr a v).bind f).eval F m = (f ()).eval F (m.set a v) := rfl
theorem Prog.eval_binB (i : Nat) (f : Flt → Prog α) (m : Mem) : ((bin i).bind f).eval F m = (f (F.bins i)).eval F m := rfl
theorem eval_dmbinsB (f : Unit → Prog α) (m : Mem) : (F.dmbinsP.bind f).eval F m = (f ()).eval F m := rfl

theorem Prog.eval_loop {body : Nat → Prog Unit} {g : Nat → Mem → Mem} (h : ∀ i m, (body i).eval F m = ((), g i m)) (L : List Nat) (m : Mem) :
    (loop body L).eval F m = ((), L.foldl (fun m i => g i m) m) := by
  induction L generalizing m with
  | nil => rfl
  | cons i is ih => unfold loop; rw [eval_bind, h, List.foldl_cons]; exact ih _

theorem Prog.eval_loopV {body : Flt → Nat → Prog Flt} {g : Flt → Nat → Flt} {m : Mem} {L : List Nat} (h : ∀ Y, ∀ i ∈ L, (body Y i).eval F m = (g Y i, m)) (Y : Flt) :
    (loopV body L Y).eval F m = (L.foldl g Y, m) := by
  induction L generalizing Y with
  | nil => rfl
  | cons i is ih =>
    unfold loopV
    rw [eval_bind, h Y i (by simp), List.foldl_cons]
    exact ih (fun Y j hj => h Y j (by simp [hj])) _

theorem Prog.eval_loopB {body : Nat → Prog Unit} (g : Nat → Mem → Mem) (h : ∀ i m, (body i).eval F m = ((), g i m)) (L : List Nat) (f : Unit → Prog α) (m : Mem) :
    ((loop body L).bind f).eval F m = (f ()).eval F (L.foldl (fun m i => g i m) m) := by
  rw [eval_bind, eval_loop h]

theorem eval_setzero (fold : Nat) (l : Loc) (m : Mem) : (dmsetzeroP fold l).eval F m = ((), dmsetzeroM fold l m) :=
  eval_loop (fun i m => by simp only [bind_eq, eval_wr, eval_wrB]) _ m

theorem eval_dmdmset (fold : Nat) (x y : Loc) (m : Mem) : (dmdmsetP fold x y).eval F m = ((), dmdmsetM fold x y m) :=
  eval_loop (fun i m => by simp only [bind_eq, eval_wr, eval_wrB, eval_rdB]) _ m

theorem eval_dmdupdate (fold : Nat) (x : Flt) (y : Loc) (m : Mem) : (F.dmdupdateP fold x y).eval F m = ((), F.dmdupdateM fold x y m) := by
  unfold dmdupdateP dmdupdateM
  simp only [bind_eq, eval_rdB, eval_ite, eval_ret, eval_dmbinsB]
  split
  · rfl
  split
  · exact eval_loop (fun i m => by simp only [eval_wr, eval_wrB, eval_binB]) _ m
  split
  · refine (eval_loopB (fun i m' => (m'.set (y.P i) (m' (y.P (i - (F.dmindex (m y.pri) - F.dindex x))))).set (y.C i) ((m'.set (y.P i) (m' (y.P (i - (F.dmindex (m y.pri) - F.dindex x))))) (y.C (i - (F.dmindex (m y.pri) - F.dindex x)))))
      (fun i m' => by simp only [eval_wr, eval_wrB, eval_rdB]) _ _ m).trans ?_
    rw [eval_dmbinsB]
    exact eval_loop (fun i m => by simp only [eval_wr, eval_wrB, eval_binB]) _ _
  · rfl

theorem eval_depositLoop (y : Loc) (n i : Nat) (x : Flt) (m : Mem) : (F.depositLoopP y n i x).eval F m = ((), F.depositLoopM y n i x m) := by
  induction n generalizing i x m with
  | zero => rfl
  | succ n ih => exact ih _ _ _

theorem eval_dmddeposit (fold : Nat) (x : Flt) (y : Loc) (m : Mem) : (F.dmddepositP fold x y).eval F m = ((), F.dmddepositM fold x y m) := by
  unfold dmddepositP dmddepositM
  simp only [bind_eq, eval_rdB, eval_wrB, eval_wr, eval_ite, eval_depositLoop]
  split
  · rfl
  split <;> rfl

theorem eval_dmrenorm (fold : Nat) (y : Loc) (m : Mem) : (F.dmrenormP fold y).eval F m = ((), F.dmrenormM fold y m) := by
  unfold dmrenormP dmrenormM
  simp only [bind_eq, eval_rdB, eval_ite, eval_ret]
  split
  · rfl
  · exact eval_loop (fun i m => by simp only [eval_wr, eval_wrB, eval_rdB]) _ m

theorem eval_dmdadd (fold : Nat) (x : Flt) (y : Loc) (m : Mem) : (F.dmdaddP fold x y).eval F m = ((), F.dmdaddM fold x y m) := by
  unfold dmdaddP dmdaddM
  simp only [bind_eq, eval_bind, eval_dmdupdate, eval_dmddeposit, eval_dmrenorm]

theorem eval_dmnegate (fold : Nat) (y : Loc) (m : Mem) : (F.dmnegateP fold y).eval F m = ((), F.dmnegateM fold y m) := by
  unfold dmnegateP dmnegateM
  simp only [bind_eq, eval_rdB, eval_ite, eval_ret, eval_dmbinsB]
  split
  · rfl
  · exact eval_loop (fun i m => by simp only [eval_wr, eval_wrB, eval_rdB, eval_binB]) _ m

theorem eval_dmdmadd (fold : Nat) (x y : Loc) (m : Mem) : (F.dmdmaddP fold x y).eval F m = ((), F.dmdmaddM fold x y m) := by
  unfold dmdmaddP dmdmaddM
  simp only [bind_eq, eval_rdB, eval_ite, eval_ret, eval_dmbinsB, eval_wr, eval_dmdmset]
  split
  · rfl
  split
  · rfl
  split
  · rfl
  split
  · rw [eval_loopB (fun i m' => _) (fun i m' => by simp only [eval_wr, eval_wrB, eval_rdB, eval_binB]; rfl), eval_loopB (fun i m' => _) (fun i m' => by simp only [eval_wr, eval_wrB, eval_rdB]; rfl), eval_dmrenorm]
  · rw [eval_loopB (fun i m' => _) (fun i m' => by simp only [eval_wr, eval_wrB, eval_rdB, eval_binB]; rfl), eval_dmrenorm]

theorem eval_convLast {fold n : Nat} (hn : 1 ≤ fold) (hf : fold ≤ n) (l : Loc) (k : Nat) (m : Mem) (G : Fmt) :
    (F.convLastP fold l k).eval G m = (F.sub (nth (view n l m).pri (fold - 1)) (G.bins (k + (fold - 1))), m) := by
  rw [nth_view_pri l m (by omega : fold - 1 < n)]
  rfl

theorem eval_convStepS {n : Nat} (l : Loc) (k : Nat) (m : Mem) (Y : Flt) {i : Nat} (hi : i < n) : (F.convStepSP l k Y i).eval F m = (F.convStepS (view n l m) k Y i, m) := by
  unfold convStepS
  rw [nth_view_pri l m (by omega : i - 1 < n), nth_view_car l m hi]
  rfl

theorem eval_convStep {n : Nat} (l : Loc) (k : Nat) (m : Mem) (Y : Flt) {i : Nat} (hi : i < n) : (F.convStepP l k Y i).eval F m = (F.convStep (view n l m) k Y i, m) := by
  unfold convStep
  rw [nth_view_pri l m (by omega : i - 1 < n), nth_view_car l m hi]
  rfl

theorem Prog.eval_loopVB {body : Flt → Nat → Prog Flt} {g : Flt → Nat → Flt} {m : Mem} {L : List Nat} (h : ∀ Y, ∀ i ∈ L, (body Y i).eval F m = (g Y i, m)) (Y : Flt) (f : Flt → Prog α) :
    ((loopV body L Y).bind f).eval F m = (f (L.foldl g Y)).eval F m := by
  rw [eval_bind, eval_loopV h]

theorem eval_convRest {fold : Nat} (hn : 2 ≤ fold) (l : Loc) (k i : Nat) (Y : Flt) (m : Mem) :
    (F.convRestP fold l k i Y).eval F m =
      (let last := F.sub (nth (view fold l m).pri (fold - 1)) (F.bins (k + (fold - 1)))
       let scaled := min fold (3 * F.p / F.W - k)
       let Y := (List.range' i (scaled - i)).foldl (F.convStepS (view fold l m) k) Y
       let i := max i scaled
       if i = fold then F.mul (F.add Y (F.mul last F.convDown)) F.convUp
       else if F.isInf (F.mul Y F.convUp) then F.mul Y F.convUp
       else
         let Y := F.mul Y F.convUp
         let Y := (List.range' i (fold - i)).foldl (F.convStep (view fold l m) k) Y
         F.add Y last, m) := by
  unfold convRestP
  simp only [bind_eq]
  rw [eval_loopVB (fun Y i hi => eval_convStepS l k m Y (by have := List.mem_range'_1.1 hi; omega : i < fold))]
  simp only [eval_ite, eval_ret]
  split
  · rw [eval_bind, eval_convLast (n := fold) (by omega) (le_refl _)]; rfl
  split
  · rfl
  rw [eval_loopVB (fun Y i hi => eval_convStep l k m Y (by have := List.mem_range'_1.1 hi; omega : i < fold)), eval_bind, eval_convLast (n := fold) (by omega) (le_refl _)]
  rfl

theorem eval_ddmconv {fold : Nat} (hn : 2 ≤ fold) (l : Loc) (m : Mem) : (F.ddmconvP fold l).eval F m = (F.ddmconv fold (view fold l m), m) := by
  unfold ddmconvP ddmconv
  rw [nth_view_pri l m (by omega : 0 < fold), nth_view_car l m (by omega : 0 < fold), nth_view_car l m (by omega : 1 < fold), Loc.P0]
  simp only [bind_eq, eval_rdB, eval_ite, eval_ret, eval_dmbinsB, eval_binB, eval_convRest hn]
  split
  · rfl
  split
  · rfl
  split
  · split
    · rename_i h; simp only [h]
    · rfl
  · rw [eval_loopVB (fun Y i hi => eval_convStep l _ m Y (by have := List.mem_range'_1.1 hi; omega : i < fold)), eval_bind, eval_convLast (n := fold) (by omega) (le_refl _)]
    rfl

theorem eval_sconvStep {n : Nat} (l : Loc) (k : Nat) (m : Mem) (Y : Flt) {i : Nat} (hi : i < n) : (sconvStepP l k Y i).eval f32 m = (sconvStep (view n l m) k Y i, m) := by
  unfold sconvStep sbin6
  rw [nth_view_pri l m (by omega : i - 1 < n), nth_view_car l m hi]
  rfl

theorem eval_sconvRest {fold : Nat} (hn : 2 ≤ fold) (l : Loc) (k i : Nat) (Y : Flt) (m : Mem) :
    (sconvRestP fold l k i Y).eval f32 m =
      (narrow (f64.add ((List.range' i (fold - i)).foldl (sconvStep (view fold l m) k) Y) (widen (f32.sub (nth (view fold l m).pri (fold - 1)) (f32.bins (k + (fold - 1)))))), m) := by
  unfold sconvRestP
  simp only [bind_eq]
  rw [eval_loopVB (fun Y i hi => eval_sconvStep l k m Y (by have := List.mem_range'_1.1 hi; omega : i < fold)), eval_bind, eval_convLast (n := fold) (by omega) (le_refl _)]
  rfl

theorem eval_ssmconv {fold : Nat} (hn : 2 ≤ fold) (l : Loc) (m : Mem) : (ssmconvP fold l).eval f32 m = (ssmconv fold (view fold l m), m) := by
  unfold ssmconvP ssmconv sbin6
  rw [nth_view_pri l m (by omega : 0 < fold), nth_view_car l m (by omega : 0 < fold), nth_view_car l m (by omega : 1 < fold), Loc.P0]
  simp only [bind_eq, eval_rdB, eval_ite, eval_ret, eval_dmbinsB, eval_binB, eval_sconvRest hn]
  split
  · rfl
  split
  · rfl
  split
  · rename_i h; simp only [h]
  · rfl

theorem eval_convert {fold : Nat} (hn : 2 ≤ fold) (l : Loc) (m : Mem) : (convertP F fold l).eval F m = (F.convertM fold l m, m) := by
  unfold convertP convertM convert
  rw [Nat.max_eq_left hn]
  by_cases h : F = f32
  · subst h; simp only [if_true]; exact eval_ssmconv hn l m
  · simp only [if_neg h]; exact eval_ddmconv hn l m

/-! ## What they access -/

/-- The program is safe as soon as the entries `s` of the table are known to be right, whatever else is known. -/
def Ok (F : Fmt) (W R : Int → Prop) (s : Nat → Prop) (p : Prog α) : Prop :=
  ∀ s' : Nat → Prop, (∀ i, s i → s' i) → ∀ Q : (Nat → Prop) → α → Prop, (∀ s'' v, (∀ i, s' i → s'' i) → Q s'' v) → Safe F W R s' p Q

variable {W R : Int → Prop} {s : Nat → Prop}

theorem Ok.within {p : Prog α} (h : Ok F W R (fun _ => False) p) : Within F W R p := h _ (fun _ h => h) _ (fun _ _ _ => trivial)

theorem Ok.mono {p : Prog α} {s' : Nat → Prop} (h : Ok F W R s p) (hs : ∀ i, s i → s' i) : Ok F W R s' p := fun t ht Q hQ => h t (fun i hi => ht i (hs i hi)) Q hQ

theorem Ok.bind {p : Prog α} {f : α → Prog β} (h : Ok F W R s p) (hf : ∀ v, Ok F W R s (f v)) : Ok F W R s (p.bind f) := fun s' hs Q hQ =>
  Safe.bind (h s' hs _ (fun s'' v hs' => hf v s'' (fun i hi => hs' i (hs i hi)) Q (fun t v ht => hQ t v (fun i hi => ht i (hs' i hi)))))

theorem Ok.ret (v : α) : Ok F W R s (ret v) := fun _ _ _ hQ => hQ _ _ (fun _ h => h)
theorem Ok.rd {a : Int} (h : R a) : Ok F W R s (rd a) := fun _ _ _ hQ => ⟨h, fun _ => hQ _ _ (fun _ h => h)⟩
theorem Ok.wr {a : Int} (v : Flt) (h : W a) : Ok F W R s (wr a v) := fun _ _ _ hQ => ⟨h, hQ _ _ (fun _ h => h)⟩
theorem Ok.bin {i : Nat} (h : s i) : Ok F W R s (bin i) := fun _ hs _ hQ => ⟨hs _ h, hQ _ _ (fun _ h => h)⟩
theorem Ok.ite {c : Prop} [Decidable c] {p q : Prog α} (hp : c → Ok F W R s p) (hq : ¬ c → Ok F W R s q) : Ok F W R s (if c then p else q) := by
  split
  · exact hp ‹_›
  · exact hq ‹_›

theorem Ok.loop {body : Nat → Prog Unit} {L : List Nat} (h : ∀ i ∈ L, Ok F W R s (body i)) : Ok F W R s (loop body L) := by
  induction L with
  | nil => exact Ok.ret ()
  | cons i is ih => exact Ok.bind (h i (by simp)) (fun _ => ih (fun j hj => h j (by simp [hj])))

theorem Ok.loopV {body : Flt → Nat → Prog Flt} {L : List Nat} (h : ∀ Y, ∀ i ∈ L, Ok F W R s (body Y i)) (Y : Flt) : Ok F W R s (loopV body L Y) := by
  induction L generalizing Y with
  | nil => exact Ok.ret Y
  | cons i is ih => exact Ok.bind (h Y i (by simp)) (fun Y => ih (fun Y j hj => h Y j (by simp [hj])) Y)

/-- All entries of the table. -/
def Full (F : Fmt) (i : Nat) : Prop := i < F.binsSize

theorem firstBin_eq (hF : F = f64 ∨ F = f32) : F.firstBin = F.bins 0 := by
  rcases hF with rfl | rfl <;> decide +kernel

theorem bins_mid {i : Nat} (h1 : 1 ≤ i) (h2 : i ≤ F.maxIndex) : F.ldexp75 ((F.maxExp : Int) + F.p - F.W + 1 - i * F.W) = F.bins i := by
  unfold bins
  rw [if_neg (by omega), Nat.min_eq_left h2]

theorem bins_last {i : Nat} (h0 : 1 ≤ F.maxIndex) (h1 : F.maxIndex < i) : F.bins (i - 1) = F.bins i := by
  unfold bins
  rw [if_neg (by omega), if_neg (by omega), Nat.min_eq_right (by omega), Nat.min_eq_right (by omega)]

/-- A loop that fills the entries `k .. k + n - 1`, given the ones before. -/
theorem safe_fill {body : Nat → Prog Unit} {k n : Nat} (hb : ∀ i, k ≤ i → i < k + n → ∀ s : Nat → Prop, (∀ j, j < i → s j) → ∀ Q, Q (fun j => s j ∨ j = i) () → Safe F W R s (body i) Q)
    {s : Nat → Prop} (hs : ∀ j, j < k → s j) {Q : (Nat → Prop) → Unit → Prop} (hQ : ∀ s' : Nat → Prop, (∀ j, s j → s' j) → (∀ j, j < k + n → s' j) → Q s' ()) : Safe F W R s (Prog.loop body (List.range' k n)) Q := by
  induction n generalizing k s with
  | zero => exact hQ s (fun _ h => h) hs
  | succ n ih =>
    rw [List.range'_succ]
    unfold Prog.loop
    refine Safe.bind (hb k (le_refl _) (by omega) s hs _ ?_)
    refine ih (fun i h1 h2 => hb i (by omega) (by omega)) (fun j hj => ?_) (fun s' h1 h2 => hQ s' (fun j hj => h1 j (Or.inl hj)) (fun j hj => h2 j (by omega)))
    by_cases h : j = k
    · exact Or.inr h
    · exact Or.inl (hs j (by omega))

/-- `binned_dmbins`: afterwards all entries are known to be right. -/
theorem Ok.dmbins (hF : F = f64 ∨ F = f32) {f : Unit → Prog α} (h : Ok F W R (fun i => s i ∨ Full F i) (f ())) : Ok F W R s (F.dmbinsP.bind f) := by
  have h0 : 1 ≤ F.maxIndex := by rcases hF with rfl | rfl <;> decide +kernel
  intro s' hs Q hQ
  refine Safe.bind ?_
  have key : ∀ t : Nat → Prop, (∀ i, s' i → t i) → (∀ i, i < F.binsSize → t i) → Safe F W R t (f ()) Q := fun t h1 h2 =>
    h t (fun i hi => hi.elim (fun hi => h1 i (hs i hi)) (h2 i)) Q (fun t' v ht => hQ t' v (fun i hi => ht i (h1 i hi)))
  unfold dmbinsP
  refine ⟨?_, ?_, fun m => ?_⟩
  · simp only [Bool.false_eq_true, if_false]
    simp only [bind_eq]
    refine Safe.bind (p := wrBin 0 _) ⟨firstBin_eq hF, ?_⟩
    show Safe F W R _ (Prog.bind (Prog.loop _ _) _) _
    refine Safe.bind (safe_fill (k := 1) (n := F.maxIndex) (fun i h1 h2 t ht Q hQ => ?_) (fun j hj => Or.inr (by omega)) (fun t h1 h2 => ?_))
    · exact ⟨bins_mid h1 (by omega), hQ⟩
    refine Safe.bind (safe_fill (k := F.maxIndex + 1) (n := F.maxFold - 1) (fun i h1 h2 t ht Q hQ => ?_) (fun j hj => h2 j (by omega)) (fun t' h1' h2' => ?_))
    · exact ⟨ht _ (by omega), bins_last h0 (by omega), hQ⟩
    have hall : ∀ i, i < F.binsSize → t' i := fun i hi => h2' i (by unfold binsSize maxFold at *; omega)
    exact ⟨hall, key t' (fun i hi => h1' i (h1 i (Or.inl hi))) hall⟩
  · exact key _ (fun i hi => Or.inl hi) (fun i hi => Or.inr hi)
  · simp only [Bool.false_eq_true, if_false, if_true]
    simp only [bind_eq]
    rw [eval_bind]
    show eval F (Prog.bind (Prog.loop _ _) _) m = _
    rw [eval_loopB (fun _ m => m) (fun i m => by rfl), eval_loopB (fun _ m => m) (fun i m => by rfl)]
    show ((), _) = ((), m)
    congr 1
    have : ∀ (L : List Nat) (m : Mem), L.foldl (fun m _ => m) m = m := fun L => by induction L with | nil => exact fun _ => rfl | cons _ _ ih => exact fun m => ih m
    rw [this, this]

end Repro
