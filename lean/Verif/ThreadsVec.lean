import Verif.ThreadsOk
import Verif.PropsGenRun
/-!
# The vector routines as programs of single memory accesses

The block loops of `src/binnedBLAS/dmdsum.ccog`, `dmdasum.ccog`, `dmddot.ccog`, `dmdssq.ccog`, `zmzsum.ccog`, `zmzdotu.ccog`, `zmzdotc.ccog`
in the style of `Verif/Threads.lean`. A kernel reads the words of the block (and the primaries) into local variables, computes, and the
deposit kernel writes the primaries back; what it computes is `Fmt.kernel`, `Fmt.amaxK`, … of the words it has read. That the programs,
alone, have the effect of the emitted statements in memory (`Verif/GenRun.lean`) is proved, not assumed (`eval_rloop`, …).
The order of the reads within a kernel differs from that of the emitted statements, but no write lies between them.
-/

namespace Repro
open Prog

namespace Prog
variable {α β : Type}

/-- Read one thing after the other. -/
def mapP (f : Nat → Prog β) : List Nat → Prog (List β)
  | [] => ret []
  | i :: is => (f i).bind fun v => (mapP f is).bind fun vs => ret (v :: vs)

end Prog

/-- The value element `j` contributes: `X[j * incX]`, `fabs(X[j * incX])`, `X[j * incX] * Y[j * incY]` (`src/binnedBLAS/dmdsum.ccog:71`, `dmdasum.ccog:70`, `dmddot.ccog:72`). -/
def rtermP (F : Fmt) (op : DepOp) (X Z incX incZ : Int) (j : Nat) : Prog Flt :=
  (rd (X + j * incX)).bind fun x =>
    if op.prod then (rd (Z + j * incZ)).bind fun z => ret (rterm F op x z) else ret (rterm F op x x)

namespace Fmt
variable (F : Fmt)

/-- `for (j = 0; j < N_block; j++) priY[0] += …` (`src/binnedBLAS/dmdsum.ccog:70-72`, …); `t j` reads the term. -/
def accum0P (n : Nat) (t : Nat → Prog Flt) (a : Int) : Prog Unit :=
  loop (fun j => (rd a).bind fun y => (t j).bind fun x => wr a (F.add y x)) (List.range n)

/-- A deposit kernel on real data (`src/binned/deposit.py`): it loads the primaries and the elements, and stores the primaries. -/
def kernP (T : Tune) (fold : Nat) (l : Loc) (vals : Prog (List Flt)) : Prog Unit :=
  (mapP (fun j => rd (l.P j)) (List.range fold)).bind fun pri =>
    vals.bind fun vs => loop (fun j => wr (l.P j) (nth (F.kernel T vs pri) j)) (List.range fold)

/-- The block loop of `binnedBLAS_dmdsum` (`src/binnedBLAS/dmdsum.ccog:57-6203`), `binnedBLAS_dmdasum` (`dmdasum.ccog:57-5943`), `binnedBLAS_dmddot`
(`dmddot.ccog:59-12072`); `rem = N - i`. -/
def rloopP (T : Tune) (op : DepOp) (fold : Nat) (l : Loc) (incX incZ : Int) : Nat → Nat → Int → Int → Nat → Prog Unit
  | 0, _, _, _, _ => F.dmrenormP fold l
  | fuel + 1, rem, X, Z, deposits =>
    if rem = 0 then F.dmrenormP fold l
    else
      let nb := min rem T.nb
      let vals := mapP (rtermP F op X Z incX incZ) (List.range nb)
      vals.bind fun vs =>
      let amax := F.amaxK T (vs.map fabs)
      (rd l.pri).bind fun y0 =>
      (if F.isInf amax || F.isInf y0 then F.accum0P nb (rtermP F op X Z incX incZ) l.pri else ret ()).bind fun _ =>
      (rd l.pri).bind fun y0 =>
      if F.isNaN y0 then ret ()
      else if F.isInf y0 then rloopP T op fold l incX incZ fuel (rem - nb) (X + nb * incX) (Z + nb * incZ) deposits
      else
        let over := deposits + nb > F.endurance
        (if over then F.dmrenormP fold l else ret ()).bind fun _ =>
        (F.dmdupdateP fold amax l).bind fun _ =>
        (F.kernP T fold l vals).bind fun _ =>
        rloopP T op fold l incX incZ fuel (rem - nb) (X + nb * incX) (Z + nb * incZ) ((if over then 0 else deposits) + nb)

/-- `binnedBLAS_dmdsum`, `binnedBLAS_dmdasum`, `binnedBLAS_dmddot` on `n` elements. -/
def rvecP (T : Tune) (op : DepOp) (fold : Nat) (l : Loc) (n : Nat) (X incX Z incZ : Int) : Prog Unit :=
  F.rloopP T op fold l incX incZ n n X Z 0

end Fmt

open Fmt
variable {F : Fmt} {α β : Type}

/-! ## Alone -/

theorem Prog.eval_mapP {f : Nat → Prog β} {g : Nat → β} {m : Mem} {L : List Nat} (h : ∀ i ∈ L, (f i).eval F m = (g i, m)) :
    (mapP f L).eval F m = (L.map g, m) := by
  induction L with
  | nil => rfl
  | cons i is ih =>
    unfold mapP
    rw [eval_bind, h i (by simp), eval_bind, ih (fun j hj => h j (by simp [hj]))]
    rfl

theorem eval_rterm {op : DepOp} (hop : op = .sum ∨ op = .asum ∨ op = .dot) (X Z incX incZ : Int) (j : Nat) (m : Mem) :
    (rtermP F op X Z incX incZ j).eval F m = (rterm F op (m (X + j * incX)) (m (Z + j * incZ)), m) := by
  rcases hop with rfl | rfl | rfl <;> rfl

theorem eval_accum0 {t : Nat → Prog Flt} {t' : Nat → Mem → Flt} (h : ∀ j m, (t j).eval F m = (t' j m, m)) (n : Nat) (a : Int) (m : Mem) :
    (F.accum0P n t a).eval F m = ((), F.accum0M n t' a m) :=
  eval_loop (g := fun j m => m.set a (F.add (m a) (t' j m))) (fun j m => by rw [eval_rdB, eval_bind, h]; rfl) _ m

theorem eval_kern (T : Tune) (fold : Nat) (l : Loc) {vals : Prog (List Flt)} {vs : List Flt} {m : Mem} (hv : vals.eval F m = (vs, m)) :
    (F.kernP T fold l vals).eval F m = ((), (List.range fold).foldl (fun m' j => m'.set (l.P j) (nth (F.kernel T vs (view fold l m).pri) j)) m) := by
  unfold kernP
  rw [eval_bind, eval_mapP (g := fun j => m (l.P j)) (fun i _ => rfl), eval_bind]
  dsimp only
  rw [hv]
  exact eval_loop (g := fun j m' => m'.set (l.P j) (nth (F.kernel T vs (view fold l m).pri) j)) (fun i m' => rfl) _ m

theorem eval_iteB (c : Prop) [Decidable c] {p : Prog Unit} {g : Mem → Mem} {m : Mem} (hp : p.eval F m = ((), g m)) (f : Unit → Prog α) :
    ((if c then p else ret ()).bind f).eval F m = (f ()).eval F (if c then g m else m) := by
  rw [eval_bind]
  split
  · rw [hp]
  · rfl

/-- The stores of a kernel, in memory. -/
theorem stores_eq {fold k : Nat} {l : Loc} {σ : Regs} {ks : List Flt} (h : ∀ j, j < fold → σ (.y k j) 0 = nth ks j) (m : Mem) :
    (List.range fold).foldl (fun m' j => m'.set (l.P j) (nth ks j)) m = storeY fold k l σ m := by
  unfold storeY
  refine List.foldl_ext _ _ _ (fun m' j hj => ?_)
  rw [h j (List.mem_range.1 hj)]

/-- Alone, the program has exactly the effect of the emitted statements in memory, whatever the uninitialised variables contain. -/
theorem eval_rloop [F.OK] {T : Tune} (hT : T.OK F) {op : DepOp} (hop : op = .sum ∨ op = .asum ∨ op = .dot) {expand : Bool} {fold : Nat}
    (hf : 1 ≤ fold) (he : expand = true → 2 ≤ fold) (l : Loc) (incX incZ : Int) (jA jD : Nat → Regs) (fuel : Nat) :
    ∀ (rem : Nat) (X Z : Int) (dep : Nat) (m : Mem),
      (F.rloopP T op fold l incX incZ fuel rem X Z dep).eval F m = ((), F.rloopM T op expand fold l incX incZ jA jD fuel rem X Z dep m) := by
  induction fuel with
  | zero => intro rem X Z dep m; exact eval_dmrenorm fold l m
  | succ fuel ih =>
    intro rem X Z dep m
    unfold rloopP rloopM
    by_cases h0 : rem = 0
    · rw [if_pos h0, if_pos h0]; exact eval_dmrenorm fold l m
    · rw [if_neg h0, if_neg h0]
      dsimp only
      have hvals : ∀ m : Mem, (mapP (rtermP F op X Z incX incZ) (List.range (min rem T.nb))).eval F m = (rvals F op m X Z incX incZ (min rem T.nb), m) :=
        fun m => eval_mapP (fun i _ => eval_rterm hop X Z incX incZ i m)
      rw [eval_bind, hvals]
      dsimp only
      rw [← amax_rvals hT hop m X Z incX incZ (min rem T.nb) (jA rem)]
      generalize (GenA.mk T false op.prod).code F (behind m X Z) incX incZ (min rem T.nb) (jA rem) (.am 0) 0 = amax
      rw [eval_rdB, eval_iteB _ (eval_accum0 (fun j m => eval_rterm hop X Z incX incZ j m) _ _ _), eval_rdB]
      generalize (if (F.isInf amax || F.isInf (m l.pri)) = true then F.accum0M (min rem T.nb) (fun j m => rterm F op (m (X + j * incX)) (m (Z + j * incZ))) l.pri m else m) = m1
      rw [eval_ite, eval_ite]
      split
      · rfl
      split
      · exact ih _ _ _ _ _
      rw [eval_iteB _ (eval_dmrenorm fold l m1)]
      generalize (if dep + min rem T.nb > F.endurance then F.dmrenormM fold l m1 else m1) = m2
      rw [eval_bind, eval_dmdupdate]
      dsimp only
      generalize F.dmdupdateM fold amax l m2 = m3
      rw [eval_bind, eval_kern T fold l (hvals m3), stores_eq (k := 0) (fun j hj => kernel_rvals hT hop m3 X Z incX incZ hf he (min rem T.nb) l (jD rem) hj)]
      have hadv : (runUnrolled (Gen.mk T false op).tsz (T.pipe * T.unroll) (min rem T.nb)).off = min rem T.nb := adv_eq (G := Gen.mk T false op) hT _
      rw [hadv, mul_comm incX, mul_comm incZ]
      exact ih _ _ _ _ _

/-! ## What they access -/

variable {W R : Int → Prop} {s : Nat → Prop}

theorem Ok.mapP {f : Nat → Prog β} {L : List Nat} (h : ∀ i ∈ L, Ok F W R s (f i)) : Ok F W R s (Prog.mapP f L) := by
  induction L with
  | nil => exact Ok.ret _
  | cons i is ih => exact Ok.bind (h i (by simp)) (fun _ => Ok.bind (ih (fun j hj => h j (by simp [hj]))) (fun _ => Ok.ret _))

theorem Ok.iteU {c : Prop} [Decidable c] {p : Prog Unit} (hp : Ok F W R s p) : Ok F W R s (if c then p else Prog.ret ()) :=
  Ok.ite (fun _ => hp) (fun _ => Ok.ret ())

theorem Ok.rterm {op : DepOp} {X Z incX incZ : Int} {n : Nat} (hr : RReads op X Z incX incZ n R) {j : Nat} (hj : j < n) : Ok F W R s (rtermP F op X Z incX incZ j) := by
  have ⟨h1, h2⟩ := hr j hj
  exact Ok.bind (Ok.rd h1) (fun _ => Ok.ite (fun h => Ok.bind (Ok.rd (h2 h)) (fun _ => Ok.ret _)) (fun _ => Ok.ret _))

theorem Ok.accum0 {n : Nat} {t : Nat → Prog Flt} {a : Int} (ht : ∀ j, j < n → Ok F W R s (t j)) (hR : R a) (hW : W a) : Ok F W R s (F.accum0P n t a) :=
  Ok.loop (fun j hj => Ok.bind (Ok.rd hR) (fun _ => Ok.bind (ht j (List.mem_range.1 hj)) (fun _ => Ok.wr _ hW)))

theorem Ok.kern {T : Tune} {fold : Nat} {l : Loc} (hR : ∀ a, l.In fold a → R a) (hW : ∀ a, l.In fold a → W a) {vals : Prog (List Flt)} (hv : Ok F W R s vals) : Ok F W R s (F.kernP T fold l vals) :=
  Ok.bind (Ok.mapP (fun _ hi => Ok.rd (hR _ (l.inP (List.mem_range.1 hi))))) (fun _ => Ok.bind hv (fun _ => Ok.loop (fun _ hi => Ok.wr _ (hW _ (l.inP (List.mem_range.1 hi))))))

theorem RReads.mono {op : DepOp} {X Z incX incZ : Int} {n k : Nat} {P : Int → Prop} (h : RReads op X Z incX incZ n P) (hk : k ≤ n) : RReads op X Z incX incZ k P :=
  fun i hi => h i (by omega)

theorem RReads.shift {op : DepOp} {X Z incX incZ : Int} {n k : Nat} {P : Int → Prop} (h : RReads op X Z incX incZ n P) (hk : k ≤ n) :
    RReads op (X + k * incX) (Z + k * incZ) incX incZ (n - k) P := by
  intro i hi
  have := h (k + i) (by omega)
  rw [show X + (k : Int) * incX + (i : Int) * incX = X + ((k + i : Nat) : Int) * incX by push_cast; ring,
    show Z + (k : Int) * incZ + (i : Int) * incZ = Z + ((k + i : Nat) : Int) * incZ by push_cast; ring]
  exact this

theorem Ok.rloop (hF : F = f64 ∨ F = f32) {fold : Nat} (hf : 2 ≤ fold) (hm : fold ≤ F.maxFold) (T : Tune) (op : DepOp) {l : Loc} (hR : ∀ a, l.In fold a → R a) (hW : ∀ a, l.In fold a → W a)
    (incX incZ : Int) (fuel : Nat) : ∀ (rem : Nat) (X Z : Int) (dep : Nat), RReads op X Z incX incZ rem R → Ok F W R s (F.rloopP T op fold l incX incZ fuel rem X Z dep) := by
  have h0 : l.In fold l.pri := by rw [← Loc.P0]; exact l.inP (by omega)
  induction fuel with
  | zero => intro rem X Z dep _; exact Ok.dmrenorm hf hR hW
  | succ fuel ih =>
    intro rem X Z dep hr
    unfold rloopP
    have hmin : min rem T.nb ≤ rem := Nat.min_le_left _ _
    have hvals : Ok F W R s (Prog.mapP (rtermP F op X Z incX incZ) (List.range (min rem T.nb))) :=
      Ok.mapP (fun i hi => Ok.rterm (hr.mono hmin) (List.mem_range.1 hi))
    refine Ok.ite (fun _ => Ok.dmrenorm hf hR hW) (fun _ => Ok.bind hvals (fun vs => Ok.bind (Ok.rd (hR _ h0)) (fun y0 => Ok.bind (Ok.iteU (Ok.accum0 (fun j hj => Ok.rterm (hr.mono hmin) hj) (hR _ h0) (hW _ h0))) (fun _ =>
      Ok.bind (Ok.rd (hR _ h0)) (fun y1 => Ok.ite (fun _ => Ok.ret ()) (fun _ => Ok.ite (fun _ => ih _ _ _ _ (hr.shift hmin)) (fun _ => ?_)))))))
    exact Ok.bind (Ok.iteU (Ok.dmrenorm hf hR hW)) (fun _ => Ok.bind (Ok.dmdupdate hF hf hm _ hR hW) (fun _ => Ok.bind (Ok.kern hR hW hvals) (fun _ => ih _ _ _ _ (hr.shift hmin))))

end Repro
