import Verif.Int32
import Verif.PropsGenRun
import Verif.PropsUnroll
import Mathlib.Algebra.Order.Ring.Abs
import Mathlib.Algebra.Order.Ring.Int
import Mathlib.Tactic.Linarith
import Mathlib.Tactic.Positivity
/-!
# Lemmas about the checked routines: loops and emitted kernels
-/

namespace Repro

theorem chk_pos {α : Type} {zs : List Int} {k : Option α} (h : ∀ z ∈ zs, InInt z) : chk zs k = k := if_pos h

theorem chk_nil {α : Type} (k : Option α) : chk [] k = k := chk_pos (by simp)

theorem chk_neg {α : Type} {zs : List Int} {k : Option α} {z : Int} (hz : z ∈ zs) (h : ¬ InInt z) : chk zs k = none :=
  if_neg (fun hh => h (hh z hz))

theorem chk_none {α : Type} (zs : List Int) : chk zs (none : Option α) = none := by unfold chk; split <;> rfl

/-! ### loops -/

theorem steps_lt {lo hi st : Nat} (hs : 1 ≤ st) (h : lo < hi) : steps lo hi st = lo :: steps (lo + st) hi st := by
  unfold steps
  have : (hi - lo + st - 1) / st = (hi - (lo + st) + st - 1) / st + 1 := by
    by_cases h2 : st ≤ hi - lo
    · rw [show hi - lo + st - 1 = (hi - (lo + st) + st - 1) + st by omega, Nat.add_div_right _ (by omega)]
    · rw [show hi - (lo + st) + st - 1 = st - 1 by omega, Nat.div_eq_of_lt (by omega : st - 1 < st)]
      rw [show hi - lo + st - 1 = (hi - lo - 1) + st by omega, Nat.add_div_right _ (by omega), Nat.div_eq_of_lt (by omega)]
  rw [this, List.range_succ_eq_map, List.map_cons, List.map_map]
  simp only [Nat.zero_mul, Nat.add_zero]
  congr 1
  apply List.map_congr_left
  intro t _
  simp only [Function.comp, Nat.succ_eq_add_one]
  ring

theorem steps_ge {lo hi st : Nat} (hs : 1 ≤ st) (h : hi ≤ lo) : steps lo hi st = [] := by
  unfold steps
  rw [Nat.sub_eq_zero_of_le h, Nat.div_eq_of_lt (by omega)]; rfl

theorem forS_lt {σ : Type} {lo hi st : Nat} (hs : 1 ≤ st) (h : lo < hi) (g : Nat → σ → σ) (m : σ) : forS lo hi st g m = forS (lo + st) hi st g (g lo m) := by
  unfold forS; rw [steps_lt hs h]; rfl

theorem forS_ge {σ : Type} {lo hi st : Nat} (hs : 1 ≤ st) (h : hi ≤ lo) (g : Nat → σ → σ) (m : σ) : forS lo hi st g m = m := by
  unfold forS; rw [steps_ge hs h]; rfl

theorem forC_spec {cond : Nat → List Int × Bool} {step lo hi : Nat} {body : Nat → Mem → Option Mem} {g : Nat → Mem → Mem} (hs : 1 ≤ step)
    (hb : (hi : Int) + step ≤ 2147483648) (hc : ∀ i, lo ≤ i → (∀ z ∈ (cond i).1, InInt z) ∧ (cond i).2 = decide (i < hi))
    (hbody : ∀ i m, lo ≤ i → i < hi → step ∣ i - lo → body i m = some (g i m)) :
    ∀ (fuel i : Nat) (m : Mem), 1 ≤ fuel → lo ≤ i → step ∣ i - lo → hi < fuel + i → forC cond step body fuel i m = some (forS i hi step g m) := by
  intro fuel
  induction fuel with
  | zero => intro i m h0; omega
  | succ fuel ih =>
    intro i m _ hl hd hf
    unfold forC
    rw [chk_pos (hc i hl).1, (hc i hl).2]
    by_cases h : i < hi
    · rw [if_pos (by simpa using h), hbody i m hl h hd, Option.bind_some, chk_pos, ih _ _ (by omega) (by omega) (by rw [show i + step - lo = (i - lo) + step by omega]; exact Nat.dvd_add hd (dvd_refl _)) (by omega), forS_lt hs h]
      intro z hz
      rw [List.mem_singleton] at hz
      subst hz
      unfold InInt; omega
    · rw [if_neg (by simpa using h), forS_ge hs (by omega)]

theorem for1_eq {hi step : Nat} {body : Nat → Mem → Option Mem} {g : Nat → Mem → Mem} (hs : 1 ≤ step) (hb : (hi : Int) + step ≤ 2147483648)
    (hbody : ∀ i m, i < hi → body i m = some (g i m)) (m : Mem) : for1 hi step body m = some (forS 0 hi step g m) :=
  forC_spec hs hb (lo := 0) (fun i _ => ⟨by simp, rfl⟩) (fun i m _ h _ => hbody i m h) _ _ _ (by omega) (by omega) (by simp) (by omega)

theorem for2_eq' {lo hi blk step : Nat} {body : Nat → Mem → Option Mem} {g : Nat → Mem → Mem} (hs : 1 ≤ step) (hb : (hi : Int) + step ≤ 2147483648)
    (hk : (hi : Int) + blk ≤ 2147483648) (hbody : ∀ i m, lo ≤ i → i < hi → i < lo + blk → step ∣ i - lo → body i m = some (g i m)) (m : Mem) :
    for2 lo hi blk step body m = some (forS lo (min hi (lo + blk)) step g m) := by
  refine forC_spec hs (by omega) (lo := lo) (fun i hi' => ⟨?_, ?_⟩) (fun i m h h2 hd => hbody i m h (by omega) (by omega) hd) _ _ _ (by omega) (by omega) (by simp) (by omega)
  · intro z hz
    split at hz
    · rw [List.mem_singleton] at hz; subst hz; unfold InInt; omega
    · simp at hz
  · by_cases h1 : i < hi <;> by_cases h2 : i < lo + blk <;> simp [h1, h2]

theorem for2_eq {lo hi blk step : Nat} {body : Nat → Mem → Option Mem} {g : Nat → Mem → Mem} (hs : 1 ≤ step) (hb : (hi : Int) + step ≤ 2147483648)
    (hk : (hi : Int) + blk ≤ 2147483648) (hbody : ∀ i m, lo ≤ i → i < hi → i < lo + blk → body i m = some (g i m)) (m : Mem) :
    for2 lo hi blk step body m = some (forS lo (min hi (lo + blk)) step g m) :=
  for2_eq' hs hb hk (fun i m h1 h2 h3 _ => hbody i m h1 h2 h3) m

theorem forS01 {σ : Type} (n : Nat) (g : Nat → σ → σ) (m : σ) : forS 0 n 1 g m = (List.range n).foldl (fun m j => g j m) m := by
  unfold forS steps
  simp

/-! ### the loop skeleton -/

/-- The step of a statement is at most `u`. -/
def Stmt.le (u : Nat) : Stmt → Prop
  | .loop step _ => 1 ≤ step ∧ step ≤ u
  | .once v => v ≤ u
  | .rest => True

theorem emitTail_le (ts : Nat) : ∀ (fuel u v : Nat), u ≤ v → ∀ st ∈ emitTail ts fuel u, st.le v
  | 0, _, _, _, st, h => by simp [emitTail] at h
  | fuel + 1, u, v, hv, st, h => by
    unfold emitTail at h
    split at h
    · simp at h
    split at h
    · rw [List.mem_singleton] at h; subst h; trivial
    · rcases List.mem_cons.1 h with rfl | h
      · exact hv
      · exact emitTail_le ts fuel _ v (le_trans (Nat.le_of_lt (nextUnroll_lt (by assumption))) hv) st h

theorem emit_le (ts u : Nat) : ∀ st ∈ emit ts u, st.le u := by
  intro st h
  unfold emit at h
  dsimp only at h
  split at h
  · simp at h
  rename_i h0
  have hu : u / max ts 1 * max ts 1 ≤ u := Nat.div_mul_le_self _ _
  have : 1 ≤ u := by
    rcases Nat.eq_zero_or_pos u with rfl | h
    · simp at h0
    · exact h
  rcases List.mem_cons.1 h with rfl | h
  · exact ⟨this, le_refl _⟩
  · exact emitTail_le ts _ _ u (le_trans (Nat.le_of_lt (nextUnroll_lt h0)) hu) st h

/-- What a stride may be for `n` elements of `pw` words. -/
def Reach (pw : Nat) (inc : Int) (n : Nat) : Prop := (pw : Int) * |inc| * n ≤ 2147483647

theorem Reach.mono {pw : Nat} {inc : Int} {n k : Nat} (h : Reach pw inc n) (hk : k ≤ n) : Reach pw inc k := by
  unfold Reach at *
  have : (pw : Int) * |inc| * k ≤ pw * |inc| * n := by
    apply mul_le_mul_of_nonneg_left (by exact_mod_cast hk) (by positivity)
  omega

theorem inInt_of_abs {z : Int} (h : |z| ≤ 2147483647) : InInt z := by
  rw [abs_le] at h; unfold InInt; omega

theorem ptrIncr_fit {pw : Nat} (hp : 1 ≤ pw) {incs : List Int} {n u : Nat} (h : ∀ inc ∈ incs, Reach pw inc n) (hu : u ≤ n) : ∀ z ∈ ptrIncr pw incs u, InInt z := by
  intro z hz
  unfold ptrIncr at hz
  rw [List.mem_flatMap] at hz
  obtain ⟨inc, hi, hz⟩ := hz
  have hs := (h inc hi).mono hu
  unfold Reach at hs
  have e2 : |inc * (u : Int) * pw| = (pw : Int) * |inc| * u := by rw [abs_mul, abs_mul, Nat.abs_cast, Nat.abs_cast]; ring
  have e1 : |inc * (u : Int)| ≤ (pw : Int) * |inc| * u := by
    rw [abs_mul, Nat.abs_cast, mul_assoc]
    have : 0 ≤ |inc| * (u : Int) := by positivity
    have hp' : (1 : Int) ≤ pw := by exact_mod_cast hp
    nlinarith
  simp only [List.mem_cons, List.not_mem_nil, or_false] at hz
  rcases hz with rfl | rfl
  · exact inInt_of_abs (by omega)
  · exact inInt_of_abs (by omega)

theorem stmtInts_fit {pw : Nat} (hp : 1 ≤ pw) {incs : List Int} {n U : Nat} (h : ∀ inc ∈ incs, Reach pw inc n) (hn : (n : Int) + U ≤ 2147483647) :
    ∀ (l : List Stmt) (s : LoopState), (∀ st ∈ l, st.le U) → s.i ≤ n → ∀ z ∈ stmtInts pw incs n l s, InInt z
  | [], _, _, _, z, hz => by simp [stmtInts] at hz
  | st :: l, s, hl, hs, z, hz => by
    unfold stmtInts at hz
    have hst := hl st (by simp)
    rcases List.mem_append.1 hz with hz | hz
    · cases st with
      | loop step w =>
        simp only [Stmt.ints] at hz
        simp only [Stmt.le] at hst
        rcases List.mem_append.1 hz with hz | hz
        · rw [List.mem_map] at hz
          obtain ⟨t, ht, rfl⟩ := hz
          rw [List.mem_range] at ht
          have h1 : step * t ≤ n := le_trans (Nat.mul_le_mul_left _ (by omega : t ≤ n / step)) (Nat.mul_div_le n step)
          have h1' : (step : Int) * t ≤ n := by exact_mod_cast h1
          have h2 : 0 ≤ (step : Int) * t := by positivity
          unfold InInt; omega
        · split at hz
          · exact ptrIncr_fit hp h (by assumption) z hz
          · simp at hz
      | once u =>
        simp only [Stmt.ints] at hz
        simp only [Stmt.le] at hst
        rcases List.mem_cons.1 hz with rfl | hz
        · unfold InInt; omega
        · split at hz
          · exact ptrIncr_fit hp h (by omega) z hz
          · simp at hz
      | rest =>
        simp only [Stmt.ints] at hz
        split at hz
        · rcases List.mem_cons.1 hz with rfl | hz
          · unfold InInt; omega
          · exact ptrIncr_fit hp h (by omega) z hz
        · simp at hz
    · refine stmtInts_fit hp h hn l _ (fun st hst => hl st (by simp [hst])) ?_ z hz
      cases st with
      | loop step w => exact Nat.mul_div_le n step
      | once u => simp only [Stmt.run]; split <;> assumption
      | rest => simp only [Stmt.run]; split <;> assumption

/-! ### subscripts -/

/-- All subscripts in the expressions satisfy `P`. -/
def ESubs (P : Int → Prop) (l : List Ex) : Prop := ∀ e ∈ l, ∀ a ∈ e.subs, P a
/-- All subscripts in the assignments satisfy `P`. -/
def CSubs (P : Int → Prop) (c : Code) : Prop := ∀ a ∈ Code.subs c, P a

section
variable {P : Int → Prop}

theorem CSubs.append {a b : Code} (ha : CSubs P a) (hb : CSubs P b) : CSubs P (a ++ b) := by
  intro z hz
  unfold Code.subs at hz
  rw [List.flatMap_append, List.mem_append] at hz
  rcases hz with hz | hz
  · exact ha z hz
  · exact hb z hz

theorem CSubs.nil : CSubs P [] := by intro z hz; simp [Code.subs] at hz

theorem CSubs.flatMap {β : Type} {L : List β} {f : β → Code} (h : ∀ b ∈ L, CSubs P (f b)) : CSubs P (L.flatMap f) := by
  induction L with
  | nil => exact CSubs.nil
  | cons b L ih => rw [List.flatMap_cons]; exact CSubs.append (h b (by simp)) (ih (fun b hb => h b (by simp [hb])))

theorem CSubs.setEqual {d : List Var} {s : List Ex} (h : ESubs P s) : CSubs P (setEqual d s) := by
  induction d generalizing s with
  | nil => intro z hz; simp [Repro.setEqual, Code.subs] at hz
  | cons v d ih =>
    cases s with
    | nil => intro z hz; simp [Repro.setEqual, Code.subs] at hz
    | cons e s =>
      intro z hz
      have hz : z ∈ e.subs ++ Code.subs (Repro.setEqual d s) := hz
      rcases List.mem_append.1 hz with hz | hz
      · exact h e (by simp) z hz
      · exact ih (fun e he => h e (by simp [he])) z hz

theorem ESubs.ev (l : List Var) : ESubs P (ev l) := by
  intro e he a ha
  unfold Repro.ev at he
  rw [List.mem_map] at he
  obtain ⟨v, _, rfl⟩ := he
  simp [Ex.subs] at ha

theorem ESubs.zipWith {f : Ex → Ex → Ex} (hf : ∀ a b, (f a b).subs = a.subs ++ b.subs) {l r : List Ex} (hl : ESubs P l) (hr : ESubs P r) : ESubs P (List.zipWith f l r) := by
  induction l generalizing r with
  | nil => intro e he; simp at he
  | cons a l ih =>
    cases r with
    | nil => intro e he; simp at he
    | cons b r =>
      intro e he z hz
      rw [List.zipWith_cons_cons] at he
      rcases List.mem_cons.1 he with rfl | he
      · rw [hf] at hz
        rcases List.mem_append.1 hz with hz | hz
        · exact hl a (by simp) z hz
        · exact hr b (by simp) z hz
      · exact ih (fun e he => hl e (by simp [he])) (fun e he => hr e (by simp [he])) e he z hz

theorem ESubs.vmul {l r : List Ex} (hl : ESubs P l) (hr : ESubs P r) : ESubs P (vmul l r) := ESubs.zipWith (fun _ _ => rfl) hl hr
theorem ESubs.vadd {l r : List Ex} (hl : ESubs P l) (hr : ESubs P r) : ESubs P (vadd l r) := ESubs.zipWith (fun _ _ => rfl) hl hr
theorem ESubs.vsub {l r : List Ex} (hl : ESubs P l) (hr : ESubs P r) : ESubs P (vsub l r) := ESubs.zipWith (fun _ _ => rfl) hl hr
theorem ESubs.vmax {l r : List Ex} (hl : ESubs P l) (hr : ESubs P r) : ESubs P (vmax l r) := ESubs.zipWith (fun _ _ => rfl) hl hr

theorem ESubs.map {f : Ex → Ex} (hf : ∀ a, (f a).subs = a.subs) {l : List Ex} (hl : ESubs P l) : ESubs P (l.map f) := by
  intro e he z hz
  rw [List.mem_map] at he
  obtain ⟨a, ha, rfl⟩ := he
  exact hl a ha z (hf a ▸ hz)

theorem ESubs.cst (n : Nat) (c : Flt) : ESubs P (List.replicate n (.cst c)) := by
  intro e he z hz
  rw [(List.mem_replicate.1 he).2] at hz
  simp [Ex.subs] at hz

theorem ESubs.getD {l : List Ex} (hl : ESubs P l) (i : Nat) : ∀ a ∈ (l.getD i default).subs, P a := by
  intro z hz
  by_cases h : i < l.length
  · rw [List.getD_eq_getElem?_getD, List.getElem?_eq_getElem h] at hz
    exact hl _ (List.getElem_mem h) z hz
  · rw [List.getD_eq_getElem?_getD, List.getElem?_eq_none (by omega)] at hz
    simp [default, instInhabitedEx.default, Ex.subs] at hz

theorem ESubs.rm {n : Nat} {f : Nat → Ex} (h : ∀ i, i < n → ∀ a ∈ (f i).subs, P a) : ESubs P ((List.range n).map f) := by
  intro e he z hz
  rw [List.mem_map] at he
  obtain ⟨i, hi, rfl⟩ := he
  exact h i (List.mem_range.1 hi) z hz

theorem ESubs.cycleTo {l : List Ex} (hl : ESubs P l) (n : Nat) : ESubs P (cycleTo l n) := ESubs.rm (fun _ _ => hl.getD _)

theorem ESubs.vmulC {l : List Ex} (hl : ESubs P l) (c : List Var) : ESubs P (vmulC l c) := ESubs.vmul hl (ESubs.cycleTo (ESubs.ev c) _)

theorem ESubs.stride2 : ∀ {l : List Ex}, ESubs P l → ESubs P (stride2 l)
  | [], h => h
  | [a], h => h
  | a :: b :: l, h => by
    intro e he z hz
    unfold Repro.stride2 at he
    rcases List.mem_cons.1 he with rfl | he
    · exact h _ (by simp) z hz
    · exact ESubs.stride2 (l := l) (fun e he => h e (by simp [he])) e he z hz

theorem ESubs.dbl {l : List Ex} (h : ESubs P l) : ESubs P (l.flatMap (fun a => [a, a])) := by
  intro e he z hz
  rw [List.mem_flatMap] at he
  obtain ⟨a, ha, he⟩ := he
  simp only [List.mem_cons, List.not_mem_nil, or_false, or_self] at he
  subst he
  exact h _ ha z hz

theorem ESubs.drop {l : List Ex} (h : ESubs P l) (n : Nat) : ESubs P (l.drop n) := fun e he => h e (List.mem_of_mem_drop he)

variable {G : Gen} {F : Fmt}

theorem ESubs.swapP {l : List Ex} (h : ESubs P l) : ESubs P (G.swapP l) := by
  unfold Gen.swapP; split
  · exact ESubs.map (f := .swap) (fun _ => rfl) h
  · exact ESubs.rm (fun i _ => h.getD _)

theorem ESubs.repE {l : List Ex} (h : ESubs P l) : ESubs P (G.repE l) := by
  unfold Gen.repE; split
  · exact ESubs.map (f := .evens) (fun _ => rfl) h
  · exact (ESubs.stride2 h).dbl

theorem ESubs.repO {l : List Ex} (h : ESubs P l) : ESubs P (G.repO l) := by
  unfold Gen.repO; split
  · exact ESubs.map (f := .odds) (fun _ => rfl) h
  · exact (ESubs.stride2 (h.drop 1)).dbl

theorem ESubs.conj {l : List Ex} (h : ESubs P l) : ESubs P (G.conj F l) := by
  unfold Gen.conj; split
  · exact ESubs.map (f := .flipO) (fun _ => rfl) h
  · refine ESubs.rm (fun i _ => ?_)
    split
    · exact h.getD _
    · intro a ha
      rw [Ex.subs, Ex.subs, List.append_nil] at ha
      exact h.getD _ a ha

theorem ESubs.nconj {l : List Ex} (h : ESubs P l) : ESubs P (G.nconj F l) := by
  unfold Gen.nconj; split
  · exact ESubs.map (f := .flipE) (fun _ => rfl) h
  · refine ESubs.rm (fun i _ => ?_)
    split
    · exact h.getD _
    · intro a ha
      rw [Ex.subs, Ex.subs, List.append_nil] at ha
      exact h.getD _ a ha

theorem CSubs.addBlp {d s : List Var} {b : List Ex} (h : ESubs P b) (w : Nat) : CSubs P (addBlp d s b w) := by
  intro z hz
  unfold Repro.addBlp Code.subs at hz
  rw [List.mem_flatMap] at hz
  obtain ⟨c, hc, hz⟩ := hz
  rw [List.mem_map] at hc
  obtain ⟨i, _, rfl⟩ := hc
  have hz : z ∈ [] ++ (b.getD i default).subs := hz
  rw [List.nil_append] at hz
  exact h.getD i z hz

theorem CSubs.level (w i j : Nat) : CSubs P (G.level w i j) :=
  ((((CSubs.setEqual (ESubs.ev _)).append (CSubs.addBlp (ESubs.ev _) _)).append (CSubs.setEqual (ESubs.vsub (ESubs.ev _) (ESubs.ev _)))).append
    (CSubs.setEqual (ESubs.vadd (ESubs.ev _) (ESubs.ev _))))

theorem CSubs.levelBuf (w i j : Nat) : CSubs P (G.levelBuf w i j) :=
  (((((CSubs.setEqual (ESubs.ev _)).append (CSubs.addBlp (ESubs.ev _) _)).append (CSubs.setEqual (ESubs.ev _))).append
    (CSubs.setEqual (ESubs.vsub (ESubs.ev _) (ESubs.ev _)))).append (CSubs.setEqual (ESubs.vadd (ESubs.ev _) (ESubs.ev _))))

theorem CSubs.level0 (expand : Bool) (w i : Nat) : CSubs P (G.level0 expand w i) := by
  unfold Gen.level0
  dsimp only
  have e := fun l => ESubs.ev (P := P) l
  have m := fun l c => ESubs.vmulC (P := P) (ESubs.ev l) c
  split
  · refine ((CSubs.setEqual (e _)).append (CSubs.addBlp (m _ _) _)).append ?_
    split
    · exact (CSubs.setEqual (ESubs.vsub (e _) (e _))).append (CSubs.setEqual (ESubs.vadd (ESubs.vadd (e _) (m _ _)) (m _ _)))
    · exact (CSubs.setEqual (ESubs.vmulC (ESubs.vsub (e _) (e _)) _)).append (CSubs.setEqual (ESubs.vadd (ESubs.vadd (e _) (e _)) (e _)))
  · refine (((CSubs.setEqual (e _)).append (CSubs.addBlp (m _ _) _)).append (CSubs.setEqual (e _))).append ?_
    split
    · exact (CSubs.setEqual (ESubs.vsub (e _) (e _))).append (CSubs.setEqual (ESubs.vadd (ESubs.vadd (e _) (m _ _)) (m _ _)))
    · exact (CSubs.setEqual (ESubs.vmulC (ESubs.vsub (e _) (e _)) _)).append (CSubs.setEqual (ESubs.vadd (ESubs.vadd (e _) (e _)) (e _)))

theorem CSubs.process (expand : Bool) (fold w u : Nat) : CSubs P (G.process expand fold w u) := by
  refine CSubs.flatMap (fun i _ => ?_)
  split
  · exact (CSubs.flatMap (fun j _ => CSubs.level _ _ _)).append (CSubs.addBlp (ESubs.ev _) _)
  · exact (CSubs.flatMap (fun j _ => CSubs.levelBuf _ _ _)).append (CSubs.addBlp (ESubs.ev _) _)

theorem CSubs.process0 (expand : Bool) (fold w u : Nat) : CSubs P (G.process0 expand fold w u) := by
  refine CSubs.flatMap (fun i _ => (CSubs.level0 _ _ _).append ?_)
  split
  · exact (CSubs.flatMap (fun j _ => CSubs.level _ _ _)).append (CSubs.addBlp (ESubs.ev _) _)
  · exact (CSubs.flatMap (fun j _ => CSubs.levelBuf _ _ _)).append (CSubs.addBlp (ESubs.ev _) _)

/-- The only subscripts of the data are those of the loads. -/
theorem CSubs.preprocess {incX incZ : Int} {c : Chunk} (hX : ESubs P (G.loadC 0 incX c)) (hZ : G.op.prod = true → ESubs P (G.loadC 1 incZ c)) : CSubs P (G.preprocess F incX incZ c) := by
  have e := fun l => ESubs.ev (P := P) l
  unfold Gen.preprocess
  dsimp only
  split <;> rename_i hop
  · exact CSubs.setEqual hX
  · exact CSubs.setEqual (ESubs.map (f := .abs) (fun _ => rfl) hX)
  · exact (CSubs.setEqual (ESubs.vmul hX (ESubs.cst _ _))).append (CSubs.setEqual (ESubs.vmul (e _) (e _)))
  all_goals have hZ := hZ (by rw [hop]; rfl)
  · exact ((CSubs.setEqual hX).append (CSubs.setEqual hZ)).append (CSubs.setEqual (ESubs.vmul (e _) (e _)))
  · exact (((CSubs.setEqual hX).append (CSubs.setEqual hZ)).append (CSubs.setEqual (ESubs.nconj (ESubs.vmul (ESubs.swapP (e _)) (ESubs.repO (e _)))))).append
      (CSubs.setEqual (ESubs.vmul (e _) (ESubs.repE (e _))))
  · exact (((CSubs.setEqual hX).append (CSubs.setEqual hZ)).append (CSubs.setEqual (ESubs.vmul (ESubs.swapP (e _)) (ESubs.repO (e _))))).append
      (CSubs.setEqual (ESubs.conj (ESubs.vmul (e _) (ESubs.repE (e _)))))

theorem CSubs.body {incX incZ : Int} {c : Chunk} (hX : ESubs P (G.loadC 0 incX c)) (hZ : G.op.prod = true → ESubs P (G.loadC 1 incZ c)) (idx0 expand : Bool) (fold : Nat) :
    CSubs P (G.body F incX incZ idx0 expand fold c) := by
  unfold Gen.body
  refine (CSubs.preprocess hX hZ).append ?_
  split
  · exact CSubs.process0 _ _ _ _
  · exact CSubs.process _ _ _ _

theorem CSubs.abody {A : GenA} {incX incZ : Int} {c : Chunk} (hX : ESubs P (A.gen.loadC 0 incX c)) (hZ : A.prod = true → ESubs P (A.gen.loadC 1 incZ c)) :
    CSubs P (A.body incX incZ c) := by
  have e := fun l => ESubs.ev (P := P) l
  unfold GenA.body GenA.preprocess GenA.process
  dsimp only
  refine CSubs.append ?_ (CSubs.setEqual (ESubs.vmax (ESubs.cycleTo (e _) _) (e _)))
  split
  · rename_i h
    refine ((CSubs.setEqual hX).append (CSubs.setEqual (hZ h))).append ?_
    split
    · exact (CSubs.setEqual (ESubs.map (f := .abs) (fun _ => rfl) (ESubs.vmul (ESubs.swapP (e _)) (ESubs.repO (e _))))).append
        (CSubs.setEqual (ESubs.map (f := .abs) (fun _ => rfl) (ESubs.vmul (e _) (ESubs.repE (e _)))))
    · exact CSubs.setEqual (ESubs.map (f := .abs) (fun _ => rfl) (ESubs.vmul (e _) (e _)))
  · exact CSubs.setEqual (ESubs.map (f := .abs) (fun _ => rfl) hX)

end

/-! ### the subscripts of the loads are representable -/

theorem index_fit {G : Gen} {inc : Int} {n i : Nat} (h : Reach G.pw inc n) (hn : i < n * G.pw) : InInt (G.index inc i) := by
  unfold Reach at h
  unfold Gen.index
  by_cases hc : G.cplx = true
  · have hp : G.pw = 2 := by unfold Gen.pw; rw [if_pos hc]
    rw [hp] at h hn
    rw [if_pos hc]
    have hi : i / 2 + 1 ≤ n := by omega
    have h1 : (2 : Int) * |inc| * ((i / 2 : Nat) + 1 : Nat) ≤ 2147483647 := by
      have : (2 : Int) * |inc| * ((i / 2 : Nat) + 1 : Nat) ≤ 2 * |inc| * n := mul_le_mul_of_nonneg_left (by exact_mod_cast hi) (by positivity)
      push_cast at h; omega
    have h2 : |2 * inc * ((i / 2 : Nat) : Int)| = 2 * |inc| * ((i / 2 : Nat) : Int) := by rw [abs_mul, abs_mul, Nat.abs_cast]; rfl
    have h3 : i % 2 ≤ 1 := by omega
    by_cases h0 : inc = 0
    · subst h0; unfold InInt; simp; omega
    · have : 1 ≤ |inc| := Int.one_le_abs h0
      have h4 : (2 : Int) * |inc| * ((i / 2 : Nat) : Int) + 2 ≤ 2147483647 := by push_cast at h1 ⊢; nlinarith
      rw [← h2] at h4
      have := abs_le.1 (show |2 * inc * ((i / 2 : Nat) : Int)| ≤ 2147483645 by omega)
      unfold InInt
      omega
  · have hp : G.pw = 1 := by unfold Gen.pw; rw [if_neg hc]
    rw [hp] at h hn
    rw [if_neg hc]
    have h1 : |inc * (i : Int)| ≤ 2147483647 := by
      rw [abs_mul, Nat.abs_cast]
      have : |inc| * (i : Int) ≤ |inc| * n := mul_le_mul_of_nonneg_left (by exact_mod_cast (by omega : i ≤ n)) (by positivity)
      rw [Nat.cast_one, one_mul] at h; omega
    exact inInt_of_abs h1

theorem load_fit {G : Gen} {p : Nat} {inc : Int} {n : Nat} (h : Reach G.pw inc n) : ESubs InInt (G.load p inc n) := by
  have hpw : 1 ≤ G.pw := by unfold Gen.pw; split <;> omega
  unfold Gen.load
  split
  · rename_i hsimd
    have htsz : G.tsz = G.T.ts := Gen.tsz_simd hsimd
    have hbase : G.base = G.T.ts * G.pw := by unfold Gen.base; rw [if_pos hsimd]
    refine ESubs.rm (fun i hi => ?_)
    have key : ∀ t, t < G.base → i * G.base + t < n * G.pw := by
      intro t ht
      have h1 : (i + 1) * G.base ≤ n / G.tsz * G.base := Nat.mul_le_mul_right _ (by omega)
      have h2 : n / G.tsz * G.base ≤ n * G.pw := by
        rw [hbase, htsz, ← Nat.mul_assoc]; exact Nat.mul_le_mul_right _ (Nat.div_mul_le_self _ _)
      rw [Nat.add_mul, Nat.one_mul] at h1
      omega
    split
    · rename_i hinc
      intro a ha
      unfold Ex.subs at ha
      rw [List.mem_filterMap] at ha
      obtain ⟨o, ho, ha⟩ := ha
      rw [List.mem_map] at ho
      obtain ⟨t, ht, rfl⟩ := ho
      have ht := List.mem_range.1 ht
      have ha : some (G.index inc (i * G.base) + (t : Int)) = some a := ha
      injection ha with ha
      have hidx : G.index inc (i * G.base) + (t : Int) = G.index inc (i * G.base + t) := by
        unfold Gen.index
        by_cases hc : G.cplx = true
        · have hp : G.pw = 2 := by unfold Gen.pw; rw [if_pos hc]
          rw [if_pos hc, if_pos hc]
          have he : i * G.base = 2 * (i * G.T.ts) := by rw [hbase, hp]; ring
          rcases hinc with rfl | h1
          · have : 2 * ((i * G.base / 2 : Nat) : Int) + ((i * G.base % 2 : Nat) : Int) = (i * G.base : Nat) := by omega
            have : 2 * (((i * G.base + t) / 2 : Nat) : Int) + (((i * G.base + t) % 2 : Nat) : Int) = ((i * G.base + t : Nat) : Int) := by omega
            push_cast at *; omega
          · have hb2 : t < 2 := by rw [hbase, ← htsz, h1, hp] at ht; omega
            rw [show (i * G.base + t) / 2 = i * G.base / 2 by omega, show (i * G.base + t) % 2 = t by omega, show i * G.base % 2 = 0 by omega]
            push_cast; ring
        · have hp : G.pw = 1 := by unfold Gen.pw; rw [if_neg hc]
          rw [if_neg hc, if_neg hc]
          rcases hinc with rfl | h1
          · push_cast; ring
          · have : t = 0 := by rw [hbase, ← htsz, h1, hp] at ht; omega
            subst this; push_cast; ring
      rw [← ha, hidx]
      exact index_fit h (key t ht)
    · intro a ha
      unfold Ex.subs at ha
      rw [List.mem_filterMap] at ha
      obtain ⟨o, ho, ha⟩ := ha
      rw [List.mem_map] at ho
      obtain ⟨t, ht, rfl⟩ := ho
      have ha : some (G.index inc (i * G.base + t)) = some a := ha
      injection ha with ha
      rw [← ha]
      exact index_fit h (key t (List.mem_range.1 ht))
  · refine ESubs.rm (fun i hi => ?_)
    intro a ha
    have ha : a ∈ [G.index inc i] := ha
    rw [List.mem_singleton] at ha
    subst ha
    exact index_fit h hi

theorem loadC_fit {G : Gen} {p : Nat} {inc : Int} {n : Nat} {c : Chunk} (h : Reach G.pw inc n) (hc : c.count ≤ n) (h1 : 1 ≤ c.count) : ESubs InInt (G.loadC p inc c) := by
  have hpw : 1 ≤ G.pw := by unfold Gen.pw; split <;> omega
  unfold Gen.loadC
  split
  · intro e he a ha
    unfold Gen.loadPartial at he
    rw [List.mem_singleton] at he
    subst he
    unfold Ex.subs at ha
    rw [List.mem_filterMap] at ha
    obtain ⟨o, ho, ha⟩ := ha
    rw [List.mem_map] at ho
    obtain ⟨t, ht, rfl⟩ := ho
    have hlt : ∀ k, t / G.pw < k → t < k * G.pw := fun k hk => by rwa [Nat.div_lt_iff_lt_mul (by omega)] at hk
    have hlt' : t / G.pw < c.count → t < n * G.pw := fun hk => lt_of_lt_of_le (hlt _ hk) (Nat.mul_le_mul_right _ hc)
    split at ha
    · have ha : some (G.index inc t) = some a := ha
      injection ha with ha
      rw [← ha]
      exact index_fit h (hlt' (by omega))
    · split at ha
      · rename_i hh
        have ha : some (G.index inc t) = some a := ha
        injection ha with ha
        rw [← ha]
        exact index_fit h (hlt' hh.2)
      · simp at ha
  · exact load_fit (h.mono hc)

end Repro
