import Verif.GenRun
import Verif.PropsGenAmax
import Verif.PropsMem
/-!
# C64: the vector routines in memory, executed statement by statement, have the effect of the list models
-/

namespace Repro
open Fmt
variable {F : Fmt}

/-! ### Storing the primaries -/

theorem storeY_spec {n : Nat} {l : Loc} (hs : Sep n l) (k : Nat) (σ : Regs) (m : Mem) :
    view n l (storeY n k l σ m) = ⟨(List.range n).map (fun j => σ (.y k j) 0), (view n l m).car⟩
    ∧ (∀ a, (∀ i < n, a ≠ l.P i) → storeY n k l σ m a = m a) := by
  have key : ∀ r, r ≤ n → (∀ j, j < r → ((List.range r).foldl (fun m j => m.set (l.P j) (σ (.y k j) 0)) m) (l.P j) = σ (.y k j) 0)
      ∧ (∀ a, (∀ i < r, a ≠ l.P i) → ((List.range r).foldl (fun m j => m.set (l.P j) (σ (.y k j) 0)) m) a = m a) := by
    intro r
    induction r with
    | zero => intro _; exact ⟨fun j hj => by omega, fun a _ => rfl⟩
    | succ r ih =>
      intro hr
      have ⟨i1, i2⟩ := ih (by omega)
      rw [List.range_succ, List.foldl_append]
      generalize (List.range r).foldl (fun m j => m.set (l.P j) (σ (.y k j) 0)) m = m' at *
      refine ⟨?_, ?_⟩
      · intro j hj
        by_cases he : j = r
        · subst he; exact Mem.set_same _ _ _
        · show m'.set _ _ _ = _
          rw [Mem.set_ne _ _ (fun e => he (hs.pp _ (by omega) _ (by omega) e))]
          exact i1 j (by omega)
      · intro a ha
        show m'.set _ _ _ = _
        rw [Mem.set_ne _ _ (ha r (by omega))]
        exact i2 a (fun i hi => ha i (by omega))
  have ⟨k1, k2⟩ := key n (Nat.le_refl _)
  refine ⟨?_, k2⟩
  apply view_mk
  · apply List.map_congr_left
    intro j hj
    exact k1 j (List.mem_range.mp hj)
  · intro i hi
    exact k2 _ (fun j hj e => hs.pc j hj i hi e.symm)

/-! ### The exceptional loop -/

theorem accum0M_spec (n : Nat) (t : Nat → Mem → Flt) (vs : List Flt) (hv : vs.length = n) (a : Int) (m : Mem)
    (ht : ∀ j, j < n → ∀ m', (∀ b, b ≠ a → m' b = m b) → t j m' = nth vs j) :
    F.accum0M n t a m a = vs.foldl F.add (m a) ∧ (∀ b, b ≠ a → F.accum0M n t a m b = m b) := by
  subst hv
  unfold accum0M
  have key : ∀ r, r ≤ vs.length →
      ((List.range r).foldl (fun m j => m.set a (F.add (m a) (t j m))) m) a = (vs.take r).foldl F.add (m a)
      ∧ (∀ b, b ≠ a → ((List.range r).foldl (fun m j => m.set a (F.add (m a) (t j m))) m) b = m b) := by
    intro r
    induction r with
    | zero => intro _; exact ⟨rfl, fun b _ => rfl⟩
    | succ r ih =>
      intro hr
      have ⟨i1, i2⟩ := ih (by omega)
      rw [List.range_succ, List.foldl_append, List.take_succ, List.foldl_append]
      generalize (List.range r).foldl (fun m j => m.set a (F.add (m a) (t j m))) m = m' at *
      refine ⟨?_, ?_⟩
      · show m'.set _ _ _ = _
        rw [Mem.set_same, i1, ht r (by omega) m' i2]
        unfold nth
        rw [List.getD_eq_getElem?_getD, List.getElem?_eq_getElem (by omega : r < vs.length)]
        rfl
      · intro b hb
        show m'.set _ _ _ = _
        rw [Mem.set_ne _ _ hb]; exact i2 b hb
  have := key vs.length (Nat.le_refl _)
  rwa [List.take_length] at this

theorem accum0M_view {n N : Nat} (hn : 1 ≤ n) {l : Loc} (hs : Sep n l) (t : Nat → Mem → Flt) (vs : List Flt) (hv : vs.length = N) (m : Mem)
    (ht : ∀ j, j < N → ∀ m', (∀ b, b ≠ l.pri → m' b = m b) → t j m' = nth vs j) :
    view n l (F.accum0M N t l.pri m) = F.accum0 vs (view n l m) ∧ (∀ b, b ≠ l.pri → F.accum0M N t l.pri m b = m b) := by
  have ⟨h1, h2⟩ := accum0M_spec (F := F) N t vs hv l.pri m ht
  refine ⟨?_, h2⟩
  have e : F.accum0M N t l.pri m = m.set l.pri (vs.foldl F.add (m l.pri)) := by
    funext b
    by_cases hb : b = l.pri
    · subst hb; rw [h1, Mem.set_same]
    · rw [h2 b hb, Mem.set_ne _ _ hb]
  rw [e, (set0_refines hn hs m _).1]
  unfold accum0
  rw [view_pri_cons hn]

/-! ### The values of a block -/

/-- The values a real routine deposits. -/
def rvals (F : Fmt) (op : DepOp) (m : Mem) (X Z incX incZ : Int) (n : Nat) : List Flt :=
  (List.range n).map (fun (i : Nat) => rterm F op (m (X + i * incX)) (m (Z + i * incZ)))

theorem rvals_length (op : DepOp) (m : Mem) (X Z incX incZ : Int) (n : Nat) : (rvals F op m X Z incX incZ n).length = n := by
  unfold rvals; simp

theorem nth_rvals (op : DepOp) (m : Mem) (X Z incX incZ : Int) {n j : Nat} (hj : j < n) :
    nth (rvals F op m X Z incX incZ n) j = rterm F op (m (X + j * incX)) (m (Z + j * incZ)) := nth_rm _ hj

theorem rvals_take (op : DepOp) (m : Mem) (X Z incX incZ : Int) (n k : Nat) :
    (rvals F op m X Z incX incZ n).take k = rvals F op m X Z incX incZ (min n k) := by
  unfold rvals
  rw [← List.map_take, List.take_range, Nat.min_comm]

theorem rvals_drop (op : DepOp) (m : Mem) (X Z incX incZ : Int) (n k : Nat) :
    (rvals F op m X Z incX incZ n).drop k = rvals F op m (X + (min n k : Nat) * incX) (Z + (min n k : Nat) * incZ) incX incZ (n - min n k) := by
  unfold rvals
  rw [← List.map_drop]
  by_cases h : k ≤ n
  · rw [Nat.min_eq_right h, List.range_eq_range', List.drop_range', List.range'_eq_map_range, List.map_map]
    simp only [Nat.zero_add, Nat.mul_one, Nat.one_mul]
    apply List.map_congr_left
    intro i _
    simp only [Function.comp_apply]
    push_cast
    rw [show X + (k : Int) * incX + (i : Int) * incX = X + ((k : Int) + i) * incX by ring,
      show Z + (k : Int) * incZ + (i : Int) * incZ = Z + ((k : Int) + i) * incZ by ring]
  · rw [Nat.min_eq_left (by omega), Nat.sub_self, List.drop_eq_nil_of_le (by simp; omega)]
    rfl

/-- The words the routine reads. -/
def RReads (op : DepOp) (X Z incX incZ : Int) (n : Nat) (P : Int → Prop) : Prop :=
  ∀ i : Nat, i < n → P (X + i * incX) ∧ (op.prod = true → P (Z + i * incZ))

theorem rvals_congr {op : DepOp} (hop : op = .sum ∨ op = .asum ∨ op = .dot) {m m' : Mem} {X Z incX incZ : Int} {n : Nat}
    (h : RReads op X Z incX incZ n (fun a => m' a = m a)) : rvals F op m' X Z incX incZ n = rvals F op m X Z incX incZ n := by
  unfold rvals
  apply List.map_congr_left
  intro i hi
  have ⟨h1, h2⟩ := h i (List.mem_range.mp hi)
  unfold rterm
  rcases hop with rfl | rfl | rfl
  · exact h1
  · exact congrArg fabs h1
  · dsimp only; rw [h1, h2 rfl]

theorem amax_rvals {T : Tune} (hT : T.OK F) [F.OK] {op : DepOp} (hop : op = .sum ∨ op = .asum ∨ op = .dot) (m : Mem) (X Z incX incZ : Int) (n : Nat) (σ : Regs) :
    (GenA.mk T false op.prod).code F (behind m X Z) incX incZ n σ (.am 0) 0 = F.amaxK T ((rvals F op m X Z incX incZ n).map fabs) := by
  rcases hop with rfl | rfl | rfl
  · refine (C63_amax hT (behind m X Z) incX incZ n σ 0).trans ?_
    rfl
  · refine (C63_amax hT (behind m X Z) incX incZ n σ 0).trans ?_
    unfold damax rvals gather
    rw [List.map_map, List.map_map]
    rfl
  · refine (C63_amaxm hT (behind m X Z) incX incZ n σ 0).trans ?_
    unfold damaxm rvals gather
    rw [zip_rm, Nat.min_self]
    rfl

theorem kernel_rvals [F.OK] {T : Tune} (hT : T.OK F) {op : DepOp} (hop : op = .sum ∨ op = .asum ∨ op = .dot) (m : Mem) (X Z incX incZ : Int) {expand : Bool} {fold : Nat}
    (hf : 1 ≤ fold) (he : expand = true → 2 ≤ fold) (n : Nat) (l : Loc) (σ : Regs) {j : Nat} (hj : j < fold) :
    (Gen.mk T false op).kernelCode F (behind m X Z) incX incZ expand fold n (bindY l l m σ) (.y 0 j) 0
      = nth (F.kernel T (rvals F op m X Z incX incZ n) (view fold l m).pri) j := by
  rcases hop with rfl | rfl | rfl
  · exact C62_sum hT (behind m X Z) incX incZ hf he (bindY l l m σ) hj 0
  · refine (C62_asum hT (behind m X Z) incX incZ hf he (bindY l l m σ) hj 0).trans ?_
    unfold rvals gather
    rw [List.map_map]
    rfl
  · exact C62_dot hT (behind m X Z) incX incZ hf he (bindY l l m σ) hj 0

/-- A block deposited in memory. -/
theorem block_view [F.OK] {T : Tune} (hT : T.OK F) {op : DepOp} (hop : op = .sum ∨ op = .asum ∨ op = .dot) (m : Mem) (X Z incX incZ : Int) {expand : Bool} {fold : Nat}
    (hf : 1 ≤ fold) (he : expand = true → 2 ≤ fold) (n : Nat) {l : Loc} (hs : Sep fold l) (σ : Regs) :
    view fold l (storeY fold 0 l ((Gen.mk T false op).kernelCode F (behind m X Z) incX incZ expand fold n (bindY l l m σ)) m)
      = ⟨F.kernel T (rvals F op m X Z incX incZ n) (view fold l m).pri, (view fold l m).car⟩ := by
  rw [(storeY_spec hs 0 _ m).1]
  congr 1
  have hl : (F.kernel T (rvals F op m X Z incX incZ n) (view fold l m).pri).length = fold := by
    unfold Fmt.kernel Fmt.consolidate view; simp
  generalize hk : F.kernel T (rvals F op m X Z incX incZ n) (view fold l m).pri = ks at *
  apply List.ext_getElem
  · simp [hl]
  · intro j h1 h2
    have hj : j < fold := by omega
    rw [List.getElem_map, List.getElem_range, kernel_rvals hT hop m X Z incX incZ hf he n l σ hj, hk]
    unfold nth
    rw [List.getD_eq_getElem?_getD, List.getElem?_eq_getElem h2]; rfl

/-! ### The block loop -/

/-- A kernel advances its data pointers by the length of the block. -/
theorem adv_eq {G : Gen} (hT : G.T.OK F) (n : Nat) : (runUnrolled G.tsz (G.T.pipe * G.T.unroll) n).off = n := by
  obtain ⟨a, ha⟩ := hT.ts
  obtain ⟨b, hb⟩ := hT.pipe
  have hN0 : 0 < G.T.pipe := by rw [hb]; exact Nat.two_pow_pos b
  have hdv : G.T.ts ∣ G.T.pipe := by
    rw [ha, hb]; apply Nat.pow_dvd_pow
    have := hT.tp; rw [ha, hb] at this
    exact (Nat.pow_le_pow_iff_right (by omega : 1 < 2)).1 this
  rw [Gen.done_eq hT]
  exact (C37_every_element_once (Or.inr ⟨a, ha⟩) (Nat.mul_pos hN0 hT.unroll) (Or.inl (Dvd.dvd.mul_right hdv _))).2

theorem rloopM_spec [F.OK] {T : Tune} (hT : T.OK F) {op : DepOp} (hop : op = .sum ∨ op = .asum ∨ op = .dot) {expand : Bool} {fold : Nat}
    (hf : 1 ≤ fold) (he : expand = true → 2 ≤ fold) {l : Loc} (hs : Sep fold l) (incX incZ : Int) (jA jD : Nat → Regs) (fuel : Nat) :
    ∀ (rem : Nat) (X Z : Int) (dep : Nat) (m : Mem), RReads op X Z incX incZ rem (fun a => ¬ l.In fold a) →
      view fold l (F.rloopM T op expand fold l incX incZ jA jD fuel rem X Z dep m)
        = F.vecLoop T fold fuel (rvals F op m X Z incX incZ rem) dep (view fold l m)
      ∧ ∀ a, ¬ l.In fold a → F.rloopM T op expand fold l incX incZ jA jD fuel rem X Z dep m a = m a := by
  have hren := dmrenormM_refines (F := F) hf hs
  induction fuel with
  | zero => intro rem X Z dep m _; exact hren m
  | succ fuel ih =>
    intro rem X Z dep m hr
    unfold rloopM vecLoop
    by_cases h0 : rem = 0
    · have : rvals F op m X Z incX incZ rem = [] := by rw [h0]; rfl
      rw [if_pos h0, if_pos this]; exact hren m
    · have hne : rvals F op m X Z incX incZ rem ≠ [] := by
        intro h; apply h0; rw [← rvals_length (F := F) op m X Z incX incZ rem, h]; rfl
      rw [if_neg h0, if_neg hne]
      have hnb := hT.nb1
      simp only [rvals_take, amax_rvals hT hop]
      have hmin : min rem T.nb ≤ rem := Nat.min_le_left _ _
      set nb := min rem T.nb with hnbd
      set amax := F.amaxK T ((rvals F op m X Z incX incZ nb).map fabs) with hamax
      have hpri : ∀ m : Mem, nth (view fold l m).pri 0 = m l.pri := by intro m; rw [nth_view_pri l m (by omega), Loc.P0]
      have hIn : l.In fold l.pri := by rw [← Loc.P0]; exact l.inP (by omega)
      -- the exceptional loop
      obtain ⟨m1, hm1, hv1, hf1⟩ : ∃ m1, (if (F.isInf amax || F.isInf (m l.pri)) = true then
          F.accum0M nb (fun j m => rterm F op (m (X + j * incX)) (m (Z + j * incZ))) l.pri m else m) = m1
          ∧ view fold l m1 = (if (F.isInf amax || F.isInf (nth (view fold l m).pri 0)) = true then F.accum0 (rvals F op m X Z incX incZ nb) (view fold l m) else view fold l m)
          ∧ ∀ a, ¬ l.In fold a → m1 a = m a := by
        refine ⟨_, rfl, ?_⟩
        rw [hpri]
        by_cases hi : (F.isInf amax || F.isInf (m l.pri)) = true
        · rw [if_pos hi, if_pos hi]
          have hacc := accum0M_view (F := F) (N := nb) hf hs (fun j m => rterm F op (m (X + j * incX)) (m (Z + j * incZ)))
            (rvals F op m X Z incX incZ nb) (rvals_length _ _ _ _ _ _ _) m (by
              intro j hj m' hm'
              rw [nth_rvals _ _ _ _ _ _ hj]
              have ⟨r1, r2⟩ := hr j (by omega)
              have e1 : m' (X + j * incX) = m (X + j * incX) := hm' _ (fun e => r1 (e ▸ hIn))
              unfold rterm
              rcases hop with rfl | rfl | rfl
              · exact e1
              · exact congrArg fabs e1
              · dsimp only; rw [e1, hm' (Z + j * incZ) (fun e => r2 rfl (e ▸ hIn))])
          exact ⟨hacc.1, fun a ha => hacc.2 a (fun e => ha (e ▸ hIn))⟩
        · rw [if_neg hi, if_neg hi]; exact ⟨rfl, fun a _ => rfl⟩
      rw [hm1, ← hv1, hpri]
      have hr1 : ∀ m' : Mem, (∀ a, ¬ l.In fold a → m' a = m a) → ∀ k, k ≤ rem → rvals F op m' X Z incX incZ k = rvals F op m X Z incX incZ k := by
        intro m' hm' k hk
        exact rvals_congr hop (fun i hi => ⟨hm' _ (hr i (by omega)).1, fun hp => hm' _ ((hr i (by omega)).2 hp)⟩)
      have hdrop : ∀ m' : Mem, (∀ a, ¬ l.In fold a → m' a = m a) →
          (rvals F op m X Z incX incZ rem).drop T.nb = rvals F op m' (X + nb * incX) (Z + nb * incZ) incX incZ (rem - nb) := by
        intro m' hm'
        rw [← hr1 m' hm' rem (Nat.le_refl _), rvals_drop]
      have hrd : RReads op (X + nb * incX) (Z + nb * incZ) incX incZ (rem - nb) (fun a => ¬ l.In fold a) := by
        intro i hi
        have := hr (nb + i) (by omega)
        rw [show X + (nb : Int) * incX + (i : Int) * incX = X + ((nb + i : Nat) : Int) * incX by push_cast; ring,
          show Z + (nb : Int) * incZ + (i : Int) * incZ = Z + ((nb + i : Nat) : Int) * incZ by push_cast; ring]
        exact this
      split
      · exact ⟨rfl, hf1⟩
      · split
        · have := ih (rem - nb) (X + nb * incX) (Z + nb * incZ) dep m1 hrd
          rw [this.1, hdrop m1 hf1]
          exact ⟨rfl, fun a ha => (this.2 a ha).trans (hf1 a ha)⟩
        · rw [rvals_length]
          obtain ⟨m2, hm2, hv2, hf2⟩ : ∃ m2, (if dep + nb > F.endurance then F.dmrenormM fold l m1 else m1) = m2
              ∧ view fold l m2 = (if dep + nb > F.endurance then F.dmrenorm (view fold l m1) else view fold l m1)
              ∧ ∀ a, ¬ l.In fold a → m2 a = m a := by
            refine ⟨_, rfl, ?_⟩
            split
            · exact ⟨(hren m1).1, fun a ha => ((hren m1).2 a ha).trans (hf1 a ha)⟩
            · exact ⟨rfl, hf1⟩
          rw [hm2, ← hv2]
          have hup := dmdupdateM_refines (F := F) hf hs amax m2
          rw [← hup.1]
          generalize F.dmdupdateM fold amax l m2 = m3 at *
          have hf3 : ∀ a, ¬ l.In fold a → m3 a = m a := fun a ha => (hup.2 a ha).trans (hf2 a ha)
          have hk := block_view hT hop m3 X Z incX incZ hf he nb hs (jD rem)
          have hst := (storeY_spec hs 0 ((Gen.mk T false op).kernelCode F (behind m3 X Z) incX incZ expand fold nb (bindY l l m3 (jD rem))) m3).2
          rw [hr1 m3 hf3 nb hmin] at hk
          rw [← hk]
          generalize storeY fold 0 l ((Gen.mk T false op).kernelCode F (behind m3 X Z) incX incZ expand fold nb (bindY l l m3 (jD rem))) m3 = m4 at *
          have hf4 : ∀ a, ¬ l.In fold a → m4 a = m a := fun a ha => (hst a (fun i hi e => ha ⟨i, hi, Or.inl e⟩)).trans (hf3 a ha)
          have hadv : (runUnrolled (Gen.mk T false op).tsz (T.pipe * T.unroll) nb).off = nb := by
            exact adv_eq (G := Gen.mk T false op) hT nb
          rw [hadv, mul_comm incX, mul_comm incZ]
          have := ih (rem - nb) (X + nb * incX) (Z + nb * incZ) ((if dep + nb > F.endurance then 0 else dep) + nb) m4 hrd
          rw [this.1, hdrop m4 hf4]
          exact ⟨rfl, fun a ha => (this.2 a ha).trans (hf4 a ha)⟩

end Repro
