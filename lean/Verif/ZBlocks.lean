import Verif.PropsZVecInf
import Verif.PropsGemmInf
import Verif.PropsZGemm2
/-!
# Consecutive calls of a complex routine, one part at a time
-/

namespace Repro
open Fmt
variable {F : Fmt} {α : Type}

theorem zrest_len {T : Tune} {fold : Nat} (hfold : 1 ≤ fold) {O : ZOp α} {fuel : Nat} {es : List α} (ih : ∀ (dep : Nat) (y0 y1 : Binned), y1.pri.length = fold → (F.zvecLoop T fold O fuel (es.drop T.nb) dep (y0, y1)).2.pri.length = fold)
    {dep : Nat} {a0 a1 : Flt} {y0 y1 : Binned} (h : y1.pri.length = fold) : (zrest F T fold O fuel es dep a0 a1 y0 y1).2.pri.length = fold := by
  unfold zrest
  split
  · exact h
  · split
    · exact ih _ _ _ h
    · dsimp only
      apply ih
      have hr : (if dep + (es.take T.nb).length > F.endurance / O.e then F.dmrenorm y1 else y1).pri.length = fold := by
        split
        · rw [renorm_length]; exact h
        · exact h
      have gen : ∀ (c : Bool) (a : Flt) (u : Binned), u.pri.length = fold → (if c = true then setHead a u else u).pri.length = fold := by
        intro c a u hu
        cases c
        · exact hu
        · simp only [if_true]; rw [(setHead_nth (by omega)).2]; exact hu
      apply gen
      show (F.kernelZ T _ O.e O.fI O.zfill (es.take T.nb) _).length = fold
      rw [kernelZ_len]
      exact update_length hr

theorem zvecLoop_len {T : Tune} {fold : Nat} (hfold : 1 ≤ fold) {O : ZOp α} : ∀ (fuel : Nat) (es : List α) (dep : Nat) (y0 y1 : Binned), y1.pri.length = fold → (F.zvecLoop T fold O fuel es dep (y0, y1)).2.pri.length = fold
  | 0, es, dep, y0, y1, h => by rw [zvecLoop]; show (F.dmrenorm y1).pri.length = fold; rw [renorm_length]; exact h
  | fuel + 1, es, dep, y0, y1, h => by
    by_cases he : es = []
    · subst he
      rw [zvecLoop_nil]; show (F.dmrenorm y1).pri.length = fold; rw [renorm_length]; exact h
    · rw [zvecLoop_succ he]
      refine zrest_len hfold (fun dep y0 y1 h => zvecLoop_len hfold fuel _ dep y0 y1 h) ?_
      split
      · rw [accum0_length]; exact h
      · exact h

/-- Calls on one block after the other. -/
def zrun (F : Fmt) (T : Tune) (fold : Nat) (O : ZOp α) (bs : List (List α)) (z : Binned × Binned) : Binned × Binned := bs.foldl (fun z b => F.zvecSum T fold O b z) z

theorem zrun_cons (T : Tune) (fold : Nat) (O : ZOp α) (b : List α) (bs : List (List α)) (z : Binned × Binned) : zrun F T fold O (b :: bs) z = zrun F T fold O bs (F.zvecSum T fold O b z) := rfl

theorem zrun_swap (T : Tune) (fold : Nat) (O : ZOp α) : ∀ (bs : List (List α)) (z : Binned × Binned), zrun F T fold O.swap bs z.swap = (zrun F T fold O bs z).swap
  | [], _ => rfl
  | b :: bs, z => by
    rw [zrun_cons, zrun_cons, ← zrun_swap T fold O bs]
    congr 1
    exact zvecLoop_swap T fold O _ b 0 z

/-- The part is infinite or NaN already. -/
theorem zrun_special [F.OK] {T : Tune} (hT : T.OK F) {O : ZOp α} (hO : O.OK) (ht : TermOK F O) {fold : Nat} (hfold : 1 ≤ fold) {ex : Prop} :
    ∀ (bs : List (List α)) {y0 y1 : Binned}, (ex → ∀ b ∈ bs, TermEx F O b) → y1.pri.length = fold → F.kind (nth y1.pri 0) ≠ .fin →
      Loose ex ((F.kind (nth y1.pri 0)).add (F.kinds (partNums O.e O.fI bs.flatten))) (F.kind (nth (zrun F T fold O bs (y0, y1)).2.pri 0))
  | [], y0, y1, _, _, _ => by
    have : F.kinds (partNums O.e O.fI ([] : List (List α)).flatten) = .fin := rfl
    rw [this, Kind.add_fin]; exact Loose.refl _
  | b :: bs, y0, y1, hx, hl, hk => by
    rw [zrun_cons, List.flatten_cons, partNums_append, kinds_append, ← Kind.add_assoc]
    have h1 := zvecLoop_special hT hO ht (fold := fold) (ex := ex) b.length b (dep := 0) (y0 := y0) (y1 := y1) (Nat.le_refl _) (fun s => hx s b List.mem_cons_self) (by omega) hk
    have hlen := zvecLoop_len (F := F) (T := T) hfold (O := O) b.length b 0 y0 y1 hl
    have hne : F.kind (nth (F.zvecLoop T fold O b.length b 0 (y0, y1)).2.pri 0) ≠ .fin := by
      rcases h1.1 with e | e <;> rw [e]
      · exact Kind.add_ne_fin hk
      · exact fun h => nomatch h
    have h2 := zrun_special hT hO ht hfold bs (ex := ex) (y0 := (F.zvecLoop T fold O b.length b 0 (y0, y1)).1) (fun s b' hb => hx s b' (List.mem_cons_of_mem _ hb)) hlen hne
    exact Loose.trans h2 h1.1 h1.2

/-- An infinity or NaN among the numbers, whatever the accumulators and block sizes. -/
theorem zrun_inf [F.OK] {T : Tune} (hT : T.OK F) {O : ZOp α} (hO : O.OK) (ht : TermOK F O) {fold : Nat} (hfold : 1 ≤ fold) :
    ∀ (bs : List (List α)) {y0 y1 : Binned}, y1.pri.length = fold → F.kinds (partNums O.e O.fI bs.flatten) ≠ .fin →
      Loose False (F.kinds (partNums O.e O.fI bs.flatten)) (F.kind (nth (zrun F T fold O bs (y0, y1)).2.pri 0))
  | [], _, _, _, hk => absurd rfl hk
  | b :: bs, y0, y1, hl, hk => by
    rw [List.flatten_cons, partNums_append, kinds_append] at hk ⊢
    rw [zrun_cons]
    have hlen := zvecLoop_len (F := F) (T := T) hfold (O := O) b.length b 0 y0 y1 hl
    by_cases hb : F.kinds (partNums O.e O.fI b) = .fin
    · rw [hb, Kind.fin_add] at hk ⊢
      exact zrun_inf hT hO ht hfold bs hlen hk
    · have h1 := zvecLoop_inf hT hO ht hfold b.length b (dep := 0) (y0 := y0) (y1 := y1) (Nat.le_refl _) hl hb
      have hne : F.kind (nth (F.zvecLoop T fold O b.length b 0 (y0, y1)).2.pri 0) ≠ .fin := by
        rcases h1.1 with e | e <;> rw [e]
        · exact hb
        · exact fun h => nomatch h
      have h2 := zrun_special hT hO ht hfold (ex := False) bs (y0 := (F.zvecLoop T fold O b.length b 0 (y0, y1)).1) (fun s => s.elim) hlen hne
      exact Loose.trans h2 h1.1 h1.2

/-- All numbers of the part are finite. -/
theorem zrun_fin [F.OK] {T : Tune} (hT : T.OK F) {O : ZOp α} (hO : O.OK) {fold : Nat} (hfold : 2 ≤ fold) :
    ∀ (bs : List (List α)) {h : Hist} {y0 : Binned}, (∀ b ∈ bs, O.e * min T.nb b.length ≤ F.endurance) → h.Legal F → h.Settled → (∀ x ∈ partNums O.e O.fI bs.flatten, F.Finite x) →
      (partNums O.e O.fI bs.flatten).length + h.nums.length ≤ F.capacity → (zrun F T fold O bs (y0, h.eval F fold)).2 = F.sumSeq fold (partNums O.e O.fI bs.flatten) (h.eval F fold)
  | [], _, _, _, _, _, _, _ => rfl
  | b :: bs, h, y0, hnb, hl, hs, hx, hN => by
    rw [List.flatten_cons, partNums_append] at hx hN ⊢
    rw [List.length_append] at hN
    have hxb : ∀ x ∈ partNums O.e O.fI b, F.Finite x := fun x hx' => hx x (List.mem_append_left _ hx')
    have e := zvecSum_im hT hO (hnb b List.mem_cons_self) hfold hl (fun _ => hs) hxb (by omega) y0
    rw [zrun_cons]
    have e' : F.zvecSum T fold O b (y0, h.eval F fold) = ((F.zvecSum T fold O b (y0, h.eval F fold)).1, (Hist.ofList (partNums O.e O.fI b) h).eval F fold) := by
      rw [ofList_eval, ← e]
    rw [e', zrun_fin hT hO hfold bs (fun b' h' => hnb b' (List.mem_cons_of_mem _ h')) (ofList_legal hxb hl) (ofList_settled _ (fun _ => hs))
      (fun x hx' => hx x (List.mem_append_right _ hx')) (by rw [ofList_nums, List.length_append, List.length_reverse]; omega), ofList_eval]
    unfold sumSeq; rw [List.foldl_append]

/-- An infinity or NaN among the numbers, from a finite part. -/
theorem zrun_mixed [F.OK] {T : Tune} (hT : T.OK F) {O : ZOp α} (hO : O.OK) (ht : TermOK F O) {fold : Nat} (hfold : 2 ≤ fold) {safe : Prop} :
    ∀ (bs : List (List α)) {h : Hist} {y0 : Binned}, (∀ b ∈ bs, O.e * min T.nb b.length ≤ F.endurance) → h.Legal F → h.Settled → (safe → ∀ x ∈ h.seen, 1 ≤ F.dindex x) → (safe → ∀ b ∈ bs, ZSafe F O b) →
      (partNums O.e O.fI bs.flatten).length + h.nums.length ≤ F.capacity → F.kinds (partNums O.e O.fI bs.flatten) ≠ .fin →
      Loose safe (F.kinds (partNums O.e O.fI bs.flatten)) (F.kind (nth (zrun F T fold O bs (y0, h.eval F fold)).2.pri 0))
  | [], _, _, _, _, _, _, _, _, hk => absurd rfl hk
  | b :: bs, h, y0, hnb, hl, hs, hseen, hsafe, hN, hk => by
    rw [List.flatten_cons, partNums_append] at hN hk ⊢
    rw [List.length_append] at hN
    rw [kinds_append] at hk ⊢
    rw [zrun_cons]
    by_cases hb : F.kinds (partNums O.e O.fI b) = .fin
    · have hxb := kinds_fin.1 hb
      rw [hb, Kind.fin_add] at hk ⊢
      have e := zvecSum_im hT hO (hnb b List.mem_cons_self) hfold hl (fun _ => hs) hxb (by omega) y0
      have e' : F.zvecSum T fold O b (y0, h.eval F fold) = ((F.zvecSum T fold O b (y0, h.eval F fold)).1, (Hist.ofList (partNums O.e O.fI b) h).eval F fold) := by
        rw [ofList_eval, ← e]
      rw [e']
      refine zrun_mixed hT hO ht hfold bs (fun b' h' => hnb b' (List.mem_cons_of_mem _ h')) (ofList_legal hxb hl) (ofList_settled _ (fun _ => hs)) (fun s x hx => ?_)
        (fun s b' h' => hsafe s b' (List.mem_cons_of_mem _ h')) (by rw [ofList_nums, List.length_append, List.length_reverse]; omega) hk
      rw [ofList_seen] at hx
      rcases List.mem_append.1 hx with hx | hx
      · exact (hsafe s b List.mem_cons_self).num x (List.mem_reverse.1 hx) (hxb x (List.mem_reverse.1 hx))
      · exact hseen s x hx
    · have he : b ≠ [] := by rintro rfl; exact hb rfl
      have h1 : Loose safe (F.kinds (partNums O.e O.fI b)) (F.kind (nth (F.zvecSum T fold O b (y0, h.eval F fold)).2.pri 0)) := by
        rw [zvecSum_short]
        unfold zvecSum
        exact zvecLoop_mixed (hT.short b.length) hO ht (short_nb he (hnb b List.mem_cons_self)) hfold b.length b (N := h.nums.length) (Nat.le_refl _)
          (by rw [Nat.mul_zero]; exact hist_state hfold hl (by omega) _ hseen) (Nat.zero_le _) (by omega) (fun s => hsafe s b List.mem_cons_self) hb
      have hlen := zvecLoop_len (F := F) (T := T) (by omega : 1 ≤ fold) (O := O) b.length b 0 y0 (h.eval F fold) (eval_length h)
      have hne : F.kind (nth (F.zvecSum T fold O b (y0, h.eval F fold)).2.pri 0) ≠ .fin := by
        rcases h1.1 with e | e <;> rw [e]
        · exact hb
        · exact fun h => nomatch h
      have h2 := zrun_special hT hO ht (by omega : 1 ≤ fold) (ex := safe) bs (y0 := (F.zvecSum T fold O b (y0, h.eval F fold)).1) (fun s b' h' => (hsafe s b' (List.mem_cons_of_mem _ h')).ex) hlen hne
      exact Loose.trans h2 h1.1 h1.2

end Repro
