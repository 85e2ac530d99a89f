import Verif.PropsKernel
/-!
# C33: the maximum-magnitude routine
-/

namespace Repro
open Fmt
variable {F : Fmt}

/-- The largest magnitude of a list of bit patterns (magnitude bits are ordered like the magnitudes). -/
def maxMag (vs : List Flt) : Nat := vs.foldr (fun x m => max x.mag m) 0

theorem le_maxMag {vs : List Flt} {x : Flt} (h : x ∈ vs) : x.mag ≤ maxMag vs := by
  induction vs with
  | nil => simp at h
  | cons v vs ih =>
    unfold maxMag at *
    rw [List.foldr_cons]
    rcases List.mem_cons.1 h with e | e
    · subst e; omega
    · have := ih e; omega

theorem maxMag_le {vs : List Flt} {M : Nat} (h : ∀ x ∈ vs, x.mag ≤ M) : maxMag vs ≤ M := by
  induction vs with
  | nil => simp [maxMag]
  | cons v vs ih =>
    have h1 := h v List.mem_cons_self
    have h2 := ih (fun x hx => h x (List.mem_cons_of_mem _ hx))
    unfold maxMag at *
    rw [List.foldr_cons]; omega

theorem maxMag_mem {vs : List Flt} (h : vs ≠ []) : ∃ x ∈ vs, x.mag = maxMag vs := by
  induction vs with
  | nil => exact absurd rfl h
  | cons v vs ih =>
    by_cases h0 : vs = []
    · subst h0; exact ⟨v, List.mem_cons_self, by simp [maxMag]⟩
    · obtain ⟨x, hx, he⟩ := ih h0
      unfold maxMag at *
      rw [List.foldr_cons]
      by_cases hv : v.mag ≤ x.mag
      · exact ⟨x, List.mem_cons_of_mem _ hx, by omega⟩
      · exact ⟨v, List.mem_cons_self, by omega⟩

/-- Not negative and at most `M`. -/
def Pos (M : Nat) (x : Flt) : Prop := x.neg = false ∧ x.mag ≤ M

theorem fmax_pos {M : Nat} (hM : M ≤ F.infMag) {a b : Flt} (ha : Pos M a) (hb : Pos M b) :
    Pos M (F.fmax a b) ∧ a.mag ≤ (F.fmax a b).mag ∧ b.mag ≤ (F.fmax a b).mag := by
  have ka : key a = a.mag := by unfold key; simp [ha.1]
  have kb : key b = b.mag := by unfold key; simp [hb.1]
  have na : F.isNaN a = false := by unfold isNaN; have := ha.2; simp; omega
  have nb : F.isNaN b = false := by unfold isNaN; have := hb.2; simp; omega
  unfold fmax lt
  rw [na, nb, ka, kb]
  simp only [Bool.not_false, Bool.true_and, decide_eq_true_eq]
  split
  · exact ⟨ha, by omega, by omega⟩
  · exact ⟨hb, by omega, by omega⟩

theorem nth_set_self {m : List Flt} {i : Nat} (h : i < m.length) (v : Flt) : nth (m.set i v) i = v := by
  unfold nth; rw [List.getD_eq_getElem?_getD, List.getElem?_set_self h]; rfl

theorem nth_set_ne {m : List Flt} {i j : Nat} (h : i ≠ j) (v : Flt) : nth (m.set i v) j = nth m j := by
  unfold nth; rw [List.getD_eq_getElem?_getD, List.getElem?_set_ne h, ← List.getD_eq_getElem?_getD]

/-- Running maxima over the lanes. -/
theorem maxLanes {M : Nat} (hM : M ≤ F.infMag) : ∀ (tr : List (Nat × Flt)) (m : List Flt),
    (∀ i, Pos M (nth m i)) → (∀ d ∈ tr, d.1 < m.length ∧ Pos M d.2) →
    let r := tr.foldl (fun m d => m.set d.1 (F.fmax (nth m d.1) d.2)) m
    (∀ i, Pos M (nth r i)) ∧ (∀ i, (nth m i).mag ≤ (nth r i).mag) ∧ ∀ d ∈ tr, d.2.mag ≤ (nth r d.1).mag := by
  intro tr
  induction tr with
  | nil => intro m hm _; exact ⟨hm, fun i => le_refl _, by simp⟩
  | cons d tr ih =>
    intro m hm hd
    have h0 := hd d List.mem_cons_self
    have hf := fmax_pos (F := F) hM (hm d.1) h0.2
    have hstep : ∀ i, Pos M (nth (m.set d.1 (F.fmax (nth m d.1) d.2)) i) ∧
        (nth m i).mag ≤ (nth (m.set d.1 (F.fmax (nth m d.1) d.2)) i).mag := by
      intro i
      by_cases hi : d.1 = i
      · rw [← hi, nth_set_self h0.1]; exact ⟨hf.1, hf.2.1⟩
      · rw [nth_set_ne hi]; exact ⟨hm i, le_refl _⟩
    have := ih (m.set d.1 (F.fmax (nth m d.1) d.2)) (fun i => (hstep i).1) (by
      intro z hz; rw [List.length_set]; exact hd z (List.mem_cons_of_mem _ hz))
    rw [List.foldl_cons]
    refine ⟨this.1, fun i => Nat.le_trans (hstep i).2 (this.2.1 i), ?_⟩
    intro z hz
    rcases List.mem_cons.1 hz with e | e
    · subst e
      have h1 := this.2.1 z.1
      rw [nth_set_self h0.1] at h1
      exact Nat.le_trans hf.2.2 h1
    · exact this.2.2 z e

theorem maxFinal {M : Nat} (hM : M ≤ F.infMag) {m : List Flt} (hm : ∀ i, Pos M (nth m i)) : ∀ n,
    let r := (List.range' 1 n).foldl (fun a i => F.fmax a (nth m i)) (nth m 0)
    Pos M r ∧ ∀ i, i ≤ n → (nth m i).mag ≤ r.mag := by
  intro n
  induction n with
  | zero => exact ⟨hm 0, fun i hi => by have : i = 0 := by omega
                                        subst this; exact le_refl _⟩
  | succ n ih =>
    rw [foldl_range'_succ]
    have h := fmax_pos (F := F) hM ih.1 (hm (n + 1))
    refine ⟨h.1, ?_⟩
    intro i hi
    by_cases e : i = n + 1
    · rw [e]; exact h.2.2
    · exact Nat.le_trans (ih.2 i (by omega)) h.2.1

theorem amax_done {T : Tune} (h : T.OK F) (n : Nat) : LoopDone T.ts T.aunroll n (runUnrolled T.ts T.aunroll n) := by
  obtain ⟨a, ha⟩ := h.ts
  exact runUnrolled_done (Or.inr ⟨a, ha⟩) h.au1 (Or.inl h.au)

/-- The maximum kernel on non-negative numbers without NaN. -/
theorem amaxK_eq [F.OK] {T : Tune} (h : T.OK F) {vs : List Flt} (hv : ∀ x ∈ vs, x.neg = false ∧ F.isNaN x = false) :
    F.amaxK T vs = ⟨false, maxMag vs⟩ := by
  have hts : 1 ≤ T.ts := by obtain ⟨a, ha⟩ := h.ts; rw [ha]; exact Nat.two_pow_pos a
  have hnn : ∀ x ∈ vs, x.mag ≤ F.infMag := by
    intro x hx; have := (hv x hx).2; unfold isNaN at this; simpa using this
  have hM : maxMag vs ≤ F.infMag := maxMag_le hnn
  have hdone := amax_done h vs.length
  have hpv : ∀ x ∈ vs, Pos (maxMag vs) x := fun x hx => ⟨(hv x hx).1, le_maxMag hx⟩
  have hpz : Pos (maxMag vs) zero := ⟨rfl, Nat.zero_le _⟩
  unfold amaxK
  generalize htr : (runUnrolled T.ts T.aunroll vs.length).done.flatMap (fun c =>
    if c.part then
      (List.range T.ts).map (fun l => (l, if l < c.count then nth vs (c.off + l) else zero))
    else (List.range c.count).map (fun e => (e % T.ts, nth vs (c.off + e)))) = tr
  have hmem : ∀ d ∈ tr, d.1 < T.ts ∧ Pos (maxMag vs) d.2 := by
    intro d hd
    rw [← htr, List.mem_flatMap] at hd
    obtain ⟨c, hc, hd⟩ := hd
    split at hd
    · rw [List.mem_map] at hd
      obtain ⟨l, hl, rfl⟩ := hd
      refine ⟨List.mem_range.1 hl, ?_⟩
      dsimp only
      split
      · rename_i hlc
        exact hpv _ (chunks_mem (T := T) (le_refl _) hdone.vis hc (e := c.off + l) (by
          unfold Chunk.elems; rw [List.mem_range']; exact ⟨l, hlc, by omega⟩))
      · exact hpz
    · rw [List.mem_map] at hd
      obtain ⟨l, hl, rfl⟩ := hd
      refine ⟨Nat.mod_lt _ hts, ?_⟩
      exact hpv _ (chunks_mem (T := T) (le_refl _) hdone.vis hc (e := c.off + l) (by
          unfold Chunk.elems; rw [List.mem_range']; exact ⟨l, List.mem_range.1 hl, by omega⟩))
  have hall : ∀ x ∈ vs, ∃ d ∈ tr, d.2 = x := by
    intro x hx
    rw [← nth_list vs, List.mem_map] at hx
    obtain ⟨i, hi, rfl⟩ := hx
    rw [← hdone.vis, List.mem_flatMap] at hi
    obtain ⟨c, hc, hi⟩ := hi
    unfold Chunk.elems at hi
    rw [List.mem_range'] at hi
    obtain ⟨e, he, hie⟩ := hi
    have hie : i = c.off + e := by omega
    subst hie
    have hsh := hdone.shape c hc
    by_cases hp : c.part = true
    · unfold Chunk.Shaped at hsh
      rw [if_pos hp] at hsh
      refine ⟨(e, nth vs (c.off + e)), ?_, rfl⟩
      rw [← htr, List.mem_flatMap]
      refine ⟨c, hc, ?_⟩
      rw [if_pos hp, List.mem_map]
      exact ⟨e, List.mem_range.2 (by omega), by rw [if_pos he]⟩
    · refine ⟨(e % T.ts, nth vs (c.off + e)), ?_, rfl⟩
      rw [← htr, List.mem_flatMap]
      refine ⟨c, hc, ?_⟩
      rw [if_neg hp, List.mem_map]
      exact ⟨e, List.mem_range.2 he, rfl⟩
  have hrep : ∀ i, nth (List.replicate T.ts zero) i = zero := by
    intro i; unfold nth
    rw [List.getD_eq_getElem?_getD, List.getElem?_replicate]; split <;> rfl
  have h1 := maxLanes (F := F) hM tr (List.replicate T.ts zero) (fun i => by rw [hrep]; exact hpz)
    (fun d hd => by rw [List.length_replicate]; exact hmem d hd)
  dsimp only at h1 ⊢
  have h2 := maxFinal (F := F) hM h1.1 (T.ts - 1)
  dsimp only at h2
  generalize hr : (List.range' 1 (T.ts - 1)).foldl (fun a i => F.fmax a (nth (tr.foldl (fun m d => m.set d.1 (F.fmax (nth m d.1) d.2)) (List.replicate T.ts zero)) i)) (nth (tr.foldl (fun m d => m.set d.1 (F.fmax (nth m d.1) d.2)) (List.replicate T.ts zero)) 0) = r at h2 ⊢
  have hge : maxMag vs ≤ r.mag := by
    apply maxMag_le
    intro x hx
    obtain ⟨d, hd, rfl⟩ := hall x hx
    have := hmem d hd
    exact Nat.le_trans (h1.2.2 d hd) (h2.2 d.1 (by omega))
  obtain ⟨n, g⟩ := r
  have e1 : n = false := h2.1.1
  have e2 : g ≤ maxMag vs := h2.1.2
  have e3 : maxMag vs ≤ g := hge
  have : g = maxMag vs := by omega
  rw [e1, this]

theorem maxMag_fabs (xs : List Flt) : maxMag (xs.map fabs) = maxMag xs := by
  induction xs with
  | nil => rfl
  | cons x xs ih => unfold maxMag at *; rw [List.map_cons, List.foldr_cons, List.foldr_cons, ih]; rfl

theorem damax_eq [F.OK] {T : Tune} (h : T.OK F) {xs : List Flt} (hx : ∀ x ∈ xs, F.isNaN x = false) :
    F.damax T xs = ⟨false, maxMag xs⟩ := by
  unfold damax
  rw [amaxK_eq h, maxMag_fabs]
  intro x hx'
  rw [List.mem_map] at hx'
  obtain ⟨y, hy, rfl⟩ := hx'
  exact ⟨rfl, hx y hy⟩

/-- **C33.** On a vector without NaN the maximum-magnitude routine returns a number that is the absolute
value of an element (zero for the empty vector) and is at least the absolute value of every element,
for every tuning of the kernel; in particular the result does not depend on the order or on the lanes. -/
theorem C33_amax [F.OK] {T : Tune} (h : T.OK F) {xs : List Flt} (hx : ∀ x ∈ xs, F.isNaN x = false) :
    (xs = [] → F.damax T xs = zero) ∧
    (xs ≠ [] → ∃ x ∈ xs, F.damax T xs = fabs x) ∧
    (∀ x ∈ xs, F.lt (F.damax T xs) (fabs x) = false ∧ (fabs x).mag ≤ (F.damax T xs).mag) := by
  rw [damax_eq h hx]
  refine ⟨fun h0 => by subst h0; rfl, ?_, ?_⟩
  · intro h0
    obtain ⟨x, hxm, he⟩ := maxMag_mem h0
    exact ⟨x, hxm, by rw [← he]; rfl⟩
  · intro x hxm
    have := le_maxMag hxm
    refine ⟨?_, this⟩
    unfold lt key fabs
    simp; intro _ _; omega

theorem C33_order_independent [F.OK] {T T' : Tune} (h : T.OK F) (h' : T'.OK F) {xs ys : List Flt} (hp : xs.Perm ys)
    (hx : ∀ x ∈ xs, F.isNaN x = false) : F.damax T xs = F.damax T' ys := by
  rw [damax_eq h hx, damax_eq h' (fun y hy => hx y (hp.mem_iff.2 hy))]
  congr 1
  apply Nat.le_antisymm
  · exact maxMag_le (fun x hx => le_maxMag (hp.mem_iff.1 hx))
  · exact maxMag_le (fun x hx => le_maxMag (hp.mem_iff.2 hx))

/-- The product maximum is the maximum of the rounded products. -/
theorem C33_amaxm [F.OK] {T : Tune} (h : T.OK F) {xs ys : List Flt}
    (hx : ∀ v ∈ List.zipWith F.mul xs ys, F.isNaN v = false) :
    F.damaxm T xs ys = F.damax T (List.zipWith F.mul xs ys) ∧
    F.damaxm T xs ys = ⟨false, maxMag (List.zipWith F.mul xs ys)⟩ :=
  ⟨rfl, damax_eq h hx⟩

/-- With a NaN in the vector the result depends on the order: `[NaN, 1]` gives 1, `[1, NaN]` gives NaN. -/
theorem C33_nan_order_dependent :
    f64.damax exSISD [f64.nan, f64.pow2 0] = f64.pow2 0 ∧ f64.isNaN (f64.damax exSISD [f64.pow2 0, f64.nan]) = true := by
  decide +kernel

example : (∀ x ∈ exVs, f64.isNaN x = false) ∧ f64.damax exAVX exVs = fabs (nth exVs 22) := by decide +kernel

end Repro
