import Verif.PropsDistrib
import Verif.PropsAccuracy4

/-!
# C80: distributed complex matrix products

The complex version of C77: an entry of a complex matrix product computed by any program of calls of `zbzgemm` and `zbzgemv` and merges with `zbzbadd`. As C45 and C47, it is
proved where the complex routines are right.
-/

namespace Repro
open Fmt

variable {F : Fmt}

/-- A call of `zbzgemv` (`src/binnedBLAS/zbzgemv.ccog`), and the row of the result that holds the entry in question. -/
structure ZGemvCall where
  T : Tune
  b : GemvB
  gx : Int → Flt × Flt
  g : Nat → Nat → Int → Flt × Flt
  Order : Char
  TransA : Char
  M : Nat
  N : Nat
  A : Int → Flt × Flt
  lda : Int
  X : Int → Flt × Flt
  incX : Int
  Y : Int → Binned × Binned
  incY : Int
  r : Nat

/-- A call of `zbzgemm` (`src/binnedBLAS/zbzgemm.ccog`), and the row and column of the entry in question. -/
structure ZGemmCall where
  T : Tune
  b : GemmB
  g : Int → Flt × Flt
  ga : Nat → Nat → Nat → Int → Flt × Flt
  gb : Nat → Nat → Nat → Int → Flt × Flt
  Order : Char
  TransA : Char
  TransB : Char
  M : Nat
  N : Nat
  K : Nat
  A : Int → Flt × Flt
  lda : Int
  B : Int → Flt × Flt
  ldb : Int
  C : Int → Binned × Binned
  ldc : Nat
  r : Nat
  c : Nat

/-- A program that computes one entry: zero, a call on an array that holds the value of a program at the entry, or `zbzbadd` of two values. -/
inductive ZPlan where
  | zero
  | gemv (p : ZGemvCall) (t : ZPlan)
  | gemm (p : ZGemmCall) (t : ZPlan)
  | merge (l r : ZPlan)

namespace ZGemvCall
/-- The number of rows of op(A). -/
def rows (p : ZGemvCall) : Nat := if isNo p.TransA then p.M else p.N
/-- The number of columns of op(A). -/
def cols (p : ZGemvCall) : Nat := if isNo p.TransA then p.N else p.M
/-- The array given to the call, with the value `v` at the entry; the rest is as it is. -/
def array (p : ZGemvCall) (v : Binned × Binned) : Int → Binned × Binned := fun l => if l = p.r * p.incY then v else p.Y l
/-- The entry after the call. -/
def run (F : Fmt) (fold : Nat) (alpha : Flt × Flt) (p : ZGemvCall) (v : Binned × Binned) : Binned × Binned :=
  F.zgemv p.T fold p.b p.gx p.g p.Order p.TransA p.M p.N alpha p.A p.lda p.X p.incX (p.array v) p.incY (p.r * p.incY)
/-- The factors of the entry. -/
def factors (p : ZGemvCall) : List ((Flt × Flt) × (Flt × Flt)) := zgemvPairs p.Order p.TransA p.cols p.A p.lda p.X p.incX p.r
/-- The call is a legal one, in the cases where the routine is right. -/
def OK (F : Fmt) (p : ZGemvCall) : Prop := p.T.OK F ∧ p.b.OK ∧ p.incY ≠ 0 ∧ p.r < p.rows ∧
  2 * min p.T.nb (min p.cols (gemvTile p.b p.Order p.TransA)) ≤ F.endurance ∧ (isRow p.Order = true ∨ trOf p.TransA ≠ .cj ∨ p.M = p.N)
end ZGemvCall

namespace ZGemmCall
/-- The position of the entry. -/
def pos (p : ZGemmCall) : Int := entryAt (isRow p.Order) p.ldc p.r p.c
/-- The array given to the call, with the value `v` at the entry; the rest is as it is. -/
def array (p : ZGemmCall) (v : Binned × Binned) : Int → Binned × Binned := fun l => if l = p.pos then v else p.C l
/-- The entry after the call. -/
def run (F : Fmt) (fold : Nat) (alpha : Flt × Flt) (p : ZGemmCall) (v : Binned × Binned) : Binned × Binned :=
  F.zgemm p.T fold p.b p.g p.ga p.gb p.Order p.TransA p.TransB p.M p.N p.K alpha p.A p.lda p.B p.ldb (p.array v) p.ldc p.pos
/-- The factors of the entry: the element of op(B), the element of op(A). -/
def factors (p : ZGemmCall) : List ((Flt × Flt) × (Flt × Flt)) := zgemmPairs p.Order p.TransA p.TransB p.K p.A p.lda p.B p.ldb p.r p.c
/-- The call is a legal one, in the cases where the routine is right. -/
def OK (F : Fmt) (alpha : Flt × Flt) (p : ZGemmCall) : Prop := p.T.OK F ∧ p.b.OK ∧ (if isRow p.Order then p.N else p.M) ≤ p.ldc ∧ p.r < p.M ∧ p.c < p.N ∧
  2 * min p.T.nb (min p.K (gemmTile p.b p.Order p.TransA p.TransB)) ≤ F.endurance ∧ (isRow p.Order = true ∨ trOf p.TransA = .no ∨ (F.feq alpha.1 F.one && isZero alpha.2) = true)
end ZGemmCall

namespace ZPlan
/-- The value a program computes. -/
def eval (F : Fmt) (fold : Nat) (alpha : Flt × Flt) : ZPlan → Binned × Binned
  | zero => (dmsetzero fold, dmsetzero fold)
  | gemv p t => p.run F fold alpha (t.eval F fold alpha)
  | gemm p t => p.run F fold alpha (t.eval F fold alpha)
  | merge l r => (F.dmdmadd fold (l.eval F fold alpha).1 (r.eval F fold alpha).1, F.dmdmadd fold (l.eval F fold alpha).2 (r.eval F fold alpha).2)

/-- All the factors of a program. -/
def factors : ZPlan → List ((Flt × Flt) × (Flt × Flt))
  | zero => []
  | gemv p t => p.factors ++ t.factors
  | gemm p t => p.factors ++ t.factors
  | merge l r => l.factors ++ r.factors

/-- All calls are legal, in the cases where the routines are right. -/
def OK (F : Fmt) (alpha : Flt × Flt) : ZPlan → Prop
  | zero => True
  | gemv p t => p.OK F ∧ t.OK F alpha
  | gemm p t => p.OK F alpha ∧ t.OK F alpha
  | merge l r => l.OK F alpha ∧ r.OK F alpha
end ZPlan

/-- The terms of a pair of factors in the real part. -/
def zplanRe (F : Fmt) (alpha : Flt × Flt) (p : (Flt × Flt) × (Flt × Flt)) : List Flt := cmulRe F p.1 (alphaMul F alpha p.2)
/-- And in the imaginary part. -/
def zplanIm (F : Fmt) (alpha : Flt × Flt) (p : (Flt × Flt) × (Flt × Flt)) : List Flt := cmulIm F p.1 (alphaMul F alpha p.2)

theorem cmulRe_swap (a b : Flt × Flt) : (cmulRe F a b).Perm (cmulRe F b a) := by
  unfold cmulRe
  rw [mul_comm_all a.1, mul_comm_all a.2]

theorem cmulIm_swap (a b : Flt × Flt) : (cmulIm F a b).Perm (cmulIm F b a) := by
  unfold cmulIm
  rw [mul_comm_all a.1, mul_comm_all a.2]
  exact List.Perm.swap _ _ _

/-- What a call does to a binned value: it adds terms, in some order. -/
def AddsTerms (F : Fmt) (fold : Nat) (f : Binned × Binned → Binned × Binned) (ls : List Flt × List Flt) : Prop :=
  ∀ h g : Hist, h.Legal F → g.Legal F → h.Settled → g.Settled → ls.1.length + h.nums.length ≤ F.capacity → ls.2.length + g.nums.length ≤ F.capacity →
    ∃ l m : List Flt, l.Perm ls.1 ∧ m.Perm ls.2 ∧ f (h.eval F fold, g.eval F fold) = (F.sumSeq fold l (h.eval F fold), F.sumSeq fold m (g.eval F fold))

theorem zgemvCall_run [F.OK] {fold : Nat} (hfold : 2 ≤ fold) {alpha : Flt × Flt} (ha : zzero alpha = false) {p : ZGemvCall} (hp : p.OK F)
    (hx : ∀ q ∈ p.factors, DotFinite F q.1 (alphaMul F alpha q.2)) :
    AddsTerms F fold (p.run F fold alpha) (p.factors.flatMap (zplanRe F alpha), p.factors.flatMap (zplanIm F alpha)) := by
  obtain ⟨hT, hb, hY, hr, hnb, hok⟩ := hp
  intro h g hl gl hs gs hN gN
  have hlen : p.factors.length = p.cols := by unfold ZGemvCall.factors zgemvPairs; simp
  have l1 : (p.factors.flatMap (zplanRe F alpha)).length = 2 * p.cols := by rw [← hlen]; exact length_flatMap2 (γ := (Flt × Flt) × (Flt × Flt)) _ _ _
  have l2 : (p.factors.flatMap (zplanIm F alpha)).length = 2 * p.cols := by rw [← hlen]; exact length_flatMap2 (γ := (Flt × Flt) × (Flt × Flt)) _ _ _
  rw [l1] at hN
  rw [l2] at gN
  refine ⟨_, _, List.Perm.refl _, List.Perm.refl _, ?_⟩
  have e : p.array (h.eval F fold, g.eval F fold) (p.r * p.incY) = (h.eval F fold, g.eval F fold) := by unfold ZGemvCall.array; rw [if_pos rfl]
  by_cases h0 : p.M = 0 ∨ p.N = 0
  · have hc : p.cols = 0 := by
      unfold ZGemvCall.rows at hr
      unfold ZGemvCall.cols
      cases hn : isNo p.TransA <;> rw [hn] at hr <;> simp only [if_true, Bool.false_eq_true, if_false] at hr ⊢ <;> omega
    have : p.factors = [] := List.eq_nil_of_length_eq_zero (by omega)
    unfold ZGemvCall.run
    rw [C45_nothing p.T fold p.b p.gx p.g p.Order p.TransA p.M p.N alpha p.A p.lda p.X p.incX _ p.incY (h0.elim Or.inl (fun h => Or.inr (Or.inl h))), e, this]
    rfl
  · have hM : p.M ≠ 0 := fun h => h0 (Or.inl h)
    have hN' : p.N ≠ 0 := fun h => h0 (Or.inr h)
    have eR : zgemvRe F (isRow p.Order) (trOf p.TransA) p.cols alpha p.A p.lda p.X p.incX p.r = p.factors.flatMap (zplanRe F alpha) := by
      unfold zgemvRe ZGemvCall.factors zgemvPairs
      rw [List.flatMap_map]; rfl
    have eI : zgemvIm F (isRow p.Order) (trOf p.TransA) p.cols alpha p.A p.lda p.X p.incX p.r = p.factors.flatMap (zplanIm F alpha) := by
      unfold zgemvIm ZGemvCall.factors zgemvPairs
      rw [List.flatMap_map]; rfl
    have := (C45_gemv_partial hT hfold hb p.gx p.g p.Order p.TransA hM hN' ha p.A p.lda p.X p.incX (p.array (h.eval F fold, g.eval F fold)) hY (rows := p.rows) (cols := p.cols)
      rfl rfl hnb hok).1 p.r h g hr e hl gl hs gs (fun c hc => hx (_, _) (List.mem_map.2 ⟨c, List.mem_range.2 hc, rfl⟩)) hN gN
    unfold ZGemvCall.run
    rw [this, e, eR, eI]

theorem zgemmCall_run [F.OK] {fold : Nat} (hfold : 2 ≤ fold) {alpha : Flt × Flt} (ha : zzero alpha = false) {p : ZGemmCall} (hp : p.OK F alpha)
    (hx : ∀ q ∈ p.factors, DotFinite F q.1 (alphaMul F alpha q.2)) :
    AddsTerms F fold (p.run F fold alpha) (p.factors.flatMap (zplanRe F alpha), p.factors.flatMap (zplanIm F alpha)) := by
  obtain ⟨hT, hb, hC, hr, hc, hnb, hok⟩ := hp
  intro h g hl gl hs gs hN gN
  have hlen : p.factors.length = p.K := by unfold ZGemmCall.factors zgemmPairs; simp
  have l1 : (p.factors.flatMap (zplanRe F alpha)).length = 2 * p.K := by rw [← hlen]; exact length_flatMap2 (γ := (Flt × Flt) × (Flt × Flt)) _ _ _
  have l2 : (p.factors.flatMap (zplanIm F alpha)).length = 2 * p.K := by rw [← hlen]; exact length_flatMap2 (γ := (Flt × Flt) × (Flt × Flt)) _ _ _
  rw [l1] at hN
  rw [l2] at gN
  have e : p.array (h.eval F fold, g.eval F fold) (entryAt (isRow p.Order) p.ldc p.r p.c) = (h.eval F fold, g.eval F fold) := by
    unfold ZGemmCall.array ZGemmCall.pos; rw [if_pos rfl]
  by_cases h0 : p.K = 0
  · have : p.factors = [] := List.eq_nil_of_length_eq_zero (by omega)
    refine ⟨_, _, List.Perm.refl _, List.Perm.refl _, ?_⟩
    unfold ZGemmCall.run ZGemmCall.pos
    rw [C47_nothing p.T fold p.b p.g p.ga p.gb p.Order p.TransA p.TransB p.M p.N p.K alpha p.A p.lda p.B p.ldb _ p.ldc (Or.inr (Or.inr (Or.inl h0))), e, this]
    rfl
  · refine ⟨_, _, ?_, ?_, by
      unfold ZGemmCall.run ZGemmCall.pos
      rw [(C47_gemm_partial hT hfold hb p.g p.ga p.gb p.Order p.TransA p.TransB (M := p.M) (N := p.N) h0 ha p.A p.lda p.B p.ldb (p.array (h.eval F fold, g.eval F fold)) hnb hC hok).1
        p.r p.c h g hr hc e hl gl hs gs (fun t ht => (hx (_, _) (List.mem_map.2 ⟨t, List.mem_range.2 ht, rfl⟩)).flip) hN gN, e]⟩
    · show (zgemmRe F _ _ _ _ _ _ _ _ _ _ _).Perm (List.flatMap (zplanRe F alpha) p.factors)
      unfold zgemmRe ZGemmCall.factors zgemmPairs
      rw [List.flatMap_map]
      exact flatMap_perm (fun t _ => cmulRe_swap _ _)
    · show (zgemmIm F _ _ _ _ _ _ _ _ _ _ _).Perm (List.flatMap (zplanIm F alpha) p.factors)
      unfold zgemmIm ZGemmCall.factors zgemmPairs
      rw [List.flatMap_map]
      exact flatMap_perm (fun t _ => cmulIm_swap _ _)

theorem zplan_finite {alpha : Flt × Flt} {l : List ((Flt × Flt) × (Flt × Flt))} (hx : ∀ q ∈ l, DotFinite F q.1 (alphaMul F alpha q.2)) :
    (∀ x ∈ l.flatMap (zplanRe F alpha), F.Finite x) ∧ (∀ x ∈ l.flatMap (zplanIm F alpha), F.Finite x) := by
  constructor
  · intro x hm
    obtain ⟨q, hq, hxq⟩ := List.mem_flatMap.1 hm
    have := hx q hq
    rcases List.mem_cons.1 hxq with rfl | hxi
    · exact this.1
    · rw [List.mem_singleton] at hxi; subst hxi; exact this.2.1
  · intro x hm
    obtain ⟨q, hq, hxq⟩ := List.mem_flatMap.1 hm
    have := hx q hq
    rcases List.mem_cons.1 hxq with rfl | hxi
    · exact this.2.2.2
    · rw [List.mem_singleton] at hxi; subst hxi; exact this.2.2.1

theorem zplan_length (alpha : Flt × Flt) (l : List ((Flt × Flt) × (Flt × Flt))) :
    (l.flatMap (zplanRe F alpha)).length = 2 * l.length ∧ (l.flatMap (zplanIm F alpha)).length = 2 * l.length :=
  ⟨length_flatMap2 (γ := (Flt × Flt) × (Flt × Flt)) _ _ _, length_flatMap2 (γ := (Flt × Flt) × (Flt × Flt)) _ _ _⟩

/-- Adding the terms of a call to a pair of histories. -/
theorem adds_hist {fold : Nat} {alpha : Flt × Flt} {fs us : List ((Flt × Flt) × (Flt × Flt))} {f : Binned × Binned → Binned × Binned}
    (hf : AddsTerms F fold f (fs.flatMap (zplanRe F alpha), fs.flatMap (zplanIm F alpha))) (hx : ∀ q ∈ fs, DotFinite F q.1 (alphaMul F alpha q.2))
    {v : Binned × Binned} {h g : Hist} (hv : v = (h.eval F fold, g.eval F fold)) (hl : h.Legal F) (gl : g.Legal F) (hs : h.Settled) (gs : g.Settled)
    (h1 : h.nums.Perm (us.flatMap (zplanRe F alpha))) (h2 : h.seen.Perm (us.flatMap (zplanRe F alpha))) (g1 : g.nums.Perm (us.flatMap (zplanIm F alpha)))
    (g2 : g.seen.Perm (us.flatMap (zplanIm F alpha))) (hN : 2 * (fs ++ us).length ≤ F.capacity) :
    ∃ h' g' : Hist, f v = (h'.eval F fold, g'.eval F fold) ∧ h'.Legal F ∧ g'.Legal F ∧ h'.Settled ∧ g'.Settled ∧
      h'.nums.Perm ((fs ++ us).flatMap (zplanRe F alpha)) ∧ h'.seen.Perm ((fs ++ us).flatMap (zplanRe F alpha)) ∧
      g'.nums.Perm ((fs ++ us).flatMap (zplanIm F alpha)) ∧ g'.seen.Perm ((fs ++ us).flatMap (zplanIm F alpha)) := by
  have ⟨z1, z2⟩ := zplan_length (F := F) alpha fs
  have ⟨z3, z4⟩ := zplan_length (F := F) alpha us
  rw [List.length_append] at hN
  obtain ⟨l, m, hlp, hmp, e⟩ := hf h g hl gl hs gs (by rw [z1, h1.length_eq, z3]; omega) (by rw [z2, g1.length_eq, z4]; omega)
  have ⟨f1, f2⟩ := zplan_finite hx
  refine ⟨Hist.ofList l h, Hist.ofList m g, ?_, ofList_legal (fun x hm => f1 x (hlp.mem_iff.1 hm)) hl, ofList_legal (fun x hm => f2 x (hmp.mem_iff.1 hm)) gl, ofList_settled _ (fun _ => hs),
    ofList_settled _ (fun _ => gs), ?_, ?_, ?_, ?_⟩
  · rw [hv, e, ofList_eval, ofList_eval]
  · rw [ofList_nums, List.flatMap_append]; exact ((List.reverse_perm _).trans hlp).append h1
  · rw [ofList_seen, List.flatMap_append]; exact ((List.reverse_perm _).trans hlp).append h2
  · rw [ofList_nums, List.flatMap_append]; exact ((List.reverse_perm _).trans hmp).append g1
  · rw [ofList_seen, List.flatMap_append]; exact ((List.reverse_perm _).trans hmp).append g2

/-- A program is a pair of histories of operations. -/
theorem zplan_hist [F.OK] {fold : Nat} (hfold : 2 ≤ fold) {alpha : Flt × Flt} (ha : zzero alpha = false) : ∀ {t : ZPlan}, t.OK F alpha →
    (∀ q ∈ t.factors, DotFinite F q.1 (alphaMul F alpha q.2)) → 2 * t.factors.length ≤ F.capacity →
    ∃ h g : Hist, t.eval F fold alpha = (h.eval F fold, g.eval F fold) ∧ h.Legal F ∧ g.Legal F ∧ h.Settled ∧ g.Settled ∧
      h.nums.Perm (t.factors.flatMap (zplanRe F alpha)) ∧ h.seen.Perm (t.factors.flatMap (zplanRe F alpha)) ∧
      g.nums.Perm (t.factors.flatMap (zplanIm F alpha)) ∧ g.seen.Perm (t.factors.flatMap (zplanIm F alpha))
  | .zero, _, _, _ => ⟨.zero, .zero, rfl, trivial, trivial, trivial, trivial, List.Perm.refl _, List.Perm.refl _, List.Perm.refl _, List.Perm.refl _⟩
  | .gemv p t, hk, hx, hN => by
    have hN' := hN
    simp only [ZPlan.factors, List.length_append] at hN'
    obtain ⟨h, g, e, hl, gl, hs, gs, h1, h2, g1, g2⟩ := zplan_hist hfold ha hk.2 (fun q hq => hx q (List.mem_append_right _ hq)) (by omega)
    exact adds_hist (zgemvCall_run hfold ha hk.1 (fun q hq => hx q (List.mem_append_left _ hq))) (fun q hq => hx q (List.mem_append_left _ hq)) e hl gl hs gs h1 h2 g1 g2 hN
  | .gemm p t, hk, hx, hN => by
    have hN' := hN
    simp only [ZPlan.factors, List.length_append] at hN'
    obtain ⟨h, g, e, hl, gl, hs, gs, h1, h2, g1, g2⟩ := zplan_hist hfold ha hk.2 (fun q hq => hx q (List.mem_append_right _ hq)) (by omega)
    exact adds_hist (zgemmCall_run hfold ha hk.1 (fun q hq => hx q (List.mem_append_left _ hq))) (fun q hq => hx q (List.mem_append_left _ hq)) e hl gl hs gs h1 h2 g1 g2 hN
  | .merge l r, hk, hx, hN => by
    simp only [ZPlan.factors, List.length_append] at hN
    obtain ⟨h, g, e, hl, gl, hs, gs, h1, h2, g1, g2⟩ := zplan_hist hfold ha hk.1 (fun q hq => hx q (List.mem_append_left _ hq)) (by omega)
    obtain ⟨h', g', e', hl', gl', hs', gs', h1', h2', g1', g2'⟩ := zplan_hist hfold ha hk.2 (fun q hq => hx q (List.mem_append_right _ hq)) (by omega)
    refine ⟨.merge h h', .merge g g', ?_, ⟨hl, hl'⟩, ⟨gl, gl'⟩, ⟨fun _ => hs', fun _ => hs⟩, ⟨fun _ => gs', fun _ => gs⟩, ?_, ?_, ?_, ?_⟩
    · show (F.dmdmadd fold _ _, F.dmdmadd fold _ _) = (F.dmdmadd fold _ _, F.dmdmadd fold _ _)
      rw [e, e']
    · simp only [ZPlan.factors, List.flatMap_append]; exact h1.append h1'
    · simp only [ZPlan.factors, List.flatMap_append]; exact h2.append h2'
    · simp only [ZPlan.factors, List.flatMap_append]; exact g1.append g1'
    · simp only [ZPlan.factors, List.flatMap_append]; exact g2.append g2'

theorem hist_is_spec [F.OK] {fold : Nat} (hfold : 2 ≤ fold) {h : Hist} {l : List Flt} (hl : h.Legal F) (hs : h.Settled) (h1 : h.nums.Perm l) (h2 : h.seen.Perm l)
    (hx : ∀ x ∈ l, F.Finite x) (hN : l.length ≤ F.capacity) : h.eval F fold = F.specSum fold l := by
  rw [hist_spec hfold hl (by rw [h1.length_eq]; exact hN) hs, ← C01_sum_is_spec hfold hx hN, show dmsetzero fold = Hist.zero.eval F fold from rfl,
    ofList_spec (h := .zero) hfold hx trivial (by simpa [Hist.nums] using hN) (fun _ => trivial)]
  apply hist_spec_congr
  · rw [ofList_nums]; exact h1.trans (by simpa [Hist.nums] using (List.reverse_perm _).symm)
  · rw [ofList_seen]; exact h2.trans (by simpa [Hist.seen] using (List.reverse_perm _).symm)

/-- **C80** (in part). Two programs that compute an entry of a complex matrix product from the same pairs of factors, in whatever pieces, in whatever order, with whatever layouts,
transpositions, tunings, tiles, processes and reductions, compute the same bits: the reproducible sums of the terms of both parts. Missing: calls with the arguments for which the
complex routines are wrong (C42, C45, C47). -/
theorem C80_plans_agree_partial [F.OK] {fold : Nat} (hfold : 2 ≤ fold) {alpha : Flt × Flt} (ha : zzero alpha = false) {t u : ZPlan} (ht : t.OK F alpha) (hu : u.OK F alpha)
    (hp : t.factors.Perm u.factors) (hx : ∀ q ∈ u.factors, DotFinite F q.1 (alphaMul F alpha q.2)) (hN : 2 * u.factors.length ≤ F.capacity) :
    t.eval F fold alpha = u.eval F fold alpha ∧
      u.eval F fold alpha = (F.specSum fold (u.factors.flatMap (zplanRe F alpha)), F.specSum fold (u.factors.flatMap (zplanIm F alpha))) := by
  have spec : ∀ {w : ZPlan}, w.OK F alpha → (∀ q ∈ w.factors, DotFinite F q.1 (alphaMul F alpha q.2)) → 2 * w.factors.length ≤ F.capacity →
      w.eval F fold alpha = (F.specSum fold (w.factors.flatMap (zplanRe F alpha)), F.specSum fold (w.factors.flatMap (zplanIm F alpha))) := by
    intro w hw hx hN
    obtain ⟨h, g, e, hl, gl, hs, gs, h1, h2, g1, g2⟩ := zplan_hist hfold ha hw hx hN
    have ⟨f1, f2⟩ := zplan_finite hx
    have ⟨z1, z2⟩ := zplan_length (F := F) alpha w.factors
    rw [e, hist_is_spec hfold hl hs h1 h2 f1 (by omega), hist_is_spec hfold gl gs g1 g2 f2 (by omega)]
  have s1 := spec ht (fun q hq => hx q (hp.mem_iff.1 hq)) (by rw [hp.length_eq]; exact hN)
  have s2 := spec hu hx hN
  refine ⟨?_, s2⟩
  rw [s1, s2, specSum_perm (hp.flatMap_right _), specSum_perm (hp.flatMap_right _)]

/-- **C80** (in part, native result). The entry of `reproBLAS_rzgemm` with `beta = 0` is the conversion of what any such program computes. Missing: as above. -/
theorem C80_native_gemm_partial [F.OK] {T : Tune} (hT : T.OK F) {fold : Nat} (hfold : 2 ≤ fold) {b : GemmB} (hb : b.OK) (g : Int → Flt × Flt) (ga gb : Nat → Nat → Nat → Int → Flt × Flt)
    (ci : Int → Binned × Binned) (Order TransA TransB : Char) (M N K : Nat) {alpha beta : Flt × Flt} (ha : zzero alpha = false) (hbeta : zzero beta = true) (A : Int → Flt × Flt) (lda : Int)
    (B : Int → Flt × Flt) (ldb : Int) (C : Int → Flt × Flt) {ldc : Nat} (hnb : 2 * min T.nb (min K (gemmTile b Order TransA TransB)) ≤ F.endurance)
    (hC : (if isRow Order then N else M) ≤ ldc) (hok : isRow Order = true ∨ trOf TransA = .no ∨ (F.feq alpha.1 F.one && isZero alpha.2) = true)
    (hcap : 2 * K + 1 ≤ F.capacity) {r c : Nat} (hr : r < M) (hc : c < N)
    {t : ZPlan} (ht : t.OK F alpha) (hp : t.factors.Perm (zgemmPairs Order TransA TransB K A lda B ldb r c))
    (hx : ∀ q ∈ zgemmPairs Order TransA TransB K A lda B ldb r c, DotFinite F q.1 (alphaMul F alpha q.2)) :
    F.rzgemm T fold b g ga gb ci Order TransA TransB M N K alpha A lda B ldb beta C ldc (entryAt (isRow Order) ldc r c) =
      (convert F fold (t.eval F fold alpha).1, convert F fold (t.eval F fold alpha).2) := by
  have hz : (isZero beta.1 && isZero beta.2) = true := hbeta
  have e := (C47_rzgemm_partial hT hfold hb g ga gb ci Order TransA TransB M N K alpha A lda B ldb beta C hnb hC hok hcap).1 r c hr hc
    (fun h => by rw [hz] at h; cases h) (fun _ t ht => (hx (_, _) (List.mem_map.2 ⟨t, List.mem_range.2 ht, rfl⟩)).flip)
  have hlen : (zgemmPairs Order TransA TransB K A lda B ldb r c).length = K := by unfold zgemmPairs; simp
  rw [e, (C80_plans_agree_partial hfold ha ht ht (List.Perm.refl _) (fun q hq => hx q (hp.mem_iff.1 hq)) (by rw [hp.length_eq, hlen]; omega)).2]
  unfold zbetaTerm
  rw [if_pos hz, if_pos hz, ha, List.nil_append, List.nil_append, if_neg (by decide), if_neg (by decide)]
  have pR : (zgemmRe F (isRow Order) (trOf TransA) (trOf TransB) K alpha A lda B ldb r c).Perm (t.factors.flatMap (zplanRe F alpha)) := by
    refine List.Perm.trans ?_ (hp.flatMap_right _).symm
    unfold zgemmRe zgemmPairs
    rw [List.flatMap_map]
    exact flatMap_perm (fun t _ => cmulRe_swap _ _)
  have pI : (zgemmIm F (isRow Order) (trOf TransA) (trOf TransB) K alpha A lda B ldb r c).Perm (t.factors.flatMap (zplanIm F alpha)) := by
    refine List.Perm.trans ?_ (hp.flatMap_right _).symm
    unfold zgemmIm zgemmPairs
    rw [List.flatMap_map]
    exact flatMap_perm (fun t _ => cmulIm_swap _ _)
  rw [specSum_perm pR, specSum_perm pI]

/-! A concrete case: the entry `(1, 0)` of a 2 by 3 times 3 by 2 product, with `alpha = 3 + 2 i`: once in a single row-major `zbzgemm`, once as a `zbzgemv` with the conjugate
transpose of a row-major vector over one index, and a row-major `zbzgemm` over the other two. -/

/-- `A`, row-major. -/
def dzA : Int → Flt × Flt := fun l => (f64.ofInt (l + 1), f64.ofInt (2 - l))
/-- `B`, row-major. -/
def dzB : Int → Flt × Flt := fun l => (f64.ofInt (7 - 2 * l), f64.ofInt (l * l + 1))
/-- `alpha`. -/
def dzAlpha : Flt × Flt := (f64.ofInt 3, f64.ofInt 2)
/-- A zero. -/
def dzZero : Binned × Binned := (dmsetzero 3, dmsetzero 3)

def dzWhole : ZPlan := .gemm ⟨⟨1, 1, 1, 1, 1, false⟩, ⟨2, 2, 2, 2⟩, dzA, fun _ _ _ => dzA, fun _ _ _ => dzA, 'r', 'n', 'n', 2, 2, 3, dzA, 3, dzB, 2, fun _ => dzZero, 2, 1, 0⟩ .zero

def dzSplit : ZPlan := .merge
  (.gemm ⟨⟨1, 1, 1, 1, 1, false⟩, ⟨2, 2, 2, 2⟩, dzA, fun _ _ _ => dzA, fun _ _ _ => dzA, 'r', 't', 'n', 1, 1, 2, fun l => if l = 0 then dzA 5 else dzA 3, 1,
    fun l => if l = 0 then dzB 4 else dzB 0, 1, fun _ => dzZero, 1, 0, 0⟩ .zero)
  (.gemv ⟨⟨1, 1, 1, 1, 1, false⟩, ⟨2, 2, 2, 2, 2⟩, dzA, fun _ _ => dzA, 'R', 'C', 1, 1, fun _ => ((dzB 2).1, fneg (dzB 2).2), 1, fun _ => dzA 4, 1, fun _ => dzZero, 1, 0⟩ .zero)

example : dzWhole.factors = [(dzB 0, dzA 3), (dzB 2, dzA 4), (dzB 4, dzA 5)] ∧ dzSplit.factors = [(dzB 4, dzA 5), (dzB 0, dzA 3), (dzB 2, dzA 4)] ∧
    dzSplit.eval f64 3 dzAlpha = dzWhole.eval f64 3 dzAlpha := by
  decide +kernel

example : ∀ q ∈ dzWhole.factors, DotFinite f64 q.1 (alphaMul f64 dzAlpha q.2) := by unfold DotFinite; decide +kernel

example : dzWhole.OK f64 dzAlpha ∧ dzSplit.OK f64 dzAlpha := by
  have hb : (⟨2, 2, 2, 2⟩ : GemmB).OK := by constructor <;> first | decide | exact ⟨1, rfl⟩
  have hb' : (⟨2, 2, 2, 2, 2⟩ : GemvB).OK := by constructor <;> first | decide | exact ⟨1, rfl⟩
  have hT : (⟨1, 1, 1, 1, 1, false⟩ : Tune).OK f64 := by constructor <;> first | decide | exact ⟨0, rfl⟩
  exact ⟨⟨⟨hT, hb, by decide, by decide, by decide, by decide, Or.inl rfl⟩, trivial⟩, ⟨⟨hT, hb, by decide, by decide, by decide, by decide, Or.inl rfl⟩, trivial⟩,
    ⟨hT, hb', by decide, by decide, by decide, Or.inl rfl⟩, trivial⟩

end Repro
