import Verif.PropsAccuracy3

/-!
# C77: distributed matrix products

An entry of a matrix product may be computed by several processes: the inner dimension is split among them, each holds its own pieces of the matrices in its own
storage order, possibly transposed, and calls `dbdgemm` or `dbdgemv` on them, on a zero binned array or on the result of earlier calls; the binned results are
combined with `dbdbadd`. A `Plan` is any such program for one entry.
-/

namespace Repro
open Fmt

variable {F : Fmt}

/-- A call of `dbdgemv` (`src/binnedBLAS/dbdgemv.ccog`), and the row of the result that holds the entry in question. -/
structure GemvCall where
  T : Tune
  b : GemvB
  gx : Int → Flt
  g : Nat → Nat → Int → Flt
  Order : Char
  TransA : Char
  M : Nat
  N : Nat
  A : Int → Flt
  lda : Int
  X : Int → Flt
  incX : Int
  Y : Int → Binned
  incY : Int
  r : Nat

/-- A call of `dbdgemm` (`src/binnedBLAS/dbdgemm.ccog`), and the row and column of the entry in question. -/
structure GemmCall where
  T : Tune
  b : GemmB
  g : Int → Flt
  ga : Nat → Nat → Nat → Int → Flt
  gb : Nat → Nat → Nat → Int → Flt
  Order : Char
  TransA : Char
  TransB : Char
  M : Nat
  N : Nat
  K : Nat
  A : Int → Flt
  lda : Int
  B : Int → Flt
  ldb : Int
  C : Int → Binned
  ldc : Nat
  r : Nat
  c : Nat

/-- A program that computes one entry: zero, a call on an array that holds the value of a plan at the entry, or `dbdbadd` of two values. -/
inductive Plan where
  | zero
  | gemv (p : GemvCall) (t : Plan)
  | gemm (p : GemmCall) (t : Plan)
  | merge (l r : Plan)

namespace GemvCall
/-- The number of rows of op(A). -/
def rows (p : GemvCall) : Nat := if isNo p.TransA then p.M else p.N
/-- The number of columns of op(A). -/
def cols (p : GemvCall) : Nat := if isNo p.TransA then p.N else p.M
/-- The array given to the call, with the value `v` at the entry; the rest is as it is. -/
def array (p : GemvCall) (v : Binned) : Int → Binned := fun l => if l = p.r * p.incY then v else p.Y l
/-- The entry after the call. -/
def run (F : Fmt) (fold : Nat) (alpha : Flt) (p : GemvCall) (v : Binned) : Binned :=
  F.dgemv p.T fold p.b p.gx p.g p.Order p.TransA p.M p.N alpha p.A p.lda p.X p.incX (p.array v) p.incY (p.r * p.incY)
/-- The factors of the entry. -/
def factors (p : GemvCall) : List (Flt × Flt) := gemvPairs p.Order p.TransA p.cols p.A p.lda p.X p.incX p.r
/-- The call is a legal one. -/
def OK (F : Fmt) (p : GemvCall) : Prop := p.T.OK F ∧ p.b.OK ∧ p.incY ≠ 0 ∧ p.r < p.rows
end GemvCall

namespace GemmCall
/-- The position of the entry. -/
def pos (p : GemmCall) : Int := entryAt (isRow p.Order) p.ldc p.r p.c
/-- The array given to the call, with the value `v` at the entry; the rest is as it is. -/
def array (p : GemmCall) (v : Binned) : Int → Binned := fun l => if l = p.pos then v else p.C l
/-- The entry after the call. -/
def run (F : Fmt) (fold : Nat) (alpha : Flt) (p : GemmCall) (v : Binned) : Binned :=
  F.dgemm p.T fold p.b p.g p.ga p.gb p.Order p.TransA p.TransB p.M p.N p.K alpha p.A p.lda p.B p.ldb (p.array v) p.ldc p.pos
/-- The factors of the entry: the element of op(B), the element of op(A). -/
def factors (p : GemmCall) : List (Flt × Flt) := gemmPairs p.Order p.TransA p.TransB p.K p.A p.lda p.B p.ldb p.r p.c
/-- The call is a legal one. -/
def OK (F : Fmt) (p : GemmCall) : Prop := p.T.OK F ∧ p.b.OK ∧ (if isRow p.Order then p.N else p.M) ≤ p.ldc ∧ p.r < p.M ∧ p.c < p.N
end GemmCall

namespace Plan
/-- The value a plan computes. -/
def eval (F : Fmt) (fold : Nat) (alpha : Flt) : Plan → Binned
  | zero => dmsetzero fold
  | gemv p t => p.run F fold alpha (t.eval F fold alpha)
  | gemm p t => p.run F fold alpha (t.eval F fold alpha)
  | merge l r => F.dmdmadd fold (l.eval F fold alpha) (r.eval F fold alpha)

/-- All the factors of a plan. -/
def factors : Plan → List (Flt × Flt)
  | zero => []
  | gemv p t => p.factors ++ t.factors
  | gemm p t => p.factors ++ t.factors
  | merge l r => l.factors ++ r.factors

/-- All calls are legal. -/
def OK (F : Fmt) : Plan → Prop
  | zero => True
  | gemv p t => p.OK F ∧ t.OK F
  | gemm p t => p.OK F ∧ t.OK F
  | merge l r => l.OK F ∧ r.OK F
end Plan

/-- The rounded term of a pair of factors. -/
def planTerm (F : Fmt) (alpha : Flt) (p : Flt × Flt) : Flt := F.mul p.1 (F.mul p.2 alpha)

theorem gemvTerms_pairs (Order TransA : Char) (cols : Nat) (alpha : Flt) (A : Int → Flt) (lda : Int) (X : Int → Flt) (incX : Int) (r : Nat) :
    gemvTerms F (isRow Order) (isNo TransA) cols alpha A lda X incX r = (gemvPairs Order TransA cols A lda X incX r).map (planTerm F alpha) := by
  unfold gemvTerms gemvPairs
  rw [List.map_map]; rfl

theorem gemmTerms_pairs (Order TransA TransB : Char) (K : Nat) (alpha : Flt) (A : Int → Flt) (lda : Int) (B : Int → Flt) (ldb : Int) (r c : Nat) :
    gemmTerms F (isRow Order) (isNo TransA) (isNo TransB) K alpha A lda B ldb r c = (gemmPairs Order TransA TransB K A lda B ldb r c).map (planTerm F alpha) := by
  unfold gemmTerms gemmPairs
  rw [List.map_map]
  exact List.map_congr_left (fun t _ => mul_comm_all _ _)

theorem gemvCall_run [F.OK] {fold : Nat} (hfold : 2 ≤ fold) {alpha : Flt} (ha : isZero alpha = false) {p : GemvCall} (hp : p.OK F) {h : Hist} (hl : h.Legal F) (hs : h.Settled)
    (hx : ∀ q ∈ p.factors, F.Finite (planTerm F alpha q)) (hN : p.factors.length + h.nums.length ≤ F.capacity) :
    p.run F fold alpha (h.eval F fold) = F.sumSeq fold (p.factors.map (planTerm F alpha)) (h.eval F fold) := by
  obtain ⟨hT, hb, hY, hr⟩ := hp
  have hlen : p.factors.length = p.cols := by unfold GemvCall.factors gemvPairs; simp
  have e : p.array (h.eval F fold) (p.r * p.incY) = h.eval F fold := by unfold GemvCall.array; rw [if_pos rfl]
  by_cases h0 : p.M = 0 ∨ p.N = 0
  · have hc : p.cols = 0 := by
      unfold GemvCall.rows at hr
      unfold GemvCall.cols
      cases hn : isNo p.TransA <;> rw [hn] at hr <;> simp only [if_true, Bool.false_eq_true, if_false] at hr ⊢ <;> omega
    have : p.factors = [] := List.eq_nil_of_length_eq_zero (by omega)
    unfold GemvCall.run
    rw [C24_nothing p.T fold p.b p.gx p.g p.Order p.TransA p.M p.N alpha p.A p.lda p.X p.incX _ p.incY (h0.elim Or.inl (fun h => Or.inr (Or.inl h))), e, this]
    rfl
  · have hM : p.M ≠ 0 := fun h => h0 (Or.inl h)
    have hN' : p.N ≠ 0 := fun h => h0 (Or.inr h)
    have hmem : ∀ c : Nat, c < p.cols → (opEl (isRow p.Order) (isNo p.TransA) p.A p.lda p.r c, p.X (c * p.incX)) ∈ p.factors := by
      intro c hc
      exact List.mem_map.2 ⟨c, List.mem_range.2 hc, rfl⟩
    have ht := gemvTerms_pairs (F := F) p.Order p.TransA p.cols alpha p.A p.lda p.X p.incX p.r
    have := (C24_gemv hT hfold hb p.gx p.g p.Order p.TransA hM hN' ha p.A p.lda p.X p.incX (p.array (h.eval F fold)) hY (rows := p.rows) (cols := p.cols) rfl rfl
      (fun c hc => (finite_of_mul' (finite_of_mul' (hx _ (hmem c hc))).2).1)).1 p.r h hr e hl hs
      (by
        rw [ht]
        intro x hx'
        obtain ⟨q, hq, rfl⟩ := List.mem_map.1 hx'
        exact hx q hq) (by omega)
    unfold GemvCall.run
    rw [this, e, ht]
    rfl

theorem gemmCall_run [F.OK] {fold : Nat} (hfold : 2 ≤ fold) {alpha : Flt} (ha : isZero alpha = false) {p : GemmCall} (hp : p.OK F) {h : Hist} (hl : h.Legal F) (hs : h.Settled)
    (hx : ∀ q ∈ p.factors, F.Finite (planTerm F alpha q)) (hN : p.factors.length + h.nums.length ≤ F.capacity) :
    p.run F fold alpha (h.eval F fold) = F.sumSeq fold (p.factors.map (planTerm F alpha)) (h.eval F fold) := by
  obtain ⟨hT, hb, hC, hr, hc⟩ := hp
  have hlen : p.factors.length = p.K := by unfold GemmCall.factors gemmPairs; simp
  have e : p.array (h.eval F fold) (entryAt (isRow p.Order) p.ldc p.r p.c) = h.eval F fold := by unfold GemmCall.array GemmCall.pos; rw [if_pos rfl]
  by_cases h0 : p.K = 0
  · have : p.factors = [] := List.eq_nil_of_length_eq_zero (by omega)
    unfold GemmCall.run GemmCall.pos
    rw [C25_nothing p.T fold p.b p.g p.ga p.gb p.Order p.TransA p.TransB p.M p.N p.K alpha p.A p.lda p.B p.ldb _ p.ldc (Or.inr (Or.inr (Or.inl h0))), e, this]
    rfl
  · have hmem : ∀ t : Nat, t < p.K → (opEl (isRow p.Order) (isNo p.TransB) p.B p.ldb t p.c, opEl (isRow p.Order) (isNo p.TransA) p.A p.lda p.r t) ∈ p.factors := by
      intro t ht
      exact List.mem_map.2 ⟨t, List.mem_range.2 ht, rfl⟩
    have ht := gemmTerms_pairs (F := F) p.Order p.TransA p.TransB p.K alpha p.A p.lda p.B p.ldb p.r p.c
    have := (C25_gemm hT hfold hb p.g p.ga p.gb p.Order p.TransA p.TransB (M := p.M) (N := p.N) h0 ha p.A p.lda p.B p.ldb (p.array (h.eval F fold)) hC).1 p.r p.c h hr hc e hl hs
      (fun t ht => (finite_of_mul' (finite_of_mul' (hx _ (hmem t ht))).2).1)
      (by
        rw [ht]
        intro x hx'
        obtain ⟨q, hq, rfl⟩ := List.mem_map.1 hx'
        exact hx q hq) (by omega)
    unfold GemmCall.run GemmCall.pos
    rw [this, e, ht]
    rfl

/-- A plan is a history of operations. -/
theorem plan_hist [F.OK] {fold : Nat} (hfold : 2 ≤ fold) {alpha : Flt} (ha : isZero alpha = false) : ∀ {t : Plan}, t.OK F →
    (∀ q ∈ t.factors, F.Finite (planTerm F alpha q)) → t.factors.length ≤ F.capacity →
    ∃ h : Hist, t.eval F fold alpha = h.eval F fold ∧ h.Legal F ∧ h.Settled ∧ h.nums.Perm (t.factors.map (planTerm F alpha)) ∧ h.seen.Perm (t.factors.map (planTerm F alpha))
  | .zero, _, _, _ => ⟨.zero, rfl, trivial, trivial, List.Perm.refl _, List.Perm.refl _⟩
  | .gemv p t, hk, hx, hN => by
    simp only [Plan.factors, List.length_append] at hN
    obtain ⟨h, h1, h2, h3, h4, h5⟩ := plan_hist hfold ha hk.2 (fun q hq => hx q (List.mem_append_right _ hq)) (by omega)
    have hx' : ∀ q ∈ p.factors, F.Finite (planTerm F alpha q) := fun q hq => hx q (List.mem_append_left _ hq)
    have hl4 : h.nums.length = t.factors.length := by rw [h4.length_eq, List.length_map]
    refine ⟨Hist.ofList (p.factors.map (planTerm F alpha)) h, ?_, ofList_legal ?_ h2, ofList_settled _ (fun _ => h3), ?_, ?_⟩
    · show p.run F fold alpha (t.eval F fold alpha) = _
      rw [ofList_eval, h1]
      exact gemvCall_run hfold ha hk.1 h2 h3 hx' (by omega)
    · intro x hm
      obtain ⟨q, hq, rfl⟩ := List.mem_map.1 hm
      exact hx' q hq
    · rw [ofList_nums]; simp only [Plan.factors, List.map_append]; exact (List.reverse_perm _).append h4
    · rw [ofList_seen]; simp only [Plan.factors, List.map_append]; exact (List.reverse_perm _).append h5
  | .gemm p t, hk, hx, hN => by
    simp only [Plan.factors, List.length_append] at hN
    obtain ⟨h, h1, h2, h3, h4, h5⟩ := plan_hist hfold ha hk.2 (fun q hq => hx q (List.mem_append_right _ hq)) (by omega)
    have hx' : ∀ q ∈ p.factors, F.Finite (planTerm F alpha q) := fun q hq => hx q (List.mem_append_left _ hq)
    have hl4 : h.nums.length = t.factors.length := by rw [h4.length_eq, List.length_map]
    refine ⟨Hist.ofList (p.factors.map (planTerm F alpha)) h, ?_, ofList_legal ?_ h2, ofList_settled _ (fun _ => h3), ?_, ?_⟩
    · show p.run F fold alpha (t.eval F fold alpha) = _
      rw [ofList_eval, h1]
      exact gemmCall_run hfold ha hk.1 h2 h3 hx' (by omega)
    · intro x hm
      obtain ⟨q, hq, rfl⟩ := List.mem_map.1 hm
      exact hx' q hq
    · rw [ofList_nums]; simp only [Plan.factors, List.map_append]; exact (List.reverse_perm _).append h4
    · rw [ofList_seen]; simp only [Plan.factors, List.map_append]; exact (List.reverse_perm _).append h5
  | .merge l r, hk, hx, hN => by
    simp only [Plan.factors, List.length_append] at hN
    obtain ⟨h, h1, h2, h3, h4, h5⟩ := plan_hist hfold ha hk.1 (fun q hq => hx q (List.mem_append_left _ hq)) (by omega)
    obtain ⟨g, g1, g2, g3, g4, g5⟩ := plan_hist hfold ha hk.2 (fun q hq => hx q (List.mem_append_right _ hq)) (by omega)
    refine ⟨.merge h g, ?_, ⟨h2, g2⟩, ⟨fun _ => g3, fun _ => h3⟩, ?_, ?_⟩
    · show F.dmdmadd fold _ _ = F.dmdmadd fold _ _
      rw [h1, g1]
    · simp only [Plan.factors, List.map_append]; exact h4.append g4
    · simp only [Plan.factors, List.map_append]; exact h5.append g5

/-- **C77**. Two programs that compute an entry of a matrix product from the same pairs of factors, in whatever pieces, in whatever order, with whatever layouts,
transpositions, tunings, tiles, processes and reductions, compute the same bits: the reproducible sum of the terms. -/
theorem C77_plans_agree [F.OK] {fold : Nat} (hfold : 2 ≤ fold) {alpha : Flt} (ha : isZero alpha = false) {t u : Plan} (ht : t.OK F) (hu : u.OK F)
    (hp : t.factors.Perm u.factors) (hx : ∀ q ∈ u.factors, F.Finite (planTerm F alpha q)) (hN : u.factors.length ≤ F.capacity) :
    t.eval F fold alpha = u.eval F fold alpha ∧ u.eval F fold alpha = F.specSum fold (u.factors.map (planTerm F alpha)) := by
  have spec : ∀ {w : Plan}, w.OK F → (∀ q ∈ w.factors, F.Finite (planTerm F alpha q)) → w.factors.length ≤ F.capacity →
      w.eval F fold alpha = F.specSum fold (w.factors.map (planTerm F alpha)) := by
    intro w hw hx hN
    obtain ⟨h, h1, h2, h3, h4, h5⟩ := plan_hist hfold ha hw hx hN
    have hN' : (w.factors.map (planTerm F alpha)).length ≤ F.capacity := by rwa [List.length_map]
    have hx' : ∀ x ∈ w.factors.map (planTerm F alpha), F.Finite x := by
      intro x hm
      obtain ⟨q, hq, rfl⟩ := List.mem_map.1 hm
      exact hx q hq
    rw [h1, hist_spec hfold h2 (by rw [h4.length_eq]; exact hN') h3, ← C01_sum_is_spec hfold hx' hN', show dmsetzero fold = Hist.zero.eval F fold from rfl,
      ofList_spec (h := .zero) hfold hx' trivial (by simpa [Hist.nums] using hN') (fun _ => trivial)]
    apply hist_spec_congr
    · rw [ofList_nums]; exact h4.trans (by simpa [Hist.nums] using (List.reverse_perm _).symm)
    · rw [ofList_seen]; exact h5.trans (by simpa [Hist.seen] using (List.reverse_perm _).symm)
  have s1 := spec ht (fun q hq => hx q (hp.mem_iff.1 hq)) (by rw [hp.length_eq]; exact hN)
  have s2 := spec hu hx hN
  refine ⟨?_, s2⟩
  rw [s1, s2]
  exact specSum_perm (hp.map _)

/-- **C77** (native result). The entry of `reproBLAS_rdgemm` with `beta = 0` is the conversion of what any such program computes. -/
theorem C77_native_gemm [F.OK] {T : Tune} (hT : T.OK F) {fold : Nat} (hfold : 2 ≤ fold) {b : GemmB} (hb : b.OK) (g : Int → Flt) (ga gb : Nat → Nat → Nat → Int → Flt)
    (ci : Int → Binned) (Order TransA TransB : Char) (M N K : Nat) {alpha beta : Flt} (ha : isZero alpha = false) (hbeta : isZero beta = true) (A : Int → Flt) (lda : Int)
    (B : Int → Flt) (ldb : Int) (C : Int → Flt) {ldc : Nat} (hC : (if isRow Order then N else M) ≤ ldc) (hcap : K + 1 ≤ F.capacity) {r c : Nat} (hr : r < M) (hc : c < N)
    {t : Plan} (ht : t.OK F) (hp : t.factors.Perm (gemmPairs Order TransA TransB K A lda B ldb r c))
    (hx : ∀ q ∈ gemmPairs Order TransA TransB K A lda B ldb r c, F.Finite (planTerm F alpha q)) :
    F.rdgemm T fold b g ga gb ci Order TransA TransB M N K alpha A lda B ldb beta C ldc (entryAt (isRow Order) ldc r c) = convert F fold (t.eval F fold alpha) := by
  have hx' : ∀ x ∈ gemmTerms F (isRow Order) (isNo TransA) (isNo TransB) K alpha A lda B ldb r c, F.Finite x := by
    rw [gemmTerms_pairs]
    intro x hm
    obtain ⟨q, hq, rfl⟩ := List.mem_map.1 hm
    exact hx q hq
  have e := (C26_gemm hT hfold hb g ga gb ci Order TransA TransB M N K alpha A lda B ldb beta C hC hcap).1 r c hr hc (fun h => by rw [hbeta] at h; cases h)
    (fun _ => ⟨fun t ht => (finite_of_mul' (finite_of_mul' (hx _ (List.mem_map.2 ⟨t, List.mem_range.2 ht, rfl⟩))).2).1, hx'⟩)
  rw [e]
  congr 1
  have hlen : (gemmPairs Order TransA TransB K A lda B ldb r c).length = K := by unfold gemmPairs; simp
  rw [(C77_plans_agree hfold ha ht ht (List.Perm.refl _) (fun q hq => hx q (hp.mem_iff.1 hq)) (by rw [hp.length_eq, hlen]; omega)).2]
  unfold betaTerm
  rw [if_pos hbeta, ha, List.nil_append, if_neg (by decide), gemmTerms_pairs]
  exact (specSum_perm (hp.map _)).symm

/-! A concrete case: the entry `(1, 0)` of a 2 by 3 times 3 by 2 product, once in a single row-major `dbdgemm`, once as a column-major `dbdgemm` over columns 2 and 0
of `A` (packed by the caller, transposed) merged with a `dbdgemv` over column 1. -/

/-- `A(i, j) = 3 i + j + 1`, row-major. -/
def dA : Int → Flt := fun l => f64.ofInt (l + 1)
/-- `B`, row-major. -/
def dB : Int → Flt := fun l => f64.ofInt (7 - 2 * l)

def dWhole : Plan := .gemm ⟨⟨1, 1, 1, 1, 1, false⟩, ⟨2, 2, 2, 2⟩, dA, fun _ _ _ => dA, fun _ _ _ => dA, 'r', 'n', 'n', 2, 2, 3, dA, 3, dB, 2, fun _ => dmsetzero 3, 2, 1, 0⟩ .zero

def dSplit : Plan := .merge
  (.gemm ⟨⟨1, 1, 1, 1, 1, false⟩, ⟨2, 2, 2, 2⟩, dA, fun _ _ _ => dA, fun _ _ _ => dA, 'c', 't', 'n', 1, 1, 2, fun l => if l = 0 then dA 5 else dA 3, 2, fun l => if l = 0 then dB 4 else dB 0, 2,
    fun _ => dmsetzero 3, 1, 0, 0⟩ .zero)
  (.gemv ⟨⟨1, 1, 1, 1, 1, false⟩, ⟨2, 2, 2, 2, 2⟩, dA, fun _ _ => dA, 'r', 'n', 1, 1, fun _ => dB 2, 1, fun _ => dA 4, 1, fun _ => dmsetzero 3, 1, 0⟩ .zero)

example : dWhole.factors = [(dB 0, dA 3), (dB 2, dA 4), (dB 4, dA 5)] ∧ dSplit.factors = [(dB 4, dA 5), (dB 0, dA 3), (dB 2, dA 4)] ∧
    (∀ q ∈ dWhole.factors, f64.Finite (planTerm f64 (f64.ofInt 3) q)) ∧ dSplit.eval f64 3 (f64.ofInt 3) = dWhole.eval f64 3 (f64.ofInt 3) := by
  decide +kernel

example : dWhole.OK f64 ∧ dSplit.OK f64 := by
  have hb : (⟨2, 2, 2, 2⟩ : GemmB).OK := by constructor <;> first | decide | exact ⟨1, rfl⟩
  have hb' : (⟨2, 2, 2, 2, 2⟩ : GemvB).OK := by constructor <;> first | decide | exact ⟨1, rfl⟩
  have hT : (⟨1, 1, 1, 1, 1, false⟩ : Tune).OK f64 := by constructor <;> first | decide | exact ⟨0, rfl⟩
  exact ⟨⟨⟨hT, hb, by decide, by decide, by decide⟩, trivial⟩, ⟨⟨hT, hb, by decide, by decide, by decide⟩, trivial⟩, ⟨hT, hb', by decide, by decide⟩, trivial⟩

end Repro
