import Verif.PropsThreadsMat
import Verif.PropsMatMemZ
/-!
# C80, C81: the parallel complex matrix product and the parallel matrix-vector product
-/

namespace Repro
open Fmt Prog
variable {F : Fmt}

theorem zopEl_rows (row : Bool) (t : Tr) (m : Mem) (A lda : Int) (r0 r k : Nat) :
    zopEl row t (fun a => m.pair (A + (2 : Nat) * opEl row (t == .no) id lda r0 0 + (2 : Nat) * a)) lda r k = zopEl row t (fun a => m.pair (A + (2 : Nat) * a)) lda (r0 + r) k := by
  unfold zopEl opEl
  cases row == (t == Tr.no) <;> simp only [Bool.false_eq_true, if_true, if_false, id] <;> (congr 2; push_cast; ring)

theorem zopEl_cols (row : Bool) (t : Tr) (m : Mem) (B ldb : Int) (c0 k c : Nat) :
    zopEl row t (fun a => m.pair (B + (2 : Nat) * opEl row (t == .no) id ldb 0 c0 + (2 : Nat) * a)) ldb k c = zopEl row t (fun a => m.pair (B + (2 : Nat) * a)) ldb k (c0 + c) := by
  unfold zopEl opEl
  cases row == (t == Tr.no) <;> simp only [Bool.false_eq_true, if_true, if_false, id] <;> (congr 2; push_cast; ring)

theorem zentry_shift (row : Bool) (C : Int) (ldc r0 c0 r c : Nat) : C + (2 : Nat) * entryAt row ldc r0 c0 + (2 : Nat) * entryAt row ldc r c = C + (2 : Nat) * entryAt row ldc (r0 + r) (c0 + c) := by
  unfold entryAt
  cases row <;> simp only [Bool.false_eq_true, if_true, if_false] <;> push_cast <;> ring

theorem isNo_beq (c : Char) : isNo c = (trOf c == .no) := by
  rw [isNo_trOf]; cases trOf c <;> rfl

section
variable [F.OK] (hF : F = f64 ∨ F = f32) {fold : Nat} (hf : 2 ≤ fold) (hm : fold ≤ F.maxFold) {ι : Type} [DecidableEq ι] (T : ι → Tune) (hT : ∀ t, (T t).OK F)

section
variable (b : ι → GemmB) (hb : ∀ t, (b t).OK) (Order TransA TransB : Char) {K : Nat} (alpha beta : Flt × Flt) {A lda B ldb C : Int} {ldc : Nat} (r0 rows c0 cols : ι → Nat) {At Bt Ct CI bufS bufA bufB : ι → Int}
  (hA : ∀ t, At t = A + (2 : Nat) * opEl (isRow Order) (isNo TransA) id lda (r0 t) 0) (hB : ∀ t, Bt t = B + (2 : Nat) * opEl (isRow Order) (isNo TransB) id ldb 0 (c0 t))
  (hC : ∀ t, Ct t = C + (2 : Nat) * entryAt (isRow Order) ldc (r0 t) (c0 t))
  {calls : ι → List MCall} (hcalls : ∀ t, calls t = [.rzgemm (T t) (b t) Order TransA TransB (rows t) (cols t) K alpha (At t) lda (Bt t) ldb beta (Ct t) ldc (CI t) (bufS t) (bufA t) (bufB t)])
  (hnb : ∀ t, 2 * min (T t).nb (min K (gemmTile (b t) Order TransA TransB)) ≤ F.endurance) (hok : isRow Order = true ∨ trOf TransA = .no ∨ (F.feq alpha.1 F.one && isZero alpha.2) = true)
  (hs : ∀ t, GemmSep 2 (4 * fold) (isRow Order) (rows t) (cols t) K ((b t).xt * (b t).yt) (opEl (isRow Order) (isNo TransA) id lda) (opEl (isRow Order) (isNo TransB) id ldb) (At t) (Bt t) (CI t)
    (if isRow Order then cols t else rows t) (bufS t) (bufA t) (bufB t))
  (hY : ∀ t, ∀ r c : Nat, r < rows t → c < cols t → ∀ x, Span (Ct t + (2 : Nat) * entryAt (isRow Order) ldc r c) 2 x →
    ¬ GemmWork 2 (4 * fold) (isRow Order) (rows t) (cols t) K ((b t).xt * (b t).yt) (CI t) (if isRow Order then cols t else rows t) (bufS t) (bufA t) (bufB t) x)
  (hld : ∀ t, (if isRow Order then cols t else rows t) ≤ ldc) (hcap : 2 * K + 1 ≤ F.capacity)
  (hd : ∀ t u, t ≠ u → ∀ a, MWrites fold (calls t) a → ¬ MUses fold (calls u) a) (m : Mem) (junk : Nat → Flt)
include hF hf hm hT hb hA hB hC hcalls hnb hok hs hY hld hcap hd

/-- **C80**, the complex parallel matrix product: as `C81_parallel_gemm`, with `reproBLAS_rzgemm`. Missing: column-major with transposed `A` and `alpha` different from one, where the code is wrong (C47), and dot products longer than half
the endurance (C42). -/
theorem C80_parallel_zgemm_partial {t : ι} {r c : Nat} (hr : r0 t ≤ r ∧ r < r0 t + rows t) (hc : c0 t ≤ c ∧ c < c0 t + cols t)
    (hy : BetaFinite F beta (m.pair (C + (2 : Nat) * entryAt (isRow Order) ldc r c)))
    (hx : zzero alpha = false → ∀ k : Nat, k < K → DotFinite F (alphaMul F alpha (zopEl (isRow Order) (trOf TransA) (fun a => m.pair (A + (2 : Nat) * a)) lda r k)) (zopEl (isRow Order) (trOf TransB) (fun a => m.pair (B + (2 : Nat) * a)) ldb k c)) :
    let mA := fun a => m.pair (A + (2 : Nat) * a)
    let mB := fun a => m.pair (B + (2 : Nat) * a)
    let y := m.pair (C + (2 : Nat) * entryAt (isRow Order) ldc r c)
    let result := (convert F fold (F.specSum fold (zbetaTerm F Prod.fst beta y ++ (if zzero alpha then [] else zgemmRe F (isRow Order) (trOf TransA) (trOf TransB) K alpha mA lda mB ldb r c))),
      convert F fold (F.specSum fold (zbetaTerm F Prod.snd beta y ++ (if zzero alpha then [] else zgemmIm F (isRow Order) (trOf TransA) (trOf TransB) K alpha mA lda mB ldb r c))))
    (∀ sched : List ι, let σ := (System.mk (fun t => mthreadP F fold (calls t)) ⟨m, false, junk⟩).run sched
      σ.prog t = .ret () → σ.shared.mem.pair (C + (2 : Nat) * entryAt (isRow Order) ldc r c) = result) ∧
    (∀ sched : List (TsoEvent ι), let σ := (tsoStart (fun t => mthreadP F fold (calls t)) m junk).run sched
      σ.prog t = .ret () → σ.queue t = [] → σ.shared.mem.pair (C + (2 : Nat) * entryAt (isRow Order) ldc r c) = result) := by
  intro mA mB y result
  obtain ⟨r', rfl⟩ : ∃ r', r = r0 t + r' := ⟨r - r0 t, by omega⟩
  obtain ⟨c', rfl⟩ : ∃ c', c = c0 t + c' := ⟨c - c0 t, by omega⟩
  have hr' : r' < rows t := by omega
  have hc' : c' < cols t := by omega
  have hat : C + (2 : Nat) * entryAt (isRow Order) ldc (r0 t + r') (c0 t + c') = Ct t + (2 : Nat) * entryAt (isRow Order) ldc r' c' := by rw [hC, zentry_shift]
  have hin : ∀ t, ∀ c ∈ calls t, c.InRange := fun t c hc => by rw [hcalls, List.mem_singleton] at hc; subst hc; exact hb t
  have hel : ∀ k, zopEl (isRow Order) (trOf TransA) (fun a => m.pair (At t + (2 : Nat) * a)) lda r' k = zopEl (isRow Order) (trOf TransA) mA lda (r0 t + r') k := fun k => by
    rw [hA t, isNo_beq]; exact zopEl_rows _ _ m A lda _ _ _
  have hel' : ∀ k, zopEl (isRow Order) (trOf TransB) (fun a => m.pair (Bt t + (2 : Nat) * a)) ldb k c' = zopEl (isRow Order) (trOf TransB) mB ldb k (c0 t + c') := fun k => by
    rw [hB t, isNo_beq]; exact zopEl_cols _ _ m B ldb _ _ _
  have hre : zgemmRe F (isRow Order) (trOf TransA) (trOf TransB) K alpha (fun a => m.pair (At t + (2 : Nat) * a)) lda (fun a => m.pair (Bt t + (2 : Nat) * a)) ldb r' c'
      = zgemmRe F (isRow Order) (trOf TransA) (trOf TransB) K alpha mA lda mB ldb (r0 t + r') (c0 t + c') := by
    unfold zgemmRe; simp only [hel, hel']
  have him : zgemmIm F (isRow Order) (trOf TransA) (trOf TransB) K alpha (fun a => m.pair (At t + (2 : Nat) * a)) lda (fun a => m.pair (Bt t + (2 : Nat) * a)) ldb r' c'
      = zgemmIm F (isRow Order) (trOf TransA) (trOf TransB) K alpha mA lda mB ldb (r0 t + r') (c0 t + c') := by
    unfold zgemmIm; simp only [hel, hel']
  have hmain : ((calls t).foldl (fun m c => c.alone F fold m) m).pair (C + (2 : Nat) * entryAt (isRow Order) ldc (r0 t + r') (c0 t + c')) = result := by
    have ha : (calls t).foldl (fun m c => c.alone F fold m) m = F.rzgemmM (T t) false fold (fun _ _ _ _ _ _ _ => zero) (fun _ _ _ _ _ _ _ => zero) (b t) Order TransA TransB (rows t) (cols t) K alpha (At t) lda (Bt t) ldb beta
        (Ct t) ldc (CI t) (bufS t) (bufA t) (bufB t) m := by
      rw [hcalls, List.foldl_cons, List.foldl_nil]
      unfold MCall.alone
      exact congrArg Prod.snd (C81_alone hf (expand := false) (fun _ _ _ _ _ _ _ => zero) (fun _ _ _ _ _ _ _ => zero) (fun _ _ _ => zero) (fun _ _ _ => zero) (.rzgemm (T t) (b t) Order TransA TransB (rows t) (cols t) K alpha (At t)
        lda (Bt t) ldb beta (Ct t) ldc (CI t) (bufS t) (bufA t) (bufB t)) m (hT t))
    have h := (C66_rzgemm_partial (hT t) false hf (fun _ _ _ _ _ _ _ => zero) (fun _ _ _ _ _ _ _ => zero) (hb t) Order TransA TransB alpha beta m (hnb t) (hld t) hok (hs t) (hY t) hcap).1 r' c' hr' hc' (by beta_reduce; rw [← hat]; exact hy)
      (fun h0 k hk => by rw [hel, hel']; exact hx h0 k hk)
    rw [ha, hat, h, hre, him]
    beta_reduce
    rw [← hat]
  have huse : ∀ a, a = C + (2 : Nat) * entryAt (isRow Order) ldc (r0 t + r') (c0 t + c') ∨ a = C + (2 : Nat) * entryAt (isRow Order) ldc (r0 t + r') (c0 t + c') + 1 → MUses fold (calls t) a := by
    intro a h
    rw [hcalls]
    refine ⟨_, List.mem_singleton.2 rfl, Or.inl (Or.inr ⟨r', c', hr', hc', ?_⟩)⟩
    rw [entryAt_eq, ← hat]
    unfold Span
    omega
  constructor
  · intro sched σ hdone
    have hth := (C81_threads hF hf hm calls hin hd m junk).1 sched t hdone
    rw [← hmain]
    exact Prod.ext (hth _ (huse _ (Or.inl rfl))) (hth _ (huse _ (Or.inr rfl)))
  · intro sched σ hdone hq
    have hth := (C81_tso hF hf hm calls hin hd m junk).1 sched t hdone hq
    rw [← hmain]
    exact Prod.ext (hth _ (huse _ (Or.inl rfl))) (hth _ (huse _ (Or.inr rfl)))

end

section
variable (b : ι → GemvB) (hb : ∀ t, (b t).OK) (Order TransA : Char) {cols : Nat} (hcols : cols ≠ 0) (alpha beta : Flt) {A lda X incX Y incY : Int} (hinc : incY ≠ 0) (r0 rows : ι → Nat) (hrows : ∀ t, rows t ≠ 0)
  {At Yt YI bufX bufA : ι → Int} (hA : ∀ t, At t = A + opEl (isRow Order) (isNo TransA) id lda (r0 t) 0) (hYt : ∀ t, Yt t = Y + r0 t * incY)
  {calls : ι → List MCall}
  (hcalls : ∀ t, calls t = [.rdgemv (T t) (b t) Order TransA (if isNo TransA then rows t else cols) (if isNo TransA then cols else rows t) alpha (At t) lda X incX beta (Yt t) incY (YI t) (bufX t) (bufA t)])
  (hs : ∀ t, GemvSep 1 (2 * fold) (rows t) cols ((b t).xt * (b t).yt) (opEl (isRow Order) (isNo TransA) id lda) (At t) X incX (YI t) 1 (bufX t) (bufA t))
  (hY : ∀ t, ∀ r : Nat, r < rows t → ¬ GemvWork 1 (2 * fold) (rows t) cols ((b t).xt * (b t).yt) (YI t) 1 (bufX t) (bufA t) (Yt t + r * incY)) (hcap : cols + 1 ≤ F.capacity)
  (hd : ∀ t u, t ≠ u → ∀ a, MWrites fold (calls t) a → ¬ MUses fold (calls u) a) (m : Mem) (junk : Nat → Flt) (hX : isZero alpha = false → ∀ c : Nat, c < cols → F.Finite (m (X + c * incX)))
include hF hf hm hT hb hcols hinc hrows hA hYt hcalls hs hY hcap hd hX

/-- **C81.** The parallel matrix-vector product: thread `t` runs `reproBLAS_rdgemv` on the rows of `op(A)` from `r0 t` on; `X` is shared. -/
theorem C81_parallel_gemv {t : ι} {r : Nat} (hr : r0 t ≤ r ∧ r < r0 t + rows t) (hy : isZero beta = false → F.Finite (m (Y + r * incY)) ∧ F.Finite (F.mul (m (Y + r * incY)) beta))
    (hx : isZero alpha = false → ∀ x ∈ gemvTerms F (isRow Order) (isNo TransA) cols alpha (fun a => m (A + a)) lda (fun a => m (X + a)) incX r, F.Finite x) :
    let result := convert F fold (F.specSum fold (betaTerm F beta (m (Y + r * incY)) ++ (if isZero alpha then [] else gemvTerms F (isRow Order) (isNo TransA) cols alpha (fun a => m (A + a)) lda (fun a => m (X + a)) incX r)))
    (∀ sched : List ι, let σ := (System.mk (fun t => mthreadP F fold (calls t)) ⟨m, false, junk⟩).run sched
      σ.prog t = .ret () → σ.shared.mem (Y + r * incY) = result) ∧
    (∀ sched : List (TsoEvent ι), let σ := (tsoStart (fun t => mthreadP F fold (calls t)) m junk).run sched
      σ.prog t = .ret () → σ.queue t = [] → σ.shared.mem (Y + r * incY) = result) := by
  intro result
  obtain ⟨r', rfl⟩ : ∃ r', r = r0 t + r' := ⟨r - r0 t, by omega⟩
  have hr' : r' < rows t := by omega
  have hat : Y + (r0 t + r' : Nat) * incY = Yt t + r' * incY := by rw [hYt]; push_cast; ring
  have hin : ∀ t, ∀ c ∈ calls t, c.InRange := fun t c hc => by rw [hcalls, List.mem_singleton] at hc; subst hc; exact hb t
  have hterms : gemvTerms F (isRow Order) (isNo TransA) cols alpha (fun a => m (At t + a)) lda (fun a => m (X + a)) incX r'
      = gemvTerms F (isRow Order) (isNo TransA) cols alpha (fun a => m (A + a)) lda (fun a => m (X + a)) incX (r0 t + r') := by
    unfold gemvTerms
    exact List.map_congr_left fun k _ => by rw [hA t, opEl_rows _ _ m A lda]
  have hn : rows t = if isNo TransA then (if isNo TransA then rows t else cols) else (if isNo TransA then cols else rows t) := by cases isNo TransA <;> rfl
  have hn' : cols = if isNo TransA then (if isNo TransA then cols else rows t) else (if isNo TransA then rows t else cols) := by cases isNo TransA <;> rfl
  have hmain : (calls t).foldl (fun m c => c.alone F fold m) m (Y + (r0 t + r' : Nat) * incY) = result := by
    have ha : (calls t).foldl (fun m c => c.alone F fold m) m = F.rdgemvM (T t) false fold (fun _ _ _ _ _ _ _ => zero) (fun _ _ _ _ _ _ _ => zero) (b t) Order TransA (if isNo TransA then rows t else cols) (if isNo TransA then cols else rows t) alpha
        (At t) lda X incX beta (Yt t) incY (YI t) (bufX t) (bufA t) m := by
      rw [hcalls, List.foldl_cons, List.foldl_nil]
      unfold MCall.alone
      exact congrArg Prod.snd (eval_rdgemv (hT t) false hf _ _ (b t) Order TransA _ _ alpha (At t) lda X incX beta (Yt t) incY (YI t) (bufX t) (bufA t) m)
    rw [ha, hat]
    have h := (C66_rdgemv (hT t) false hf (fun _ _ _ _ _ _ _ => zero) (fun _ _ _ _ _ _ _ => zero) (hb t) Order TransA (M := if isNo TransA then rows t else cols) (N := if isNo TransA then cols else rows t)
      (by cases isNo TransA <;> simp [hcols, hrows t]) (by cases isNo TransA <;> simp [hcols, hrows t]) alpha beta hinc m hn hn' (hs t) (hY t) hX hcap).1 r' hr' (by rw [← hat]; exact hy) (fun h0 => by rw [hterms]; exact hx h0)
    rw [h, hterms, ← hat]
  have huse : MUses fold (calls t) (Y + (r0 t + r' : Nat) * incY) := by
    rw [hcalls]
    refine ⟨_, List.mem_singleton.2 rfl, Or.inl (Or.inr ⟨r', by rw [← hn]; exact hr', ?_⟩)⟩
    rw [span_one, one_mul', hat]
  exact ⟨fun sched hdone => ((C81_threads hF hf hm calls hin hd m junk).1 sched t hdone _ huse).trans hmain,
    fun sched hdone hq => ((C81_tso hF hf hm calls hin hd m junk).1 sched t hdone hq _ huse).trans hmain⟩

end

end

/-! Concrete cases. -/

/-- Two threads, one row of a complex 2 by 1 product each: `A` at 0, `B` at 10, `C` at 20, the binned values and buffers of thread `t` from `1000 * t + 100` on. -/
def zpairCalls (t : Bool) : List MCall :=
  [.rzgemm ⟨2, 1, 2, 1, 1, false⟩ ⟨2, 2, 2, 2⟩ 'r' 'n' 'n' 1 1 1 (f32.one, f32.one) (if t then 2 else 0) 1 10 1 (f32.one, zero) (if t then 22 else 20) 1 (100 + if t then 1000 else 0) (200 + if t then 1000 else 0)
    (300 + if t then 1000 else 0) (400 + if t then 1000 else 0)]

/-- The hypotheses of `C80_parallel_zgemm_partial` are met. -/
example : (∀ t : Bool, GemmSep 2 (4 * 2) (isRow 'r') 1 1 1 (GemmB.xt ⟨2, 2, 2, 2⟩ * GemmB.yt ⟨2, 2, 2, 2⟩) (opEl (isRow 'r') (isNo 'n') id 1) (opEl (isRow 'r') (isNo 'n') id 1) (if t then 2 else 0) 10 (100 + if t then 1000 else 0) 1
      (200 + if t then 1000 else 0) (300 + if t then 1000 else 0) (400 + if t then 1000 else 0)) ∧
    (∀ t : Bool, ∀ r c : Nat, r < 1 → c < 1 → ∀ x, Span ((if t then 22 else 20) + (2 : Nat) * entryAt (isRow 'r') 1 r c) 2 x →
      ¬ GemmWork 2 (4 * 2) (isRow 'r') 1 1 1 (GemmB.xt ⟨2, 2, 2, 2⟩ * GemmB.yt ⟨2, 2, 2, 2⟩) (100 + if t then 1000 else 0) 1 (200 + if t then 1000 else 0) (300 + if t then 1000 else 0) (400 + if t then 1000 else 0) x) ∧
    (∀ t u : Bool, t ≠ u → ∀ a, MWrites 2 (zpairCalls t) a → ¬ MUses 2 (zpairCalls u) a) ∧ 2 * min 2 (min 1 (gemmTile ⟨2, 2, 2, 2⟩ 'r' 'n' 'n')) ≤ f32.endurance ∧
    (∀ t : Bool, (if t then 2 else 0 : Int) = 0 + (2 : Nat) * opEl (isRow 'r') (isNo 'n') id 1 (if t then 1 else 0) 0 ∧ (if t then 22 else 20 : Int) = 20 + (2 : Nat) * entryAt (isRow 'r') 1 (if t then 1 else 0) 0) := by
  have e : GemmB.xt ⟨2, 2, 2, 2⟩ * GemmB.yt ⟨2, 2, 2, 2⟩ = 2 := by decide
  have hrow : isRow 'r' = true := by decide
  have hno : isNo 'n' = true := by decide
  have w : ∀ (t : Bool) (x : Int), GemmWork 2 (4 * 2) (isRow 'r') 1 1 1 2 (100 + if t then 1000 else 0) 1 (200 + if t then 1000 else 0) (300 + if t then 1000 else 0) (400 + if t then 1000 else 0) x →
      100 + (if t then 1000 else 0) ≤ x ∧ x < 500 + (if t then 1000 else 0) := by
    intro t x h
    rw [hrow] at h
    rcases h with ⟨r, c, hr, hc, h⟩ | h | h | h <;> cases t <;> simp only [Span, opEl, id, beq_self_eq_true, if_true, Bool.false_eq_true, if_false] at h ⊢ <;> omega
  rw [e]
  refine ⟨fun t => ?_, fun t r c hr hc x hx h => ?_, fun t u htu a => ?_, by decide, fun t => ?_⟩
  · constructor
    · decide
    · intro r k hr hk x hx h
      have := w t x h
      rw [hrow, hno] at hx
      cases t <;> simp only [Span, opEl, id, beq_self_eq_true, if_true, Bool.false_eq_true, if_false] at hx this <;> omega
    · intro k c hk hc x hx h
      have := w t x h
      rw [hrow, hno] at hx
      cases t <;> simp only [Span, opEl, id, beq_self_eq_true, if_true, Bool.false_eq_true, if_false] at hx this <;> omega
    · intro r c hr hc x hx
      rw [hrow] at hx
      cases t <;> simp only [Span, opEl, id, beq_self_eq_true, if_true, Bool.false_eq_true, if_false] at hx ⊢ <;> omega
    · intro x; cases t <;> simp only [Span, if_true, Bool.false_eq_true, if_false] <;> omega
    · intro x; cases t <;> simp only [Span, if_true, Bool.false_eq_true, if_false] <;> omega
    · intro x; cases t <;> simp only [Span, if_true, Bool.false_eq_true, if_false] <;> omega
  · have := w t x h
    rw [hrow] at hx
    cases t <;> simp only [Span, entryAt, if_true, Bool.false_eq_true, if_false] at hx this <;> omega
  · rintro ⟨c, hc, h⟩ ⟨c', hc', h'⟩
    simp only [zpairCalls, List.mem_singleton] at hc hc'
    subst hc; subst hc'
    have hw : (100 + (if t then 1000 else 0) ≤ a ∧ a < 500 + (if t then 1000 else 0)) ∨ (if t then 22 else 20) ≤ a ∧ a < (if t then 22 else 20) + 2 := by
      rcases h with h | ⟨r, c, h1, h2, h⟩
      · exact Or.inl (w t a (e ▸ h))
      · refine Or.inr ?_
        rw [hrow] at h
        cases t <;> simp only [Span, opEl, id, beq_self_eq_true, if_true, Bool.false_eq_true, if_false] at h ⊢ <;> omega
    have hu : (100 + (if u then 1000 else 0) ≤ a ∧ a < 500 + (if u then 1000 else 0)) ∨ ((if u then 22 else 20) ≤ a ∧ a < (if u then 22 else 20) + 2) ∨ 0 ≤ a ∧ a < 14 := by
      rcases h' with (h | ⟨r, c, h1, h2, h⟩) | ⟨r, c, h1, h2, h⟩ | ⟨r, c, h1, h2, h⟩
      · exact Or.inl (w u a (e ▸ h))
      · refine Or.inr (Or.inl ?_)
        rw [hrow] at h
        cases u <;> simp only [Span, opEl, id, beq_self_eq_true, if_true, Bool.false_eq_true, if_false] at h ⊢ <;> omega
      all_goals
        refine Or.inr (Or.inr ?_)
        rw [hrow, hno] at h
        cases u <;> simp only [Span, opEl, id, beq_self_eq_true, if_true, Bool.false_eq_true, if_false] at h <;> omega
    cases t <;> cases u <;> simp only [Bool.false_eq_true, if_true, if_false, ne_eq, not_true_eq_false] at htu hw hu <;> omega
  · cases t <;> decide

/-- `((1+i)((0+i)(10+11i)), (1+i)((2+3i)(10+11i)))` plus `(20+21i, 22+23i)`, in turns. -/
example : let σ := (System.mk (fun t : Bool => mthreadP f32 2 (zpairCalls t)) ⟨fun a => f32.ofInt a, false, fun _ => zero⟩).run ((List.replicate 1200 [false, true]).flatten)
    (σ.prog false).result? = some () ∧ (σ.prog true).result? = some () ∧ (List.range 4).map (fun k : Nat => σ.shared.mem (20 + k)) = [f32.ofInt (-1), f32.ofInt 20, f32.ofInt (-43), f32.ofInt 62] := by decide +kernel

/-- The matrix `[[0, 1], [2, 3]]` times `(10, 11)` plus `(20, 21)`, one row per thread, in turns. -/
example : let σ := (System.mk (fun t : Bool => mthreadP f32 2 [.rdgemv ⟨2, 1, 2, 1, 1, false⟩ ⟨2, 2, 2, 2, 1⟩ 'r' 'n' 1 2 f32.one (if t then 2 else 0) 2 10 1 f32.one (if t then 21 else 20) 1 (100 + if t then 1000 else 0)
      (200 + if t then 1000 else 0) (300 + if t then 1000 else 0)]) ⟨fun a => f32.ofInt a, false, fun _ => zero⟩).run ((List.replicate 1000 [false, true]).flatten)
    (σ.prog false).result? = some () ∧ (σ.prog true).result? = some () ∧ (List.range 2).map (fun k : Nat => σ.shared.mem (20 + k)) = [f32.ofInt 31, f32.ofInt 74] := by decide +kernel

end Repro
