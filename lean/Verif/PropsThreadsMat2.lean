import Verif.PropsThreadsMat
/-!
# C82: the parallel matrix product with a split inner dimension

Threads take slabs of the inner dimension from a pool - any number of slabs of any size, in any order, as a dynamic scheduler hands them out -, each calls `binnedBLAS_dbdgemm` on its slabs into its own array of binned values; when all are
done, the main thread adds the arrays entry by entry and converts.
-/

namespace Repro
open Fmt Prog
variable {F : Fmt}

/-- The positions of an `M` by `N` matrix. -/
def ents (M N : Nat) : List (Nat × Nat) := (List.range M).flatMap fun r => (List.range N).map fun c => (r, c)

theorem mem_ents {M N : Nat} {e : Nat × Nat} : e ∈ ents M N ↔ e.1 < M ∧ e.2 < N := by
  obtain ⟨r, c⟩ := e
  unfold ents
  simp only [List.mem_flatMap, List.mem_map, List.mem_range, Prod.mk.injEq]
  constructor
  · rintro ⟨_, h, _, h', rfl, rfl⟩; exact ⟨h, h'⟩
  · rintro ⟨h, h'⟩; exact ⟨r, h, c, h', rfl, rfl⟩

/-- A slab of the inner dimension, and the addresses `malloc` returns in the call. -/
structure Slab where
  k0 : Nat
  n : Nat
  bufS : Int
  bufA : Int
  bufB : Int

/-- The place of an entry in an array of binned values without gaps. -/
def entLoc (fold : Nat) (row : Bool) (M N : Nat) (C : Int) (e : Nat × Nat) : Loc := packed fold (C + (2 * fold : Nat) * entryAt row (if row then N else M : Nat) e.1 e.2)

/-- `binned_dbsetzero` on all entries. -/
def zeroCalls (fold : Nat) (row : Bool) (M N : Nat) (C : Int) : List MCall := (ents M N).map fun e => .vec (.base (.setzero (entLoc fold row M N C e)))

/-- `binnedBLAS_dbdgemm` on a slab: `k0` columns into `op(A)`, `k0` rows into `op(B)`. -/
def slabCall (T : Tune) (b : GemmB) (Order TransA TransB : Char) (M N : Nat) (alpha : Flt) (A lda B ldb C : Int) (s : Slab) : MCall :=
  .dgemm T b Order TransA TransB M N s.n alpha (A + opEl (isRow Order) (isNo TransA) id lda 0 s.k0) lda (B + opEl (isRow Order) (isNo TransB) id ldb s.k0 0) ldb C (if isRow Order then N else M : Nat) s.bufS s.bufA s.bufB

/-- The main thread: for every entry, `binned_dbsetzero`, `binned_dbdbadd` of the values of all threads, `binned_ddbconv` into the result. -/
def collectAll {ι : Type} (fold : Nat) (row : Bool) (M N : Nat) (Ct : ι → Int) (ts : List ι) (D : Loc) (C : Int) (ldc : Nat) : List TCall :=
  (ents M N).flatMap fun e => collectCalls (fun t => entLoc fold row M N (Ct t) e) ts D (C + entryAt row ldc e.1 e.2)

theorem opEl_inA (row no : Bool) (f : Int → Flt) (A lda : Int) (k0 r k : Nat) : opEl row no (fun a => f (A + opEl row no id lda 0 k0 + a)) lda r k = opEl row no (fun a => f (A + a)) lda r (k0 + k) := by
  unfold opEl
  cases row == no <;> simp only [Bool.false_eq_true, if_true, if_false, id] <;> (congr 1; push_cast; ring)

theorem opEl_inB (row no : Bool) (f : Int → Flt) (B ldb : Int) (k0 k c : Nat) : opEl row no (fun a => f (B + opEl row no id ldb k0 0 + a)) ldb k c = opEl row no (fun a => f (B + a)) ldb (k0 + k) c := by
  unfold opEl
  cases row == no <;> simp only [Bool.false_eq_true, if_true, if_false, id] <;> (congr 1; push_cast; ring)

theorem entLoc_apart {fold : Nat} {row : Bool} {M N : Nat} {C : Int} {e e' : Nat × Nat} (h : e ∈ ents M N) (h' : e' ∈ ents M N) (hne : e ≠ e') : Apart fold (entLoc fold row M N C e) (entLoc fold row M N C e') := by
  rw [mem_ents] at h h'
  intro a h1 h2
  unfold entLoc at h1 h2
  rw [← span_packed] at h1 h2
  refine span_disj (fun he => hne ?_) h1 h2
  unfold entryAt at he
  have := entry_inj (row := row) (M := M) (N := N) (ldc := ((if row then N else M : Nat) : Int)) (by cases row <;> simp) h.1 h.2 h'.1 h'.2 he
  exact Prod.ext this.1 this.2

theorem zero_alone {fold : Nat} (hf : 2 ≤ fold) (l : Loc) (m : Mem) : MCall.alone F fold (.vec (.base (.setzero l))) m = dmsetzeroM fold l m := by
  unfold MCall.alone
  exact congrArg Prod.snd (TCall.eval_prog hf (.setzero l) m)

theorem zeros_view {fold : Nat} (hf : 2 ≤ fold) (l : Nat × Nat → Loc) (hs : ∀ e, Sep fold (l e)) {e : Nat × Nat} :
    ∀ (es : List (Nat × Nat)) (m : Mem), (∀ e' ∈ es, e' = e ∨ Apart fold (l e) (l e')) → (e ∈ es ∨ view fold (l e) m = dmsetzero fold) →
      view fold (l e) ((es.map fun e => MCall.vec (.base (.setzero (l e)))).foldl (fun m c => c.alone F fold m) m) = dmsetzero fold
  | [], _, _, h => h.resolve_left (by simp)
  | e' :: es, m, ha, h => by
    rw [List.map_cons, List.foldl_cons, zero_alone hf]
    have hz := dmsetzeroM_refines (hs e') m
    refine zeros_view hf l hs es _ (fun e'' h => ha e'' (List.mem_cons_of_mem _ h)) ?_
    rcases ha e' List.mem_cons_self with rfl | hap
    · exact Or.inr hz.1
    · rcases h with h | h
      · rcases List.mem_cons.1 h with rfl | h
        · exact Or.inr hz.1
        · exact Or.inl h
      · exact Or.inr ((view_frame hap hz.2).trans h)

theorem zeros_frame {fold : Nat} (hf : 2 ≤ fold) (l : Nat × Nat → Loc) (hs : ∀ e, Sep fold (l e)) {x : Int} :
    ∀ (es : List (Nat × Nat)) (m : Mem), (∀ e ∈ es, ¬ (l e).In fold x) → (es.map fun e => MCall.vec (.base (.setzero (l e)))).foldl (fun m c => c.alone F fold m) m x = m x
  | [], _, _ => rfl
  | e' :: es, m, h => by
    rw [List.map_cons, List.foldl_cons, zero_alone hf, zeros_frame hf l hs es _ (fun e he => h e (List.mem_cons_of_mem _ he))]
    exact (dmsetzeroM_refines (hs e') m).2 x (h e' List.mem_cons_self)

section
variable [F.OK] {fold : Nat} (hf : 2 ≤ fold) {T : Tune} (hT : T.OK F) {b : GemmB} (hb : b.OK) (Order TransA TransB : Char) {M N K : Nat} {alpha : Flt} (ha : isZero alpha = false) {A lda B ldb C : Int}

/-- The products of a slab. -/
def slabTerms (F : Fmt) (Order TransA TransB : Char) (alpha : Flt) (m : Mem) (A lda B ldb : Int) (r c : Nat) (s : Slab) : List Flt :=
  (List.range s.n).map fun k => F.mul (F.mul (opEl (isRow Order) (isNo TransA) (fun a => m (A + a)) lda r (s.k0 + k)) alpha) (opEl (isRow Order) (isNo TransB) (fun a => m (B + a)) ldb (s.k0 + k) c)

/-- The slab lies in the inner dimension; the factors are disjoint from what the call writes, and the buffers from the result and from each other. -/
structure SlabSep (fold : Nat) (b : GemmB) (Order TransA TransB : Char) (M N K : Nat) (A lda B ldb C : Int) (s : Slab) : Prop where
  inner : s.k0 + s.n ≤ K
  sep : GemmSep 1 (2 * fold) (isRow Order) M N s.n (b.xt * b.yt) (opEl (isRow Order) (isNo TransA) id lda) (opEl (isRow Order) (isNo TransB) id ldb) (A + opEl (isRow Order) (isNo TransA) id lda 0 s.k0)
    (B + opEl (isRow Order) (isNo TransB) id ldb s.k0 0) C (if isRow Order then N else M : Nat) s.bufS s.bufA s.bufB
  facA : ∀ x, MatWords 1 (isRow Order) (isNo TransA) A lda M K x → ¬ GemmWork 1 (2 * fold) (isRow Order) M N s.n (b.xt * b.yt) C (if isRow Order then N else M : Nat) s.bufS s.bufA s.bufB x
  facB : ∀ x, MatWords 1 (isRow Order) (isNo TransB) B ldb K N x → ¬ GemmWork 1 (2 * fold) (isRow Order) M N s.n (b.xt * b.yt) C (if isRow Order then N else M : Nat) s.bufS s.bufA s.bufB x

theorem opEl_word (row no : Bool) (f : Int → Flt) (ld : Int) (r c : Nat) : opEl row no f ld r c = f (opEl row no id ld r c) := by
  unfold opEl; cases row == no <;> rfl

include hf hT hb ha in
theorem slabs_view {r c : Nat} (hr : r < M) (hc : c < N) (m0 : Mem) (hA : ∀ k : Nat, k < K → F.Finite (opEl (isRow Order) (isNo TransA) (fun a => m0 (A + a)) lda r k)) :
    ∀ (ss : List Slab) (m : Mem) (xs : List Flt), (∀ s ∈ ss, SlabSep fold b Order TransA TransB M N K A lda B ldb C s) →
      (∀ x, MatWords 1 (isRow Order) (isNo TransA) A lda M K x ∨ MatWords 1 (isRow Order) (isNo TransB) B ldb K N x → m x = m0 x) →
      view fold (entLoc fold (isRow Order) M N C (r, c)) m = F.sumSeq fold xs (dmsetzero fold) → (∀ x ∈ xs ++ ss.flatMap (slabTerms F Order TransA TransB alpha m0 A lda B ldb r c), F.Finite x) →
      (xs ++ ss.flatMap (slabTerms F Order TransA TransB alpha m0 A lda B ldb r c)).length ≤ F.capacity →
      view fold (entLoc fold (isRow Order) M N C (r, c)) ((ss.map (slabCall T b Order TransA TransB M N alpha A lda B ldb C)).foldl (fun m c => c.alone F fold m) m) =
        F.sumSeq fold (xs ++ ss.flatMap (slabTerms F Order TransA TransB alpha m0 A lda B ldb r c)) (dmsetzero fold)
  | [], m, xs, _, _, hv, _, _ => by simpa using hv
  | s :: ss, m, xs, hs, hm, hv, hfin, hcap => by
    rw [List.map_cons, List.foldl_cons, List.flatMap_cons, ← List.append_assoc]
    rw [List.flatMap_cons, ← List.append_assoc] at hfin hcap
    obtain ⟨hin, hsep, hfA, hfB⟩ := hs s List.mem_cons_self
    have hal : (slabCall T b Order TransA TransB M N alpha A lda B ldb C s).alone F fold m = F.dgemmM T false fold (fun _ _ _ _ _ _ _ => zero) (fun _ _ _ _ _ _ _ => zero) b Order TransA TransB M N s.n alpha
        (A + opEl (isRow Order) (isNo TransA) id lda 0 s.k0) lda (B + opEl (isRow Order) (isNo TransB) id ldb s.k0 0) ldb C (if isRow Order then N else M : Nat) s.bufS s.bufA s.bufB m := by
      unfold MCall.alone
      exact congrArg Prod.snd (eval_dgemm hT false hf _ _ b Order TransA TransB M N s.n alpha _ lda _ ldb C _ s.bufS s.bufA s.bufB m)
    have hg := C66_gemm hT false hf (fun _ _ _ _ _ _ _ => zero) (fun _ _ _ _ _ _ _ => zero) hb (fun _ => zero) (fun _ _ _ _ => zero) (fun _ _ _ _ => zero) Order TransA TransB alpha m hsep
    have heA : ∀ k : Nat, k < s.n → opEl (isRow Order) (isNo TransA) (fun a => m (A + opEl (isRow Order) (isNo TransA) id lda 0 s.k0 + a)) lda r k = opEl (isRow Order) (isNo TransA) (fun a => m0 (A + a)) lda r (s.k0 + k) := fun k hk => by
      rw [opEl_inA _ _ m, opEl_word _ _ (fun a => m (A + a)), opEl_word _ _ (fun a => m0 (A + a))]
      exact hm _ (Or.inl ⟨r, s.k0 + k, hr, by omega, by rw [span_one, one_mul']⟩)
    have heB : ∀ k : Nat, k < s.n → opEl (isRow Order) (isNo TransB) (fun a => m (B + opEl (isRow Order) (isNo TransB) id ldb s.k0 0 + a)) ldb k c = opEl (isRow Order) (isNo TransB) (fun a => m0 (B + a)) ldb (s.k0 + k) c := fun k hk => by
      rw [opEl_inB _ _ m, opEl_word _ _ (fun a => m (B + a)), opEl_word _ _ (fun a => m0 (B + a))]
      exact hm _ (Or.inr ⟨s.k0 + k, c, by omega, hc, by rw [span_one, one_mul']⟩)
    have hterms : gemmTerms F (isRow Order) (isNo TransA) (isNo TransB) s.n alpha (fun a => m (A + opEl (isRow Order) (isNo TransA) id lda 0 s.k0 + a)) lda (fun a => m (B + opEl (isRow Order) (isNo TransB) id ldb s.k0 0 + a)) ldb r c
        = slabTerms F Order TransA TransB alpha m0 A lda B ldb r c s := by
      unfold gemmTerms slabTerms
      exact List.map_congr_left fun k hk => by rw [heA k (List.mem_range.1 hk), heB k (List.mem_range.1 hk)]
    refine slabs_view hr hc m0 hA ss _ _ (fun s' h => hs s' (List.mem_cons_of_mem _ h)) (fun x hx => ?_) ?_ hfin hcap
    · rw [hal, hg.2 x (hx.elim (hfA x) (hfB x))]
      exact hm x hx
    · rw [hal]
      refine (hg.1 r c hr hc).trans ?_
      have hx1 : ∀ x ∈ xs, F.Finite x := fun x h => hfin x (by simp [h])
      have hlen : (slabTerms F Order TransA TransB alpha m0 A lda B ldb r c s).length = s.n := by unfold slabTerms; simp
      have hv' : view fold (packed fold (C + (2 * fold : Nat) * entryAt (isRow Order) (if isRow Order then N else M : Nat) r c)) m = (Hist.ofList xs .zero).eval F fold := by rw [ofList_eval]; exact hv
      have hres : F.sumSeq fold (slabTerms F Order TransA TransB alpha m0 A lda B ldb r c s) ((Hist.ofList xs .zero).eval F fold) = F.sumSeq fold (xs ++ slabTerms F Order TransA TransB alpha m0 A lda B ldb r c s) (dmsetzero fold) := by
        rw [ofList_eval]; unfold sumSeq; rw [List.foldl_append]; rfl
      by_cases h0 : s.n = 0
      · have he : slabTerms F Order TransA TransB alpha m0 A lda B ldb r c s = [] := List.eq_nil_of_length_eq_zero (by omega)
        rw [C25_nothing T fold b _ _ _ Order TransA TransB M N s.n alpha _ _ _ _ _ _ (Or.inr (Or.inr (Or.inl h0))), ← hres, he]
        exact hv'
      · have h25 := (C25_gemm hT hf hb (fun _ => zero) (fun _ _ _ _ => zero) (fun _ _ _ _ => zero) Order TransA TransB (M := M) (N := N) h0 ha
          (fun a => m (A + opEl (isRow Order) (isNo TransA) id lda 0 s.k0 + a)) lda (fun a => m (B + opEl (isRow Order) (isNo TransB) id ldb s.k0 0 + a)) ldb
          (fun l => view fold (packed fold (C + (2 * fold : Nat) * l)) m) (ldc := if isRow Order then N else M) (le_refl _)).1 r c (Hist.ofList xs .zero) hr hc hv' (ofList_legal hx1 trivial) (ofList_settled _ (fun _ => trivial))
          (fun k hk => by rw [heA k hk]; exact hA _ (by omega)) (by rw [hterms]; exact fun x h => hfin x (by simp [h]))
          (by rw [ofList_nums]; simp only [List.length_append, List.length_reverse] at hcap ⊢; simp only [Hist.nums, List.length_nil]; omega)
        rw [h25, hterms, ← hres]
        exact congrArg _ hv'

end

/-! ## Collecting -/

theorem collect_frame {fold : Nat} (hf : 2 ≤ fold) {ι : Type} (l : ι → Loc) {D : Loc} (hD : Sep fold D) (ts : List ι) (hl : ∀ t ∈ ts, Apart fold (l t) D) (out : Int) (m : Mem) {x : Int} (hx : ¬ D.In fold x) (ho : x ≠ out) :
    (collectCalls l ts D out).foldl (fun m c => c.alone F fold m) m x = m x := by
  have h : ∀ (us : List ι) (m' : Mem), (∀ t ∈ us, t ∈ ts) → us.foldl (fun m t => F.dmdmaddM fold (l t) D m) m' x = m' x := by
    intro us
    induction us with
    | nil => intros; rfl
    | cons u us ih =>
      intro m' hu
      rw [List.foldl_cons, ih _ (fun t h => hu t (List.mem_cons_of_mem _ h))]
      exact (dmdmaddM_refines (F := F) (by omega : 1 ≤ fold) hD (hl u (hu u List.mem_cons_self)) m').2 x hx
  unfold collectCalls
  rw [List.foldl_cons, List.foldl_append, List.foldl_map]
  show Mem.set _ out _ x = _
  rw [Mem.set_ne _ _ ho]
  exact (h ts _ (fun _ h => h)).trans ((dmsetzeroM_refines hD m).2 x hx)

/-- Collecting every entry of arrays of binned values that hold sums. -/
theorem collectAll_total [F.OK] {fold : Nat} (hf : 2 ≤ fold) {ι : Type} (row : Bool) {M N : Nat} (Ct : ι → Int) (ts : List ι) {D : Loc} (hD : Sep fold D) {C : Int} {ldc : Nat} (hld : (if row then N else M) ≤ ldc)
    (hDl : ∀ t, ∀ e ∈ ents M N, Apart fold (entLoc fold row M N (Ct t) e) D) (hCD : ∀ e ∈ ents M N, ¬ D.In fold (C + entryAt row ldc e.1 e.2))
    (hCl : ∀ t, ∀ e ∈ ents M N, ∀ e' ∈ ents M N, ¬ (entLoc fold row M N (Ct t) e).In fold (C + entryAt row ldc e'.1 e'.2)) (xs : ι → List Flt) {ys : List Flt} {e : Nat × Nat} (he : e ∈ ents M N)
    (hxs : (ts.flatMap xs).Perm ys) (hfin : ∀ x ∈ ys, F.Finite x) (hcap : ys.length ≤ F.capacity) (m : Mem) (hv : ∀ t ∈ ts, view fold (entLoc fold row M N (Ct t) e) m = F.sumSeq fold (xs t) (dmsetzero fold)) :
    (collectAll fold row M N Ct ts D C ldc).foldl (fun m c => c.alone F fold m) m (C + entryAt row ldc e.1 e.2) = convert F fold (F.specSum fold ys) := by
  have hinj : ∀ e' ∈ ents M N, C + entryAt row ldc e.1 e.2 = C + entryAt row ldc e'.1 e'.2 → e = e' := fun e' h' h => by
    have h1 := mem_ents.1 he
    have h2 := mem_ents.1 h'
    have := entry_inj (row := row) (M := M) (N := N) (ldc := (ldc : Int)) (by cases row <;> simpa using hld) h1.1 h1.2 h2.1 h2.2 (by unfold entryAt at h; omega)
    exact Prod.ext this.1 this.2
  suffices h : ∀ (es : List (Nat × Nat)) (m : Mem), (∀ e' ∈ es, e' ∈ ents M N) → (∀ t ∈ ts, view fold (entLoc fold row M N (Ct t) e) m = F.sumSeq fold (xs t) (dmsetzero fold)) →
      e ∈ es ∨ m (C + entryAt row ldc e.1 e.2) = convert F fold (F.specSum fold ys) →
      (es.flatMap fun e => collectCalls (fun t => entLoc fold row M N (Ct t) e) ts D (C + entryAt row ldc e.1 e.2)).foldl (fun m c => c.alone F fold m) m (C + entryAt row ldc e.1 e.2) = convert F fold (F.specSum fold ys) from
    h _ m (fun _ h => h) hv (Or.inl he)
  intro es
  induction es with
  | nil => intro m _ _ h; exact h.resolve_left (by simp)
  | cons e' es ih =>
    intro m hes hv h
    rw [List.flatMap_cons, List.foldl_append]
    have he' := hes e' List.mem_cons_self
    have hfr : ∀ x, ¬ D.In fold x → x ≠ C + entryAt row ldc e'.1 e'.2 → (collectCalls (fun t => entLoc fold row M N (Ct t) e') ts D (C + entryAt row ldc e'.1 e'.2)).foldl (fun m c => c.alone F fold m) m x = m x := fun x h1 h2 =>
      collect_frame hf _ hD ts (fun t _ => hDl t e' he') _ m h1 h2
    have hkeep : ∀ t ∈ ts,
        view fold (entLoc fold row M N (Ct t) e) ((collectCalls (fun t => entLoc fold row M N (Ct t) e') ts D (C + entryAt row ldc e'.1 e'.2)).foldl (fun m c => c.alone F fold m) m) = F.sumSeq fold (xs t) (dmsetzero fold) := fun t ht => by
      rw [view_congr (m' := m) (fun a h => hfr a (hDl t e he a h) (fun hh => hCl t e he e' he' (hh ▸ h))), hv t ht]
    refine ih _ (fun e'' h => hes e'' (List.mem_cons_of_mem _ h)) hkeep ?_
    by_cases hee : e = e'
    · subst hee
      exact Or.inr (collect_total hf _ xs hD (fun t => hDl t e he) _ ts hxs hfin hcap m hv)
    · rcases h with h | h
      · exact Or.inl ((List.mem_cons.1 h).resolve_left hee)
      · exact Or.inr ((hfr _ (hCD e he) (fun hh => hee (hinj e' he' hh))).trans h)

/-! ## The theorem -/

section
variable [F.OK] (hF : F = f64 ∨ F = f32) {fold : Nat} (hf : 2 ≤ fold) (hm : fold ≤ F.maxFold) {ι : Type} [DecidableEq ι] (T : ι → Tune) (hT : ∀ t, (T t).OK F) (b : ι → GemmB) (hb : ∀ t, (b t).OK)
  (Order TransA TransB : Char) {M N K : Nat} {alpha : Flt} (ha : isZero alpha = false) {A lda B ldb C : Int} {ldc : Nat} (slabs : ι → List Slab) (Ct : ι → Int)
  {calls : ι → List MCall} (hcalls : ∀ t, calls t = zeroCalls fold (isRow Order) M N (Ct t) ++ (slabs t).map (slabCall (T t) (b t) Order TransA TransB M N alpha A lda B ldb (Ct t)))
  (hs : ∀ t, ∀ s ∈ slabs t, SlabSep fold (b t) Order TransA TransB M N K A lda B ldb (Ct t) s)
  (hz : ∀ t x, MatWords 1 (isRow Order) (isNo TransA) A lda M K x ∨ MatWords 1 (isRow Order) (isNo TransB) B ldb K N x → ∀ e ∈ ents M N, ¬ (entLoc fold (isRow Order) M N (Ct t) e).In fold x)
  (hd : ∀ t u, t ≠ u → ∀ a, MWrites fold (calls t) a → ¬ MUses fold (calls u) a) (m : Mem) (junk : Nat → Flt)
  {ts : List ι} (hall : (ts.flatMap fun t => (slabs t).flatMap fun s => (List.range s.n).map (s.k0 + ·)).Perm (List.range K)) (hcap : K ≤ F.capacity)
  {D : Loc} (hD : Sep fold D) (hDl : ∀ t, ∀ e ∈ ents M N, Apart fold (entLoc fold (isRow Order) M N (Ct t) e) D) (hCD : ∀ e ∈ ents M N, ¬ D.In fold (C + entryAt (isRow Order) ldc e.1 e.2))
  (hCl : ∀ t, ∀ e ∈ ents M N, ∀ e' ∈ ents M N, ¬ (entLoc fold (isRow Order) M N (Ct t) e).In fold (C + entryAt (isRow Order) ldc e'.1 e'.2)) (hld : (if isRow Order then N else M) ≤ ldc)
include hF hf hm hT hb ha hcalls hs hz hd hall hcap hD hDl hCD hCl hld

/-- **C82.** The parallel matrix product with a split inner dimension. Thread `t` clears its array of binned values and calls `binnedBLAS_dbdgemm` on the slabs `slabs t` - together they cover the inner dimension, in whatever sizes, order
and distribution over the threads -, with its own tuning and block sizes. When all threads are done (and, with store buffers, their writes have reached memory), the main thread adds the arrays entry by entry, in any order of the
threads, and converts. Entry `(r, c)` is then the conversion of the reproducible sum of the products: the slabs, the threads and the schedule do not occur in it. -/
theorem C82_parallel_inner {r c : Nat} (hr : r < M) (hc : c < N) (hA : ∀ k : Nat, k < K → F.Finite (opEl (isRow Order) (isNo TransA) (fun a => m (A + a)) lda r k))
    (hx : ∀ x ∈ gemmTerms F (isRow Order) (isNo TransA) (isNo TransB) K alpha (fun a => m (A + a)) lda (fun a => m (B + a)) ldb r c, F.Finite x) :
    let result := convert F fold (F.specSum fold (gemmTerms F (isRow Order) (isNo TransA) (isNo TransB) K alpha (fun a => m (A + a)) lda (fun a => m (B + a)) ldb r c))
    (∀ sched : List ι, let σ := (System.mk (fun t => mthreadP F fold (calls t)) ⟨m, false, junk⟩).run sched
      (∀ t ∈ ts, σ.prog t = .ret ()) → (collectAll fold (isRow Order) M N Ct ts D C ldc).foldl (fun m c => c.alone F fold m) σ.shared.mem (C + entryAt (isRow Order) ldc r c) = result) ∧
    (∀ sched : List (TsoEvent ι), let σ := (tsoStart (fun t => mthreadP F fold (calls t)) m junk).run sched
      (∀ t ∈ ts, σ.prog t = .ret () ∧ σ.queue t = []) →
        (collectAll fold (isRow Order) M N Ct ts D C ldc).foldl (fun m c => c.alone F fold m) σ.shared.mem (C + entryAt (isRow Order) ldc r c) = result) := by
  intro result
  have he : (r, c) ∈ ents M N := mem_ents.2 ⟨hr, hc⟩
  have hxs : (ts.flatMap fun t => (slabs t).flatMap (slabTerms F Order TransA TransB alpha m A lda B ldb r c)).Perm
      (gemmTerms F (isRow Order) (isNo TransA) (isNo TransB) K alpha (fun a => m (A + a)) lda (fun a => m (B + a)) ldb r c) := by
    unfold gemmTerms
    have := hall.map (fun k => F.mul (F.mul (opEl (isRow Order) (isNo TransA) (fun a => m (A + a)) lda r k) alpha) (opEl (isRow Order) (isNo TransB) (fun a => m (B + a)) ldb k c))
    simp only [List.map_flatMap, List.map_map] at this
    exact this
  have hlen : (gemmTerms F (isRow Order) (isNo TransA) (isNo TransB) K alpha (fun a => m (A + a)) lda (fun a => m (B + a)) ldb r c).length ≤ F.capacity := by unfold gemmTerms; simpa using hcap
  have hin : ∀ t, ∀ c ∈ calls t, c.InRange := fun t c hc => by
    rw [hcalls, List.mem_append] at hc
    rcases hc with hc | hc
    · obtain ⟨e, _, rfl⟩ := List.mem_map.1 hc; trivial
    · obtain ⟨s, _, rfl⟩ := List.mem_map.1 hc; exact hb t
  have hview : ∀ t ∈ ts, view fold (entLoc fold (isRow Order) M N (Ct t) (r, c)) ((calls t).foldl (fun m c => c.alone F fold m) m) =
      F.sumSeq fold ((slabs t).flatMap (slabTerms F Order TransA TransB alpha m A lda B ldb r c)) (dmsetzero fold) := fun t ht => by
    rw [hcalls, List.foldl_append]
    have hsub : ∀ x ∈ (slabs t).flatMap (slabTerms F Order TransA TransB alpha m A lda B ldb r c), x ∈ ts.flatMap fun t => (slabs t).flatMap (slabTerms F Order TransA TransB alpha m A lda B ldb r c) :=
      fun x h => List.mem_flatMap.2 ⟨t, ht, h⟩
    have hle : ((slabs t).flatMap (slabTerms F Order TransA TransB alpha m A lda B ldb r c)).length ≤ F.capacity := by
      refine Nat.le_trans ?_ (hxs.length_eq ▸ hlen)
      obtain ⟨as, bs, rfl⟩ := List.append_of_mem ht
      rw [List.flatMap_append, List.flatMap_cons, List.length_append, List.length_append]
      omega
    have := slabs_view hf (hT t) (hb t) Order TransA TransB ha hr hc m hA (slabs t) ((zeroCalls fold (isRow Order) M N (Ct t)).foldl (fun m c => MCall.alone F fold c m) m) [] (hs t)
      (fun x hx => zeros_frame (F := F) hf (entLoc fold (isRow Order) M N (Ct t)) (fun e => packed_sep fold _) _ m (fun e he => hz t x hx e he))
      (zeros_view (F := F) hf (entLoc fold (isRow Order) M N (Ct t)) (fun e => packed_sep fold _) _ m (fun e' he' => (Decidable.em (e' = (r, c))).imp_right (fun hne => entLoc_apart he he' (fun h => hne h.symm))) (Or.inl he))
      (fun x h => hx x (hxs.subset (hsub x h))) hle
    exact this
  have huse : ∀ t a, (entLoc fold (isRow Order) M N (Ct t) (r, c)).In fold a → MUses fold (calls t) a := fun t a h =>
    ⟨.vec (.base (.setzero (entLoc fold (isRow Order) M N (Ct t) (r, c)))), by rw [hcalls]; exact List.mem_append_left _ (List.mem_map.2 ⟨_, he, rfl⟩), Or.inl h⟩
  constructor
  · intro sched σ hdone
    have hth := (C81_threads hF hf hm calls hin hd m junk).1 sched
    exact collectAll_total hf (isRow Order) Ct ts hD hld hDl hCD hCl _ he hxs hx hlen σ.shared.mem (fun t ht => by
      rw [view_congr (fun a h => hth t (hdone t ht) a (huse t a h)), hview t ht])
  · intro sched σ hdone
    have hth := (C81_tso hF hf hm calls hin hd m junk).1 sched
    exact collectAll_total hf (isRow Order) Ct ts hD hld hDl hCD hCl _ he hxs hx hlen σ.shared.mem (fun t ht => by
      rw [view_congr (fun a h => hth t (hdone t ht).1 (hdone t ht).2 a (huse t a h)), hview t ht])

/-- **C82.** It is what one call of `reproBLAS_rdgemm` with `beta = 0` by a single thread leaves there. -/
theorem C82_same_as_single {T' : Tune} (hT' : T'.OK F) (expand : Bool) (jA jD : Junk) {b' : GemmB} (hb' : b'.OK) {beta : Flt} (hbeta : isZero beta = true) {CI' bufS' bufA' bufB' : Int}
    (hs' : GemmSep 1 (2 * fold) (isRow Order) M N K (b'.xt * b'.yt) (opEl (isRow Order) (isNo TransA) id lda) (opEl (isRow Order) (isNo TransB) id ldb) A B CI' (if isRow Order then N else M) bufS' bufA' bufB')
    (hY' : ∀ r c : Nat, r < M → c < N → ¬ GemmWork 1 (2 * fold) (isRow Order) M N K (b'.xt * b'.yt) CI' (if isRow Order then N else M) bufS' bufA' bufB' (C + entryAt (isRow Order) ldc r c)) (hcap' : K + 1 ≤ F.capacity)
    {r c : Nat} (hr : r < M) (hc : c < N) (hA : ∀ k : Nat, k < K → F.Finite (opEl (isRow Order) (isNo TransA) (fun a => m (A + a)) lda r k))
    (hx : ∀ x ∈ gemmTerms F (isRow Order) (isNo TransA) (isNo TransB) K alpha (fun a => m (A + a)) lda (fun a => m (B + a)) ldb r c, F.Finite x)
    (sched : List ι) (hdone : ∀ t ∈ ts, ((System.mk (fun t => mthreadP F fold (calls t)) ⟨m, false, junk⟩).run sched).prog t = .ret ()) :
    (collectAll fold (isRow Order) M N Ct ts D C ldc).foldl (fun m c => c.alone F fold m) ((System.mk (fun t => mthreadP F fold (calls t)) ⟨m, false, junk⟩).run sched).shared.mem (C + entryAt (isRow Order) ldc r c) =
      F.rdgemmM T' expand fold jA jD b' Order TransA TransB M N K alpha A lda B ldb beta C ldc CI' bufS' bufA' bufB' m (C + entryAt (isRow Order) ldc r c) := by
  have h := (C82_parallel_inner hF hf hm T hT b hb Order TransA TransB ha slabs Ct hcalls hs hz hd m junk hall hcap hD hDl hCD hCl hld hr hc hA hx).1 sched hdone
  have h1 := (C66_rdgemm hT' expand hf jA jD hb' Order TransA TransB alpha beta m hs' hY' hld hcap').1 r c hr hc (fun h => by rw [hbeta] at h; cases h) (fun _ => ⟨hA, hx⟩)
  refine h.trans (Eq.trans ?_ h1.symm)
  unfold betaTerm
  rw [hbeta, ha]
  rfl

end

/-! Concrete cases. -/

/-- Two threads, one slab of the inner dimension each, of a 1 by 2 product with inner dimension 2: `A` at 1, `B` at 10, the binned values and buffers of thread `t` from `1000 * t + 100` on. -/
def innerSlab (t : Bool) : Slab := let o : Int := if t then 1000 else 0
  ⟨if t then 1 else 0, 1, 200 + o, 300 + o, 400 + o⟩
def innerCt (t : Bool) : Int := 100 + if t then 1000 else 0
def innerCalls (t : Bool) : List MCall := zeroCalls 2 (isRow 'r') 1 2 (innerCt t) ++ [innerSlab t].map (slabCall ⟨2, 1, 2, 1, 1, false⟩ ⟨2, 2, 2, 2⟩ 'r' 'n' 'n' 1 2 f32.one 1 2 10 2 (innerCt t))

/-- The hypotheses of `C82_parallel_inner` are met; `C` at 20, the main thread's value at 50. -/
example : (∀ t : Bool, SlabSep 2 ⟨2, 2, 2, 2⟩ 'r' 'n' 'n' 1 2 2 1 2 10 2 (innerCt t) (innerSlab t)) ∧
    (∀ (t : Bool) x, MatWords 1 (isRow 'r') (isNo 'n') 1 2 1 2 x ∨ MatWords 1 (isRow 'r') (isNo 'n') 10 2 2 2 x → ∀ e ∈ ents 1 2, ¬ (entLoc 2 (isRow 'r') 1 2 (innerCt t) e).In 2 x) ∧
    (∀ t u : Bool, t ≠ u → ∀ a, MWrites 2 (innerCalls t) a → ¬ MUses 2 (innerCalls u) a) ∧
    ([false, true].flatMap fun t => [innerSlab t].flatMap fun s => (List.range s.n).map (s.k0 + ·)).Perm (List.range 2) ∧
    (∀ t : Bool, ∀ e ∈ ents 1 2, Apart 2 (entLoc 2 (isRow 'r') 1 2 (innerCt t) e) (packed 2 50)) ∧ (∀ e ∈ ents 1 2, ¬ (packed 2 50).In 2 (20 + entryAt (isRow 'r') 2 e.1 e.2)) ∧
    (∀ t : Bool, ∀ e ∈ ents 1 2, ∀ e' ∈ ents 1 2, ¬ (entLoc 2 (isRow 'r') 1 2 (innerCt t) e).In 2 (20 + entryAt (isRow 'r') 2 e'.1 e'.2)) := by
  have hrow : isRow 'r' = true := by decide
  have hno : isNo 'n' = true := by decide
  have hl : ∀ (t : Bool) (e : Nat × Nat) (x : Int), e ∈ ents 1 2 → (entLoc 2 (isRow 'r') 1 2 (innerCt t) e).In 2 x → 100 + (if t then 1000 else 0) ≤ x ∧ x < 108 + (if t then 1000 else 0) := by
    intro t e x he h
    have := mem_ents.1 he
    unfold entLoc at h
    rw [← span_packed, hrow] at h
    unfold innerCt at h
    cases t <;> simp only [Span, entryAt, if_true, Bool.false_eq_true, if_false] at h ⊢ <;> omega
  have hw : ∀ (t : Bool) (x : Int), GemmWork 1 (2 * 2) (isRow 'r') 1 2 1 2 (innerCt t) 2 (200 + if t then 1000 else 0) (300 + if t then 1000 else 0) (400 + if t then 1000 else 0) x →
      100 + (if t then 1000 else 0) ≤ x ∧ x < 500 + (if t then 1000 else 0) := by
    intro t x h
    rw [hrow] at h
    rcases h with ⟨r, c, hr, hc, h⟩ | h | h | h <;> cases t <;> simp only [Span, opEl, id, innerCt, beq_self_eq_true, if_true, Bool.false_eq_true, if_false] at h ⊢ <;> omega
  have hA : ∀ x, MatWords 1 (isRow 'r') (isNo 'n') 1 2 1 2 x → 0 ≤ x ∧ x < 20 := by
    rintro x ⟨r, c, hr, hc, h⟩
    rw [hrow, hno] at h
    simp only [Span, opEl, id, beq_self_eq_true, if_true] at h; omega
  have hB : ∀ x, MatWords 1 (isRow 'r') (isNo 'n') 10 2 2 2 x → 0 ≤ x ∧ x < 20 := by
    rintro x ⟨r, c, hr, hc, h⟩
    rw [hrow, hno] at h
    simp only [Span, opEl, id, beq_self_eq_true, if_true] at h; omega
  have hS : ∀ t : Bool, SlabSep 2 ⟨2, 2, 2, 2⟩ 'r' 'n' 'n' 1 2 2 1 2 10 2 (innerCt t) (innerSlab t) := by
    intro t
    refine ⟨by cases t <;> decide, ?_, fun x hx h => ?_, fun x hx h => ?_⟩
    · have e : GemmB.xt ⟨2, 2, 2, 2⟩ * GemmB.yt ⟨2, 2, 2, 2⟩ = 2 := by decide
      rw [e, hrow, hno]
      constructor
      · decide
      · intro r k hr hk x hx h
        have := hw t x (by rw [hrow]; exact h)
        cases t <;> simp only [Span, opEl, id, innerSlab, beq_self_eq_true, if_true, Bool.false_eq_true, if_false] at hx hk this <;> omega
      · intro k c hk hc x hx h
        have := hw t x (by rw [hrow]; exact h)
        cases t <;> simp only [Span, opEl, id, innerSlab, beq_self_eq_true, if_true, Bool.false_eq_true, if_false] at hx hk this <;> omega
      · intro r c hr hc x hx
        cases t <;> simp only [Span, opEl, id, innerSlab, innerCt, beq_self_eq_true, if_true, Bool.false_eq_true, if_false] at hx ⊢ <;> omega
      · intro x; cases t <;> simp only [Span, innerSlab, if_true, Bool.false_eq_true, if_false] <;> omega
      · intro x; cases t <;> simp only [Span, innerSlab, if_true, Bool.false_eq_true, if_false] <;> omega
      · intro x; cases t <;> simp only [Span, innerSlab, if_true, Bool.false_eq_true, if_false] <;> omega
    · have h1 := hA x hx
      have h2 := hw t x h
      cases t <;> simp only [if_true, Bool.false_eq_true, if_false] at h2 <;> omega
    · have h1 := hB x hx
      have h2 := hw t x h
      cases t <;> simp only [if_true, Bool.false_eq_true, if_false] at h2 <;> omega
  have hW : ∀ (t : Bool) (c : MCall) (a : Int), c ∈ innerCalls t → c.Writes 2 a → 100 + (if t then 1000 else 0) ≤ a ∧ a < 500 + (if t then 1000 else 0) := by
    intro t c a hc h
    rcases List.mem_append.1 hc with hc | hc
    · obtain ⟨e, he, rfl⟩ := List.mem_map.1 hc
      have := hl t e a he h
      omega
    · rw [List.map_singleton, List.mem_singleton] at hc
      subst hc
      exact hw t a h
  have hR : ∀ (t : Bool) (c : MCall) (a : Int), c ∈ innerCalls t → c.Reads 2 a → 0 ≤ a ∧ a < 20 ∨ 100 + (if t then 1000 else 0) ≤ a ∧ a < 500 + (if t then 1000 else 0) := by
    intro t c a hc h
    rcases List.mem_append.1 hc with hc | hc
    · obtain ⟨e, he, rfl⟩ := List.mem_map.1 hc
      exact absurd h (by intro h; exact h)
    · rw [List.map_singleton, List.mem_singleton] at hc
      subst hc
      refine Or.inl ?_
      rcases h with ⟨r, k, hr, hk, h⟩ | ⟨k, c, hk, hc, h⟩
      all_goals
        rw [hrow, hno] at h
        cases t <;> simp only [Span, opEl, id, innerSlab, beq_self_eq_true, if_true, Bool.false_eq_true, if_false] at h hk <;> omega
  refine ⟨hS, fun t x hx e he h => ?_, fun t u htu a => ?_, by decide, fun t e he a h1 h2 => ?_, fun e he h => ?_, fun t e he e' he' h => ?_⟩
  · have h1 := hl t e x he h
    have h2 := hx.elim (hA x) (hB x)
    cases t <;> simp only [if_true, Bool.false_eq_true, if_false] at h1 <;> omega
  · rintro ⟨c, hc, h⟩ ⟨c', hc', h'⟩
    have h1 := hW t c a hc h
    have h2 : 0 ≤ a ∧ a < 20 ∨ 100 + (if u then 1000 else 0) ≤ a ∧ a < 500 + (if u then 1000 else 0) := h'.elim (fun h => Or.inr (hW u c' a hc' h)) (hR u c' a hc')
    cases t <;> cases u <;> simp only [if_true, Bool.false_eq_true, if_false, ne_eq, not_true_eq_false] at htu h1 h2 <;> omega
  · have h1 := hl t e a he h1
    rw [← span_packed] at h2
    unfold Span at h2
    cases t <;> simp only [if_true, Bool.false_eq_true, if_false] at h1 <;> omega
  · have := mem_ents.1 he
    rw [← span_packed, hrow] at h
    simp only [Span, entryAt, if_true] at h
    omega
  · have := mem_ents.1 he'
    have h := hl t e _ he h
    rw [hrow] at h
    cases t <;> simp only [entryAt, if_true, Bool.false_eq_true, if_false] at h <;> omega

/-- The row `(1, 2)` times `[[10, 11], [12, 13]]`, the two threads in turns. -/
example : let σ := (System.mk (fun t : Bool => mthreadP f32 2 (innerCalls t)) ⟨fun a => f32.ofInt a, false, fun _ => zero⟩).run ((List.replicate 1000 [false, true]).flatten)
    (σ.prog false).result? = some () ∧ (σ.prog true).result? = some () ∧
      (List.range 2).map (fun k : Nat => (collectAll 2 (isRow 'r') 1 2 innerCt [true, false] (packed 2 50) 20 2).foldl (fun m c => c.alone f32 2 m) σ.shared.mem (20 + k)) = [f32.ofInt 34, f32.ofInt 37] := by decide +kernel

end Repro
