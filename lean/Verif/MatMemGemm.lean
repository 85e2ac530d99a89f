import Verif.MatMemGemv
/-!
# The matrix-matrix product in flat memory refines the model
-/

namespace Repro
variable {α β : Type}

/-- The tiled product of `zgemm`, for any element type: the branches of `gemm` and of `zgemm` are instances. -/
def gemmU (dot : List (α × α) → β → β) (b : GemmB) (row aPack bPack swap unit : Bool) (fA fB : α → α) (g : Int → α) (ga gb : Nat → Nat → Nat → Int → α) (M N K : Nat)
    (A : Int → α) (lda : Int) (B : Int → α) (ldb : Int) (C : Int → β) (ldc : Int) : Int → β :=
  let bufA := scaleA unit fA M K A lda g
  let pA := fun i j k => pack b.xt b.yt fA K M k i A lda (ga i j k)
  let pB := fun i j k => pack b.xt b.yt fB K N k j B ldb (gb i j k)
  let bk := if aPack || bPack then b.xt else b.x
  let loc := fun (ii jj : Nat) => if row then (ii : Int) * ldc + jj else (jj : Int) * ldc + ii
  tiles dot (if aPack then b.yt else b.y) (if bPack then b.yt else b.y) bk M N K (!row) loc (fun i j k ii jj =>
      let a := if aPack then ptr (pA i j k) ((ii - i : Nat) * (b.xt : Int)) else ptr bufA.1 (ii * bufA.2 + k)
      let bb := if bPack then ptr (pB i j k) ((jj - j : Nat) * (b.xt : Int)) else ptr B (jj * ldb + k)
      if swap then pairs (min bk (K - k)) bb 1 a 1 else pairs (min bk (K - k)) a 1 bb 1) C

theorem zgemm_U (F : Fmt) (T : Tune) (fold : Nat) (b : GemmB) (g : Int → Flt × Flt) (ga gb : Nat → Nat → Nat → Int → Flt × Flt) (Order TransA TransB : Char) (M N K : Nat)
    (alpha : Flt × Flt) (A : Int → Flt × Flt) (lda : Int) (B : Int → Flt × Flt) (ldb : Int) (C : Int → Binned × Binned) (ldc : Int) :
    F.zgemm T fold b g ga gb Order TransA TransB M N K alpha A lda B ldb C ldc =
    if M = 0 ∨ N = 0 ∨ K = 0 ∨ Fmt.zzero alpha then C else
      let br := F.zbranch (isRow Order) (trOf TransA) (trOf TransB) alpha
      gemmU (F.dotZ T fold br.conj) b (isRow Order) (isRow Order != isNo TransA) (isRow Order == isNo TransB) br.swap (F.zunit alpha) br.fA br.fB g ga gb M N K A lda B ldb C ldc := rfl

theorem scaleA_if (unit : Bool) (scl : α → α) (M K : Nat) (A : Int → α) (lda : Int) (g : Int → α) :
    scaleA unit (if unit then id else scl) M K A lda g = scaleA unit scl M K A lda g := by
  cases unit <;> rfl

theorem gemm_U (dot : List (α × α) → β → β) (zero unit : Bool) (scl : α → α) (b : GemmB) (g : Int → α) (ga gb : Nat → Nat → Nat → Int → α)
    (Order TransA TransB : Char) (M N K : Nat) (A : Int → α) (lda : Int) (B : Int → α) (ldb : Int) (C : Int → β) (ldc : Int) :
    gemm dot zero unit scl b g ga gb Order TransA TransB M N K A lda B ldb C ldc =
    if M = 0 ∨ N = 0 ∨ K = 0 ∨ zero then C else
      gemmU dot b (isRow Order) (isRow Order != isNo TransA) (isRow Order == isNo TransB) false unit (if unit then id else scl) id g ga gb M N K A lda B ldb C ldc := by
  unfold gemm gemmU
  rw [scaleA_if]
  by_cases h : M = 0 ∨ N = 0 ∨ K = 0 ∨ zero = true
  · simp only [if_pos h]
  · simp only [if_neg h]
    cases isRow Order <;> cases isNo TransA <;> cases isNo TransB <;> rfl

/-- The elements met by the product: element `(r, t)` of the first factor ... -/
def elA (aPack unit : Bool) (fA : α → α) (A : Int → α) (lda : Int) (r t : Nat) : α :=
  if aPack then fA (A (t * lda + r)) else (if unit then id else fA) (A (r * lda + t))
/-- ... and element `(t, c)` of the second. -/
def elB (bPack : Bool) (fB : α → α) (B : Int → α) (ldb : Int) (c t : Nat) : α :=
  if bPack then fB (B (t * ldb + c)) else B (c * ldb + t)

/-- A pair of operands of the dot product. -/
def pairUp (swap : Bool) (a b : α) : α × α := if swap then (b, a) else (a, b)

theorem bk_pos {b : GemmB} (hb : b.OK) (p : Bool) : 1 ≤ (if p then b.xt else b.x) := by
  cases p
  · exact hb.x
  · exact hb.xt
theorem by_pos {b : GemmB} (hb : b.OK) (p : Bool) : 1 ≤ (if p then b.yt else b.y) := by
  cases p
  · exact hb.y
  · exact hb.yt

theorem gemmU_pure (dot : List (α × α) → β → β) {b : GemmB} (hb : b.OK) (row aPack bPack swap unit : Bool) (fA fB : α → α) (g : Int → α) (ga gb : Nat → Nat → Nat → Int → α) (M N K : Nat)
    (A : Int → α) (lda : Int) (B : Int → α) (ldb : Int) (C : Int → β) (ldc : Int) :
    gemmU dot b row aPack bPack swap unit fA fB g ga gb M N K A lda B ldb C ldc =
      tiles dot (if aPack then b.yt else b.y) (if bPack then b.yt else b.y) (if aPack || bPack then b.xt else b.x) M N K (!row)
        (fun ii jj => if row then (ii : Int) * ldc + jj else (jj : Int) * ldc + ii)
        (fun _ _ k ii jj => (List.range' k (min (if aPack || bPack then b.xt else b.x) (K - k))).map
          (fun t => pairUp swap (elA aPack unit fA A lda ii t) (elB bPack fB B ldb jj t))) C := by
  unfold gemmU
  refine tiles_congr dot (bk_pos hb _) C ?_
  intro i j k ii jj h1 h2 h3 h4 hk
  have hA : ∀ t, t < min (if aPack || bPack then b.xt else b.x) (K - k) →
      (if aPack then ptr (pack b.xt b.yt fA K M k i A lda (ga i j k)) ((ii - i : Nat) * (b.xt : Int)) else ptr (scaleA unit fA M K A lda g).1 (ii * (scaleA unit fA M K A lda g).2 + k)) ((t : Int) * 1)
        = elA aPack unit fA A lda ii (k + t) := by
    intro t ht
    unfold elA
    cases aPack
    · simp only [Bool.false_eq_true, if_false] at ht ⊢
      rw [← scaleA_spec unit fA M K A lda g (r := ii) (k := k + t) (by omega) (by omega)]
      unfold ptr
      congr 1; push_cast; ring
    · simp only [if_true, Bool.true_or] at ht h2 ⊢
      have := pack_spec (xt := b.xt) (yt := b.yt) fA (K := K) (M := M) (k := k) (i := i) A lda (ga i j k) (u := ii - i) (v := t) (by omega) (by omega) (by omega) (by omega)
      unfold ptr
      rw [Int.mul_one, this, show i + (ii - i) = ii by omega]
  have hB : ∀ t, t < min (if aPack || bPack then b.xt else b.x) (K - k) →
      (if bPack then ptr (pack b.xt b.yt fB K N k j B ldb (gb i j k)) ((jj - j : Nat) * (b.xt : Int)) else ptr B (jj * ldb + k)) ((t : Int) * 1)
        = elB bPack fB B ldb jj (k + t) := by
    intro t ht
    unfold elB
    cases bPack
    · simp only [Bool.false_eq_true, if_false] at ht ⊢
      unfold ptr
      congr 1; push_cast; ring
    · simp only [if_true, Bool.or_true] at ht h4 ⊢
      have := pack_spec (xt := b.xt) (yt := b.yt) fB (K := K) (M := N) (k := k) (i := j) B ldb (gb i j k) (u := jj - j) (v := t) (by omega) (by omega) (by omega) (by omega)
      unfold ptr
      rw [Int.mul_one, this, show j + (jj - j) = jj by omega]
  cases swap
  · simp only [Bool.false_eq_true, if_false, pairUp]
    apply pairs_block
    intro t ht
    rw [hA t ht, hB t ht]
  · simp only [if_true, pairUp]
    apply pairs_block
    intro t ht
    rw [hA t ht, hB t ht]

/-- The words a matrix-matrix product may write: the entries of the result, the scaled copy of A and the buffers for tiles of A and B. -/
def GemmWork (w bw : Nat) (row : Bool) (M N K nb : Nat) (C ldc bufS bufA bufB : Int) (x : Int) : Prop :=
  (∃ r c : Nat, r < M ∧ c < N ∧ Span (C + bw * opEl row true id ldc r c) bw x) ∨ Span bufS (w * (M * K)) x ∨ Span bufA (w * nb) x ∨ Span bufB (w * nb) x

/-- No overlap: the factors lie outside of what is written, the buffers are disjoint from the result and from each other, the leading dimension of the result is
large enough. -/
structure GemmSep (w bw : Nat) (row : Bool) (M N K nb : Nat) (iA iB : Nat → Nat → Int) (A B C : Int) (ldc : Int) (bufS bufA bufB : Int) : Prop where
  ld : (if row then (N : Int) else M) ≤ ldc
  matA : ∀ r t : Nat, r < M → t < K → ∀ x, Span (A + w * iA r t) w x → ¬ GemmWork w bw row M N K nb C ldc bufS bufA bufB x
  matB : ∀ t c : Nat, t < K → c < N → ∀ x, Span (B + w * iB t c) w x → ¬ GemmWork w bw row M N K nb C ldc bufS bufA bufB x
  res : ∀ r c : Nat, r < M → c < N → ∀ x, Span (C + bw * opEl row true id ldc r c) bw x →
    ¬ Span bufS (w * (M * K)) x ∧ ¬ Span bufA (w * nb) x ∧ ¬ Span bufB (w * nb) x
  bufSA : ∀ x, Span bufS (w * (M * K)) x → ¬ Span bufA (w * nb) x
  bufSB : ∀ x, Span bufS (w * (M * K)) x → ¬ Span bufB (w * nb) x
  bufAB : ∀ x, Span bufA (w * nb) x → ¬ Span bufB (w * nb) x

theorem entry_inj {row : Bool} {M N : Nat} {ldc : Int} (h : (if row then (N : Int) else M) ≤ ldc) {r c r' c' : Nat} (hr : r < M) (hc : c < N) (hr' : r' < M) (hc' : c' < N)
    (he : (if row then (r : Int) * ldc + c else (c : Int) * ldc + r) = (if row then (r' : Int) * ldc + c' else (c' : Int) * ldc + r')) : r = r' ∧ c = c' := by
  obtain ⟨l, rfl⟩ : ∃ l : Nat, ldc = l := ⟨ldc.toNat, by cases row <;> simp at h <;> omega⟩
  cases row
  · simp only [Bool.false_eq_true, if_false] at h he
    have := idx_inj (w := l) (u := c) (v := r) (u' := c') (v' := r') (by omega) (by omega) he
    exact ⟨this.2, this.1⟩
  · simp only [if_true] at h he
    exact idx_inj (by omega) (by omega) he

section
variable {O : MOps α} {S : MAbs α β} (hO : O.Law S)
include hO

/-- **The matrix-matrix product in memory.** -/
theorem gemmM_spec {b : GemmB} (hb : b.OK) (row aPack bPack swap unit : Bool) (fA fB : α → α) (g : Int → α) (ga gb : Nat → Nat → Nat → Int → α) {M N K : Nat}
    {A lda B ldb C ldc bufS bufA bufB : Int} (m : Mem)
    (hs : GemmSep O.w O.bw row M N K (b.xt * b.yt) (fun r t => if aPack then t * lda + r else r * lda + t) (fun t c => if bPack then t * ldb + c else c * ldb + t) A B C ldc bufS bufA bufB) :
    (∀ r c : Nat, r < M → c < N → S.bget (gemmM O b row aPack bPack swap unit fA fB M N K A lda B ldb C ldc bufS bufA bufB m) (C + O.bw * opEl row true id ldc r c)
      = gemmU S.dot b row aPack bPack swap unit fA fB g ga gb M N K (fun a => O.get m (A + O.w * a)) lda (fun a => O.get m (B + O.w * a)) ldb
        (fun l => S.bget m (C + O.bw * l)) ldc (opEl row true id ldc r c)) ∧
    (∀ x, ¬ GemmWork O.w O.bw row M N K (b.xt * b.yt) C ldc bufS bufA bufB x →
      gemmM O b row aPack bPack swap unit fA fB M N K A lda B ldb C ldc bufS bufA bufB m x = m x) := by
  have eloc : ∀ r c : Nat, opEl row true id ldc r c = if row then (r : Int) * ldc + c else (c : Int) * ldc + r := by
    intro r c; cases row <;> rfl
  have hsA := hs.matA
  have hsB := hs.matB
  have hres := hs.res
  unfold GemmWork at hsA hsB
  simp only [eloc] at hsA hsB hres
  rw [gemmU_pure S.dot hb]
  -- the scaled copy
  obtain ⟨s, es⟩ : ∃ s, s = (if aPack then (A, lda, m) else scaleAM O unit fA M K A lda bufS m) := ⟨_, rfl⟩
  have hsc : (∀ x, ¬ Span bufS (O.w * (M * K)) x → s.2.2 x = m x) ∧
      (aPack = false → (∀ r c : Nat, r < M → c < K → O.get s.2.2 (s.1 + O.w * (r * s.2.1 + c)) = (if unit then id else fA) (O.get m (A + O.w * (r * lda + c)))) ∧
        (∀ r c : Nat, r < M → c < K → ∀ x, Span (s.1 + O.w * (r * s.2.1 + c)) O.w x → Span (A + O.w * (r * lda + c)) O.w x ∨ Span bufS (O.w * (M * K)) x)) := by
    cases aPack
    · simp only [Bool.false_eq_true, if_false] at es hsA
      rw [es]
      have h := scaleAM_spec hO unit fA M K A lda bufS m (fun r c hr hc x hx hx' => hsA r c hr hc x hx (Or.inr (Or.inl hx')))
      exact ⟨h.2.1, fun _ => ⟨h.1, h.2.2⟩⟩
    · simp only [if_true] at es
      rw [es]
      exact ⟨fun _ _ => rfl, fun h => by cases h⟩
  -- the packing
  let Buf : Int → Prop := fun x => Span bufA (O.w * (b.xt * b.yt)) x ∨ Span bufB (O.w * (b.xt * b.yt)) x
  let pk : Nat → Nat → Nat → Mem → Mem := fun i j k m =>
    let m := if aPack then packM O b.xt b.yt fA K M k i A lda bufA m else m
    if bPack then packM O b.xt b.yt fB K N k j B ldb bufB m else m
  have hpkA : aPack = true → ∀ i k m', (∀ u v : Nat, u < b.yt → i + u < M → v < b.xt → k + v < K → O.get (packM O b.xt b.yt fA K M k i A lda bufA m') (bufA + O.w * ((u : Int) * b.xt + v))
      = fA (O.get m' (A + O.w * ((k + v : Nat) * lda + (i + u : Nat))))) ∧
      (∀ x, ¬ Span bufA (O.w * (b.xt * b.yt)) x → packM O b.xt b.yt fA K M k i A lda bufA m' x = m' x) := by
    intro ha i k m'
    refine packM_spec hO fA A lda bufA m' (fun c r hc hr x hx hx' => hsA r c hr hc x ?_ (Or.inr (Or.inr (Or.inl hx'))))
    rw [if_pos ha]; exact hx
  have hpkB : bPack = true → ∀ j k m', (∀ u v : Nat, u < b.yt → j + u < N → v < b.xt → k + v < K → O.get (packM O b.xt b.yt fB K N k j B ldb bufB m') (bufB + O.w * ((u : Int) * b.xt + v))
      = fB (O.get m' (B + O.w * ((k + v : Nat) * ldb + (j + u : Nat))))) ∧
      (∀ x, ¬ Span bufB (O.w * (b.xt * b.yt)) x → packM O b.xt b.yt fB K N k j B ldb bufB m' x = m' x) := by
    intro hb' j k m'
    refine packM_spec hO fB B ldb bufB m' (fun c r hc hr x hx hx' => hsB c r hc hr x ?_ (Or.inr (Or.inr (Or.inr hx'))))
    rw [if_pos hb']; exact hx
  have hfrA : ∀ i k m' x, ¬ Span bufA (O.w * (b.xt * b.yt)) x → (if aPack then packM O b.xt b.yt fA K M k i A lda bufA m' else m') x = m' x := by
    intro i k m' x hx
    by_cases ha : aPack = true
    · rw [if_pos ha]; exact (hpkA ha i k m').2 x hx
    · rw [if_neg ha]
  have hfrB : ∀ j k m' x, ¬ Span bufB (O.w * (b.xt * b.yt)) x → (if bPack then packM O b.xt b.yt fB K N k j B ldb bufB m' else m') x = m' x := by
    intro j k m' x hx
    by_cases ha : bPack = true
    · rw [if_pos ha]; exact (hpkB ha j k m').2 x hx
    · rw [if_neg ha]
  let aA : Nat → Nat → Nat → Nat → Nat → Int := fun i _ k ii _ => if aPack then bufA + O.w * ((ii - i : Nat) * (b.xt : Int)) else s.1 + O.w * (ii * s.2.1 + k)
  let aB : Nat → Nat → Nat → Nat → Nat → Int := fun _ j k _ jj => if bPack then bufB + O.w * ((jj - j : Nat) * (b.xt : Int)) else B + O.w * (jj * ldb + k)
  let loc : Nat → Nat → Int := fun ii jj => if row then (ii : Int) * ldc + jj else (jj : Int) * ldc + ii
  let bk := if aPack || bPack then b.xt else b.x
  let call : Nat → Nat → Nat → Nat → Nat → Mem → Mem := fun i j k ii jj m =>
    if swap then O.dot (min bk (K - k)) (aB i j k ii jj) 1 (aA i j k ii jj) 1 (C + O.bw * loc ii jj) m else O.dot (min bk (K - k)) (aA i j k ii jj) 1 (aB i j k ii jj) 1 (C + O.bw * loc ii jj) m
  have e : gemmM O b row aPack bPack swap unit fA fB M N K A lda B ldb C ldc bufS bufA bufB m
      = tilesM (if aPack then b.yt else b.y) (if bPack then b.yt else b.y) bk M N K (!row) pk call s.2.2 := by
    unfold gemmM
    rw [← es]
  have opA : ∀ i j k ii jj t : Nat, i ≤ ii → ii < min M (i + if aPack then b.yt else b.y) → k < K → t < min bk (K - k) →
      (∀ m' : Mem, (∀ x, (∀ r c, r < M → c < N → ¬ Span (C + O.bw * loc r c) O.bw x) → ¬ Buf x → m' x = s.2.2 x) →
        O.get (pk i j k m') (aA i j k ii jj + O.w * (t * 1)) = elA aPack unit fA (fun a => O.get m (A + O.w * a)) lda ii (k + t)) ∧
      (∀ r c x, r < M → c < N → Span (aA i j k ii jj + O.w * (t * 1)) O.w x → ¬ Span (C + O.bw * loc r c) O.bw x) := by
    intro i j k ii jj t h1 h2 hk ht
    by_cases ha : aPack = true
    · simp only [aA, bk, elA, ha, if_true, Bool.true_or] at h2 ht ⊢
      have e1 : bufA + O.w * (((ii - i : Nat) : Int) * (b.xt : Int)) + O.w * ((t : Int) * 1) = bufA + O.w * (((ii - i : Nat) : Int) * (b.xt : Int) + (t : Nat)) := by push_cast; ring
      rw [e1]
      have hbd := idx_bound (xt := b.xt) (yt := b.yt) (u := ii - i) (v := t) (by omega) (by omega)
      refine ⟨fun m' hm' => ?_, fun r c x hr hc hx hx' => (hres r c hr hc x hx').2.1 (span_in hbd.1 hbd.2 hx)⟩
      have e2 : O.get (pk i j k m') (bufA + O.w * (((ii - i : Nat) : Int) * (b.xt : Int) + (t : Nat))) = O.get (packM O b.xt b.yt fA K M k i A lda bufA m') (bufA + O.w * (((ii - i : Nat) : Int) * (b.xt : Int) + (t : Nat))) := by
        refine hO.get_congr fun x hx => ?_
        simp only [pk, ha, if_true]
        exact hfrB j k _ x (hs.bufAB x (span_in hbd.1 hbd.2 hx))
      rw [e2, (hpkA ha i k m').1 (ii - i) t (by omega) (by omega) (by omega) (by omega), show i + (ii - i) = ii by omega]
      congr 1
      refine hO.get_congr fun x hx => ?_
      have hw := hsA ii (k + t) (by omega) (by omega) x (by rw [if_pos ha]; exact hx)
      rw [hm' x (fun r c hr hc h' => hw (Or.inl ⟨r, c, hr, hc, h'⟩)) (fun h' => hw (Or.inr (Or.inr h'))), hsc.1 x (fun h' => hw (Or.inr (Or.inl h')))]
    · have ha' : aPack = false := by simpa using ha
      have hsc' := hsc.2 ha'
      simp only [aA, elA, ha', if_false, Bool.false_eq_true] at h2 ⊢
      have e1 : s.1 + O.w * ((ii : Int) * s.2.1 + k) + O.w * ((t : Int) * 1) = s.1 + O.w * ((ii : Int) * s.2.1 + (k + t : Nat)) := by push_cast; ring
      rw [e1]
      have hw : ∀ x, Span (s.1 + O.w * ((ii : Int) * s.2.1 + (k + t : Nat))) O.w x → (∀ r c, r < M → c < N → ¬ Span (C + O.bw * loc r c) O.bw x) ∧
          ¬ Span bufA (O.w * (b.xt * b.yt)) x ∧ ¬ Span bufB (O.w * (b.xt * b.yt)) x := by
        intro x hx
        rcases hsc'.2 ii (k + t) (by omega) (by omega) x hx with h' | h'
        · have hw := hsA ii (k + t) (by omega) (by omega) x (by rw [if_neg ha]; exact h')
          exact ⟨fun r c hr hc h' => hw (Or.inl ⟨r, c, hr, hc, h'⟩), fun h' => hw (Or.inr (Or.inr (Or.inl h'))), fun h' => hw (Or.inr (Or.inr (Or.inr h')))⟩
        · exact ⟨fun r c hr hc h2 => (hres r c hr hc x h2).1 h', hs.bufSA x h', hs.bufSB x h'⟩
      refine ⟨fun m' hm' => ?_, fun r c x hr hc hx => (hw x hx).1 r c hr hc⟩
      rw [← hsc'.1 ii (k + t) (by omega) (by omega)]
      refine hO.get_congr fun x hx => ?_
      have := hw x hx
      simp only [pk]
      rw [hfrB j k _ x this.2.2, hfrA i k _ x this.2.1]
      exact hm' x this.1 (fun h' => h'.elim this.2.1 this.2.2)
  have opB : ∀ i j k ii jj t : Nat, j ≤ jj → jj < min N (j + if bPack then b.yt else b.y) → k < K → t < min bk (K - k) →
      (∀ m' : Mem, (∀ x, (∀ r c, r < M → c < N → ¬ Span (C + O.bw * loc r c) O.bw x) → ¬ Buf x → m' x = s.2.2 x) →
        O.get (pk i j k m') (aB i j k ii jj + O.w * (t * 1)) = elB bPack fB (fun a => O.get m (B + O.w * a)) ldb jj (k + t)) ∧
      (∀ r c x, r < M → c < N → Span (aB i j k ii jj + O.w * (t * 1)) O.w x → ¬ Span (C + O.bw * loc r c) O.bw x) := by
    intro i j k ii jj t h1 h2 hk ht
    by_cases ha : bPack = true
    · simp only [aB, bk, elB, ha, if_true, Bool.or_true] at h2 ht ⊢
      have e1 : bufB + O.w * (((jj - j : Nat) : Int) * (b.xt : Int)) + O.w * ((t : Int) * 1) = bufB + O.w * (((jj - j : Nat) : Int) * (b.xt : Int) + (t : Nat)) := by push_cast; ring
      rw [e1]
      have hbd := idx_bound (xt := b.xt) (yt := b.yt) (u := jj - j) (v := t) (by omega) (by omega)
      refine ⟨fun m' hm' => ?_, fun r c x hr hc hx hx' => (hres r c hr hc x hx').2.2 (span_in hbd.1 hbd.2 hx)⟩
      simp only [pk, ha, if_true]
      rw [(hpkB ha j k _).1 (jj - j) t (by omega) (by omega) (by omega) (by omega), show j + (jj - j) = jj by omega]
      congr 1
      refine hO.get_congr fun x hx => ?_
      have hw := hsB (k + t) jj (by omega) (by omega) x (by rw [if_pos ha]; exact hx)
      rw [hfrA i k _ x (fun h' => hw (Or.inr (Or.inr (Or.inl h')))), hm' x (fun r c hr hc h' => hw (Or.inl ⟨r, c, hr, hc, h'⟩)) (fun h' => hw (Or.inr (Or.inr h'))),
        hsc.1 x (fun h' => hw (Or.inr (Or.inl h')))]
    · have ha' : bPack = false := by simpa using ha
      simp only [aB, elB, ha', if_false, Bool.false_eq_true] at h2 ⊢
      have e1 : B + O.w * ((jj : Int) * ldb + k) + O.w * ((t : Int) * 1) = B + O.w * ((jj : Int) * ldb + (k + t : Nat)) := by push_cast; ring
      rw [e1]
      have hw : ∀ x, Span (B + O.w * ((jj : Int) * ldb + (k + t : Nat))) O.w x → _ := fun x hx => hsB (k + t) jj (by omega) (by omega) x (by rw [if_neg ha]; exact hx)
      refine ⟨fun m' hm' => ?_, fun r c x hr hc hx h' => hw x hx (Or.inl ⟨r, c, hr, hc, h'⟩)⟩
      refine hO.get_congr fun x hx => ?_
      have := hw x hx
      simp only [pk]
      rw [hfrB j k _ x (fun h' => this (Or.inr (Or.inr (Or.inr h')))), hfrA i k _ x (fun h' => this (Or.inr (Or.inr (Or.inl h')))),
        hm' x (fun r c hr hc h' => this (Or.inl ⟨r, c, hr, hc, h'⟩)) (fun h' => this (Or.inr (Or.inr h'))), hsc.1 x (fun h' => this (Or.inr (Or.inl h')))]
  have h := tilesM_spec hO (bi := if aPack then b.yt else b.y) (bj := if bPack then b.yt else b.y) (bk := bk) (M := M) (N := N) (K := K) (bk_pos hb _) (by_pos hb _) (by_pos hb _) (jFirst := !row) (loc := loc)
    (fun r c r' c' h1 h2 h3 h4 h5 => entry_inj hs.ld h1 h2 h3 h4 h5) (Y := C) (Buf := Buf) (m0 := s.2.2) (pk := pk) (call := call)
    (len := fun k => min bk (K - k)) (aX := fun i j k ii jj => if swap then aB i j k ii jj else aA i j k ii jj) (aZ := fun i j k ii jj => if swap then aA i j k ii jj else aB i j k ii jj) (iX := 1) (iZ := 1)
    (e := fun ii jj t => pairUp swap (elA aPack unit fA (fun a => O.get m (A + O.w * a)) lda ii t) (elB bPack fB (fun a => O.get m (B + O.w * a)) ldb jj t))
    (fun _ _ _ _ _ _ => by cases swap <;> rfl) (fun r c x hr hc hx h' => (hres r c hr hc x hx).2.elim fun h1 h2 => h'.elim h1 h2)
    (fun i j k m' x _ _ _ hx => by
      simp only [pk]
      rw [hfrB j k _ x (fun h' => hx (Or.inr h')), hfrA i k _ x (fun h' => hx (Or.inl h'))]) ?_
  · rw [e]
    refine ⟨fun r c hr hc => ?_, fun x hx => ?_⟩
    · rw [eloc]
      refine (h.1 r c hr hc).trans ?_
      have hY : S.bget s.2.2 (C + O.bw * loc r c) = S.bget m (C + O.bw * loc r c) := hO.bget_congr fun x hx => hsc.1 x (hres r c hr hc x hx).1
      rw [tiles_calls, tiles_calls, updAll (fun q : Nat × Nat × Nat × Nat × Nat => loc q.2.2.2.1 q.2.2.2.2)
        (fun q z => S.dot ((List.range' q.2.2.1 (min bk (K - q.2.2.1))).map (fun t => pairUp swap (elA aPack unit fA (fun a => O.get m (A + O.w * a)) lda q.2.2.2.1 t) (elB bPack fB (fun a => O.get m (B + O.w * a)) ldb q.2.2.2.2 t))) z), hY]
      exact (updAll (fun q : Nat × Nat × Nat × Nat × Nat => loc q.2.2.2.1 q.2.2.2.2)
        (fun q z => S.dot ((List.range' q.2.2.1 (min bk (K - q.2.2.1))).map (fun t => pairUp swap (elA aPack unit fA (fun a => O.get m (A + O.w * a)) lda q.2.2.2.1 t) (elB bPack fB (fun a => O.get m (B + O.w * a)) ldb q.2.2.2.2 t))) z)
        (loc r c) (calls (if aPack then b.yt else b.y) (if bPack then b.yt else b.y) bk M N K (!row)) (fun l => S.bget m (C + O.bw * l))).symm
    · unfold GemmWork at hx
      simp only [eloc] at hx
      rw [h.2 x (fun r c hr hc h' => hx (Or.inl ⟨r, c, hr, hc, h'⟩)) (fun h' => hx (Or.inr (Or.inr h'))), hsc.1 x (fun h' => hx (Or.inr (Or.inl h')))]
  · intro i j k ii jj t h1 h2 h3 h4 hk ht
    have hA := opA i j k ii jj t h1 h2 hk ht
    have hB := opB i j k ii jj t h3 h4 hk ht
    cases swap
    · simp only [Bool.false_eq_true, if_false, pairUp]
      exact ⟨fun m' hm' => by rw [hA.1 m' hm', hB.1 m' hm'], hA.2, hB.2⟩
    · simp only [if_true, pairUp]
      exact ⟨fun m' hm' => by rw [hA.1 m' hm', hB.1 m' hm'], hB.2, hA.2⟩

end
end Repro
