import Verif.MatMemLemmas
/-!
# The matrix-vector product in flat memory refines the model
-/

namespace Repro
variable {α β : Type}

/-- The words a matrix-vector product may write: the `rows` entries of the result, the copy of the vector (`cols` elements) and the buffer for
a tile (`nb` elements). -/
def GemvWork (w bw rows cols nb : Nat) (Y incY bufX bufA : Int) (x : Int) : Prop :=
  (∃ r : Nat, r < rows ∧ Span (Y + bw * (r * incY)) bw x) ∨ Span bufX (w * cols) x ∨ Span bufA (w * nb) x

/-- No overlap: matrix (element `(r, c)` has index `iA r c`) and vector lie outside of what is written, the buffers are disjoint from the result and
from each other. -/
structure GemvSep (w bw rows cols nb : Nat) (iA : Nat → Nat → Int) (A X incX Y incY bufX bufA : Int) : Prop where
  inc : incY ≠ 0
  mat : ∀ r c : Nat, r < rows → c < cols → ∀ x, Span (A + w * iA r c) w x → ¬ GemvWork w bw rows cols nb Y incY bufX bufA x
  vec : ∀ c : Nat, c < cols → ∀ x, Span (X + w * (c * incX)) w x → ¬ GemvWork w bw rows cols nb Y incY bufX bufA x
  resX : ∀ r : Nat, r < rows → ∀ x, Span (Y + bw * (r * incY)) bw x → ¬ Span bufX (w * cols) x
  resA : ∀ r : Nat, r < rows → ∀ x, Span (Y + bw * (r * incY)) bw x → ¬ Span bufA (w * nb) x
  bufs : ∀ x, Span bufX (w * cols) x → ¬ Span bufA (w * nb) x

/-- The pairs of blocks of a row, given the elements. -/
def rowPairs (EA : Nat → Nat → α) (EX : Nat → α) (len : Nat → Nat) (k ii : Nat) : List (α × α) :=
  (List.range' k (len k)).map (fun c => (EA ii c, EX c))

theorem gemvN_pure (dot : List (α × α) → β → β) {b : GemvB} (hb : b.OK) {M N : Nat} {A : Int → α} {lda : Int} {bufX : Int → α} {incbufX : Int}
    (incY : Int) (Y : Int → β) {EA : Nat → Nat → α} {EX : Nat → α} (hA : ∀ r c : Nat, r < M → c < N → A (r * lda + c) = EA r c)
    (hX : ∀ c : Nat, c < N → bufX (c * incbufX) = EX c) : gemvN dot b M N A lda bufX incbufX incY Y =
    tiles dot b.y 1 b.x M 1 N false (fun ii _ => ii * incY) (fun _ _ k ii _ => rowPairs EA EX (fun k => min b.x (N - k)) k ii) Y := by
  rw [gemvN_tiles]
  refine tiles_congr dot (pos_of_pow hb.x) Y ?_
  intro i j k ii jj h1 h2 _ _ hk
  apply pairs_block
  intro t ht
  unfold ptr
  rw [← hA ii (k + t) (by omega) (by omega), ← hX (k + t) (by omega)]
  congr 1
  · congr 1; push_cast; ring
  · congr 1; push_cast; ring

theorem gemvT_pure (dot : List (α × α) → β → β) {b : GemvB} (hb : b.OK) {M N : Nat} {A : Int → α} {lda : Int} {bufX : Int → α} {incbufX : Int}
    (incY : Int) (g : Nat → Nat → Int → α) (Y : Int → β) {EA : Nat → Nat → α} {EX : Nat → α} (hA : ∀ r c : Nat, r < N → c < M → A (c * lda + r) = EA r c)
    (hX : ∀ c : Nat, c < M → bufX (c * incbufX) = EX c) : gemvT dot b M N A lda bufX incbufX incY g Y =
    tiles dot b.yt 1 b.xt N 1 M false (fun ii _ => ii * incY) (fun _ _ k ii _ => rowPairs EA EX (fun k => min b.xt (M - k)) k ii) Y := by
  rw [gemvT_tiles]
  refine tiles_congr dot (pos_of_pow hb.xt) Y ?_
  intro i j k ii jj h1 h2 _ _ hk
  apply pairs_block
  intro t ht
  unfold ptr
  rw [← hA ii (k + t) (by omega) (by omega), ← hX (k + t) (by omega)]
  congr 1
  · have := packT_spec hb (M := M) (N := N) (i := i) (j := k) A lda (g i k) (u := ii - i) (v := t) (by omega) (by omega) (by omega) (by omega)
    rw [Int.mul_one, this, show i + (ii - i) = ii by omega]
  · congr 1; push_cast; ring

section
variable {O : MOps α} {S : MAbs α β} (hO : O.Law S)
include hO

omit hO in
theorem row_loc {incY : Int} (hY : incY ≠ 0) {R r c r' c' : Nat} (_ : r < R) (hc : c < 1) (_ : r' < R) (hc' : c' < 1) (h : (r : Int) * incY = r' * incY) : r = r' ∧ c = c' := by
  have := Int.eq_of_mul_eq_mul_right hY h
  omega

/-- The common part of the cases that read the matrix in place (`gemvNM`, `zgemvCM`): `K` is the bound of the loop over columns, `len` the length of the calls. -/
theorem gemvInPlace_spec {by' bx : Nat} (hby : 1 ≤ by') (hbx : 1 ≤ bx) {M K : Nat} {A lda bufX incbufX Y incY : Int} (hY : incY ≠ 0) {len : Nat → Nat} {EA : Nat → Nat → α} {EX : Nat → α} (m : Mem)
    (hA : ∀ r k t : Nat, r < M → k < K → t < len k → O.get m (A + O.w * (r * lda + (k + t : Nat))) = EA r (k + t) ∧
      ∀ r' : Nat, r' < M → ∀ x, Span (A + O.w * (r * lda + (k + t : Nat))) O.w x → ¬ Span (Y + O.bw * (r' * incY)) O.bw x)
    (hX : ∀ k t : Nat, k < K → t < len k → O.get m (bufX + O.w * ((k + t : Nat) * incbufX)) = EX (k + t) ∧
      ∀ r' : Nat, r' < M → ∀ x, Span (bufX + O.w * ((k + t : Nat) * incbufX)) O.w x → ¬ Span (Y + O.bw * (r' * incY)) O.bw x) :
    let m' := forS 0 M by' (fun i => forS 0 K bx (fun j => forS i (min M (i + by')) 1 (fun ii m =>
      O.dot (len j) (A + O.w * (ii * lda + j)) 1 (bufX + O.w * (j * incbufX)) incbufX (Y + O.bw * (ii * incY)) m))) m
    (∀ r : Nat, r < M → S.bget m' (Y + O.bw * (r * incY)) = tiles S.dot by' 1 bx M 1 K false (fun ii _ => ii * incY)
      (fun _ _ k ii _ => rowPairs EA EX len k ii) (fun l => S.bget m (Y + O.bw * l)) (r * incY)) ∧
    (∀ x, (∀ r : Nat, r < M → ¬ Span (Y + O.bw * (r * incY)) O.bw x) → m' x = m x) := by
  intro m'
  have e : m' = tilesM by' 1 bx M 1 K false (fun _ _ _ m => m)
      (fun _ _ j ii _ m => O.dot (len j) (A + O.w * (ii * lda + j)) 1 (bufX + O.w * (j * incbufX)) incbufX (Y + O.bw * (ii * incY)) m) m := rfl
  have h := tilesM_spec hO (bi := by') (bj := 1) (bk := bx) (M := M) (N := 1) (K := K) hbx hby (Nat.le_refl 1) (jFirst := false) (loc := fun ii _ => ii * incY)
    (fun r c r' c' h1 h2 h3 h4 h5 => row_loc hY h1 h2 h3 h4 h5) (Y := Y) (Buf := fun _ => False) (m0 := m) (pk := fun _ _ _ m => m)
    (call := fun _ _ j ii _ m => O.dot (len j) (A + O.w * (ii * lda + j)) 1 (bufX + O.w * (j * incbufX)) incbufX (Y + O.bw * (ii * incY)) m)
    (len := len) (aX := fun _ _ j ii _ => A + O.w * (ii * lda + j)) (aZ := fun _ _ j _ _ => bufX + O.w * (j * incbufX)) (iX := 1) (iZ := incbufX)
    (e := fun ii _ c => (EA ii c, EX c)) (fun _ _ _ _ _ _ => rfl) (fun _ _ _ _ _ _ h => h) (fun _ _ _ _ _ _ _ _ _ => rfl) ?_
  · rw [e]
    exact ⟨fun r hr => h.1 r 0 hr (by omega), fun x hx => h.2 x (fun r c hr _ => hx r hr) (fun h => h)⟩
  · intro i j k ii jj t h1 h2 _ _ hk ht
    have e1 : A + O.w * ((ii : Int) * lda + k) + O.w * ((t : Int) * 1) = A + O.w * ((ii : Int) * lda + (k + t : Nat)) := by push_cast; ring
    have e2 : bufX + O.w * ((k : Int) * incbufX) + O.w * ((t : Int) * incbufX) = bufX + O.w * ((k + t : Nat) * incbufX) := by push_cast; ring
    rw [e1, e2]
    have hA' := hA ii k t (by omega) hk ht
    have hX' := hX k t hk ht
    refine ⟨fun m' hm' => ?_, fun r c x hr _ hx => hA'.2 r hr x hx, fun r c x hr _ hx => hX'.2 r hr x hx⟩
    rw [← hA'.1, ← hX'.1]
    congr 1
    · exact hO.get_congr fun x hx => hm' x (fun r c hr _ => hA'.2 r hr x hx) (fun h => h)
    · exact hO.get_congr fun x hx => hm' x (fun r c hr _ => hX'.2 r hr x hx) (fun h => h)

theorem gemvTM_spec {b : GemvB} (hb : b.OK) {M N : Nat} {A lda bufX incbufX Y incY bufA : Int} (hY : incY ≠ 0) {EA : Nat → Nat → α} {EX : Nat → α} (m : Mem)
    (hA : ∀ r c : Nat, r < N → c < M → O.get m (A + O.w * (c * lda + r)) = EA r c ∧
      ∀ x, Span (A + O.w * (c * lda + r)) O.w x → ¬ Span bufA (O.w * (b.xt * b.yt)) x ∧ ∀ r' : Nat, r' < N → ¬ Span (Y + O.bw * (r' * incY)) O.bw x)
    (hX : ∀ c : Nat, c < M → O.get m (bufX + O.w * (c * incbufX)) = EX c ∧
      ∀ x, Span (bufX + O.w * (c * incbufX)) O.w x → ¬ Span bufA (O.w * (b.xt * b.yt)) x ∧ ∀ r' : Nat, r' < N → ¬ Span (Y + O.bw * (r' * incY)) O.bw x)
    (hR : ∀ r : Nat, r < N → ∀ x, Span (Y + O.bw * (r * incY)) O.bw x → ¬ Span bufA (O.w * (b.xt * b.yt)) x) :
    (∀ r : Nat, r < N → S.bget (gemvTM O b M N A lda bufX incbufX Y incY bufA m) (Y + O.bw * (r * incY)) =
      tiles S.dot b.yt 1 b.xt N 1 M false (fun ii _ => ii * incY)
      (fun _ _ k ii _ => rowPairs EA EX (fun k => min b.xt (M - k)) k ii) (fun l => S.bget m (Y + O.bw * l)) (r * incY)) ∧
    (∀ x, (∀ r : Nat, r < N → ¬ Span (Y + O.bw * (r * incY)) O.bw x) → ¬ Span bufA (O.w * (b.xt * b.yt)) x → gemvTM O b M N A lda bufX incbufX Y incY bufA m x = m x) := by
  have e : gemvTM O b M N A lda bufX incbufX Y incY bufA m = tilesM b.yt 1 b.xt N 1 M false (fun i _ j m => packTM O b M N i j A lda bufA m)
      (fun i _ j ii _ m => O.dot (min b.xt (M - j)) (bufA + O.w * ((ii - i : Nat) * (b.xt : Int))) 1 (bufX + O.w * (j * incbufX)) incbufX (Y + O.bw * (ii * incY)) m) m := rfl
  have hpk : ∀ i j m, (∀ u v : Nat, u < b.yt → i + u < N → v < b.xt → j + v < M → O.get (packTM O b M N i j A lda bufA m) (bufA + O.w * ((u : Int) * b.xt + v))
      = O.get m (A + O.w * ((j + v : Nat) * lda + (i + u : Nat)))) ∧
      (∀ x, ¬ Span bufA (O.w * (b.xt * b.yt)) x → packTM O b M N i j A lda bufA m x = m x) := by
    intro i j m
    exact packTM_spec hO hb A lda bufA m (fun c r hc hr x hx => ((hA r c hr hc).2 x hx).1)
  have h := tilesM_spec hO (bi := b.yt) (bj := 1) (bk := b.xt) (M := N) (N := 1) (K := M) (pos_of_pow hb.xt) (pos_of_pow hb.yt) (Nat.le_refl 1) (jFirst := false) (loc := fun ii _ => ii * incY)
    (fun r c r' c' h1 h2 h3 h4 h5 => row_loc hY h1 h2 h3 h4 h5) (Y := Y) (Buf := Span bufA (O.w * (b.xt * b.yt))) (m0 := m) (pk := fun i _ j m => packTM O b M N i j A lda bufA m)
    (call := fun i _ j ii _ m => O.dot (min b.xt (M - j)) (bufA + O.w * ((ii - i : Nat) * (b.xt : Int))) 1 (bufX + O.w * (j * incbufX)) incbufX (Y + O.bw * (ii * incY)) m)
    (len := fun k => min b.xt (M - k)) (aX := fun i _ _ ii _ => bufA + O.w * ((ii - i : Nat) * (b.xt : Int))) (aZ := fun _ _ j _ _ => bufX + O.w * (j * incbufX)) (iX := 1) (iZ := incbufX)
    (e := fun ii _ c => (EA ii c, EX c)) (fun _ _ _ _ _ _ => rfl) (fun r c x hr _ hx => hR r hr x hx) (fun i _ j m x _ _ _ hx => (hpk i j m).2 x hx) ?_
  · rw [e]
    exact ⟨fun r hr => h.1 r 0 hr (by omega), fun x hx hb => h.2 x (fun r c hr _ => hx r hr) hb⟩
  · intro i j k ii jj t h1 h2 _ _ hk ht
    have hbd := idx_bound (xt := b.xt) (yt := b.yt) (u := ii - i) (v := t) (by omega) (by omega)
    have e1 : bufA + O.w * (((ii - i : Nat) : Int) * (b.xt : Int)) + O.w * ((t : Int) * 1) = bufA + O.w * (((ii - i : Nat) : Int) * (b.xt : Int) + (t : Nat)) := by push_cast; ring
    have e2 : bufX + O.w * ((k : Int) * incbufX) + O.w * ((t : Int) * incbufX) = bufX + O.w * ((k + t : Nat) * incbufX) := by push_cast; ring
    rw [e1, e2]
    have hA' := hA ii (k + t) (by omega) (by omega)
    have hX' := hX (k + t) (by omega)
    refine ⟨fun m' hm' => ?_, fun r c x hr _ hx hx' => hR r hr x hx' (span_in hbd.1 hbd.2 hx), fun r c x hr _ hx => (hX'.2 x hx).2 r hr⟩
    rw [← hA'.1, ← hX'.1]
    congr 1
    · rw [(hpk i k m').1 (ii - i) t (by omega) (by omega) (by omega) (by omega), show i + (ii - i) = ii by omega]
      exact hO.get_congr fun x hx => hm' x (fun r c hr _ => (hA'.2 x hx).2 r hr) (hA'.2 x hx).1
    · refine hO.get_congr fun x hx => ?_
      rw [(hpk i k m').2 x (hX'.2 x hx).1]
      exact hm' x (fun r c hr _ => (hX'.2 x hx).2 r hr) (hX'.2 x hx).1

/-- The row-major cases with the scaled copy of the vector. -/
theorem gemvRow_spec (unit : Bool) (scl : α → α) {b : GemvB} (hb : b.OK) (gx : Int → α) (g : Nat → Nat → Int → α) (no : Bool) {M N : Nat}
    {A lda X incX Y incY bufX bufA : Int} (m : Mem) (hs : GemvSep O.w O.bw (if no then M else N) (if no then N else M) (b.xt * b.yt) (opEl true no id lda) A X incX Y incY bufX bufA) :
    let Av := fun a => O.get m (A + O.w * a)
    let Xv := fun a => O.get m (X + O.w * a)
    let Yv := fun l => S.bget m (Y + O.bw * l)
    let s := fun n => scaleXM O unit scl n X incX bufX m
    let sv := fun n => scaleX unit scl n Xv incX gx
    let m' := if no then gemvNM O b M N A lda (s N).1 (s N).2.1 Y incY (s N).2.2 else gemvTM O b M N A lda (s M).1 (s M).2.1 Y incY bufA (s M).2.2
    let Y' := if no then gemvN S.dot b M N Av lda (sv N).1 (sv N).2 incY Yv else gemvT S.dot b M N Av lda (sv M).1 (sv M).2 incY g Yv
    (∀ r : Nat, r < (if no then M else N) → S.bget m' (Y + O.bw * (r * incY)) = Y' (r * incY)) ∧
    (∀ x, ¬ GemvWork O.w O.bw (if no then M else N) (if no then N else M) (b.xt * b.yt) Y incY bufX bufA x → m' x = m x) := by
  intro Av Xv Yv s sv m' Y'
  cases no
  · simp only [Bool.false_eq_true, if_false, m', Y'] at hs ⊢
    have hsc := scaleXM_spec hO unit scl M X incX bufX m (fun t ht x hx hx' => hs.vec t ht x hx (Or.inr (Or.inl hx')))
    have hYv : ∀ r : Nat, r < N → S.bget (s M).2.2 (Y + O.bw * (r * incY)) = Yv (r * incY) := fun r hr =>
      hO.bget_congr fun x hx => hsc.2.1 x (hs.resX r hr x hx)
    have h := gemvTM_spec hO hb (M := M) (N := N) (A := A) (lda := lda) (bufX := (s M).1) (incbufX := (s M).2.1) (Y := Y) (bufA := bufA) hs.inc
      (EA := fun r c => Av (c * lda + r)) (EX := fun c => (if unit then id else scl) (Xv (c * incX))) (s M).2.2 ?_ ?_ (fun r hr x hx => hs.resA r hr x hx)
    · rw [gemvT_pure S.dot hb incY g Yv (A := Av) (EA := fun r c => Av (c * lda + r)) (EX := fun c => (if unit then id else scl) (Xv (c * incX))) (fun _ _ _ _ => rfl)
        (fun c hc => scaleX_spec unit scl M Xv incX gx hc)]
      refine ⟨fun r hr => ?_, fun x hx => ?_⟩
      · rw [h.1 r hr, tiles_calls, tiles_calls, updAll (fun q : Nat × Nat × Nat × Nat × Nat => ((q.2.2.2.1 : Nat) : Int) * incY)
          (fun q z => S.dot (rowPairs (fun r c => Av (c * lda + r)) (fun c => (if unit then id else scl) (Xv (c * incX))) (fun k => min b.xt (M - k)) q.2.2.1 q.2.2.2.1) z),
          updAll (fun q : Nat × Nat × Nat × Nat × Nat => ((q.2.2.2.1 : Nat) : Int) * incY)
          (fun q z => S.dot (rowPairs (fun r c => Av (c * lda + r)) (fun c => (if unit then id else scl) (Xv (c * incX))) (fun k => min b.xt (M - k)) q.2.2.1 q.2.2.2.1) z), hYv r hr]
      · rw [h.2 x (fun r hr hx' => hx (Or.inl ⟨r, hr, hx'⟩)) (fun h' => hx (Or.inr (Or.inr h'))), hsc.2.1 x (fun h' => hx (Or.inr (Or.inl h')))]
    · intro r c hr hc
      refine ⟨hO.get_congr fun x hx => hsc.2.1 x fun h' => hs.mat r c hr hc x hx (Or.inr (Or.inl h')), fun x hx => ⟨fun h' => hs.mat r c hr hc x hx (Or.inr (Or.inr h')),
        fun r' hr' h' => hs.mat r c hr hc x hx (Or.inl ⟨r', hr', h'⟩)⟩⟩
    · intro c hc
      refine ⟨hsc.1 c hc, fun x hx => ?_⟩
      rcases hsc.2.2 c hc x hx with h' | h'
      · exact ⟨fun h2 => hs.vec c hc x h' (Or.inr (Or.inr h2)), fun r hr h2 => hs.vec c hc x h' (Or.inl ⟨r, hr, h2⟩)⟩
      · exact ⟨hs.bufs x h', fun r hr h2 => hs.resX r hr x h2 h'⟩
  · simp only [if_true, m', Y'] at hs ⊢
    have hsc := scaleXM_spec hO unit scl N X incX bufX m (fun t ht x hx hx' => hs.vec t ht x hx (Or.inr (Or.inl hx')))
    have hYv : ∀ r : Nat, r < M → S.bget (s N).2.2 (Y + O.bw * (r * incY)) = Yv (r * incY) := fun r hr =>
      hO.bget_congr fun x hx => hsc.2.1 x (hs.resX r hr x hx)
    have h := gemvInPlace_spec hO (pos_of_pow hb.y) (pos_of_pow hb.x) (M := M) (K := N) (A := A) (lda := lda) (bufX := (s N).1) (incbufX := (s N).2.1) (Y := Y) hs.inc
      (len := fun k => min b.x (N - k)) (EA := fun r c => Av (r * lda + c)) (EX := fun c => (if unit then id else scl) (Xv (c * incX))) (s N).2.2 ?_ ?_
    · rw [gemvN_pure S.dot hb incY Yv (A := Av) (EA := fun r c => Av (r * lda + c)) (EX := fun c => (if unit then id else scl) (Xv (c * incX))) (fun _ _ _ _ => rfl)
        (fun c hc => scaleX_spec unit scl N Xv incX gx hc)]
      refine ⟨fun r hr => ?_, fun x hx => ?_⟩
      · refine (h.1 r hr).trans ?_
        rw [tiles_calls, tiles_calls, updAll (fun q : Nat × Nat × Nat × Nat × Nat => ((q.2.2.2.1 : Nat) : Int) * incY)
          (fun q z => S.dot (rowPairs (fun r c => Av (r * lda + c)) (fun c => (if unit then id else scl) (Xv (c * incX))) (fun k => min b.x (N - k)) q.2.2.1 q.2.2.2.1) z),
          updAll (fun q : Nat × Nat × Nat × Nat × Nat => ((q.2.2.2.1 : Nat) : Int) * incY)
          (fun q z => S.dot (rowPairs (fun r c => Av (r * lda + c)) (fun c => (if unit then id else scl) (Xv (c * incX))) (fun k => min b.x (N - k)) q.2.2.1 q.2.2.2.1) z), hYv r hr]
      · refine (h.2 x (fun r hr hx' => hx (Or.inl ⟨r, hr, hx'⟩))).trans (hsc.2.1 x (fun h' => hx (Or.inr (Or.inl h'))))
    · intro r k t hr hk ht
      refine ⟨hO.get_congr fun x hx => hsc.2.1 x fun h' => hs.mat r (k + t) hr (by omega) x hx (Or.inr (Or.inl h')),
        fun r' hr' x hx h' => hs.mat r (k + t) hr (by omega) x hx (Or.inl ⟨r', hr', h'⟩)⟩
    · intro k t hk ht
      refine ⟨hsc.1 (k + t) (by omega), fun r hr x hx h2 => ?_⟩
      rcases hsc.2.2 (k + t) (by omega) x hx with h' | h'
      · exact hs.vec (k + t) (by omega) x h' (Or.inl ⟨r, hr, h2⟩)
      · exact hs.resX r hr x h2 h'

/-- **The matrix-vector product in memory.** -/
theorem gemvM_spec (zero unit : Bool) (scl : α → α) {b : GemvB} (hb : b.OK) (gx : Int → α) (g : Nat → Nat → Int → α) (Order TransA : Char) {M N : Nat}
    {A lda X incX Y incY bufX bufA : Int} (m : Mem)
    (hs : GemvSep O.w O.bw (if isNo TransA then M else N) (if isNo TransA then N else M) (b.xt * b.yt) (opEl (isRow Order) (isNo TransA) id lda) A X incX Y incY bufX bufA) :
    (∀ r : Nat, r < (if isNo TransA then M else N) → S.bget (gemvM O zero unit scl b Order TransA M N A lda X incX Y incY bufX bufA m) (Y + O.bw * (r * incY))
      = gemv S.dot zero unit scl b gx g Order TransA M N (fun a => O.get m (A + O.w * a)) lda (fun a => O.get m (X + O.w * a)) incX
        (fun l => S.bget m (Y + O.bw * l)) incY (r * incY)) ∧
    (∀ x, ¬ GemvWork O.w O.bw (if isNo TransA then M else N) (if isNo TransA then N else M) (b.xt * b.yt) Y incY bufX bufA x →
      gemvM O zero unit scl b Order TransA M N A lda X incX Y incY bufX bufA m x = m x) := by
  unfold gemvM gemv
  by_cases h0 : M = 0 ∨ N = 0 ∨ zero = true
  · simp only [if_pos h0]
    exact ⟨fun _ _ => trivial, fun _ _ => trivial⟩
  have h0' : ¬ (N = 0 ∨ M = 0 ∨ zero = true) := by tauto
  simp only [if_neg h0, if_neg h0']
  cases hO' : isRow Order <;> cases hT : isNo TransA <;> simp only [hO', hT, ↓reduceIte, Bool.false_eq_true] at hs ⊢
  · exact gemvRow_spec hO unit scl hb gx g true (M := N) (N := M) m hs
  · exact gemvRow_spec hO unit scl hb gx g false (M := N) (N := M) m hs
  · exact gemvRow_spec hO unit scl hb gx g false (M := M) (N := N) m hs
  · exact gemvRow_spec hO unit scl hb gx g true (M := M) (N := N) m hs

end
end Repro
