import Verif.PropsGemm2
import Verif.PropsVecInf
/-!
# C70: infinities and NaN in matrix products
-/

namespace Repro
namespace Fmt
variable {F : Fmt}

theorem kinds_inf_mem {xs : List Flt} {s : Bool} (h : F.inf s ∈ xs) : F.kinds xs = .inf s ∨ F.kinds xs = .nan := by
  induction xs with
  | nil => cases h
  | cons x xs ih =>
    rcases List.mem_cons.1 h with rfl | h
    · rw [kinds, kind_inf.2 rfl]
      cases F.kinds xs with
      | fin => exact Or.inl rfl
      | nan => exact Or.inr rfl
      | inf t => cases s <;> cases t <;> simp [Kind.add]
    · rw [kinds]
      rcases ih h with e | e <;> rw [e] <;> cases F.kind x with
      | fin => simp
      | nan => simp [Kind.add]
      | inf t => cases s <;> cases t <;> simp [Kind.add]

/-- Equal, or NaN both. -/
def SameVal (F : Fmt) (x y : Flt) : Prop := x = y ∨ (F.isNaN x = true ∧ F.isNaN y = true)

theorem SameVal.kind {x y : Flt} (h : SameVal F x y) : F.kind x = F.kind y := by
  rcases h with rfl | ⟨h1, h2⟩
  · rfl
  · rw [kind_nan.2 h1, kind_nan.2 h2]

theorem SameVal.fin {x y : Flt} (h : SameVal F x y) (hx : F.Finite x) : y = x := by
  rcases h with rfl | ⟨h1, _⟩
  · rfl
  · rw [← kind_fin, kind_nan.2 h1] at hx; cases hx

theorem mul_nan_right {x y : Flt} (h : F.isNaN y = true) : F.isNaN (F.mul x y) = true := by
  unfold Fmt.mul; rw [h]; simp only [Bool.or_true, if_true]
  unfold isNaN Fmt.nan; have := pow_pos' (F.p - 2); simp

/-- Multiplication by one. -/
theorem mul_one_same [F.OK] (x : Flt) : SameVal F (F.mul x (F.pow2 0)) x := by
  cases hk : F.kind x with
  | fin => exact Or.inl (mul_one' (kind_fin.1 hk))
  | nan => exact Or.inr ⟨mul_nan_left (kind_nan.1 hk), kind_nan.1 hk⟩
  | inf s =>
    left
    rw [kind_inf.1 hk]
    rcases (inferInstance : F.OK).isDoubleOrFloat with rfl | rfl <;> cases s <;> decide +kernel

theorem scl_same [F.OK] (alpha x : Flt) : SameVal F ((if F.feq alpha (F.pow2 0) then id else fun x => F.mul x alpha) x) (F.mul x alpha) := by
  split
  · next h =>
    rw [eq_one_of_feq h]
    rcases mul_one_same (F := F) x with e | ⟨h1, h2⟩
    · exact Or.inl e.symm
    · exact Or.inr ⟨h2, h1⟩
  · exact Or.inl rfl

theorem SameVal.mul_right {x y : Flt} (h : SameVal F x y) (a : Flt) : SameVal F (F.mul a x) (F.mul a y) := by
  rcases h with rfl | ⟨h1, h2⟩
  · exact Or.inl rfl
  · exact Or.inr ⟨mul_nan_right h1, mul_nan_right h2⟩

theorem SameVal.mul_left {x y : Flt} (h : SameVal F x y) (a : Flt) : SameVal F (F.mul x a) (F.mul y a) := by
  rcases h with rfl | ⟨h1, h2⟩
  · exact Or.inl rfl
  · exact Or.inr ⟨mul_nan_left h1, mul_nan_left h2⟩

/-- Lists of numbers that agree, except for the choice of NaN. -/
theorem same_list {α : Type} {f g : α → Flt} {l : List α} (h : ∀ a ∈ l, SameVal F (f a) (g a)) :
    F.kinds (l.map f) = F.kinds (l.map g) ∧ ∀ x ∈ l.map f, F.Finite x → x ∈ l.map g := by
  constructor
  · induction l with
    | nil => rfl
    | cons a l ih =>
      simp only [List.map_cons, kinds]
      rw [(h a (by simp)).kind, ih (fun b hb => h b (by simp [hb]))]
  · intro x hx hf
    obtain ⟨a, ha, rfl⟩ := List.mem_map.1 hx
    rw [← (h a ha).fin hf]
    exact List.mem_map_of_mem ha

theorem vecLoop_len {T : Tune} {fold : Nat} : ∀ (fuel : Nat) (vs : List Flt) {dep : Nat} {y : Binned}, y.pri.length = fold → (F.vecLoop T fold fuel vs dep y).pri.length = fold := by
  intro fuel
  induction fuel with
  | zero => intro vs dep y h; rw [vecLoop, renorm_length]; exact h
  | succ fuel ih =>
    intro vs dep y h
    rw [vecLoop]
    split
    · rw [renorm_length]; exact h
    · dsimp only
      have h1 : (if F.isInf (F.amaxK T ((vs.take T.nb).map fabs)) || F.isInf (nth y.pri 0) then F.accum0 (vs.take T.nb) y else y).pri.length = fold := by
        split
        · rw [accum0_length]; exact h
        · exact h
      generalize (if F.isInf (F.amaxK T ((vs.take T.nb).map fabs)) || F.isInf (nth y.pri 0) then F.accum0 (vs.take T.nb) y else y) = y1 at h1 ⊢
      split
      · exact h1
      · split
        · exact ih _ h1
        · refine ih _ ?_
          show (F.kernel T _ _).length = fold
          have : ∀ (vs pri : List Flt), (F.kernel T vs pri).length = pri.length := fun vs pri => by
            unfold kernel consolidate; rw [List.length_map, List.length_range]
          rw [this]
          refine update_length ?_
          split
          · rw [renorm_length]; exact h1
          · exact h1

theorem dotR_len {T : Tune} {fold : Nat} (b : List (Flt × Flt)) {y : Binned} (h : y.pri.length = fold) : (F.dotR T fold b y).pri.length = fold := vecLoop_len _ _ h

/-- Dot product calls, one after the other, from a value that is infinite or NaN. -/
theorem blocks_special [F.OK] {T : Tune} (hT : T.OK F) {fold : Nat} (hfold : 2 ≤ fold) : ∀ (bs : List (List (Flt × Flt))) {y : Binned}, y.pri.length = fold → F.kind (nth y.pri 0) ≠ .fin →
    F.kind (nth (bs.foldl (fun z b => F.dotR T fold b z) y).pri 0) = (F.kind (nth y.pri 0)).add (F.kinds (bs.flatten.map (fun p => F.mul p.1 p.2)))
  | [], y, _, _ => by simp [kinds]
  | b :: bs, y, hl, hk => by
    have e : F.kind (nth (F.dotR T fold b y).pri 0) = (F.kind (nth y.pri 0)).add (F.kinds (b.map (fun p => F.mul p.1 p.2))) :=
      vecLoop_special hT _ _ (Nat.le_refl _) (by omega) hk
    rw [List.foldl_cons, blocks_special hT hfold bs (dotR_len b hl) (by rw [e]; exact Kind.add_ne_fin hk), e, List.flatten_cons, List.map_append, kinds_append, Kind.add_assoc]

theorem Kind.nan_add' (a : Kind) : Kind.nan.add a = .nan := by cases a <;> rfl

/-- Dot product calls, one after the other, from a finite value, with an infinity or NaN among the products. -/
theorem blocks_mixed [F.OK] {T : Tune} (hT : T.OK F) {fold : Nat} (hfold : 2 ≤ fold) {safe : Prop} : ∀ (bs : List (List (Flt × Flt))) {h : Hist},
    h.Legal F → h.Settled → bs.flatten.length + h.nums.length ≤ F.capacity → (safe → ∀ x ∈ h.seen, 1 ≤ F.dindex x) →
    (safe → ∀ x ∈ bs.flatten.map (fun p => F.mul p.1 p.2), F.Finite x → 1 ≤ F.dindex x) → F.kinds (bs.flatten.map (fun p => F.mul p.1 p.2)) ≠ .fin →
    (F.kind (nth (bs.foldl (fun z b => F.dotR T fold b z) (h.eval F fold)).pri 0) = F.kinds (bs.flatten.map (fun p => F.mul p.1 p.2)) ∨
      F.kind (nth (bs.foldl (fun z b => F.dotR T fold b z) (h.eval F fold)).pri 0) = .nan) ∧
    (safe → F.kind (nth (bs.foldl (fun z b => F.dotR T fold b z) (h.eval F fold)).pri 0) = F.kinds (bs.flatten.map (fun p => F.mul p.1 p.2)))
  | [], _, _, _, _, _, _, hk => absurd rfl hk
  | b :: bs, h, hl, hs, hN, hseen, hsafe, hk => by
    rw [List.flatten_cons, List.map_append] at hsafe hk ⊢
    rw [List.flatten_cons, List.length_append] at hN
    rw [List.foldl_cons]
    by_cases hb : F.kinds (b.map (fun p => F.mul p.1 p.2)) = .fin
    · have hxb := kinds_fin.1 hb
      rw [kinds_append, hb, Kind.fin_add] at hk ⊢
      have e1 : F.dotR T fold b (h.eval F fold) = (Hist.ofList (b.map (fun p => F.mul p.1 p.2)) h).eval F fold := by
        unfold dotR
        rw [vecSum_eq hT hfold hl (fun _ => hs) hxb (by rw [List.length_map]; omega), ofList_eval]
      rw [e1]
      refine blocks_mixed hT hfold bs (ofList_legal hxb hl) (ofList_settled _ (fun _ => hs)) ?_ (fun s x hx => ?_)
        (fun s x hx => hsafe s x (List.mem_append_right _ hx)) hk
      · rw [ofList_nums, List.length_append, List.length_reverse, List.length_map]; omega
      · rw [ofList_seen] at hx
        rcases List.mem_append.1 hx with hx | hx
        · exact hsafe s x (List.mem_append_left _ (List.mem_reverse.1 hx)) (hxb x (List.mem_reverse.1 hx))
        · exact hseen s x hx
    · have hm := vecLoop_mixed hT hfold (safe := safe) (b.map (fun p => F.mul p.1 p.2)).length (b.map (fun p => F.mul p.1 p.2)) (N := h.nums.length) (Nat.le_refl _)
        (hist_state hfold hl (by omega) safe hseen) (Nat.zero_le _) (by rw [List.length_map]; omega)
        (fun s x hx => hsafe s x (List.mem_append_left _ hx)) hb
      change (F.kind (nth (F.dotR T fold b (h.eval F fold)).pri 0) = _ ∨ F.kind (nth (F.dotR T fold b (h.eval F fold)).pri 0) = _) ∧
        (safe → F.kind (nth (F.dotR T fold b (h.eval F fold)).pri 0) = _) at hm
      have hne : F.kind (nth (F.dotR T fold b (h.eval F fold)).pri 0) ≠ .fin := by
        rcases hm.1 with e | e <;> rw [e]
        · exact hb
        · exact fun h => nomatch h
      rw [blocks_special hT hfold bs (dotR_len b (eval_length h)) hne, kinds_append]
      refine ⟨?_, fun s => by rw [hm.2 s]⟩
      rcases hm.1 with e | e
      · left; rw [e]
      · right; rw [e]; exact Kind.nan_add' _

/-- A finite product has finite factors. -/
theorem finite_of_mul [F.OK] {x y : Flt} (h : F.Finite (F.mul x y)) : F.Finite x := by
  cases hk : F.kind x with
  | fin => exact kind_fin.1 hk
  | nan => rw [← kind_fin, kind_nan.2 (mul_nan_left (kind_nan.1 hk))] at h; cases h
  | inf s =>
    exfalso
    have ⟨h1, h2⟩ := inf_of_kind hk
    rw [← kind_fin] at h
    unfold Fmt.mul at h
    rw [h1, h2] at h
    by_cases hy : F.isNaN y = true
    · rw [hy] at h; simp only [Bool.or_true, if_true] at h; rw [kind_nan.2 (show F.isNaN F.nan = true by unfold isNaN Fmt.nan; have := pow_pos' (F.p - 2); simp)] at h; cases h
    · rw [Bool.not_eq_true] at hy
      rw [hy] at h
      simp only [Bool.or_self, Bool.true_or, Bool.false_eq_true, if_false, if_true] at h
      split at h
      · rw [kind_nan.2 (show F.isNaN F.nan = true by unfold isNaN Fmt.nan; have := pow_pos' (F.p - 2); simp)] at h; cases h
      · rw [show Flt.mk (x.neg != y.neg) F.infMag = F.inf (x.neg != y.neg) from rfl, kind_inf.2 rfl] at h; cases h

/-- One entry of a product: from the previous contents and blocks of pairs. -/
theorem entry_kind [F.OK] {T : Tune} (hT : T.OK F) {fold : Nat} (hfold : 2 ≤ fold) (beta y : Flt) (bs : List (List (Flt × Flt))) (hcap : bs.flatten.length + 1 ≤ F.capacity) {ts : List Flt}
    (hts : F.kinds (bs.flatten.map (fun p => F.mul p.1 p.2)) = F.kinds ts ∧ ∀ x ∈ bs.flatten.map (fun p => F.mul p.1 p.2), F.Finite x → x ∈ ts) (hk : F.kinds (betaTerm F beta y ++ ts) ≠ .fin) :
    (F.kind (nth (bs.foldl (fun z b => F.dotR T fold b z) (F.beta0 fold beta y)).pri 0) = F.kinds (betaTerm F beta y ++ ts) ∨
      F.kind (nth (bs.foldl (fun z b => F.dotR T fold b z) (F.beta0 fold beta y)).pri 0) = .nan) ∧
    ((∀ x ∈ betaTerm F beta y ++ ts, F.Finite x → 1 ≤ F.dindex x) →
      F.kind (nth (bs.foldl (fun z b => F.dotR T fold b z) (F.beta0 fold beta y)).pri 0) = F.kinds (betaTerm F beta y ++ ts)) := by
  by_cases hb : F.kinds (betaTerm F beta y) = .fin
  · -- the previous contents are finite
    have hbf := kinds_fin.1 hb
    have hy : isZero beta = false → F.Finite y ∧ F.Finite (F.mul y beta) := fun h0 => by
      have : F.Finite (F.mul y beta) := hbf _ (by unfold betaTerm; rw [h0]; simp)
      exact ⟨finite_of_mul this, this⟩
    obtain ⟨h, h1, h2, h3, h4, h5⟩ : ∃ h : Hist, F.beta0 fold beta y = h.eval F fold ∧ h.Legal F ∧ h.Settled ∧ h.nums.length ≤ 1 ∧ h.seen = betaTerm F beta y := by
      unfold beta0 betaTerm
      cases hb : isZero beta
      · have hy := hy hb
        refine ⟨.add (F.mul y beta) .zero, ?_, ⟨hy.2, trivial⟩, trivial, Nat.le_refl _, rfl⟩
        simp only [Bool.false_eq_true, if_false]
        split
        · next h1 => rw [eq_one_of_feq h1, mul_one' hy.1]; rfl
        · rfl
      · exact ⟨.zero, rfl, trivial, trivial, Nat.zero_le _, rfl⟩
    rw [kinds_append, hb, Kind.fin_add, ← hts.1] at hk ⊢
    rw [h1]
    refine blocks_mixed hT hfold bs h2 h3 (by omega) (fun s x hx => ?_) (fun s x hx hf => ?_) hk
    · rw [h5] at hx; exact s x (List.mem_append_left _ hx) (hbf x hx)
    · exact s x (List.mem_append_right _ (hts.2 x hx hf)) hf
  · -- the previous contents are not
    have h0 : isZero beta = false := by
      cases h : isZero beta
      · rfl
      · exact absurd (by unfold betaTerm; rw [h]; rfl) hb
    obtain ⟨v, hv, hs⟩ : ∃ v, F.beta0 fold beta y = F.dmdconv fold v ∧ SameVal F (F.mul y beta) v := by
      unfold beta0
      rw [h0]
      simp only [Bool.false_eq_true, if_false]
      split
      · next h1 => exact ⟨y, rfl, by rw [eq_one_of_feq h1]; exact mul_one_same y⟩
      · exact ⟨_, rfl, Or.inl rfl⟩
    have hkb : F.kinds (betaTerm F beta y) = F.kind v := by
      unfold betaTerm
      rw [h0]
      simp only [Bool.false_eq_true, if_false, kinds, Kind.add_fin]
      exact hs.kind
    have hkv : F.kind (nth (F.beta0 fold beta y).pri 0) = F.kind v := by
      have := hist_kind (F := F) hfold (.add v .zero) trivial (by show 1 ≤ _; omega)
      rw [hv]
      refine Eq.trans this ?_
      simp [Hist.nums, kinds]
    have hlen : (F.beta0 fold beta y).pri.length = fold := by rw [hv]; exact eval_length (.add v .zero)
    rw [blocks_special hT hfold bs hlen (by rw [hkv, ← hkb]; exact hb), hkv, ← hkb, hts.1, kinds_append]
    exact ⟨Or.inl rfl, fun _ => rfl⟩

/-- What the entry `v` of a result must be when there are infinities or NaN among its summands `ts`: NaN if a summand is NaN or there are infinities of both signs; otherwise, that infinity, or NaN; and certainly
the infinity if all finite summands have index at least 1 (are smaller than `2^(MAX_EXP - W)` or so, see C10), so that sums of a block cannot overflow. -/
def SpecialEntry (F : Fmt) (ts : List Flt) (v : Flt) : Prop :=
  ((∃ x ∈ ts, F.isNaN x = true) ∨ (F.inf false ∈ ts ∧ F.inf true ∈ ts) → F.isNaN v = true) ∧
  (∀ s, F.inf s ∈ ts → F.isNaN v = true ∨ v = F.inf s) ∧
  ((∀ x ∈ ts, F.Finite x → 1 ≤ F.dindex x) → ∀ s, F.inf s ∈ ts → F.inf (!s) ∉ ts → (∀ x ∈ ts, F.isNaN x = false) → v = F.inf s)

theorem special_of_kind [F.OK] {fold : Nat} {ts : List Flt} {z : Binned}
    (h : F.kinds ts ≠ .fin → (F.kind (nth z.pri 0) = F.kinds ts ∨ F.kind (nth z.pri 0) = .nan) ∧ ((∀ x ∈ ts, F.Finite x → 1 ≤ F.dindex x) → F.kind (nth z.pri 0) = F.kinds ts)) :
    SpecialEntry F ts (convert F fold z) := by
  have conv : ∀ k, k ≠ Kind.fin → F.kind (nth z.pri 0) = k → F.kind (convert F fold z) = k := fun k hk e => by
    rw [convert_special (by rw [e]; exact hk)]; exact e
  refine ⟨fun hn => ?_, fun s hs => ?_, fun hsafe s hs hns hnn => ?_⟩
  · have hk := kinds_nan.2 hn
    have := (h (by rw [hk]; simp)).1
    rw [hk, or_self] at this
    exact kind_nan.1 (conv _ (by simp) this)
  · rcases kinds_inf_mem hs with hk | hk
    · rcases (h (by rw [hk]; simp)).1 with e | e
      · right; rw [hk] at e; exact kind_inf.1 (conv _ (by simp) e)
      · left; exact kind_nan.1 (conv _ (by simp) e)
    · have := (h (by rw [hk]; simp)).1
      rw [hk, or_self] at this
      exact Or.inl (kind_nan.1 (conv _ (by simp) this))
  · rcases kinds_inf_mem hs with hk | hk
    · have := (h (by rw [hk]; simp)).2 hsafe
      rw [hk] at this
      exact kind_inf.1 (conv _ (by simp) this)
    · rcases kinds_nan.1 hk with ⟨x, hx, hn⟩ | ⟨h1, h2⟩
      · rw [hnn x hx] at hn; cases hn
      · cases s
        · exact absurd h2 hns
        · exact absurd h1 hns

/-- **C70** (matrix-vector product). Whatever infinities and NaN the matrix, the vectors and the factors contain: every entry of the result is what its own summands require. -/
theorem C70_gemv [F.OK] {T : Tune} (hT : T.OK F) {fold : Nat} (hfold : 2 ≤ fold) {b : GemvB} (hb : b.OK) (gx : Int → Flt) (g : Nat → Nat → Int → Flt)
    (yi : Int → Binned) (Order TransA : Char) {M N : Nat} (hM : M ≠ 0) (hN : N ≠ 0) (alpha : Flt) (A : Int → Flt) (lda : Int)
    (X : Int → Flt) (incX : Int) (beta : Flt) (Y : Int → Flt) {incY : Int} (hY : incY ≠ 0) {rows cols : Nat}
    (hr : rows = if isNo TransA then M else N) (hc : cols = if isNo TransA then N else M) (hcap : cols + 1 ≤ F.capacity) {r : Nat} (hrr : r < rows) :
    SpecialEntry F (betaTerm F beta (Y (r * incY)) ++ (if isZero alpha then [] else gemvTerms F (isRow Order) (isNo TransA) cols alpha A lda X incX r))
      (F.rdgemv T fold b gx g yi Order TransA M N alpha A lda X incX beta Y incY (r * incY)) := by
  unfold rdgemv
  rw [if_neg (show ¬ (N = 0 ∨ M = 0) by simp [hM, hN])]
  simp only [← hr]
  rw [(setRange rows incY hY _ Y).1 r hrr]
  have hYI := (setRange rows 1 (by decide) (fun i : Nat => F.beta0 fold beta (Y (i * incY))) yi).1 r hrr
  simp only [Int.mul_one] at hYI
  refine special_of_kind (fun hk => ?_)
  cases ha : isZero alpha
  · rw [ha] at hk
    simp only [Bool.false_eq_true, if_false] at hk ⊢
    have hg := gemv_eq (F.dotR T fold) (F.feq alpha (F.pow2 0)) (fun x => F.mul x alpha) hb gx g Order TransA hM hN A lda X incX
      (forS 0 rows 1 (fun i YI => store YI i (F.beta0 fold beta (Y (i * incY)))) yi) (incY := 1) (by decide)
    rw [← hr, ← hc] at hg
    obtain ⟨bs, h1, h2⟩ := hg.1 r hrr
    rw [Int.mul_one, hYI] at h2
    unfold dgemv
    rw [ha, h2]
    refine entry_kind hT hfold beta _ bs (by rw [h1, List.length_map, List.length_range]; exact hcap) ?_ hk
    rw [h1, List.map_map]
    exact same_list (fun c _ => (scl_same alpha _).mul_right _)
  · rw [ha] at hk
    rw [C24_nothing _ _ _ _ _ _ _ _ _ _ _ _ _ _ _ _ (Or.inr (Or.inr ha)), hYI]
    simp only [if_true] at hk ⊢
    exact entry_kind hT hfold beta _ [] (by simp only [List.flatten_nil, List.length_nil]; omega) ⟨rfl, fun x hx => nomatch hx⟩ hk

/-- **C70** (matrix-matrix product). -/
theorem C70_gemm [F.OK] {T : Tune} (hT : T.OK F) {fold : Nat} (hfold : 2 ≤ fold) {b : GemmB} (hb : b.OK) (g : Int → Flt) (ga gb : Nat → Nat → Nat → Int → Flt)
    (ci : Int → Binned) (Order TransA TransB : Char) (M N K : Nat) (alpha : Flt) (A : Int → Flt) (lda : Int)
    (B : Int → Flt) (ldb : Int) (beta : Flt) (C : Int → Flt) {ldc : Nat} (hC : (if isRow Order then N else M) ≤ ldc) (hcap : K + 1 ≤ F.capacity) {r c : Nat} (hr : r < M) (hc : c < N) :
    SpecialEntry F (betaTerm F beta (C (entryAt (isRow Order) ldc r c)) ++
        (if isZero alpha then [] else gemmTerms F (isRow Order) (isNo TransA) (isNo TransB) K alpha A lda B ldb r c))
      (F.rdgemm T fold b g ga gb ci Order TransA TransB M N K alpha A lda B ldb beta C ldc (entryAt (isRow Order) ldc r c)) := by
  have mid : ∀ (CI : Int → Binned) (ldi : Nat), (if isRow Order then N else M) ≤ ldi →
      CI (entryAt (isRow Order) ldi r c) = F.beta0 fold beta (C (entryAt (isRow Order) ldc r c)) →
      SpecialEntry F (betaTerm F beta (C (entryAt (isRow Order) ldc r c)) ++
        (if isZero alpha then [] else gemmTerms F (isRow Order) (isNo TransA) (isNo TransB) K alpha A lda B ldb r c))
        (convert F fold (F.dgemm T fold b g ga gb Order TransA TransB M N K alpha A lda B ldb CI ldi (entryAt (isRow Order) ldi r c))) := by
    intro CI ldi hld hCI
    refine special_of_kind (fun hk => ?_)
    by_cases hn : K = 0 ∨ isZero alpha = true
    · have e : (if isZero alpha then [] else gemmTerms F (isRow Order) (isNo TransA) (isNo TransB) K alpha A lda B ldb r c) = [] := by
        rcases hn with rfl | hn
        · unfold gemmTerms; simp
        · rw [hn]; rfl
      rw [C25_nothing _ _ _ _ _ _ _ _ _ _ _ _ _ _ _ _ _ _ _ (Or.inr (Or.inr hn)), hCI]
      rw [e] at hk ⊢
      exact entry_kind hT hfold beta _ [] (by simp only [List.flatten_nil, List.length_nil]; omega) ⟨rfl, fun x hx => nomatch hx⟩ hk
    · have ha : isZero alpha = false := by
        cases h : isZero alpha
        · rfl
        · exact absurd (Or.inr h) hn
      rw [ha] at hk
      simp only [ha, Bool.false_eq_true, if_false] at hk ⊢
      have hg := gemm_eq (F.dotR T fold) (F.feq alpha (F.pow2 0)) (fun x => F.mul x alpha) hb g ga gb Order TransA TransB (M := M) (N := N) (fun h => hn (Or.inl h)) A lda B ldb CI hld
      simp only [entryAt_eq] at hg
      obtain ⟨bs, h1, h2⟩ := hg.1 r c hr hc
      rw [hCI] at h2
      unfold dgemm
      rw [ha, h2]
      refine entry_kind hT hfold beta _ bs (by rw [h1, List.length_map, List.length_range]; exact hcap) ?_ hk
      rw [h1, List.map_map]
      exact same_list (fun t _ => (scl_same alpha _).mul_left _)
  unfold rdgemm
  rw [if_neg (show ¬ (M = 0 ∨ N = 0) by omega)]
  cases hO : isRow Order
  · simp only [hO, Bool.false_eq_true, if_false] at mid hC ⊢
    have e1 : ∀ ld : Int, entryAt false ld r c = (c : Int) * ld + r := fun _ => rfl
    rw [e1 ldc, (setMat N M ldc (by omega) _ C).1 c r hc hr]
    exact mid _ M (Nat.le_refl _) ((setMat N M M (Int.le_refl _) (fun j i : Nat => F.beta0 fold beta (C (j * (ldc : Int) + i))) ci).1 c r hc hr)
  · simp only [hO, if_true] at mid hC ⊢
    have e1 : ∀ ld : Int, entryAt true ld r c = (r : Int) * ld + c := fun _ => rfl
    rw [e1 ldc, (setMat M N ldc (by omega) _ C).1 r c hr hc]
    exact mid _ N (Nat.le_refl _) ((setMat M N N (Int.le_refl _) (fun i j : Nat => F.beta0 fold beta (C (i * (ldc : Int) + j))) ci).1 r c hr hc)

/-! Concrete cases: a matrix `[[1, Inf], [2, 4]]` times `(1, 2)` gives `(Inf, 10)`; with `(1, 0)` it gives `(NaN, 2)`. -/

def exInfA : Int → Flt := fun l => if l = 1 then f64.inf false else f64.ofInt (l + 1 - l / 2 + l / 3)

example : let y := f64.rdgemv ⟨2, 1, 2, 1, 1, false⟩ 3 ⟨8, 64, 16, 256, 4⟩ (fun _ => f64.nan) (fun _ _ _ => f64.nan) (fun _ => dmsetzero 3) 'r' 'n' 2 2 (f64.ofInt 1) exInfA 2 (fun l => f64.ofInt (l + 1)) 1 zero (fun _ => f64.nan) 1
    y 0 = f64.inf false ∧ y 1 = f64.ofInt 10 := by decide +kernel

example : let y := f64.rdgemv ⟨2, 1, 2, 1, 1, false⟩ 3 ⟨8, 64, 16, 256, 4⟩ (fun _ => f64.nan) (fun _ _ _ => f64.nan) (fun _ => dmsetzero 3) 'r' 'n' 2 2 (f64.ofInt 1) exInfA 2 (fun l => f64.ofInt (1 - l)) 1 zero (fun _ => f64.nan) 1
    f64.isNaN (y 0) = true ∧ y 1 = f64.ofInt 2 := by decide +kernel

end Fmt
end Repro
