import Verif.MatMemLaws
/-!
# The products and wrappers in flat memory, for both element types
-/

namespace Repro
variable {α β : Type}

/-! What the products depend on. -/

section
variable (dot : List (α × α) → β → β)

theorem gemvN_dep {b : GemvB} (hb : b.OK) {M N : Nat} {A A' : Int → α} {lda : Int} {bx bx' : Int → α} {ix ix' incY : Int} {Y Y' : Int → β} {l : Int}
    (hA : ∀ r c : Nat, r < M → c < N → A (r * lda + c) = A' (r * lda + c)) (hX : ∀ c : Nat, c < N → bx (c * ix) = bx' (c * ix')) (hY : Y l = Y' l) :
    gemvN dot b M N A lda bx ix incY Y l = gemvN dot b M N A' lda bx' ix' incY Y' l := by
  rw [gemvN_pure dot hb incY Y (EA := fun r c => A' (r * lda + c)) (EX := fun c => bx' (c * ix')) hA hX,
    gemvN_pure dot hb incY Y' (EA := fun r c => A' (r * lda + c)) (EX := fun c => bx' (c * ix')) (fun _ _ _ _ => rfl) (fun _ _ => rfl)]
  exact tiles_local dot _ _ _ _ _ _ _ _ _ hY

theorem gemvT_dep {b : GemvB} (hb : b.OK) {M N : Nat} {A A' : Int → α} {lda : Int} {bx bx' : Int → α} {ix ix' incY : Int} (g : Nat → Nat → Int → α) {Y Y' : Int → β} {l : Int}
    (hA : ∀ r c : Nat, r < N → c < M → A (c * lda + r) = A' (c * lda + r)) (hX : ∀ c : Nat, c < M → bx (c * ix) = bx' (c * ix')) (hY : Y l = Y' l) :
    gemvT dot b M N A lda bx ix incY g Y l = gemvT dot b M N A' lda bx' ix' incY g Y' l := by
  rw [gemvT_pure dot hb incY g Y (EA := fun r c => A' (c * lda + r)) (EX := fun c => bx' (c * ix')) hA hX,
    gemvT_pure dot hb incY g Y' (EA := fun r c => A' (c * lda + r)) (EX := fun c => bx' (c * ix')) (fun _ _ _ _ => rfl) (fun _ _ => rfl)]
  exact tiles_local dot _ _ _ _ _ _ _ _ _ hY

/-- An entry of the product depends on the matrix, the vector and its own previous contents only. -/
theorem gemv_dep (zero unit : Bool) (scl : α → α) {b : GemvB} (hb : b.OK) (gx : Int → α) (g : Nat → Nat → Int → α) (Order TransA : Char) {M N : Nat}
    {A A' : Int → α} {lda : Int} {X X' : Int → α} {incX : Int} {Y Y' : Int → β} (incY : Int) {l : Int}
    (hA : ∀ r c : Nat, r < (if isNo TransA then M else N) → c < (if isNo TransA then N else M) → opEl (isRow Order) (isNo TransA) A lda r c = opEl (isRow Order) (isNo TransA) A' lda r c)
    (hX : ∀ c : Nat, c < (if isNo TransA then N else M) → X (c * incX) = X' (c * incX)) (hY : Y l = Y' l) :
    gemv dot zero unit scl b gx g Order TransA M N A lda X incX Y incY l = gemv dot zero unit scl b gx g Order TransA M N A' lda X' incX Y' incY l := by
  unfold gemv
  by_cases h0 : M = 0 ∨ N = 0 ∨ zero = true
  · simp only [if_pos h0]; exact hY
  have h0' : ¬ (N = 0 ∨ M = 0 ∨ zero = true) := by tauto
  simp only [if_neg h0, if_neg h0']
  have hx : ∀ n, (∀ c : Nat, c < n → X (c * incX) = X' (c * incX)) → ∀ c : Nat, c < n →
      (scaleX unit scl n X incX gx).1 (c * (scaleX unit scl n X incX gx).2) = (scaleX unit scl n X' incX gx).1 (c * (scaleX unit scl n X' incX gx).2) :=
    fun n h c hc => by rw [scaleX_spec unit scl n X incX gx hc, scaleX_spec unit scl n X' incX gx hc, h c hc]
  cases hO : isRow Order <;> cases hT : isNo TransA <;> simp only [hO, hT, ↓reduceIte, Bool.false_eq_true] at hA hX ⊢
  · exact gemvN_dep dot hb hA (hx _ hX) hY
  · exact gemvT_dep dot hb g hA (hx _ hX) hY
  · exact gemvT_dep dot hb g hA (hx _ hX) hY
  · exact gemvN_dep dot hb hA (hx _ hX) hY

theorem gemmU_dep {b : GemmB} (hb : b.OK) (row aPack bPack swap unit : Bool) (fA fB : α → α) (g : Int → α) (ga gb : Nat → Nat → Nat → Int → α) {M N K : Nat}
    {A A' : Int → α} {lda : Int} {B B' : Int → α} {ldb : Int} {C C' : Int → β} (ldc : Int) {l : Int}
    (hA : ∀ r t : Nat, r < M → t < K → A (if aPack then t * lda + r else r * lda + t) = A' (if aPack then t * lda + r else r * lda + t))
    (hB : ∀ t c : Nat, t < K → c < N → B (if bPack then t * ldb + c else c * ldb + t) = B' (if bPack then t * ldb + c else c * ldb + t)) (h : C l = C' l) :
    gemmU dot b row aPack bPack swap unit fA fB g ga gb M N K A lda B ldb C ldc l = gemmU dot b row aPack bPack swap unit fA fB g ga gb M N K A' lda B' ldb C' ldc l := by
  rw [gemmU_pure dot hb, gemmU_pure dot hb, tiles_local dot _ _ _ _ _ _ _ _ _ h]
  refine congrFun (tiles_congr dot (bk_pos hb _) C' ?_) l
  intro i j k ii jj h1 h2 h3 h4 hk
  refine List.map_congr_left fun t ht => ?_
  rw [List.mem_range'_1] at ht
  have e1 : elA aPack unit fA A lda ii t = elA aPack unit fA A' lda ii t := by
    have := hA ii t (by omega) (by omega)
    unfold elA
    cases aPack <;> simp only [↓reduceIte, Bool.false_eq_true] at this ⊢ <;> rw [this]
  have e2 : elB bPack fB B ldb jj t = elB bPack fB B' ldb jj t := by
    have := hB t jj (by omega) (by omega)
    unfold elB
    cases bPack <;> simp only [↓reduceIte, Bool.false_eq_true] at this ⊢ <;> rw [this]
  rw [e1, e2]

end

/-! The wrappers, for any product. -/

section
variable {O : MOps α} {S : MAbs α β} (hO : O.Law S)
include hO

theorem rgemvM_spec (zero unit : Bool) (scl : α → α) (prod : Int → Mem → Mem) (noTrans : Bool) {M N : Nat} (Y incY YI : Int) (m : Mem) {W : Int → Prop} {P : (Int → β) → Int → β}
    (hpos : ∀ r : Nat, r < (if noTrans then M else N) → ∀ x, Span (YI + O.bw * r) O.bw x → W x)
    (hY : ∀ r : Nat, r < (if noTrans then M else N) → ∀ x, Span (Y + O.w * (r * incY)) O.w x → ¬ W x)
    (hp : ∀ m1 : Mem, (∀ x, ¬ W x → m1 x = m x) →
      (∀ r : Nat, r < (if noTrans then M else N) → S.bget (prod YI m1) (YI + O.bw * r) = P (fun l => S.bget m1 (YI + O.bw * l)) r) ∧ ∀ x, ¬ W x → prod YI m1 x = m1 x)
    (hP : ∀ f f' : Int → β, ∀ l, f l = f' l → P f l = P f' l) (yi : Int → β) :
    let Yv := fun a => O.get m (Y + O.w * a)
    let n := if noTrans then M else N
    (∀ l, (∀ x, Span (Y + O.w * l) O.w x → ¬ W x) → O.get (rgemvM O zero unit scl prod noTrans M N Y incY YI m) (Y + O.w * l) =
      (if N = 0 ∨ M = 0 then Yv else
        forS 0 n 1 (fun i Y => store Y (i * incY) (S.unconv (P (forS 0 n 1 (fun i YI => store YI i (S.init zero unit scl (Yv (i * incY)))) yi) i))) Yv) l) ∧
    (∀ x, ¬ W x → (∀ r : Nat, r < n → ¬ Span (Y + O.w * (r * incY)) O.w x) → rgemvM O zero unit scl prod noTrans M N Y incY YI m x = m x) := by
  intro Yv n
  unfold rgemvM
  by_cases h0 : N = 0 ∨ M = 0
  · simp only [if_pos h0]
    exact ⟨fun _ _ => rfl, fun _ _ _ => trivial⟩
  simp only [if_neg h0]
  have hm : ∀ k, k ∈ steps 0 n 1 ↔ k < n := fun k => by rw [mem_steps1]; omega
  have h := wrap_spec hO zero unit scl (steps 0 n 1) (fun k => (k : Int) * incY) (fun k => (k : Int)) Y YI (prod YI) (W := W) (P := P) m
    (fun k hk => hpos k ((hm k).1 hk)) (fun k hk => hY k ((hm k).1 hk))
    (fun m1 hm1 => by
      have h := hp m1 (fun x hx => hm1 x (fun k hk hx' => hx (hpos k ((hm k).1 hk) x hx')))
      exact ⟨fun k hk => h.1 k ((hm k).1 hk), h.2⟩) hP yi
  exact ⟨h.1, fun x hx hx' => h.2 x hx (fun k hk => hx' k ((hm k).1 hk))⟩

theorem rgemmM_spec (zero unit : Bool) (scl : α → α) (prod : Int → Int → Mem → Mem) (row : Bool) {M N : Nat} (C ldc CI : Int) (m : Mem) {W : Int → Prop} {P : (Int → β) → Int → β}
    (hpos : ∀ r c : Nat, r < M → c < N → ∀ x, Span (CI + O.bw * opEl row true id (if row then N else M) r c) O.bw x → W x)
    (hY : ∀ r c : Nat, r < M → c < N → ∀ x, Span (C + O.w * opEl row true id ldc r c) O.w x → ¬ W x)
    (hp : ∀ m1 : Mem, (∀ x, ¬ W x → m1 x = m x) →
      (∀ r c : Nat, r < M → c < N → S.bget (prod CI (if row then N else M) m1) (CI + O.bw * opEl row true id (if row then N else M) r c)
        = P (fun l => S.bget m1 (CI + O.bw * l)) (opEl row true id (if row then N else M) r c)) ∧ ∀ x, ¬ W x → prod CI (if row then N else M) m1 x = m1 x)
    (hP : ∀ f f' : Int → β, ∀ l, f l = f' l → P f l = P f' l) (ci : Int → β) :
    let Cv := fun a => O.get m (C + O.w * a)
    (∀ l, (∀ x, Span (C + O.w * l) O.w x → ¬ W x) → O.get (rgemmM O zero unit scl prod row M N C ldc CI m) (C + O.w * l) =
      (if M = 0 ∨ N = 0 then Cv else if row then
        forS 0 M 1 (fun i => forS 0 N 1 (fun j C => store C (i * ldc + j) (S.unconv (P
          (forS 0 M 1 (fun i => forS 0 N 1 (fun j CI => store CI (i * (N : Int) + j) (S.init zero unit scl (Cv (i * ldc + j))))) ci) (i * (N : Int) + j))))) Cv
      else
        forS 0 N 1 (fun j => forS 0 M 1 (fun i C => store C (j * ldc + i) (S.unconv (P
          (forS 0 N 1 (fun j => forS 0 M 1 (fun i CI => store CI (j * (M : Int) + i) (S.init zero unit scl (Cv (j * ldc + i))))) ci) (j * (M : Int) + i))))) Cv) l) ∧
    (∀ x, ¬ W x → (∀ r c : Nat, r < M → c < N → ¬ Span (C + O.w * opEl row true id ldc r c) O.w x) → rgemmM O zero unit scl prod row M N C ldc CI m x = m x) := by
  intro Cv
  unfold rgemmM
  by_cases h0 : M = 0 ∨ N = 0
  · simp only [if_pos h0]
    exact ⟨fun _ _ => rfl, fun _ _ _ => trivial⟩
  simp only [if_neg h0]
  have hm : ∀ (R Q : Nat) (k : Nat × Nat), k ∈ (steps 0 R 1).flatMap (fun i => (steps 0 Q 1).map (fun j => (i, j))) → k.1 < R ∧ k.2 < Q := by
    rintro R Q ⟨a, c⟩ hp
    simp only [List.mem_flatMap, List.mem_map, Prod.mk.injEq] at hp
    obtain ⟨kk, hkk, ii, hii, rfl, rfl⟩ := hp
    exact ⟨(mem_steps1.1 hkk).2, (mem_steps1.1 hii).2⟩
  have hm' : ∀ (R Q : Nat) (a c : Nat), a < R → c < Q → (a, c) ∈ (steps 0 R 1).flatMap (fun i => (steps 0 Q 1).map (fun j => (i, j))) := by
    intro R Q a c ha hc
    simp only [List.mem_flatMap, List.mem_map, Prod.mk.injEq]
    exact ⟨a, mem_steps1.2 (by omega), c, mem_steps1.2 (by omega), rfl, rfl⟩
  have e1 : ∀ (R Q : Nat) (f : Nat → Nat → Mem → Mem) (s : Mem), forS 0 R 1 (fun i => forS 0 Q 1 (fun j => f i j)) s
      = ((steps 0 R 1).flatMap (fun i => (steps 0 Q 1).map (fun j => (i, j)))).foldl (fun s p => f p.1 p.2 s) s := fun R Q f s => forS_flat2 (lo := fun _ => 0) (hi := fun _ => Q) (st' := fun _ => 1) f s
  have e2 : ∀ (γ : Type) (R Q : Nat) (f : Nat → Nat → (Int → γ) → (Int → γ)) (s : Int → γ), forS 0 R 1 (fun i => forS 0 Q 1 (fun j => f i j)) s
      = ((steps 0 R 1).flatMap (fun i => (steps 0 Q 1).map (fun j => (i, j)))).foldl (fun s p => f p.1 p.2 s) s := fun γ R Q f s => forS_flat2 (lo := fun _ => 0) (hi := fun _ => Q) (st' := fun _ => 1) f s
  cases row
  · simp only [Bool.false_eq_true, if_false] at hpos hp ⊢
    have el : ∀ (ld : Int) (p : Nat × Nat), opEl false true id ld p.2 p.1 = (p.1 : Int) * ld + p.2 := fun _ _ => rfl
    have h := wrap_spec hO zero unit scl ((steps 0 N 1).flatMap (fun i => (steps 0 M 1).map (fun j => (i, j)))) (fun p : Nat × Nat => (p.1 : Int) * ldc + p.2)
      (fun p : Nat × Nat => (p.1 : Int) * (M : Int) + p.2) C CI (prod CI M) (W := W) (P := P) m
      (fun k hk => hpos k.2 k.1 (hm _ _ k hk).2 (hm _ _ k hk).1) (fun k hk => hY k.2 k.1 (hm _ _ k hk).2 (hm _ _ k hk).1)
      (fun m1 hm1 => by
        have h := hp m1 (fun x hx => hm1 x (fun k hk hx' => hx (hpos k.2 k.1 (hm _ _ k hk).2 (hm _ _ k hk).1 x hx')))
        exact ⟨fun k hk => h.1 k.2 k.1 (hm _ _ k hk).2 (hm _ _ k hk).1, h.2⟩) hP ci
    rw [e1 N M (fun j i => initM O zero unit scl (CI + O.bw * (j * (M : Int) + i)) (C + O.w * (j * ldc + i))),
      e1 N M (fun j i m => O.put m (C + O.w * (j * ldc + i)) (O.unconv (CI + O.bw * (j * (M : Int) + i)) m)),
      e2 _ N M (fun j i CI => store CI (j * (M : Int) + i) (S.init zero unit scl (Cv (j * ldc + i)))), e2 _ N M]
    exact ⟨h.1, fun x hx hx' => h.2 x hx (fun k hk => hx' k.2 k.1 (hm _ _ k hk).2 (hm _ _ k hk).1)⟩
  · simp only [if_true] at hpos hp ⊢
    have h := wrap_spec hO zero unit scl ((steps 0 M 1).flatMap (fun i => (steps 0 N 1).map (fun j => (i, j)))) (fun p : Nat × Nat => (p.1 : Int) * ldc + p.2)
      (fun p : Nat × Nat => (p.1 : Int) * (N : Int) + p.2) C CI (prod CI N) (W := W) (P := P) m
      (fun k hk => hpos k.1 k.2 (hm _ _ k hk).1 (hm _ _ k hk).2) (fun k hk => hY k.1 k.2 (hm _ _ k hk).1 (hm _ _ k hk).2)
      (fun m1 hm1 => by
        have h := hp m1 (fun x hx => hm1 x (fun k hk hx' => hx (hpos k.1 k.2 (hm _ _ k hk).1 (hm _ _ k hk).2 x hx')))
        exact ⟨fun k hk => h.1 k.1 k.2 (hm _ _ k hk).1 (hm _ _ k hk).2, h.2⟩) hP ci
    rw [e1 M N (fun i j => initM O zero unit scl (CI + O.bw * (i * (N : Int) + j)) (C + O.w * (i * ldc + j))),
      e1 M N (fun i j m => O.put m (C + O.w * (i * ldc + j)) (O.unconv (CI + O.bw * (i * (N : Int) + j)) m)),
      e2 _ M N (fun i j CI => store CI (i * (N : Int) + j) (S.init zero unit scl (Cv (i * ldc + j)))), e2 _ M N]
    exact ⟨h.1, fun x hx hx' => h.2 x hx (fun k hk => hx' k.1 k.2 (hm _ _ k hk).1 (hm _ _ k hk).2)⟩

end
end Repro
