import Verif.MatMem
import Verif.PropsGemm
/-!
# Lemmas about the matrix products in flat memory
-/

namespace Repro

/-- The word `x` is one of the `n` words from `a` on. -/
def Span (a : Int) (n : Nat) (x : Int) : Prop := a ≤ x ∧ x < a + n

/-- What the operations compute, as functions of elements and binned values. -/
structure MAbs (α β : Type) where
  bget : Mem → Int → β
  dot : List (α × α) → β → β
  conv : α → β
  zero : β
  unconv : β → α

/-- The operations act on elements and binned values as described, and touch no other words. -/
structure MOps.Law {α β : Type} (O : MOps α) (S : MAbs α β) : Prop where
  wpos : 1 ≤ O.w
  get_congr : ∀ {m m' : Mem} {a : Int}, (∀ x, Span a O.w x → m x = m' x) → O.get m a = O.get m' a
  put_get : ∀ (m : Mem) (a : Int) (v : α), O.get (O.put m a v) a = v
  put_frame : ∀ (m : Mem) (a : Int) (v : α) (x : Int), ¬ Span a O.w x → O.put m a v x = m x
  bget_congr : ∀ {m m' : Mem} {y : Int}, (∀ x, Span y O.bw x → m x = m' x) → S.bget m y = S.bget m' y
  dot_spec : ∀ (n : Nat) (X incX Z incZ y : Int) (m : Mem),
    (∀ t : Nat, t < n → ∀ x, Span (X + O.w * (t * incX)) O.w x → ¬ Span y O.bw x) →
    (∀ t : Nat, t < n → ∀ x, Span (Z + O.w * (t * incZ)) O.w x → ¬ Span y O.bw x) →
    S.bget (O.dot n X incX Z incZ y m) y
      = S.dot (pairs n (fun a => O.get m (X + O.w * a)) incX (fun a => O.get m (Z + O.w * a)) incZ) (S.bget m y)
    ∧ ∀ x, ¬ Span y O.bw x → O.dot n X incX Z incZ y m x = m x
  conv_spec : ∀ (v : α) (y : Int) (m : Mem), S.bget (O.conv v y m) y = S.conv v ∧ ∀ x, ¬ Span y O.bw x → O.conv v y m x = m x
  clear_spec : ∀ (y : Int) (m : Mem), S.bget (O.clear y m) y = S.zero ∧ ∀ x, ¬ Span y O.bw x → O.clear y m x = m x
  unconv_spec : ∀ (y : Int) (m : Mem), O.unconv y m = S.unconv (S.bget m y)

/-- Elements of an array with different indices do not overlap. -/
theorem span_disj {a : Int} {w : Nat} {i j x : Int} (h : i ≠ j) (h1 : Span (a + w * i) w x) (h2 : Span (a + w * j) w x) : False := by
  unfold Span at h1 h2
  rcases Int.lt_or_gt_of_ne h with h | h
  · have := Int.mul_le_mul_of_nonneg_left (show i + 1 ≤ j by omega) (Int.natCast_nonneg w)
    rw [Int.mul_add, Int.mul_one] at this
    omega
  · have := Int.mul_le_mul_of_nonneg_left (show j + 1 ≤ i by omega) (Int.natCast_nonneg w)
    rw [Int.mul_add, Int.mul_one] at this
    omega

/-- An element of an array of `n` elements lies in the words of the array. -/
theorem span_in {a : Int} {w n : Nat} {i x : Int} (h0 : 0 ≤ i) (h1 : i < n) (h : Span (a + w * i) w x) : Span a (w * n) x := by
  unfold Span at *
  have h2 := Int.mul_le_mul_of_nonneg_left (show i + 1 ≤ n by omega) (Int.natCast_nonneg w)
  have h3 := Int.mul_nonneg (Int.natCast_nonneg w) h0
  rw [Int.mul_add, Int.mul_one] at h2
  push_cast
  omega

theorem foldl_rel {σ τ κ : Type} {R : σ → τ → Prop} {f : σ → κ → σ} {g : τ → κ → τ} : ∀ (L : List κ) {s : σ} {t : τ}, R s t →
    (∀ x ∈ L, ∀ s t, R s t → R (f s x) (g t x)) → R (L.foldl f s) (L.foldl g t)
  | [], _, _, h, _ => h
  | x :: L, _, _, h, hs => foldl_rel L (hs x List.mem_cons_self _ _ h) (fun y hy => hs y (List.mem_cons_of_mem _ hy))

theorem forS_rel {σ τ : Type} {R : σ → τ → Prop} {lo hi st : Nat} {f : Nat → σ → σ} {g : Nat → τ → τ} {s : σ} {t : τ} (h : R s t)
    (hs : ∀ i ∈ steps lo hi st, ∀ s t, R s t → R (f i s) (g i t)) : R (forS lo hi st f s) (forS lo hi st g t) :=
  foldl_rel _ h hs

section
variable {α β : Type} {O : MOps α} {S : MAbs α β} (hO : O.Law S)
include hO

theorem MOps.Law.get_put_ne {m : Mem} {a b : Int} {v : α} (h : ∀ x, Span b O.w x → ¬ Span a O.w x) : O.get (O.put m a v) b = O.get m b :=
  hO.get_congr (fun x hx => hO.put_frame m a v x (h x hx))

/-- One store into an array, seen as a store into a function on indices. -/
theorem put_store {m : Mem} {base l l' : Int} {v : α} : O.get (O.put m (base + O.w * l) v) (base + O.w * l')
    = store (fun a => O.get m (base + O.w * a)) l v l' := by
  unfold store
  by_cases h : l' = l
  · rw [if_pos h, h]; exact hO.put_get _ _ _
  · rw [if_neg h]
    exact hO.get_put_ne (fun x h1 h2 => span_disj h h1 h2)

/-- A sequence of stores into an array, the values being read from outside of it. -/
theorem putAll {κ : Type} (base : Int) (loc : κ → Int) (src : κ → Int) (f : α → α) (L : List κ) (m : Mem)
    (hsep : ∀ k ∈ L, ∀ k' ∈ L, ∀ x, Span (src k) O.w x → ¬ Span (base + O.w * loc k') O.w x) :
    (∀ l, O.get (L.foldl (fun m k => O.put m (base + O.w * loc k) (f (O.get m (src k)))) m) (base + O.w * l)
      = L.foldl (fun g k => store g (loc k) (f (O.get m (src k)))) (fun a => O.get m (base + O.w * a)) l) ∧
    ∀ x, (∀ k ∈ L, ¬ Span (base + O.w * loc k) O.w x) →
      L.foldl (fun m k => O.put m (base + O.w * loc k) (f (O.get m (src k)))) m x = m x := by
  have h := foldl_rel (R := fun (m' : Mem) (g : Int → α) => (∀ l, O.get m' (base + O.w * l) = g l) ∧
      ∀ x, (∀ k ∈ L, ¬ Span (base + O.w * loc k) O.w x) → m' x = m x)
    (f := fun m k => O.put m (base + O.w * loc k) (f (O.get m (src k))))
    (g := fun g k => store g (loc k) (f (O.get m (src k)))) L (s := m) (t := fun a => O.get m (base + O.w * a)) ⟨fun _ => rfl, fun _ _ => rfl⟩ ?_
  · exact h
  · rintro k hk m' g ⟨h1, h2⟩
    refine ⟨fun l => ?_, fun x hx => ?_⟩
    · rw [put_store hO]
      have : O.get m' (src k) = O.get m (src k) := hO.get_congr (fun x hx => h2 x (fun k' hk' => hsep k hk k' hk' x hx))
      rw [this]
      unfold store
      dsimp only
      rw [h1]
    · rw [hO.put_frame _ _ _ _ (hx k hk), h2 x hx]

end

/-- The product over tiles depends only on the pairs read by its calls. -/
theorem tiles_congr {α β : Type} (dot : List (α × α) → β → β) {bi bj bk M N K : Nat} (hk : 1 ≤ bk) {jFirst : Bool} {loc : Nat → Nat → Int}
    {prs prs' : Nat → Nat → Nat → Nat → Nat → List (α × α)} (C : Int → β)
    (h : ∀ i j k ii jj, i ≤ ii → ii < min M (i + bi) → j ≤ jj → jj < min N (j + bj) → k < K → prs i j k ii jj = prs' i j k ii jj) :
    tiles dot bi bj bk M N K jFirst loc prs C = tiles dot bi bj bk M N K jFirst loc prs' C := by
  rw [tiles_calls, tiles_calls]
  refine List.foldl_ext _ _ _ ?_
  intro C q hq
  unfold calls at hq
  simp only [List.mem_flatMap, List.mem_map] at hq
  obtain ⟨i, hi', j, hj', k, hk', ⟨a, b⟩, hp, rfl⟩ := hq
  have := mem_tileList.1 hp
  dsimp only
  rw [h i j k a b this.1.1 this.1.2 this.2.1 this.2.2 ((mem_steps hk).1 hk').2.1]

section
variable {α β : Type} {O : MOps α} {S : MAbs α β} (hO : O.Law S)
include hO

/-- The tiled product in memory: if the packed and unpacked operands hold the elements `e ii jj`, every entry becomes what the model with
these elements computes. `Buf` are the words the packing may write. -/
theorem tilesM_spec {bi bj bk M N K : Nat} (hk : 1 ≤ bk) (hi : 1 ≤ bi) (hj : 1 ≤ bj) {jFirst : Bool} {loc : Nat → Nat → Int}
    (hloc : ∀ r c r' c', r < M → c < N → r' < M → c' < N → loc r c = loc r' c' → r = r' ∧ c = c')
    {Y : Int} {Buf : Int → Prop} {m0 : Mem} {pk : Nat → Nat → Nat → Mem → Mem} {call : Nat → Nat → Nat → Nat → Nat → Mem → Mem}
    {len : Nat → Nat} {aX aZ : Nat → Nat → Nat → Nat → Nat → Int} {iX iZ : Int} {e : Nat → Nat → Nat → α × α}
    (hcall : ∀ i j k ii jj m, call i j k ii jj m = O.dot (len k) (aX i j k ii jj) iX (aZ i j k ii jj) iZ (Y + O.bw * loc ii jj) m)
    (hbuf : ∀ r c x, r < M → c < N → Span (Y + O.bw * loc r c) O.bw x → ¬ Buf x)
    (hpk : ∀ i j k m x, i < M → j < N → k < K → ¬ Buf x → pk i j k m x = m x)
    (hop : ∀ i j k ii jj t : Nat, i ≤ ii → ii < min M (i + bi) → j ≤ jj → jj < min N (j + bj) → k < K → t < len k →
      (∀ m : Mem, (∀ x, (∀ r c, r < M → c < N → ¬ Span (Y + O.bw * loc r c) O.bw x) → ¬ Buf x → m x = m0 x) →
        (O.get (pk i j k m) (aX i j k ii jj + O.w * (t * iX)), O.get (pk i j k m) (aZ i j k ii jj + O.w * (t * iZ))) = e ii jj (k + t)) ∧
      (∀ r c x, r < M → c < N → Span (aX i j k ii jj + O.w * (t * iX)) O.w x → ¬ Span (Y + O.bw * loc r c) O.bw x) ∧
      (∀ r c x, r < M → c < N → Span (aZ i j k ii jj + O.w * (t * iZ)) O.w x → ¬ Span (Y + O.bw * loc r c) O.bw x)) :
    (∀ r c, r < M → c < N → S.bget (tilesM bi bj bk M N K jFirst pk call m0) (Y + O.bw * loc r c)
      = tiles S.dot bi bj bk M N K jFirst loc (fun _ _ k ii jj => (List.range' k (len k)).map (e ii jj)) (fun l => S.bget m0 (Y + O.bw * l)) (loc r c)) ∧
    (∀ x, (∀ r c, r < M → c < N → ¬ Span (Y + O.bw * loc r c) O.bw x) → ¬ Buf x → tilesM bi bj bk M N K jFirst pk call m0 x = m0 x) := by
  let R : Mem → (Int → β) → Prop := fun m C => (∀ r c, r < M → c < N → S.bget m (Y + O.bw * loc r c) = C (loc r c)) ∧
    (∀ x, (∀ r c, r < M → c < N → ¬ Span (Y + O.bw * loc r c) O.bw x) → ¬ Buf x → m x = m0 x)
  suffices h : R (tilesM bi bj bk M N K jFirst pk call m0)
      (tiles S.dot bi bj bk M N K jFirst loc (fun _ _ k ii jj => (List.range' k (len k)).map (e ii jj)) (fun l => S.bget m0 (Y + O.bw * l))) from h
  unfold tilesM tiles
  refine forS_rel (R := R) ⟨fun _ _ _ _ => rfl, fun _ _ _ => rfl⟩ fun i hi' m C h => ?_
  refine forS_rel (R := R) h fun j hj' m C h => ?_
  refine forS_rel (R := R) h fun k hk' m C h => ?_
  have hiM := ((mem_steps hi).1 hi').2.1
  have hjN := ((mem_steps hj).1 hj').2.1
  have hkK := ((mem_steps hk).1 hk').2.1
  -- after the packing
  let R' : Mem → (Int → β) → Prop := fun m' C => R m' C ∧ ∀ x, (∀ r c, r < M → c < N → ¬ Span (Y + O.bw * loc r c) O.bw x) → m' x = pk i j k m x
  have h0 : R' (pk i j k m) C := by
    refine ⟨⟨fun r c hr hc => ?_, fun x hx hb => ?_⟩, fun _ _ => rfl⟩
    · rw [← h.1 r c hr hc]
      exact hO.bget_congr fun x hx => hpk i j k m x hiM hjN hkK (hbuf r c x hr hc hx)
    · rw [hpk i j k m x hiM hjN hkK hb, h.2 x hx hb]
  have step : ∀ ii jj, i ≤ ii → ii < min M (i + bi) → j ≤ jj → jj < min N (j + bj) → ∀ m' C, R' m' C →
      R' (call i j k ii jj m') (store C (loc ii jj) (S.dot ((List.range' k (len k)).map (e ii jj)) (C (loc ii jj)))) := by
    intro ii jj h1 h2 h3 h4 m' C hR
    have hiM' : ii < M := by omega
    have hjN' : jj < N := by omega
    have hd := hO.dot_spec (len k) (aX i j k ii jj) iX (aZ i j k ii jj) iZ (Y + O.bw * loc ii jj) m'
      (fun t ht x hx => (hop i j k ii jj t h1 h2 h3 h4 hkK ht).2.1 ii jj x hiM' hjN' hx)
      (fun t ht x hx => (hop i j k ii jj t h1 h2 h3 h4 hkK ht).2.2 ii jj x hiM' hjN' hx)
    rw [hcall]
    refine ⟨⟨fun r c hr hc => ?_, fun x hx hb => ?_⟩, fun x hx => ?_⟩
    · unfold store
      by_cases hrc : loc r c = loc ii jj
      · rw [if_pos hrc, hrc, hd.1, hR.1.1 ii jj hiM' hjN']
        congr 1
        apply pairs_block
        intro t ht
        have ho := hop i j k ii jj t h1 h2 h3 h4 hkK ht
        rw [← ho.1 m h.2]
        congr 1
        · exact hO.get_congr fun x hx => hR.2 x (fun r c hr hc => ho.2.1 r c x hr hc hx)
        · exact hO.get_congr fun x hx => hR.2 x (fun r c hr hc => ho.2.2 r c x hr hc hx)
      · rw [if_neg hrc, ← hR.1.1 r c hr hc]
        exact hO.bget_congr fun x hx => hd.2 x (fun hx' => span_disj hrc hx hx')
    · rw [hd.2 x (hx ii jj hiM' hjN'), hR.1.2 x hx hb]
    · rw [hd.2 x (hx ii jj hiM' hjN'), hR.2 x hx]
  cases jFirst
  · simp only [Bool.false_eq_true, if_false]
    refine (forS_rel (R := R') h0 fun ii hii m' C h => ?_).1
    refine forS_rel (R := R') h fun jj hjj m' C h => ?_
    have h1 := mem_steps1.1 hii
    have h2 := mem_steps1.1 hjj
    exact step ii jj h1.1 h1.2 h2.1 h2.2 m' C h
  · simp only [if_true]
    refine (forS_rel (R := R') h0 fun jj hjj m' C h => ?_).1
    refine forS_rel (R := R') h fun ii hii m' C h => ?_
    have h1 := mem_steps1.1 hii
    have h2 := mem_steps1.1 hjj
    exact step ii jj h1.1 h1.2 h2.1 h2.2 m' C h

/-! ### buffers -/

theorem scaleXM_spec (unit : Bool) (scl : α → α) (n : Nat) (X incX bufX : Int) (m : Mem)
    (hX : ∀ t : Nat, t < n → ∀ x, Span (X + O.w * (t * incX)) O.w x → ¬ Span bufX (O.w * n) x) :
    (∀ t : Nat, t < n → O.get (scaleXM O unit scl n X incX bufX m).2.2 ((scaleXM O unit scl n X incX bufX m).1 + O.w * (t * (scaleXM O unit scl n X incX bufX m).2.1))
      = (if unit then id else scl) (O.get m (X + O.w * (t * incX)))) ∧
    (∀ x, ¬ Span bufX (O.w * n) x → (scaleXM O unit scl n X incX bufX m).2.2 x = m x) ∧
    (∀ t : Nat, t < n → ∀ x, Span ((scaleXM O unit scl n X incX bufX m).1 + O.w * (t * (scaleXM O unit scl n X incX bufX m).2.1)) O.w x →
      Span (X + O.w * (t * incX)) O.w x ∨ Span bufX (O.w * n) x) := by
  unfold scaleXM
  cases unit
  · simp only [Bool.false_eq_true, if_false]
    have hin : ∀ k ∈ steps 0 n 1, ∀ x, Span (bufX + O.w * (k : Int)) O.w x → Span bufX (O.w * n) x := by
      intro k hk x hx
      have := mem_steps1.1 hk
      exact span_in (by omega) (by omega) hx
    have h := putAll hO bufX (fun j : Nat => (j : Int)) (fun j : Nat => X + O.w * (j * incX)) scl (steps 0 n 1) m
      (fun k hk k' hk' x hx hx' => hX k (mem_steps1.1 hk).2 x hx (hin k' hk' x hx'))
    refine ⟨fun t ht => ?_, fun x hx => h.2 x (fun k hk hx' => hx (hin k hk x hx')), fun t ht x hx => Or.inr ?_⟩
    · rw [Int.mul_one]
      unfold forS
      rw [h.1 t]
      refine setAll _ _ _ _ ?_ (Or.inr ⟨t, mem_steps1.2 ⟨by omega, ht⟩, rfl⟩)
      intro k _ hk
      have : k = t := by omega
      rw [this]
    · rw [Int.mul_one] at hx
      exact span_in (by omega) (by omega) hx
  · simp only [if_true]
    exact ⟨fun _ _ => rfl, fun _ _ => trivial, fun _ _ _ h => Or.inl h⟩

omit hO in
theorem idx_bound {xt yt u v : Nat} (hu : u < yt) (hv : v < xt) : (0 : Int) ≤ (u : Int) * xt + v ∧ (u : Int) * xt + v < (xt * yt : Nat) := by
  have h : (u + 1) * xt ≤ yt * xt := Nat.mul_le_mul_right _ hu
  rw [Nat.add_mul, Nat.one_mul, Nat.mul_comm yt] at h
  have : (u : Int) * xt = ((u * xt : Nat) : Int) := by push_cast; rfl
  rw [this]
  omega

theorem packTM_spec {b : GemvB} (hb : b.OK) {M N i j : Nat} (A lda bufA : Int) (m : Mem)
    (hA : ∀ c r : Nat, c < M → r < N → ∀ x, Span (A + O.w * (c * lda + r)) O.w x → ¬ Span bufA (O.w * (b.xt * b.yt)) x) :
    (∀ u v : Nat, u < b.yt → i + u < N → v < b.xt → j + v < M → O.get (packTM O b M N i j A lda bufA m) (bufA + O.w * ((u : Int) * b.xt + v))
      = O.get m (A + O.w * ((j + v : Nat) * lda + (i + u : Nat)))) ∧
    (∀ x, ¬ Span bufA (O.w * (b.xt * b.yt)) x → packTM O b M N i j A lda bufA m x = m x) := by
  have e : packTM O b M N i j A lda bufA m = (packTList b M N i j).foldl (fun m p =>
      O.put m (bufA + O.w * (((p.2 - i : Nat) : Int) * (b.xt : Int) + (p.1 - j : Nat))) (id (O.get m (A + O.w * (p.1 * lda + p.2))))) m := by
    unfold packTM packTList forS
    rw [← foldl_flatMap']
    refine List.foldl_ext _ _ _ (fun s jj _ => ?_)
    rw [← foldl_flatMap']
    refine List.foldl_ext _ _ _ (fun s ii _ => ?_)
    rw [← foldl_flatMap']
    refine List.foldl_ext _ _ _ (fun s jjj _ => ?_)
    rw [List.foldl_map]
    rfl
  have hin : ∀ p ∈ packTList b M N i j, ∀ x, Span (bufA + O.w * (((p.2 - i : Nat) : Int) * (b.xt : Int) + (p.1 - j : Nat))) O.w x →
      Span bufA (O.w * (b.xt * b.yt)) x := by
    rintro ⟨a, c⟩ hp x hx
    have := (mem_packTList hb).1 hp
    have hbd := idx_bound (xt := b.xt) (yt := b.yt) (u := c - i) (v := a - j) this.2.2.2 this.1.2.2
    exact span_in hbd.1 hbd.2 hx
  have h := putAll hO bufA (fun p : Nat × Nat => ((p.2 - i : Nat) : Int) * (b.xt : Int) + (p.1 - j : Nat))
    (fun p : Nat × Nat => A + O.w * (p.1 * lda + p.2)) id (packTList b M N i j) m ?_
  · rw [e]
    refine ⟨fun u v hu huN hv hvM => ?_, fun x hx => h.2 x (fun k hk hx' => hx (hin k hk x hx'))⟩
    rw [h.1]
    refine setAll _ _ _ _ ?_ (Or.inr ⟨(j + v, i + u), (mem_packTList hb).2 (by omega), ?_⟩)
    · rintro ⟨a, c⟩ hac hl
      have hm := (mem_packTList hb).1 hac
      have := idx_inj hm.1.2.2 hv hl
      dsimp only [id]
      rw [show a = j + v by omega, show c = i + u by omega]
    · dsimp only
      rw [show i + u - i = u by omega, show j + v - j = v by omega]
  · rintro ⟨a, c⟩ hk k' hk' x hx hx'
    have := (mem_packTList hb).1 hk
    exact hA a c this.1.2.1 this.2.2.1 x hx (hin k' hk' x hx')

theorem packM_spec {xt yt : Nat} (f : α → α) {K M k i : Nat} (A lda buf : Int) (m : Mem)
    (hA : ∀ c r : Nat, c < K → r < M → ∀ x, Span (A + O.w * (c * lda + r)) O.w x → ¬ Span buf (O.w * (xt * yt)) x) :
    (∀ u v : Nat, u < yt → i + u < M → v < xt → k + v < K → O.get (packM O xt yt f K M k i A lda buf m) (buf + O.w * ((u : Int) * xt + v))
      = f (O.get m (A + O.w * ((k + v : Nat) * lda + (i + u : Nat))))) ∧
    (∀ x, ¬ Span buf (O.w * (xt * yt)) x → packM O xt yt f K M k i A lda buf m x = m x) := by
  have hmem : ∀ p ∈ (steps k (min K (k + xt)) 1).flatMap (fun kk => (steps i (min M (i + yt)) 1).map (fun ii => (kk, ii))),
      k ≤ p.1 ∧ p.1 < min K (k + xt) ∧ i ≤ p.2 ∧ p.2 < min M (i + yt) := by
    rintro ⟨a, c⟩ hp
    simp only [List.mem_flatMap, List.mem_map, Prod.mk.injEq] at hp
    obtain ⟨kk, hkk, ii, hii, rfl, rfl⟩ := hp
    have h1 := mem_steps1.1 hkk
    have h2 := mem_steps1.1 hii
    exact ⟨h1.1, h1.2, h2.1, h2.2⟩
  have hin : ∀ p ∈ (steps k (min K (k + xt)) 1).flatMap (fun kk => (steps i (min M (i + yt)) 1).map (fun ii => (kk, ii))),
      ∀ x, Span (buf + O.w * (((p.2 - i : Nat) : Int) * (xt : Int) + (p.1 - k : Nat))) O.w x → Span buf (O.w * (xt * yt)) x := by
    intro p hp x hx
    have := hmem p hp
    have hbd := idx_bound (xt := xt) (yt := yt) (u := p.2 - i) (v := p.1 - k) (by omega) (by omega)
    exact span_in hbd.1 hbd.2 hx
  unfold packM
  rw [forS_flat2 (fun kk ii m => O.put m (buf + O.w * ((ii - i : Nat) * (xt : Int) + (kk - k : Nat))) (f (O.get m (A + O.w * (kk * lda + ii)))))]
  have h := putAll hO buf (fun p : Nat × Nat => ((p.2 - i : Nat) : Int) * (xt : Int) + (p.1 - k : Nat))
    (fun p : Nat × Nat => A + O.w * (p.1 * lda + p.2)) f ((steps k (min K (k + xt)) 1).flatMap (fun kk => (steps i (min M (i + yt)) 1).map (fun ii => (kk, ii)))) m ?_
  · refine ⟨fun u v hu huN hv hvM => ?_, fun x hx => h.2 x (fun k hk hx' => hx (hin k hk x hx'))⟩
    rw [h.1]
    refine setAll _ _ _ _ ?_ (Or.inr ⟨(k + v, i + u), ?_, ?_⟩)
    · intro p hp hl
      have hm := hmem p hp
      have := idx_inj (show p.1 - k < xt by omega) hv hl
      rw [show p.1 = k + v by omega, show p.2 = i + u by omega]
    · simp only [List.mem_flatMap, List.mem_map, Prod.mk.injEq]
      exact ⟨k + v, mem_steps1.2 (by omega), i + u, mem_steps1.2 (by omega), rfl, rfl⟩
    · dsimp only
      rw [show i + u - i = u by omega, show k + v - k = v by omega]
  · intro p hk k' hk' x hx hx'
    have := hmem p hk
    exact hA p.1 p.2 (by omega) (by omega) x hx (hin k' hk' x hx')

theorem scaleAM_spec (unit : Bool) (f : α → α) (M K : Nat) (A lda buf : Int) (m : Mem)
    (hA : ∀ r c : Nat, r < M → c < K → ∀ x, Span (A + O.w * (r * lda + c)) O.w x → ¬ Span buf (O.w * (M * K)) x) :
    (∀ r c : Nat, r < M → c < K → O.get (scaleAM O unit f M K A lda buf m).2.2 ((scaleAM O unit f M K A lda buf m).1 + O.w * (r * (scaleAM O unit f M K A lda buf m).2.1 + c))
      = (if unit then id else f) (O.get m (A + O.w * (r * lda + c)))) ∧
    (∀ x, ¬ Span buf (O.w * (M * K)) x → (scaleAM O unit f M K A lda buf m).2.2 x = m x) ∧
    (∀ r c : Nat, r < M → c < K → ∀ x, Span ((scaleAM O unit f M K A lda buf m).1 + O.w * (r * (scaleAM O unit f M K A lda buf m).2.1 + c)) O.w x →
      Span (A + O.w * (r * lda + c)) O.w x ∨ Span buf (O.w * (M * K)) x) := by
  have hbd : ∀ r c : Nat, r < M → c < K → (0 : Int) ≤ (r : Int) * K + c ∧ (r : Int) * K + c < (M * K : Nat) := by
    intro r c hr hc
    have := idx_bound hr hc
    rw [Nat.mul_comm K M] at this
    exact this
  unfold scaleAM
  cases unit
  · simp only [Bool.false_eq_true, if_false]
    have hmem : ∀ p ∈ (steps 0 M 1).flatMap (fun i => (steps 0 K 1).map (fun k => (i, k))), p.1 < M ∧ p.2 < K := by
      rintro ⟨a, c⟩ hp
      simp only [List.mem_flatMap, List.mem_map, Prod.mk.injEq] at hp
      obtain ⟨kk, hkk, ii, hii, rfl, rfl⟩ := hp
      exact ⟨(mem_steps1.1 hkk).2, (mem_steps1.1 hii).2⟩
    have hin : ∀ p ∈ (steps 0 M 1).flatMap (fun i => (steps 0 K 1).map (fun k => (i, k))), ∀ x, Span (buf + O.w * ((p.1 : Int) * (K : Int) + p.2)) O.w x →
        Span buf (O.w * (M * K)) x := by
      intro p hp x hx
      have h1 := hmem p hp
      have := hbd _ _ h1.1 h1.2
      exact span_in this.1 this.2 hx
    rw [forS_flat2 (fun i k m => O.put m (buf + O.w * (i * (K : Int) + k)) (f (O.get m (A + O.w * (i * lda + k)))))]
    have h := putAll hO buf (fun p : Nat × Nat => (p.1 : Int) * (K : Int) + p.2) (fun p : Nat × Nat => A + O.w * (p.1 * lda + p.2)) f
      ((steps 0 M 1).flatMap (fun i => (steps 0 K 1).map (fun k => (i, k)))) m ?_
    · refine ⟨fun r c hr hc => ?_, fun x hx => h.2 x (fun k hk hx' => hx (hin k hk x hx')), fun r c hr hc x hx => Or.inr ?_⟩
      · rw [h.1]
        refine setAll _ _ _ _ ?_ (Or.inr ⟨(r, c), ?_, rfl⟩)
        · intro p hp hl
          have := idx_inj (hmem p hp).2 hc hl
          rw [this.1, this.2]
        · simp only [List.mem_flatMap, List.mem_map, Prod.mk.injEq]
          exact ⟨r, mem_steps1.2 (by omega), c, mem_steps1.2 (by omega), rfl, rfl⟩
      · have := hbd r c hr hc
        exact span_in this.1 this.2 hx
    · intro p hk k' hk' x hx hx'
      have := hmem p hk
      exact hA p.1 p.2 this.1 this.2 x hx (hin k' hk' x hx')
  · simp only [if_true]
    exact ⟨fun _ _ _ _ => rfl, fun _ _ => trivial, fun _ _ _ _ _ h => Or.inl h⟩

end
end Repro
