import Verif.ThreadsMat
import Verif.PropsMatMemZ
/-!
# The programs of the matrix products: what they do alone and what they access
-/

namespace Repro
open Fmt Prog
variable {F : Fmt}

theorem eval_dmdconv {fold : Nat} (x : Flt) (l : Loc) (m : Mem) : (F.dmdconvP fold x l).eval F m = ((), F.dmdconvM fold x l m) := by
  unfold dmdconvP dmdconvM
  rw [eval_bind, eval_setzero, eval_dmdadd]

theorem real_runs [F.OK] {T : Tune} (hT : T.OK F) (expand : Bool) {fold : Nat} (hf : 2 ≤ fold) (jA jD : Junk) : (realP F T fold).Runs F (realOps F T expand fold jA jD) where
  w := rfl
  bw := rfl
  get _ _ := rfl
  put _ _ _ := rfl
  dot n X iX Z iZ y m := eval_rloop hT (Or.inr (Or.inr rfl)) (by omega) (fun _ => hf) (packed fold y) iX iZ (jA m X Z y) (jD m X Z y) n n X Z 0 m
  conv v y m := eval_dmdconv v _ m
  clear y m := eval_setzero fold _ m
  unconv y m := eval_convert hf _ m

theorem cplx_runs [F.OK] {T : Tune} (hT : T.OK F) (expand : Bool) {fold : Nat} (hf : 2 ≤ fold) (jA jD : Junk) (conj : Bool) : (cplxP F T fold conj).Runs F (cplxOps F T expand fold jA jD conj) where
  w := rfl
  bw := rfl
  get _ _ := rfl
  put _ _ _ := rfl
  dot n X iX Z iZ y m := by
    cases conj
    · exact eval_zloop hT (zlink_dotu hT) (by omega) (fun _ => hf) (zpacked fold y) iX iZ (jA m X Z y) (jD m X Z y) (fun h => nomatch h) n n X Z 0 m
    · exact eval_zloop hT (zlink_dotc hT) (by omega) (fun _ => hf) (zpacked fold y) iX iZ (jA m X Z y) (jD m X Z y) (fun h => nomatch h) n n X Z 0 m
  conv v y m := by
    show ((F.dmdconvP fold v.1 (zpacked fold y).re).bind fun _ => F.dmdconvP fold v.2 (zpacked fold y).im).eval F m = _
    rw [eval_bind, eval_dmdconv, eval_dmdconv]
    rfl
  clear y m := eval_zmsetzero fold _ m
  unconv y m := by
    show ((convertP F fold _).bind fun a => (convertP F fold _).bind fun b => ret (a, b)).eval F m = _
    rw [eval_bind, eval_convert hf, eval_bind, eval_convert hf]
    rfl

/-! ## What they access -/

/-- The programs stay in the words of their operands. -/
structure POps.Stays {α : Type} (F : Fmt) (P : POps α) : Prop where
  get : ∀ {W R : Int → Prop} {s : Nat → Prop} {a : Int}, (∀ x, Span a P.w x → R x) → Ok F W R s (P.get a)
  put : ∀ {W R : Int → Prop} {s : Nat → Prop} {a : Int} (v : α), (∀ x, Span a P.w x → W x) → Ok F W R s (P.put a v)
  dot : ∀ {W R : Int → Prop} {s : Nat → Prop} {n : Nat} {X iX Z iZ y : Int}, (∀ i : Nat, i < n → ∀ x, Span (X + P.w * (i * iX)) P.w x → R x) → (∀ i : Nat, i < n → ∀ x, Span (Z + P.w * (i * iZ)) P.w x → R x) →
    (∀ x, Span y P.bw x → R x) → (∀ x, Span y P.bw x → W x) → Ok F W R s (P.dot n X iX Z iZ y)
  conv : ∀ {W R : Int → Prop} {s : Nat → Prop} {y : Int} (v : α), (∀ x, Span y P.bw x → R x) → (∀ x, Span y P.bw x → W x) → Ok F W R s (P.conv v y)
  clear : ∀ {W R : Int → Prop} {s : Nat → Prop} {y : Int}, (∀ x, Span y P.bw x → W x) → Ok F W R s (P.clear y)
  unconv : ∀ {W R : Int → Prop} {s : Nat → Prop} {y : Int}, (∀ x, Span y P.bw x → R x) → Ok F W R s (P.unconv y)

theorem Ok.dmdconv {W R : Int → Prop} {s : Nat → Prop} (hF : F = f64 ∨ F = f32) {fold : Nat} (hf : 2 ≤ fold) (hm : fold ≤ F.maxFold) (x : Flt) {l : Loc} (hR : ∀ a, l.In fold a → R a) (hW : ∀ a, l.In fold a → W a) :
    Ok F W R s (F.dmdconvP fold x l) := Ok.bind (Ok.setzero hW) (fun _ => Ok.dmdadd hF hf hm x hR hW)

theorem real_stays (hF : F = f64 ∨ F = f32) (T : Tune) {fold : Nat} (hf : 2 ≤ fold) (hm : fold ≤ F.maxFold) : (realP F T fold).Stays F where
  get h := Ok.rd (h _ (span_one.2 rfl))
  put v h := Ok.wr v (h _ (span_one.2 rfl))
  dot {W R s n X iX Z iZ y} hX hZ hR hW := Ok.rloop hF hf hm T .dot (fun a h => hR a (span_packed.2 h)) (fun a h => hW a (span_packed.2 h)) iX iZ n n X Z 0 (fun i hi =>
    ⟨hX i hi _ (span_one.2 (one_mul' _ _).symm), fun _ => hZ i hi _ (span_one.2 (one_mul' _ _).symm)⟩)
  conv v hR hW := Ok.dmdconv hF hf hm v (fun a h => hR a (span_packed.2 h)) (fun a h => hW a (span_packed.2 h))
  clear hW := Ok.setzero (fun a h => hW a (span_packed.2 h))
  unconv hR := Ok.convert hF hf hm (fun a h => hR a (span_packed.2 h))

theorem two_span {X iX : Int} {i : Nat} : Span (X + ((2 : Nat) : Int) * (i * iX)) 2 (X + i * 2 * iX) ∧ Span (X + ((2 : Nat) : Int) * (i * iX)) 2 (X + i * 2 * iX + 1) := by
  have e : X + ((2 : Nat) : Int) * (i * iX) = X + i * 2 * iX := by push_cast; ring
  rw [e]
  exact ⟨⟨by omega, by omega⟩, by omega, by omega⟩

theorem cplx_stays (hF : F = f64 ∨ F = f32) (T : Tune) {fold : Nat} (hf : 2 ≤ fold) (hm : fold ≤ F.maxFold) (conj : Bool) : (cplxP F T fold conj).Stays F where
  get {W R s a} h := Ok.pair (h _ ⟨Int.le_refl _, by show _ < _ + ((2 : Nat) : Int); omega⟩) (h _ ⟨by omega, by show _ < _ + ((2 : Nat) : Int); omega⟩)
  put {W R s a} v h := Ok.bind (Ok.wr _ (h _ ⟨Int.le_refl _, by show _ < _ + ((2 : Nat) : Int); omega⟩)) (fun _ => Ok.wr _ (h _ ⟨by omega, by show _ < _ + ((2 : Nat) : Int); omega⟩))
  dot {W R s n X iX Z iZ y} hX hZ hR hW := by
    cases conj
    · exact Ok.zloop hF hf hm T .dotu _ _ (fun a h => hR a (span_zpacked.2 h)) (fun a h => hW a (span_zpacked.2 h)) iX iZ n n X Z 0 (fun i hi =>
        ⟨⟨hX i hi _ two_span.1, hX i hi _ two_span.2⟩, fun _ => ⟨hZ i hi _ two_span.1, hZ i hi _ two_span.2⟩⟩)
    · exact Ok.zloop hF hf hm T .dotc _ _ (fun a h => hR a (span_zpacked.2 h)) (fun a h => hW a (span_zpacked.2 h)) iX iZ n n X Z 0 (fun i hi =>
        ⟨⟨hX i hi _ two_span.1, hX i hi _ two_span.2⟩, fun _ => ⟨hZ i hi _ two_span.1, hZ i hi _ two_span.2⟩⟩)
  conv v hR hW := Ok.bind (Ok.dmdconv hF hf hm v.1 (fun a h => hR a (span_zpacked.2 (Or.inl h))) (fun a h => hW a (span_zpacked.2 (Or.inl h))))
    (fun _ => Ok.dmdconv hF hf hm v.2 (fun a h => hR a (span_zpacked.2 (Or.inr h))) (fun a h => hW a (span_zpacked.2 (Or.inr h))))
  clear hW := Ok.zmsetzero (fun a h => hW a (span_zpacked.2 h))
  unconv hR := Ok.bind (Ok.convert hF hf hm (fun a h => hR a (span_zpacked.2 (Or.inl h)))) (fun _ => Ok.bind (Ok.convert hF hf hm (fun a h => hR a (span_zpacked.2 (Or.inr h)))) (fun _ => Ok.ret _))

section
variable {α : Type} {P : POps α} {W R : Int → Prop} {s : Nat → Prop}

theorem Ok.forP {lo hi st : Nat} (hst : 1 ≤ st) {body : Nat → Prog Unit} (h : ∀ i t, lo ≤ i → i < hi → i = lo + t * st → Ok F W R s (body i)) : Ok F W R s (forP lo hi st body) :=
  Ok.loop (fun i hi => by obtain ⟨h1, h2, t, h3⟩ := (mem_steps hst).1 hi; exact h i t h1 h2 h3)

theorem Ok.forP1 {lo hi : Nat} {body : Nat → Prog Unit} (h : ∀ i, lo ≤ i → i < hi → Ok F W R s (body i)) : Ok F W R s (Repro.forP lo hi 1 body) :=
  Ok.forP (Nat.le_refl 1) (fun i _ h1 h2 _ => h i h1 h2)

/-- Binding after `p; return v`. -/
theorem Ok.bindRet {β γ : Type} {p : Prog Unit} {v : β} {f : β → Prog γ} (hp : Ok F W R s p) (hf : Ok F W R s (f v)) : Ok F W R s ((p.bind fun _ => Prog.ret v).bind f) := by
  have e : ∀ q : Prog Unit, ((q.bind fun _ => Prog.ret v).bind f) = q.bind (fun _ => f v) := by
    intro q
    induction q with
    | ret _ => rfl
    | _ => simp only [Prog.bind, *]
  rw [e]
  exact Ok.bind hp (fun _ => hf)

variable (hP : P.Stays F)
include hP

theorem Ok.copy {src dst : Int} (f : α → α) (h1 : ∀ x, Span src P.w x → R x) (h2 : ∀ x, Span dst P.w x → W x) : Ok F W R s ((P.get src).bind fun v => P.put dst (f v)) :=
  Ok.bind (hP.get h1) (fun v => hP.put _ h2)

theorem Ok.scaleX {β : Type} (unit : Bool) (scl : α → α) (n : Nat) {X incX bufX : Int} (hX : ∀ c : Nat, c < n → ∀ x, Span (X + P.w * (c * incX)) P.w x → R x) (hB : ∀ x, Span bufX (P.w * n) x → W x ∧ R x)
    {f : Int × Int → Prog β} (hf : ∀ Z iZ : Int, (∀ c : Nat, c < n → ∀ x, Span (Z + P.w * (c * iZ)) P.w x → R x) → Ok F W R s (f (Z, iZ))) : Ok F W R s ((scaleXP P unit scl n X incX bufX).bind f) := by
  have hb : ∀ c : Nat, c < n → ∀ x, Span (bufX + P.w * c) P.w x → Span bufX (P.w * n) x := fun c hc x h => span_in (by omega) (by omega) h
  unfold scaleXP
  cases unit
  · refine Ok.bindRet (Ok.forP1 fun j _ hj => Ok.copy hP scl (hX j hj) (fun x h => (hB x (hb j hj x h)).1)) (hf _ _ fun c hc x h => ?_)
    rw [Int.mul_one] at h
    exact (hB x (hb c hc x h)).2
  · exact hf _ _ hX

theorem Ok.gemvN {b : GemvB} (hb : b.OK) {M N : Nat} {A lda Z iZ Y incY : Int} (hA : ∀ r c : Nat, r < M → c < N → ∀ x, Span (A + P.w * (r * lda + c)) P.w x → R x)
    (hZ : ∀ c : Nat, c < N → ∀ x, Span (Z + P.w * (c * iZ)) P.w x → R x) (hY : ∀ r : Nat, r < M → ∀ x, Span (Y + P.bw * (r * incY)) P.bw x → W x ∧ R x) : Ok F W R s (gemvNP P b M N A lda Z iZ Y incY) := by
  refine Ok.forP (pos_of_pow hb.y) fun i _ _ hi _ => Ok.forP (pos_of_pow hb.x) fun j _ _ hj _ => Ok.forP1 fun ii _ hii => ?_
  have hr : ii < M := by omega
  refine hP.dot (fun t ht x h => ?_) (fun t ht x h => ?_) (fun x h => (hY ii hr x h).2) (fun x h => (hY ii hr x h).1)
  · refine hA ii (j + t) hr (by omega) x ?_
    rwa [show A + (P.w : Int) * (ii * lda + (j + t : Nat)) = A + P.w * (ii * lda + j) + P.w * (t * 1) by push_cast; ring]
  · refine hZ (j + t) (by omega) x ?_
    rwa [show Z + (P.w : Int) * ((j + t : Nat) * iZ) = Z + P.w * (j * iZ) + P.w * (t * iZ) by push_cast; ring]

omit hP in
theorem Ok.zgemvC {b : GemvB} (hb : b.OK) {M N : Nat} (hMN : N ≤ M) {P : POps (Flt × Flt)} (hP : P.Stays F) {A lda Z iZ Y incY : Int} (hA : ∀ r c : Nat, r < N → c < M → ∀ x, Span (A + P.w * (r * lda + c)) P.w x → R x)
    (hZ : ∀ c : Nat, c < M → ∀ x, Span (Z + P.w * (c * iZ)) P.w x → R x) (hY : ∀ r : Nat, r < N → ∀ x, Span (Y + P.bw * (r * incY)) P.bw x → W x ∧ R x) : Ok F W R s (zgemvCP P b M N A lda Z iZ Y incY) := by
  refine Ok.forP (pos_of_pow hb.y) fun i _ _ hi _ => Ok.forP (pos_of_pow hb.x) fun j _ _ hj _ => Ok.forP1 fun ii _ hii => ?_
  have hr : ii < N := by omega
  refine hP.dot (fun t ht x h => ?_) (fun t ht x h => ?_) (fun x h => (hY ii hr x h).2) (fun x h => (hY ii hr x h).1)
  · refine hA ii (j + t) hr (by omega) x ?_
    rwa [show A + (P.w : Int) * (ii * lda + (j + t : Nat)) = A + P.w * (ii * lda + j) + P.w * (t * 1) by push_cast; ring]
  · refine hZ (j + t) (by omega) x ?_
    rwa [show Z + (P.w : Int) * ((j + t : Nat) * iZ) = Z + P.w * (j * iZ) + P.w * (t * iZ) by push_cast; ring]

theorem Ok.packT {b : GemvB} (hb : b.OK) {M N i j : Nat} {A lda bufA : Int} (hA : ∀ c r : Nat, c < M → r < N → ∀ x, Span (A + P.w * (c * lda + r)) P.w x → R x)
    (hB : ∀ x, Span bufA (P.w * (b.xt * b.yt)) x → W x) : Ok F W R s (packTP P b M N i j A lda bufA) := by
  refine Ok.forP (pos_of_pow hb.t) fun jj tj _ hjj ej => Ok.forP (pos_of_pow hb.t) fun ii ti _ hii ei => Ok.forP1 fun jjj h1 h2 => Ok.forP1 fun iii h3 h4 => ?_
  refine Ok.copy hP id (hA jjj iii (by omega) (by omega)) fun x h => hB x ?_
  have hu := tile_in hb.t ⟨_, hb.yt.choose_spec⟩ (a := ti) (v := iii - ii) (by omega) (by omega)
  have hv := tile_in hb.t hb.xt (a := tj) (v := jjj - jj) (by omega) (by omega)
  have hbd := idx_bound (xt := b.xt) (yt := b.yt) (u := iii - i) (v := jjj - j) (by omega) (by omega)
  exact span_in hbd.1 hbd.2 h

theorem Ok.gemvT {b : GemvB} (hb : b.OK) {M N : Nat} {A lda Z iZ Y incY bufA : Int} (hA : ∀ c r : Nat, c < M → r < N → ∀ x, Span (A + P.w * (c * lda + r)) P.w x → R x)
    (hZ : ∀ c : Nat, c < M → ∀ x, Span (Z + P.w * (c * iZ)) P.w x → R x) (hB : ∀ x, Span bufA (P.w * (b.xt * b.yt)) x → W x ∧ R x)
    (hY : ∀ r : Nat, r < N → ∀ x, Span (Y + P.bw * (r * incY)) P.bw x → W x ∧ R x) : Ok F W R s (gemvTP P b M N A lda Z iZ Y incY bufA) := by
  refine Ok.forP (pos_of_pow hb.yt) fun i _ _ hi _ => Ok.forP (pos_of_pow hb.xt) fun j _ _ hj _ => Ok.bind (Ok.packT hP hb hA (fun x h => (hB x h).1)) fun _ => Ok.forP1 fun ii _ hii => ?_
  have hr : ii < N := by omega
  refine hP.dot (fun t ht x h => (hB x ?_).2) (fun t ht x h => ?_) (fun x h => (hY ii hr x h).2) (fun x h => (hY ii hr x h).1)
  · have hbd := idx_bound (xt := b.xt) (yt := b.yt) (u := ii - i) (v := t) (by omega) (by omega)
    refine span_in hbd.1 hbd.2 ?_
    rwa [show bufA + (P.w : Int) * (((ii - i : Nat) : Int) * b.xt + t) = bufA + P.w * (((ii - i : Nat) : Int) * b.xt) + P.w * (t * 1) by ring]
  · refine hZ (j + t) (by omega) x ?_
    rwa [show Z + (P.w : Int) * ((j + t : Nat) * iZ) = Z + P.w * (j * iZ) + P.w * (t * iZ) by push_cast; ring]

theorem Ok.gemv (zero unit : Bool) (scl : α → α) {b : GemvB} (hb : b.OK) (Order TransA : Char) {M N : Nat} {A lda X incX Y incY bufX bufA : Int} {rows cols : Nat} (hr : rows = if isNo TransA then M else N) (hc : cols = if isNo TransA then N else M)
    (hW : ∀ x, GemvWork P.w P.bw rows cols (b.xt * b.yt) Y incY bufX bufA x → W x ∧ R x)
    (hA : ∀ r c : Nat, r < rows → c < cols → ∀ x, Span (A + P.w * opEl (isRow Order) (isNo TransA) id lda r c) P.w x → R x)
    (hX : ∀ c : Nat, c < cols → ∀ x, Span (X + P.w * (c * incX)) P.w x → R x) : Ok F W R s (gemvP P zero unit scl b Order TransA M N A lda X incX Y incY bufX bufA) := by
  have hY : ∀ r : Nat, r < rows → ∀ x, Span (Y + P.bw * (r * incY)) P.bw x → W x ∧ R x := fun r h x hx => hW x (Or.inl ⟨r, h, hx⟩)
  have hbX : ∀ x, Span bufX (P.w * cols) x → W x ∧ R x := fun x h => hW x (Or.inr (Or.inl h))
  have hbA : ∀ x, Span bufA (P.w * (b.xt * b.yt)) x → W x ∧ R x := fun x h => hW x (Or.inr (Or.inr h))
  have hN : (∀ r c : Nat, r < rows → c < cols → ∀ x, Span (A + P.w * (r * lda + c)) P.w x → R x) → Ok F W R s ((scaleXP P unit scl cols X incX bufX).bind fun v => gemvNP P b rows cols A lda v.1 v.2 Y incY) := fun hA =>
    Ok.scaleX hP unit scl cols hX hbX fun Z iZ hZ => Ok.gemvN hP hb hA hZ hY
  have hT : (∀ c r : Nat, c < cols → r < rows → ∀ x, Span (A + P.w * (c * lda + r)) P.w x → R x) → Ok F W R s ((scaleXP P unit scl cols X incX bufX).bind fun v => gemvTP P b cols rows A lda v.1 v.2 Y incY bufA) := fun hA =>
    Ok.scaleX hP unit scl cols hX hbX fun Z iZ hZ => Ok.gemvT hP hb hA hZ hbA hY
  unfold gemvP opEl at *
  cases hO : isRow Order <;> cases hN' : isNo TransA <;> simp only [hO, hN', ↓reduceIte, Bool.false_eq_true, beq_self_eq_true, id] at hr hc hA ⊢ <;> subst hr hc
  · exact Ok.ite (fun _ => Ok.ret _) (fun _ => Ok.ite (fun _ => Ok.ret _) (fun _ => hN hA))
  · exact Ok.ite (fun _ => Ok.ret _) (fun _ => Ok.ite (fun _ => Ok.ret _) (fun _ => hT (fun c r h1 h2 => hA r c h2 h1)))
  · exact Ok.ite (fun _ => Ok.ret _) (fun _ => Ok.ite (fun _ => Ok.ret _) (fun _ => hT (fun c r h1 h2 => hA r c h2 h1)))
  · exact Ok.ite (fun _ => Ok.ret _) (fun _ => Ok.ite (fun _ => Ok.ret _) (fun _ => hN hA))

theorem Ok.pack {xt yt : Nat} (f : α → α) {K M k i : Nat} {A lda buf : Int} (hA : ∀ t r : Nat, t < K → r < M → ∀ x, Span (A + P.w * (t * lda + r)) P.w x → R x)
    (hB : ∀ x, Span buf (P.w * (xt * yt)) x → W x) : Ok F W R s (packP P xt yt f K M k i A lda buf) := by
  refine Ok.forP1 fun kk _ hk => Ok.forP1 fun ii _ hi => Ok.copy hP f (hA kk ii (by omega) (by omega)) fun x h => hB x ?_
  have hbd := idx_bound (xt := xt) (yt := yt) (u := ii - i) (v := kk - k) (by omega) (by omega)
  exact span_in hbd.1 hbd.2 h

theorem Ok.scaleA {β : Type} (unit : Bool) (f : α → α) (M K : Nat) {A lda buf : Int} (hA : ∀ r t : Nat, r < M → t < K → ∀ x, Span (A + P.w * (r * lda + t)) P.w x → R x)
    (hB : ∀ x, Span buf (P.w * (M * K)) x → W x ∧ R x) {g : Int × Int → Prog β} (hg : ∀ Z ld : Int, (∀ r t : Nat, r < M → t < K → ∀ x, Span (Z + P.w * (r * ld + t)) P.w x → R x) → Ok F W R s (g (Z, ld))) :
    Ok F W R s ((scaleAP P unit f M K A lda buf).bind g) := by
  have hb : ∀ r t : Nat, r < M → t < K → ∀ x, Span (buf + P.w * (r * (K : Int) + t)) P.w x → Span buf (P.w * (M * K)) x := fun r t hr ht x h => by
    have hbd := idx_bound (xt := K) (yt := M) hr ht
    rw [Nat.mul_comm M K]
    exact span_in hbd.1 hbd.2 h
  unfold scaleAP
  cases unit
  · exact Ok.bindRet (Ok.forP1 fun i _ hi => Ok.forP1 fun k _ hk => Ok.copy hP f (hA i k hi hk) (fun x h => (hB x (hb i k hi hk x h)).1)) (hg _ _ fun r t hr ht x h => (hB x (hb r t hr ht x h)).2)
  · exact hg _ _ hA

omit hP in
theorem Ok.tiles {bi bj bk M N K : Nat} (hi : 1 ≤ bi) (hj : 1 ≤ bj) (hk : 1 ≤ bk) (jFirst : Bool) {pk : Nat → Nat → Nat → Prog Unit} {call : Nat → Nat → Nat → Nat → Nat → Prog Unit} (h1 : ∀ i j k, Ok F W R s (pk i j k))
    (h2 : ∀ i j k ii jj, k < K → i ≤ ii → ii < i + bi → ii < M → j ≤ jj → jj < j + bj → jj < N → Ok F W R s (call i j k ii jj)) : Ok F W R s (tilesP bi bj bk M N K jFirst pk call) := by
  refine Ok.forP hi fun i _ _ _ _ => Ok.forP hj fun j _ _ _ _ => Ok.forP hk fun k _ _ hkk _ => Ok.bind (h1 i j k) fun _ => ?_
  cases jFirst
  · exact Ok.forP1 fun ii a1 a2 => Ok.forP1 fun jj a3 a4 => h2 i j k ii jj hkk a1 (by omega) (by omega) a3 (by omega) (by omega)
  · exact Ok.forP1 fun jj a3 a4 => Ok.forP1 fun ii a1 a2 => h2 i j k ii jj hkk a1 (by omega) (by omega) a3 (by omega) (by omega)

theorem Ok.gemm {b : GemmB} (hb : b.OK) (row aPack bPack swap unit : Bool) (fA fB : α → α) {M N K : Nat} {A lda B ldb C ldc bufS bufA bufB : Int}
    (hW : ∀ x, GemmWork P.w P.bw row M N K (b.xt * b.yt) C ldc bufS bufA bufB x → W x ∧ R x)
    (hA : ∀ r t : Nat, r < M → t < K → ∀ x, Span (A + P.w * (if aPack then (t : Int) * lda + r else r * lda + t)) P.w x → R x)
    (hB : ∀ t c : Nat, t < K → c < N → ∀ x, Span (B + P.w * (if bPack then (t : Int) * ldb + c else c * ldb + t)) P.w x → R x) :
    Ok F W R s (gemmP P b row aPack bPack swap unit fA fB M N K A lda B ldb C ldc bufS bufA bufB) := by
  have hbS : ∀ x, Span bufS (P.w * (M * K)) x → W x ∧ R x := fun x h => hW x (Or.inr (Or.inl h))
  have hbA : ∀ x, Span bufA (P.w * (b.xt * b.yt)) x → W x ∧ R x := fun x h => hW x (Or.inr (Or.inr (Or.inl h)))
  have hbB : ∀ x, Span bufB (P.w * (b.xt * b.yt)) x → W x ∧ R x := fun x h => hW x (Or.inr (Or.inr (Or.inr h)))
  have key : ∀ Z ld : Int, (aPack = false → ∀ r t : Nat, r < M → t < K → ∀ x, Span (Z + P.w * (r * ld + t)) P.w x → R x) → Ok F W R s
      (tilesP (if aPack then b.yt else b.y) (if bPack then b.yt else b.y) (if aPack || bPack then b.xt else b.x) M N K (!row)
        (fun i j k => (if aPack then packP P b.xt b.yt fA K M k i A lda bufA else Prog.ret ()).bind fun _ => if bPack then packP P b.xt b.yt fB K N k j B ldb bufB else Prog.ret ())
        (fun i j k ii jj =>
          let a := if aPack then bufA + P.w * ((ii - i : Nat) * (b.xt : Int)) else Z + P.w * (ii * ld + k)
          let bb := if bPack then bufB + P.w * ((jj - j : Nat) * (b.xt : Int)) else B + P.w * (jj * ldb + k)
          let c := C + P.bw * (if row then ii * ldc + jj else jj * ldc + ii)
          if swap then P.dot (min (if aPack || bPack then b.xt else b.x) (K - k)) bb 1 a 1 c else P.dot (min (if aPack || bPack then b.xt else b.x) (K - k)) a 1 bb 1 c)) := by
    intro Z ld hZ
    refine Ok.tiles (by_pos hb _) (by_pos hb _) (bk_pos hb _) _ (fun i j k => Ok.bind ?_ fun _ => ?_) (fun i j k ii jj hk hi1 hi2 hi3 hj1 hj2 hj3 => ?_)
    · refine Ok.ite (fun h => Ok.pack hP fA (fun t r ht hr x hx => hA r t hr ht x ?_) (fun x h => (hbA x h).1)) (fun _ => Ok.ret _)
      rw [if_pos h]; exact hx
    · refine Ok.ite (fun h => Ok.pack hP fB (fun t r ht hr x hx => hB t r ht hr x ?_) (fun x h => (hbB x h).1)) (fun _ => Ok.ret _)
      rw [if_pos h]; exact hx
    · have ha : ∀ t : Nat, t < min (if aPack || bPack then b.xt else b.x) (K - k) → ∀ x, Span ((if aPack then bufA + P.w * ((ii - i : Nat) * (b.xt : Int)) else Z + P.w * (ii * ld + k)) + P.w * (t * 1)) P.w x → R x := by
        intro t ht x h
        cases aPack
        · refine hZ rfl ii (k + t) hi3 (by omega) x ?_
          rwa [show Z + (P.w : Int) * (ii * ld + (k + t : Nat)) = Z + P.w * (ii * ld + k) + P.w * (t * 1) by push_cast; ring]
        · simp only [Bool.true_or, if_true] at ht h hi2
          have hbd := idx_bound (xt := b.xt) (yt := b.yt) (u := ii - i) (v := t) (by omega) (by omega)
          refine (hbA x (span_in hbd.1 hbd.2 ?_)).2
          rwa [show bufA + (P.w : Int) * (((ii - i : Nat) : Int) * b.xt + t) = bufA + P.w * (((ii - i : Nat) : Int) * b.xt) + P.w * (t * 1) by ring]
      have hbb : ∀ t : Nat, t < min (if aPack || bPack then b.xt else b.x) (K - k) → ∀ x, Span ((if bPack then bufB + P.w * ((jj - j : Nat) * (b.xt : Int)) else B + P.w * (jj * ldb + k)) + P.w * (t * 1)) P.w x → R x := by
        intro t ht x h
        cases bPack
        · refine hB (k + t) jj (by omega) hj3 x ?_
          simp only [Bool.false_eq_true, if_false] at h ⊢
          rwa [show B + (P.w : Int) * (jj * ldb + (k + t : Nat)) = B + P.w * (jj * ldb + k) + P.w * (t * 1) by push_cast; ring]
        · simp only [Bool.or_true, if_true] at ht h hj2
          have hbd := idx_bound (xt := b.xt) (yt := b.yt) (u := jj - j) (v := t) (by omega) (by omega)
          refine (hbB x (span_in hbd.1 hbd.2 ?_)).2
          rwa [show bufB + (P.w : Int) * (((jj - j : Nat) : Int) * b.xt + t) = bufB + P.w * (((jj - j : Nat) : Int) * b.xt) + P.w * (t * 1) by ring]
      have hcc : ∀ x, Span (C + P.bw * (if row then (ii : Int) * ldc + jj else jj * ldc + ii)) P.bw x → W x ∧ R x := fun x h => hW x (Or.inl ⟨ii, jj, hi3, hj3, by
        unfold opEl; cases row <;> exact h⟩)
      cases swap
      · exact hP.dot ha hbb (fun x h => (hcc x h).2) (fun x h => (hcc x h).1)
      · exact hP.dot hbb ha (fun x h => (hcc x h).2) (fun x h => (hcc x h).1)
  unfold gemmP
  cases aPack
  · exact Ok.scaleA hP unit fA M K (fun r t hr ht x h => hA r t hr ht x h) hbS fun Z ld hZ => key Z ld fun _ => hZ
  · exact key A lda (fun h => nomatch h)

theorem Ok.init (zero unit : Bool) (scl : α → α) {yi y : Int} (hy : ∀ x, Span y P.w x → R x) (hyi : ∀ x, Span yi P.bw x → W x ∧ R x) : Ok F W R s (initP P zero unit scl yi y) := by
  unfold initP
  have h1 : ∀ f : α → α, Ok F W R s ((P.get y).bind fun v => P.conv (f v) yi) := fun f => Ok.bind (hP.get hy) fun v => hP.conv _ (fun x h => (hyi x h).2) (fun x h => (hyi x h).1)
  exact Ok.ite (fun _ => hP.clear fun x h => (hyi x h).1) fun _ => Ok.ite (fun _ => h1 id) fun _ => h1 scl

theorem Ok.rgemv (zero unit : Bool) (scl : α → α) {prod : Int → Prog Unit} (noTrans : Bool) {M N : Nat} {Y incY YI : Int} (hp : Ok F W R s (prod YI))
    (hY : ∀ r : Nat, r < (if noTrans then M else N) → ∀ x, Span (Y + P.w * (r * incY)) P.w x → W x ∧ R x) (hYI : ∀ r : Nat, r < (if noTrans then M else N) → ∀ x, Span (YI + P.bw * r) P.bw x → W x ∧ R x) :
    Ok F W R s (rgemvP P zero unit scl prod noTrans M N Y incY YI) := by
  unfold rgemvP
  refine Ok.ite (fun _ => Ok.ret _) fun _ => Ok.bind (Ok.forP1 fun i _ hi => Ok.init hP zero unit scl (fun x h => (hY i hi x h).2) (hYI i hi)) fun _ => Ok.bind hp fun _ =>
    Ok.forP1 fun i _ hi => Ok.bind (hP.unconv fun x h => (hYI i hi x h).2) fun v => hP.put v fun x h => (hY i hi x h).1

theorem Ok.rgemm (zero unit : Bool) (scl : α → α) {prod : Int → Int → Prog Unit} (row : Bool) {M N : Nat} {C ldc CI : Int} (hp : Ok F W R s (prod CI (if row then N else M)))
    (hC : ∀ r c : Nat, r < M → c < N → ∀ x, Span (C + P.w * opEl row true id ldc r c) P.w x → W x ∧ R x) (hCI : ∀ r c : Nat, r < M → c < N → ∀ x, Span (CI + P.bw * opEl row true id (if row then N else M) r c) P.bw x → W x ∧ R x) :
    Ok F W R s (rgemmP P zero unit scl prod row M N C ldc CI) := by
  unfold rgemmP
  refine Ok.ite (fun _ => Ok.ret _) fun _ => ?_
  cases row
  · exact Ok.bind (Ok.forP1 fun j _ hj => Ok.forP1 fun i _ hi => Ok.init hP zero unit scl (fun x h => (hC i j hi hj x h).2) (hCI i j hi hj)) fun _ => Ok.bind hp fun _ =>
      Ok.forP1 fun j _ hj => Ok.forP1 fun i _ hi => Ok.bind (hP.unconv fun x h => (hCI i j hi hj x h).2) fun v => hP.put v fun x h => (hC i j hi hj x h).1
  · exact Ok.bind (Ok.forP1 fun i _ hi => Ok.forP1 fun j _ hj => Ok.init hP zero unit scl (fun x h => (hC i j hi hj x h).2) (hCI i j hi hj)) fun _ => Ok.bind hp fun _ =>
      Ok.forP1 fun i _ hi => Ok.forP1 fun j _ hj => Ok.bind (hP.unconv fun x h => (hCI i j hi hj x h).2) fun v => hP.put v fun x h => (hC i j hi hj x h).1

end
end Repro
