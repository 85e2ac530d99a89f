import Verif.MatMemGemm
/-!
# The wrappers with ordinary results, in flat memory
-/

namespace Repro
variable {α β : Type}

/-- An entry of the product depends on no other entry of the previous contents. -/
theorem tiles_local (dot : List (α × α) → β → β) (bi bj bk M N K : Nat) (jFirst : Bool) (loc : Nat → Nat → Int)
    (prs : Nat → Nat → Nat → Nat → Nat → List (α × α)) {C C' : Int → β} {l : Int} (h : C l = C' l) :
    tiles dot bi bj bk M N K jFirst loc prs C l = tiles dot bi bj bk M N K jFirst loc prs C' l := by
  rw [tiles_calls, tiles_calls, updAll (fun q : Nat × Nat × Nat × Nat × Nat => loc q.2.2.2.1 q.2.2.2.2) (fun q z => dot (prs q.1 q.2.1 q.2.2.1 q.2.2.2.1 q.2.2.2.2) z),
    updAll (fun q : Nat × Nat × Nat × Nat × Nat => loc q.2.2.2.1 q.2.2.2.2) (fun q z => dot (prs q.1 q.2.1 q.2.2.1 q.2.2.2.1 q.2.2.2.2) z), h]

/-- Writing the elements `loc k` of an array of objects of `s` words, one after the other. -/
theorem arrAll {γ κ : Type} {s : Nat} {vw : Mem → Int → γ} (hvw : ∀ {m m' : Mem} {a : Int}, (∀ x, Span a s x → m x = m' x) → vw m a = vw m' a)
    (base : Int) (loc : κ → Int) (op : κ → Mem → Mem) (v : κ → γ) (L : List κ) (m : Mem)
    (hop : ∀ k ∈ L, ∀ m' : Mem, (∀ x, (∀ k ∈ L, ¬ Span (base + s * loc k) s x) → m' x = m x) →
      vw (op k m') (base + s * loc k) = v k ∧ ∀ x, ¬ Span (base + s * loc k) s x → op k m' x = m' x) :
    (∀ l, vw (L.foldl (fun m k => op k m) m) (base + s * l) = L.foldl (fun g k => store g (loc k) (v k)) (fun a => vw m (base + s * a)) l) ∧
    ∀ x, (∀ k ∈ L, ¬ Span (base + s * loc k) s x) → L.foldl (fun m k => op k m) m x = m x := by
  refine foldl_rel (R := fun (m' : Mem) (g : Int → γ) => (∀ l, vw m' (base + s * l) = g l) ∧
      ∀ x, (∀ k ∈ L, ¬ Span (base + s * loc k) s x) → m' x = m x)
    (f := fun m k => op k m) (g := fun g k => store g (loc k) (v k)) L (s := m) (t := fun a => vw m (base + s * a)) ⟨fun _ => rfl, fun _ _ => rfl⟩ ?_
  rintro k hk m' g ⟨h1, h2⟩
  have h := hop k hk m' h2
  refine ⟨fun l => ?_, fun x hx => ?_⟩
  · unfold store
    by_cases hl : l = loc k
    · rw [if_pos hl, hl]; exact h.1
    · rw [if_neg hl, ← h1]
      exact hvw fun x hx => h.2 x (fun hx' => span_disj hl hx hx')
  · rw [h.2 x (hx k hk), h2 x hx]

theorem foldl_store_base {γ κ : Type} (L : List κ) (loc : κ → Int) (v : κ → γ) : ∀ {f f' : Int → γ} {l : Int}, f l = f' l →
    L.foldl (fun f k => store f (loc k) (v k)) f l = L.foldl (fun f k => store f (loc k) (v k)) f' l := by
  induction L with
  | nil => exact fun h => h
  | cons k L ih =>
    intro f f' l h
    rw [List.foldl_cons, List.foldl_cons]
    apply ih
    unfold store
    by_cases hl : l = loc k
    · rw [if_pos hl, if_pos hl]
    · rw [if_neg hl, if_neg hl, h]

theorem foldl_store_congr {γ κ : Type} (L : List κ) (loc : κ → Int) (v : κ → γ) {k : κ} (hk : k ∈ L) : ∀ (f f' : Int → γ),
    L.foldl (fun f k => store f (loc k) (v k)) f (loc k) = L.foldl (fun f k => store f (loc k) (v k)) f' (loc k) := by
  induction L with
  | nil => cases hk
  | cons k' L ih =>
    intro f f'
    rw [List.foldl_cons, List.foldl_cons]
    rcases List.mem_cons.1 hk with rfl | hk
    · apply foldl_store_base
      unfold store
      rw [if_pos rfl, if_pos rfl]
    · exact ih hk _ _

section
variable {O : MOps α} {S : MAbs α β} (hO : O.Law S)
include hO

/-- The initial value of an entry. -/
def MAbs.init {α β : Type} (S : MAbs α β) (zero unit : Bool) (scl : α → α) (y : α) : β := if zero then S.zero else if unit then S.conv y else S.conv (scl y)

theorem initM_spec (zero unit : Bool) (scl : α → α) (yi y : Int) (m : Mem) :
    S.bget (initM O zero unit scl yi y m) yi = S.init zero unit scl (O.get m y) ∧ ∀ x, ¬ Span yi O.bw x → initM O zero unit scl yi y m x = m x := by
  unfold initM MAbs.init
  cases zero <;> cases unit <;> simp only [↓reduceIte, Bool.false_eq_true]
  · exact hO.conv_spec _ _ _
  · exact hO.conv_spec _ _ _
  · exact hO.clear_spec _ _
  · exact hO.clear_spec _ _

/-- The wrapper around any product: `L` are the entries, entry `k` is stored at index `loc k` and accumulated at index `pos k` of the array of binned values. -/
theorem wrap_spec {κ : Type} (zero unit : Bool) (scl : α → α) (L : List κ) (loc pos : κ → Int) (Y YI : Int) (prod : Mem → Mem) {W : Int → Prop} {P : (Int → β) → Int → β} (m : Mem)
    (hpos : ∀ k ∈ L, ∀ x, Span (YI + O.bw * pos k) O.bw x → W x)
    (hY : ∀ k ∈ L, ∀ x, Span (Y + O.w * loc k) O.w x → ¬ W x)
    (hp : ∀ m1 : Mem, (∀ x, (∀ k ∈ L, ¬ Span (YI + O.bw * pos k) O.bw x) → m1 x = m x) →
      (∀ k ∈ L, S.bget (prod m1) (YI + O.bw * pos k) = P (fun l => S.bget m1 (YI + O.bw * l)) (pos k)) ∧ ∀ x, ¬ W x → prod m1 x = m1 x)
    (hP : ∀ f f' : Int → β, ∀ l, f l = f' l → P f l = P f' l) (yi : Int → β) :
    let m1 := L.foldl (fun m k => initM O zero unit scl (YI + O.bw * pos k) (Y + O.w * loc k) m) m
    let m' := L.foldl (fun m k => O.put m (Y + O.w * loc k) (O.unconv (YI + O.bw * pos k) m)) (prod m1)
    let y0 := L.foldl (fun f k => store f (pos k) (S.init zero unit scl (O.get m (Y + O.w * loc k)))) yi
    (∀ l, (∀ x, Span (Y + O.w * l) O.w x → ¬ W x) →
      O.get m' (Y + O.w * l) = L.foldl (fun f k => store f (loc k) (S.unconv (P y0 (pos k)))) (fun a => O.get m (Y + O.w * a)) l) ∧
    (∀ x, ¬ W x → (∀ k ∈ L, ¬ Span (Y + O.w * loc k) O.w x) → m' x = m x) := by
  intro m1 m' y0
  have h1 := arrAll hO.bget_congr YI pos (fun k m => initM O zero unit scl (YI + O.bw * pos k) (Y + O.w * loc k) m)
    (fun k => S.init zero unit scl (O.get m (Y + O.w * loc k))) L m (fun k hk m2 hm2 => by
      have h := initM_spec hO zero unit scl (YI + O.bw * pos k) (Y + O.w * loc k) m2
      refine ⟨h.1.trans ?_, h.2⟩
      congr 1
      exact hO.get_congr fun x hx => hm2 x (fun k' hk' hx' => hY k hk x hx (hpos k' hk' x hx')))
  have h2 := hp m1 h1.2
  have hy0 : ∀ k ∈ L, P (fun l => S.bget m1 (YI + O.bw * l)) (pos k) = P y0 (pos k) := by
    intro k hk
    apply hP
    rw [h1.1]
    exact foldl_store_congr L pos _ hk _ _
  have h3 := arrAll (vw := O.get) hO.get_congr Y loc (fun k m => O.put m (Y + O.w * loc k) (O.unconv (YI + O.bw * pos k) m))
    (fun k => S.unconv (P y0 (pos k))) L (prod m1) (fun k hk m2 hm2 => by
      refine ⟨?_, fun x hx => hO.put_frame _ _ _ x hx⟩
      rw [hO.put_get, hO.unconv_spec, ← hy0 k hk, ← h2.1 k hk]
      congr 1
      exact hO.bget_congr fun x hx => hm2 x (fun k' hk' hx' => hY k' hk' x hx' (hpos k hk x hx)))
  have hfr : ∀ x, ¬ W x → prod m1 x = m x := fun x hx => (h2.2 x hx).trans (h1.2 x (fun k hk hx' => hx (hpos k hk x hx')))
  refine ⟨fun l hl => ?_, fun x hx hx' => (h3.2 x hx').trans (hfr x hx)⟩
  rw [h3.1 l]
  refine foldl_store_base L loc _ ?_
  exact hO.get_congr fun x hx => hfr x (hl x hx)

end
end Repro
