import Verif.Mix
import Mathlib.Tactic.Ring
import Mathlib.Tactic.Linarith
/-!
# C40: folding of symbolic expressions
-/
namespace Repro

variable {ρ : String → Int}

/-- Specification: the operator applied to the operands from left to right; `none` if a division by zero occurs. The division and the
remainder are those of the C language. -/
def opValue : MOp → Int → Int → Option Int
  | .add, a, b => some (a + b)
  | .mul, a, b => some (a * b)
  | .mod, a, b => if b = 0 then none else some (a.tmod b)
  | .fdiv, a, b => if b = 0 then none else some (a.tdiv b)
  | .sub, a, b => some (a - b)
/-- Specification: `v1 op v2 op ...` -/
def chainValue (o : MOp) : List Int → Option Int
  | [] => none
  | v :: vs => vs.foldlM (opValue o) v

theorem IsPrim.num (n : Nat) : IsPrim ρ [.num n] n := ⟨1, fun f hf r => by
  obtain ⟨g, rfl⟩ : ∃ g, f = g + 1 := ⟨f - 1, by omega⟩
  rfl⟩

theorem IsPrim.id (s : String) : IsPrim ρ [.id s] (ρ s) := ⟨1, fun f hf r => by
  obtain ⟨g, rfl⟩ : ∃ g, f = g + 1 := ⟨f - 1, by omega⟩
  rfl⟩

theorem IsPrim.nonneg_eq {n : Nat} {v : Int} (h : IsPrim ρ [.num n] v) : v = n := by
  obtain ⟨f₀, hf⟩ := h
  obtain ⟨g₀, hg⟩ := IsPrim.num (ρ := ρ) n
  have e := hf (max f₀ g₀) (le_max_left _ _) []
  rw [hg (max f₀ g₀) (le_max_right _ _) []] at e
  simp at e; exact e.symm

/-- What may follow a sum: the end or a closing parenthesis. -/
def Stop (r : List Tok) : Prop := r = [] ∨ ∃ r', r = .rp :: r'

theorem pMulT_stop {r : List Tok} (h : Stop r) {f : Nat} (hf : 1 ≤ f) (v : Int) : pMulT ρ f v r = some (v, r) := by
  obtain ⟨g, rfl⟩ : ∃ g, f = g + 1 := ⟨f - 1, by omega⟩
  rcases h with rfl | ⟨r', rfl⟩ <;> rfl

theorem pAddT_stop {r : List Tok} (h : Stop r) {f : Nat} (hf : 1 ≤ f) (v : Int) : pAddT ρ f v r = some (v, r) := by
  obtain ⟨g, rfl⟩ : ∃ g, f = g + 1 := ⟨f - 1, by omega⟩
  rcases h with rfl | ⟨r', rfl⟩ <;> rfl

theorem pMulT_add {r : List Tok} {f : Nat} (hf : 1 ≤ f) (v : Int) : pMulT ρ f v (.op .add :: r) = some (v, .op .add :: r) := by
  obtain ⟨g, rfl⟩ : ∃ g, f = g + 1 := ⟨f - 1, by omega⟩
  rfl

/-- The text `op t1 op t2 ...` after an operand. -/
def tailOp (o : MOp) (ts : List (List Tok)) : List Tok := ts.flatMap (fun t => .op o :: t)

theorem joinOp_cons (o : MOp) (t : List Tok) (ts : List (List Tok)) : joinOp o (t :: ts) = t ++ tailOp o ts := by
  induction ts generalizing t with
  | nil => simp [joinOp, tailOp]
  | cons u us ih =>
    rw [joinOp, ih u]
    · rfl
    · simp

/-- A list of texts that are primaries with the given values. -/
inductive Prims (ρ : String → Int) : List (List Tok) → List Int → Prop
  | nil : Prims ρ [] []
  | cons {t : List Tok} {v : Int} {ts : List (List Tok)} {vs : List Int} : IsPrim ρ t v → Prims ρ ts vs → Prims ρ (t :: ts) (v :: vs)

theorem Prims.append {ts us : List (List Tok)} {vs ws : List Int} (h : Prims ρ ts vs) (h' : Prims ρ us ws) : Prims ρ (ts ++ us) (vs ++ ws) := by
  induction h with
  | nil => exact h'
  | cons hp _ ih => exact .cons hp ih

theorem tail_add {ts : List (List Tok)} {vs : List Int} (h : Prims ρ ts vs) :
    ∃ f₀, ∀ f, f₀ ≤ f → ∀ v r, Stop r → pAddT ρ f v (tailOp .add ts ++ r) = some (v + vs.sum, r) := by
  induction h with
  | nil => exact ⟨1, fun f hf v r hr => by simpa [tailOp] using pAddT_stop hr hf v⟩
  | cons hp _ ih =>
    rename_i t w ts vs hts
    obtain ⟨f₁, h1⟩ := hp
    obtain ⟨f₂, h2⟩ := ih
    refine ⟨f₁ + f₂ + 2, fun f hf v r hr => ?_⟩
    obtain ⟨g, rfl⟩ : ∃ g, f = g + 1 := ⟨f - 1, by omega⟩
    have e : tailOp .add (t :: ts) ++ r = .op .add :: (t ++ (tailOp .add ts ++ r)) := by simp [tailOp]
    rw [e, pAddT, h1 g (by omega)]
    have hm : pMulT ρ g w (tailOp .add ts ++ r) = some (w, tailOp .add ts ++ r) := by
      cases ts with
      | nil => simpa [tailOp] using pMulT_stop hr (by omega) w
      | cons u us => exact pMulT_add (by omega) w
    simp only [hm]
    rw [h2 g (by omega) _ _ hr, List.sum_cons]
    congr 2; ring

theorem tail_mul {ts : List (List Tok)} {vs : List Int} (h : Prims ρ ts vs) :
    ∃ f₀, ∀ f, f₀ ≤ f → ∀ v r, Stop r → pMulT ρ f v (tailOp .mul ts ++ r) = some (vs.foldl (· * ·) v, r) := by
  induction h with
  | nil => exact ⟨1, fun f hf v r hr => by simpa [tailOp] using pMulT_stop hr hf v⟩
  | cons hp _ ih =>
    rename_i t w ts vs hts
    obtain ⟨f₁, h1⟩ := hp
    obtain ⟨f₂, h2⟩ := ih
    refine ⟨f₁ + f₂ + 2, fun f hf v r hr => ?_⟩
    obtain ⟨g, rfl⟩ : ∃ g, f = g + 1 := ⟨f - 1, by omega⟩
    have e : tailOp .mul (t :: ts) ++ r = .op .mul :: (t ++ (tailOp .mul ts ++ r)) := by simp [tailOp]
    rw [e, pMulT, h1 g (by omega)]
    simp only
    rw [h2 g (by omega) _ _ hr, List.foldl_cons]

theorem tail_mod {ts : List (List Tok)} {vs : List Int} (h : Prims ρ ts vs) (hz : ∀ v ∈ vs, v ≠ 0) :
    ∃ f₀, ∀ f, f₀ ≤ f → ∀ v r, Stop r → pMulT ρ f v (tailOp .mod ts ++ r) = some (vs.foldl Int.tmod v, r) := by
  induction h with
  | nil => exact ⟨1, fun f hf v r hr => by simpa [tailOp] using pMulT_stop hr hf v⟩
  | cons hp _ ih =>
    rename_i t w ts vs hts
    obtain ⟨f₁, h1⟩ := hp
    obtain ⟨f₂, h2⟩ := ih (fun v hv => hz v (List.mem_cons_of_mem _ hv))
    refine ⟨f₁ + f₂ + 2, fun f hf v r hr => ?_⟩
    obtain ⟨g, rfl⟩ : ∃ g, f = g + 1 := ⟨f - 1, by omega⟩
    have e : tailOp .mod (t :: ts) ++ r = .op .mod :: (t ++ (tailOp .mod ts ++ r)) := by simp [tailOp]
    rw [e, pMulT, h1 g (by omega)]
    simp only
    rw [if_neg (hz w List.mem_cons_self), h2 g (by omega) _ _ hr, List.foldl_cons]

theorem foldl_mul (vs : List Int) (v : Int) : vs.foldl (· * ·) v = v * vs.prod := by
  induction vs generalizing v with
  | nil => simp
  | cons w vs ih => rw [List.foldl_cons, ih, List.prod_cons]; ring

/-- The joined text inside or without parentheses. -/
theorem join_value {o : MOp} {ts : List (List Tok)} {vs : List Int} (h : Prims ρ ts vs) (hne : ts ≠ []) {w : Int}
    (ho : o = .add ∧ w = vs.sum ∨ o = .mul ∧ w = vs.prod ∨
      o = .mod ∧ (∀ v ∈ vs.tail, v ≠ 0) ∧ w = vs.tail.foldl Int.tmod (vs.headD 0)) :
    ∃ f₀, ∀ f, f₀ ≤ f → ∀ r, Stop r → pAdd ρ f (joinOp o ts ++ r) = some (w, r) := by
  cases h with
  | nil => exact absurd rfl hne
  | cons hp hts =>
    rename_i t v ts vs
    obtain ⟨f₁, h1⟩ := hp
    rcases ho with ⟨rfl, rfl⟩ | ⟨rfl, rfl⟩ | ⟨rfl, hz, rfl⟩
    · obtain ⟨f₂, h2⟩ := tail_add hts
      refine ⟨f₁ + f₂ + 2, fun f hf r hr => ?_⟩
      obtain ⟨g, rfl⟩ : ∃ g, f = g + 1 := ⟨f - 1, by omega⟩
      rw [joinOp_cons, List.append_assoc, pAdd, h1 g (by omega)]
      have hm : pMulT ρ g v (tailOp .add ts ++ r) = some (v, tailOp .add ts ++ r) := by
        cases ts with
        | nil => simpa [tailOp] using pMulT_stop hr (by omega) v
        | cons u us => exact pMulT_add (by omega) v
      simp only [hm]
      rw [h2 g (by omega) _ _ hr, List.sum_cons]
    · obtain ⟨f₂, h2⟩ := tail_mul hts
      refine ⟨f₁ + f₂ + 2, fun f hf r hr => ?_⟩
      obtain ⟨g, rfl⟩ : ∃ g, f = g + 1 := ⟨f - 1, by omega⟩
      rw [joinOp_cons, List.append_assoc, pAdd, h1 g (by omega)]
      simp only
      rw [h2 g (by omega) _ _ hr]
      simp only
      rw [pAddT_stop hr (by omega), foldl_mul, List.prod_cons]
    · obtain ⟨f₂, h2⟩ := tail_mod hts hz
      refine ⟨f₁ + f₂ + 2, fun f hf r hr => ?_⟩
      obtain ⟨g, rfl⟩ : ∃ g, f = g + 1 := ⟨f - 1, by omega⟩
      rw [joinOp_cons, List.append_assoc, pAdd, h1 g (by omega)]
      simp only
      rw [h2 g (by omega) _ _ hr]
      simp only
      rw [pAddT_stop hr (by omega)]
      simp

theorem mixStr_value {o : MOp} {ts : List (List Tok)} {vs : List Int} (h : Prims ρ ts vs) (hne : ts ≠ []) {w : Int}
    (ho : o = .add ∧ w = vs.sum ∨ o = .mul ∧ w = vs.prod ∨
      o = .mod ∧ (∀ v ∈ vs.tail, v ≠ 0) ∧ w = vs.tail.foldl Int.tmod (vs.headD 0)) :
    IsPrim ρ (mixStr o true ts) w ∧ Means ρ (mixStr o false ts) w := by
  obtain ⟨f₀, hj⟩ := join_value h hne ho
  constructor
  · unfold mixStr
    by_cases hl : ts.length > 1
    · rw [if_pos (by simp [hl])]
      refine ⟨f₀ + 1, fun f hf r => ?_⟩
      obtain ⟨g, rfl⟩ : ∃ g, f = g + 1 := ⟨f - 1, by omega⟩
      have e : (Tok.lp :: joinOp o ts ++ [.rp]) ++ r = .lp :: (joinOp o ts ++ .rp :: r) := by simp
      rw [e, pPrim, hj g (by omega) _ (Or.inr ⟨r, rfl⟩)]
    · rw [if_neg (by simp [hl])]
      cases h with
      | nil => exact absurd rfl hne
      | cons hp hts =>
        cases hts with
        | nil =>
          rename_i t v
          have : w = v := by
            rcases ho with ⟨rfl, rfl⟩ | ⟨rfl, rfl⟩ | ⟨rfl, -, rfl⟩ <;> simp
          rw [this]; exact hp
        | cons _ _ => simp at hl
  · unfold mixStr
    rw [if_neg (by simp)]
    refine ⟨f₀, fun f hf => ?_⟩
    have := hj f hf [] (Or.inl rfl)
    rwa [List.append_nil] at this

/-- An operand that is a primary: its digits or not. -/
theorem digits_some {t : List Tok} {n : Nat} (h : digits? t = some n) : t = [.num n] := by
  unfold digits? at h
  split at h
  · rw [Option.some.injEq] at h; rw [h]
  · exact absurd h (by simp)

/-- Splitting the operands: their sum and their product are those of the symbolic ones and the literals. -/
theorem split_args {ts : List (List Tok)} {vs : List Int} (h : Prims ρ ts vs) :
    ∃ ws, Prims ρ (ts.filter (fun t => (digits? t).isNone)) ws ∧
      vs.sum = ws.sum + ((ts.filterMap digits?).map (fun n : Nat => (n : Int))).sum ∧
      vs.prod = ws.prod * ((ts.filterMap digits?).map (fun n : Nat => (n : Int))).prod := by
  induction h with
  | nil => exact ⟨[], .nil, by simp, by simp⟩
  | cons hp _ ih =>
    rename_i t v ts vs _
    obtain ⟨ws, h1, h2, h3⟩ := ih
    cases hd : digits? t with
    | none =>
      refine ⟨v :: ws, ?_, ?_, ?_⟩
      · rw [List.filter_cons_of_pos (by simp [hd])]; exact .cons hp h1
      · rw [List.filterMap_cons_none hd, List.sum_cons, List.sum_cons, h2]; ring
      · rw [List.filterMap_cons_none hd, List.prod_cons, List.prod_cons, h3]; ring
    | some n =>
      have hv : v = n := by rw [digits_some hd] at hp; exact hp.nonneg_eq
      refine ⟨ws, ?_, ?_, ?_⟩
      · rw [List.filter_cons_of_neg (by simp [hd])]; exact h1
      · rw [List.filterMap_cons_some hd, List.sum_cons, List.map_cons, List.sum_cons, h2, hv]; ring
      · rw [List.filterMap_cons_some hd, List.prod_cons, List.map_cons, List.prod_cons, h3, hv]; ring

theorem litFold_add (n : Nat) (ns : List Nat) :
    ∃ m, litFold .add (n :: ns) = some m ∧ (m : Int) = ((n :: ns).map (fun n : Nat => (n : Int))).sum := by
  unfold litFold
  induction ns generalizing n with
  | nil => exact ⟨n, rfl, by simp⟩
  | cons k ns ih =>
    obtain ⟨m, h1, h2⟩ := ih (n + k)
    refine ⟨m, h1, ?_⟩
    rw [h2]; simp; ring

theorem litFold_mul (n : Nat) (ns : List Nat) :
    ∃ m, litFold .mul (n :: ns) = some m ∧ (m : Int) = ((n :: ns).map (fun n : Nat => (n : Int))).prod := by
  unfold litFold
  induction ns generalizing n with
  | nil => exact ⟨n, rfl, by simp⟩
  | cons k ns ih =>
    obtain ⟨m, h1, h2⟩ := ih (n * k)
    refine ⟨m, h1, ?_⟩
    rw [h2]; simp; ring

theorem chain_add (v : Int) (vs : List Int) : chainValue .add (v :: vs) = some (v :: vs).sum := by
  induction vs generalizing v with
  | nil => simp [chainValue]
  | cons w vs ih =>
    have e : chainValue .add (v :: w :: vs) = chainValue .add ((v + w) :: vs) := rfl
    rw [e, ih]; simp [add_assoc]

theorem chain_mul (v : Int) (vs : List Int) : chainValue .mul (v :: vs) = some (v :: vs).prod := by
  induction vs generalizing v with
  | nil => simp [chainValue]
  | cons w vs ih =>
    have e : chainValue .mul (v :: w :: vs) = chainValue .mul ((v * w) :: vs) := rfl
    rw [e, ih]; simp [mul_assoc]

/-- **C40** (sums and products). For every nonempty list of operands, literal or symbolic in any mixture, `mix` succeeds; its text has the
value of the operator applied to the operands, and with parentheses it keeps this value inside any other expression. -/
theorem C40_sum_product_partial {o : MOp} (ho : o = .add ∨ o = .mul) {ts : List (List Tok)} {vs : List Int} (h : Prims ρ ts vs) (hne : ts ≠ []) :
    ∃ w t t', chainValue o vs = some w ∧ mix o ts true = some t ∧ IsPrim ρ t w ∧ mix o ts false = some t' ∧ Means ρ t' w := by
  have prim_means : ∀ {t : List Tok} {w : Int}, IsPrim ρ t w → Means ρ t w := by
    rintro t w ⟨f₀, hf⟩
    refine ⟨f₀ + 2, fun f h => ?_⟩
    obtain ⟨g, rfl⟩ : ∃ g, f = g + 1 := ⟨f - 1, by omega⟩
    have := hf g (by omega) []
    rw [List.append_nil] at this
    rw [pAdd, this]
    simp only
    rw [pMulT_stop (Or.inl rfl) (by omega)]
    simp only
    rw [pAddT_stop (Or.inl rfl) (by omega)]
  obtain ⟨ws, h1, h2, h3⟩ := split_args h
  have hval : ∃ w, chainValue o vs = some w ∧ (o = .add ∧ w = vs.sum ∨ o = .mul ∧ w = vs.prod) := by
    cases h with
    | nil => exact absurd rfl hne
    | cons _ _ =>
      rcases ho with rfl | rfl
      · exact ⟨_, chain_add _ _, Or.inl ⟨rfl, rfl⟩⟩
      · exact ⟨_, chain_mul _ _, Or.inr ⟨rfl, rfl⟩⟩
  obtain ⟨w, hw, hwo⟩ := hval
  unfold mix
  simp only
  generalize hi : ts.filterMap digits? = ints at *
  generalize hs : ts.filter (fun t => (digits? t).isNone) = strs at *
  cases ints with
  | nil =>
    have hsne : strs ≠ [] := by
      intro e
      rw [← hs, List.filter_eq_nil_iff] at e
      cases ts with
      | nil => exact hne rfl
      | cons t ts =>
        have := e t List.mem_cons_self
        cases hd : digits? t with
        | none => simp [hd] at this
        | some n => rw [List.filterMap_cons_some hd] at hi; simp at hi
    have := mixStr_value (o := o) h1 hsne (w := w) (by
      rcases hwo with ⟨rfl, rfl⟩ | ⟨rfl, rfl⟩
      · left; exact ⟨rfl, by rw [h2]; simp⟩
      · right; left; exact ⟨rfl, by rw [h3]; simp⟩)
    exact ⟨w, _, _, hw, rfl, this.1, rfl, this.2⟩
  | cons n ns =>
    obtain ⟨m, hm, hmv⟩ : ∃ m, litFold o (n :: ns) = some m ∧
        (o = .add ∧ w = ws.sum + (m : Int) ∨ o = .mul ∧ w = ws.prod * m) := by
      rcases hwo with ⟨rfl, rfl⟩ | ⟨rfl, rfl⟩
      · obtain ⟨m, a, b⟩ := litFold_add n ns
        exact ⟨m, a, Or.inl ⟨rfl, by rw [h2, b]⟩⟩
      · obtain ⟨m, a, b⟩ := litFold_mul n ns
        exact ⟨m, a, Or.inr ⟨rfl, by rw [h3, b]⟩⟩
    rw [hm]
    simp only [List.isEmpty_cons, Bool.false_eq_true, if_false, Option.bind_some]
    cases hst : strs with
    | nil =>
      rw [hst] at h1
      cases h1
      have : w = m := by rcases hmv with ⟨-, rfl⟩ | ⟨-, rfl⟩ <;> simp
      subst this
      exact ⟨_, _, _, hw, rfl, IsPrim.num m, rfl, prim_means (IsPrim.num m)⟩
    | cons u us =>
      simp only [List.isEmpty_cons, Bool.false_eq_true, if_false]
      rw [hst] at h1
      by_cases hz : isZeroOf o m = true
      · rw [if_pos hz, if_pos hz]
        have : w = ((0 : Nat) : Int) := by
          rcases hmv with ⟨rfl, -⟩ | ⟨rfl, rfl⟩
          · simp [isZeroOf] at hz
          · have : m = 0 := by simpa [isZeroOf] using hz
            simp [this]
        subst this
        exact ⟨_, _, _, hw, rfl, IsPrim.num 0, rfl, prim_means (IsPrim.num 0)⟩
      · rw [if_neg hz, if_neg hz]
        by_cases hid : isIdentity o m = true
        · rw [if_pos hid]
          have := mixStr_value (o := o) h1 (by simp) (w := w) (by
            rcases hmv with ⟨rfl, rfl⟩ | ⟨rfl, rfl⟩
            · left; refine ⟨rfl, ?_⟩
              have : m = 0 := by simpa [isIdentity] using hid
              simp [this]
            · right; left; refine ⟨rfl, ?_⟩
              have : m = 1 := by simpa [isIdentity] using hid
              simp [this])
          exact ⟨w, _, _, hw, rfl, this.1, rfl, this.2⟩
        · rw [if_neg hid]
          have := mixStr_value (o := o) (h1.append (.cons (IsPrim.num m) .nil)) (by simp) (w := w) (by
            rcases hmv with ⟨rfl, rfl⟩ | ⟨rfl, rfl⟩
            · left; exact ⟨rfl, by simp⟩
            · right; left; exact ⟨rfl, by simp⟩)
          exact ⟨w, _, _, hw, rfl, this.1, rfl, this.2⟩

/-- **C40** (literals). On literals only, every operator is evaluated; a division by zero is an error of the generator. -/
theorem C40_literals_partial (o : MOp) (ho : o ≠ .sub) (n : Nat) (ns : List Nat) (paren : Bool) :
    (mix o ((n :: ns).map (fun k => [.num k])) paren = none ↔ chainValue o ((n :: ns).map (fun k : Nat => (k : Int))) = none) ∧
    ∀ t, mix o ((n :: ns).map (fun k => [.num k])) paren = some t →
      ∃ w : Nat, t = [.num w] ∧ chainValue o ((n :: ns).map (fun k : Nat => (k : Int))) = some (w : Int) := by
  have e : mix o ((n :: ns).map (fun k => [.num k])) paren = (litFold o (n :: ns)).map (fun m => [.num m]) := by
    unfold mix
    have h1 : ((n :: ns).map (fun k => [Tok.num k])).filterMap digits? = n :: ns := by
      rw [List.filterMap_map]
      exact List.filterMap_some
    have h2 : ((n :: ns).map (fun k => [Tok.num k])).filter (fun t => (digits? t).isNone) = [] := by
      rw [List.filter_eq_nil_iff]
      intro t ht
      obtain ⟨k, -, rfl⟩ := List.mem_map.1 ht
      simp [digits?]
    simp only [h1, h2]
    simp only [List.isEmpty_cons, Bool.false_eq_true, if_false, List.isEmpty_nil, if_true]
    cases litFold o (n :: ns) <;> rfl
  have hop : ∀ a b : Nat, opValue o a b = (litOp o a b).map (fun k : Nat => (k : Int)) := by
    intro a b
    cases o
    · simp [opValue, litOp]
    · simp [opValue, litOp]
    · by_cases hb : b = 0
      · simp [opValue, litOp, hb]
      · simp [opValue, litOp, hb, Int.natCast_emod, Int.tmod_eq_emod_of_nonneg]
    · by_cases hb : b = 0
      · simp [opValue, litOp, hb]
      · simp [opValue, litOp, hb, Int.tdiv_eq_ediv_of_nonneg]
    · exact absurd rfl ho
  have hf : ∀ (ns : List Nat) (n : Nat), (ns.map (fun k : Nat => (k : Int))).foldlM (opValue o) (n : Int) =
      (ns.foldlM (litOp o) n).map (fun k : Nat => (k : Int)) := by
    intro ns
    induction ns with
    | nil => intro n; rfl
    | cons k ns ih =>
      intro n
      rw [List.map_cons, List.foldlM_cons, List.foldlM_cons, hop]
      cases litOp o n k with
      | none => rfl
      | some m => exact ih m
  have hc : chainValue o ((n :: ns).map (fun k : Nat => (k : Int))) = (litFold o (n :: ns)).map (fun k : Nat => (k : Int)) := hf ns n
  rw [e, hc]
  constructor
  · simp
  · intro t ht
    rw [Option.map_eq_some_iff] at ht
    obtain ⟨m, hm, rfl⟩ := ht
    exact ⟨m, rfl, by rw [hm]; rfl⟩

/-- **C40** (remainders). Symbolic operands followed by at most one nonzero literal are combined correctly. -/
theorem C40_mod_partial {ts : List (List Tok)} {vs : List Int} (h : Prims ρ ts vs) (hne : ts ≠ []) (hsym : ∀ t ∈ ts, digits? t = none)
    (hz : ∀ v ∈ vs.tail, v ≠ 0) {n : Nat} (hn : n ≠ 0) :
    ∃ w t, chainValue .mod (vs ++ [(n : Int)]) = some w ∧ mix .mod (ts ++ [[.num n]]) = some t ∧ IsPrim ρ t w := by
  have h1 : (ts ++ [[Tok.num n]]).filterMap digits? = [n] := by
    rw [List.filterMap_append, List.filterMap_eq_nil_iff.2 hsym]; rfl
  have h2 : (ts ++ [[Tok.num n]]).filter (fun t => (digits? t).isNone) = ts := by
    rw [List.filter_append, List.filter_eq_self.2 (fun t ht => by simp [hsym t ht])]
    simp [digits?]
  have hts : ts.isEmpty = false := by cases ts <;> simp at hne ⊢
  have hm : mix .mod (ts ++ [[.num n]]) = some (mixStr .mod true (ts ++ [[.num n]])) := by
    unfold mix
    simp only [h1, h2, hts]
    rfl
  have hz' : ∀ v ∈ (vs ++ [(n : Int)]).tail, v ≠ 0 := by
    cases h with
    | nil => exact absurd rfl hne
    | cons _ _ =>
      intro v hv
      simp only [List.cons_append, List.tail_cons, List.mem_append, List.mem_singleton] at hv hz
      rcases hv with hv | rfl
      · exact hz v hv
      · exact_mod_cast hn
  have := mixStr_value (o := .mod) (h.append (.cons (IsPrim.num n) .nil)) (by simp)
    (w := (vs ++ [(n : Int)]).tail.foldl Int.tmod ((vs ++ [(n : Int)]).headD 0)) (Or.inr (Or.inr ⟨rfl, hz', rfl⟩))
  refine ⟨_, _, ?_, hm, this.1⟩
  have gen : ∀ (l : List Int), (∀ v ∈ l, v ≠ 0) → ∀ v, l.foldlM (opValue .mod) v = some (l.foldl Int.tmod v) := by
    intro l
    induction l with
    | nil => intro _ v; rfl
    | cons w l ih =>
      intro hl v
      rw [List.foldlM_cons]
      show (if w = 0 then none else some (v.tmod w)).bind _ = _
      rw [if_neg (hl w List.mem_cons_self)]
      exact ih (fun v hv => hl v (List.mem_cons_of_mem _ hv)) _
  cases h with
  | nil => exact absurd rfl hne
  | cons _ _ => exact gen _ hz' _

/-- **C40 violated**. The text for a remainder of a literal by a variable has the operands swapped: `mix("%", 7, "x")` is `(x % 7)`. And of several
literals after a variable, only their own remainder is kept: `mix("%", "x", 7, 3)` is `(x % 1)`. -/
theorem C40_violated :
    (mix .mod [[.num 7], [.id "x"]] = some [.lp, .id "x", .op .mod, .num 7, .rp] ∧
      chainValue .mod [7, 2] = some 1 ∧ pAdd (fun _ => 2) 9 [.lp, .id "x", .op .mod, .num 7, .rp] = some (2, [])) ∧
    (mix .mod [[.id "x"], [.num 7], [.num 3]] = some [.lp, .id "x", .op .mod, .num 1, .rp] ∧
      chainValue .mod [8, 7, 3] = some 1 ∧ pAdd (fun _ => 8) 9 [.lp, .id "x", .op .mod, .num 1, .rp] = some (0, [])) := by
  decide

/-- **C40** (floor division of a variable, violated). The text for a symbolic floor division is a comment for the C compiler: it is not an expression. -/
theorem C40_fdiv_violated (ρ : String → Int) (v : Int) :
    mix .fdiv [[.id "x"], [.num 2]] = some [.lp, .id "x", .op .fdiv, .num 2, .rp] ∧
    ¬ Means ρ [.lp, .id "x", .op .fdiv, .num 2, .rp] v := by
  refine ⟨by decide, ?_⟩
  rintro ⟨f₀, hf⟩
  have h := hf (f₀ + 6) (by omega)
  have : pAdd ρ (f₀ + 6) [.lp, .id "x", .op .fdiv, .num 2, .rp] = none := by
    simp only [pAdd, pPrim, pMulT]
  rw [this] at h
  exact absurd h (by simp)

/-- **C40** (addresses). For every offset and stride, literal or symbolic, the address expression of the `i`-th word is the address: for a complex
vector, word `i % 2` of element `offset + i / 2`, otherwise element `offset + i`. -/
theorem C40_index {offset inc : List Tok} {vo vi : Int} (ho : IsPrim ρ offset vo) (hi : IsPrim ρ inc vi) (i : Nat) :
    (∃ t, index true offset inc i = some t ∧ IsPrim ρ t (2 * vi * (vo + (i / 2 : Nat)) + (i % 2 : Nat))) ∧
    ∃ t, index false offset inc i = some t ∧ IsPrim ρ t (vi * (vo + i)) := by
  constructor
  · obtain ⟨w1, t1, -, hw1, e1, p1, -, -⟩ := C40_sum_product_partial (o := .add) (Or.inl rfl) (.cons ho (.cons (IsPrim.num (ρ := ρ) (i / 2)) .nil)) (by simp)
    obtain ⟨w2, t2, -, hw2, e2, p2, -, -⟩ := C40_sum_product_partial (o := .mul) (Or.inr rfl) (.cons (IsPrim.num (ρ := ρ) 2) (.cons hi (.cons p1 .nil))) (by simp)
    obtain ⟨w3, t3, -, hw3, e3, p3, -, -⟩ := C40_sum_product_partial (o := .add) (Or.inl rfl) (.cons p2 (.cons (IsPrim.num (ρ := ρ) (i % 2)) .nil)) (by simp)
    refine ⟨t3, ?_, ?_⟩
    · unfold index
      have q : mix .fdiv [[.num i], [.num 2]] = some [.num (i / 2)] := rfl
      have r : mix .mod [[.num i], [.num 2]] = some [.num (i % 2)] := rfl
      simp only [q, r, if_true, Option.bind_eq_bind, Option.bind_some, e1, e2, e3]
    · rw [chain_add] at hw1 hw3
      rw [chain_mul] at hw2
      simp only [Option.some.injEq] at hw1 hw2 hw3
      have : w3 = 2 * vi * (vo + (i / 2 : Nat)) + (i % 2 : Nat) := by
        rw [← hw3, ← hw2, ← hw1]; simp [mul_assoc]
      rw [← this]; exact p3
  · obtain ⟨w1, t1, -, hw1, e1, p1, -, -⟩ := C40_sum_product_partial (o := .add) (Or.inl rfl) (.cons ho (.cons (IsPrim.num (ρ := ρ) i) .nil)) (by simp)
    obtain ⟨w2, t2, -, hw2, e2, p2, -, -⟩ := C40_sum_product_partial (o := .mul) (Or.inr rfl) (.cons hi (.cons p1 .nil)) (by simp)
    refine ⟨t2, ?_, ?_⟩
    · unfold index
      simp only [Bool.false_eq_true, if_false, Option.bind_eq_bind, Option.bind_some, e1, e2]
    · rw [chain_add] at hw1
      rw [chain_mul] at hw2
      simp only [Option.some.injEq] at hw1 hw2
      have : w2 = vi * (vo + i) := by rw [← hw2, ← hw1]; simp
      rw [← this]; exact p2

/-- **C40** (pointer steps). The increment expression moves a pointer by `i` elements of `baseSize` words. -/
theorem C40_increment {inc i : List Tok} {vi v : Int} (baseSize : Nat) (hinc : IsPrim ρ inc vi) (hi : IsPrim ρ i v) :
    ∃ t, increment baseSize inc i = some t ∧ IsPrim ρ t (vi * baseSize * v) := by
  obtain ⟨w, t, -, hw, e, p, -, -⟩ := C40_sum_product_partial (o := .mul) (Or.inr rfl) (.cons hinc (.cons (IsPrim.num (ρ := ρ) baseSize) (.cons hi .nil))) (by simp)
  refine ⟨t, e, ?_⟩
  rw [chain_mul] at hw
  simp only [Option.some.injEq] at hw
  have : w = vi * baseSize * v := by rw [← hw]; simp [mul_assoc]
  rw [← this]; exact p

example : index true [.num 0] [.id "incX"] 5 = some [.lp, .lp, .id "incX", .op .mul, .num 4, .rp, .op .add, .num 1, .rp] := by decide
example : index true [.num 0] [.num 1] 5 = some [.num 5] := by decide
example : index false [.id "j"] [.id "incY"] 0 = some [.lp, .id "incY", .op .mul, .id "j", .rp] := by decide
example : increment 2 [.id "incX"] [.lp, .id "N", .op .sub, .id "i", .rp] =
    some [.lp, .id "incX", .op .mul, .lp, .id "N", .op .sub, .id "i", .rp, .op .mul, .num 2, .rp] := by decide

end Repro
